import Verif.Abstract.GetInput
import Verif.Abstract.CreateLMProps

/-!
# Lemmas about `get_input_helper`

The arrays of the linear and quadratic programs, entry by entry.
-/

namespace Tulip

namespace Abs

open Finset

set_option linter.unusedSectionVars false

variable {R : Type} [Field R] [LinearOrder R] [IsStrictOrderedRing R]

/-! ## The response to the inputs -/

theorem freeForced_shape (A : Mat R) (N k : Nat) :
    (freeForced A N k).AK.cols = A.cols * N ∧ (freeForced A N k).AN.cols = A.cols ∧
    (freeForced A N k).AK.rows = A.cols * N ∧ (freeForced A N k).AN.rows = A.cols * N := by
  induction k with
  | zero => exact ⟨rfl, rfl, rfl, rfl⟩
  | succ k ih => exact ih

theorem freeForced_Arow (A : Mat R) (N k : Nat) : (freeForced A N k).Arow = akK A N k := by
  induction k with
  | zero => rfl
  | succ k ih =>
    show (A.dot (freeForced A N k).Arow).setBlock 0 (k * A.cols) (Mat.eye A.cols) = _
    rw [ih]
    rfl

theorem freeForced_Ait (A : Mat R) (hA : A.rows = A.cols) (N k : Nat) :
    (freeForced A N k).Ait.cols = A.cols ∧ (freeForced A N k).Ait.rows = A.cols ∧
    ∀ x : Nat → R, ∀ r < A.cols, (freeForced A N k).Ait.app x r = (anK A (k + 1)).app x r := by
  induction k with
  | zero =>
    refine ⟨rfl, hA, fun x r _ => ?_⟩
    show A.app x r = (A.dot (Mat.eye A.cols)).app x r
    rw [Mat.app_dot]
    exact Mat.app_congr _ (fun c hc => (Mat.app_eye x hc).symm) r
  | succ k ih =>
    refine ⟨ih.1, hA, fun x r _ => ?_⟩
    show (A.dot (freeForced A N k).Ait).app x r = (A.dot (anK A (k + 1))).app x r
    rw [Mat.app_dot, Mat.app_dot]
    exact Mat.app_congr _ (fun c hc => ih.2.2 x c hc) r

theorem freeForced_app (A : Mat R) (hA : A.rows = A.cols) (N t : Nat) :
    ∀ k < t, ∀ r < A.cols, ∀ w x : Nat → R,
      (freeForced A N t).AK.app w (k * A.cols + r) = (akK A N (k + 1)).app w r ∧
      (freeForced A N t).AN.app x (k * A.cols + r) = (anK A (k + 1)).app x r := by
  induction t with
  | zero => intro k hk; omega
  | succ t ih =>
    intro k hk r hr w x
    have hsh := freeForced_shape A N t
    have hAr : ((A.dot (freeForced A N t).Arow).setBlock 0 (t * A.cols) (Mat.eye A.cols)) =
        akK A N (t + 1) := by
      rw [freeForced_Arow]; rfl
    have e1 : (freeForced A N (t + 1)).AK = (freeForced A N t).AK.setBlock (t * A.cols) 0 (akK A N (t + 1)) := by
      rw [← hAr]; rfl
    have e2 : (freeForced A N (t + 1)).AN =
        (freeForced A N t).AN.setBlock (t * A.cols) 0 (freeForced A N t).Ait := rfl
    have hit := freeForced_Ait A hA N t
    by_cases hkt : k = t
    · subst hkt
      constructor
      · rw [e1]
        unfold Mat.app
        rw [akK_cols]
        show ∑ c ∈ range (freeForced A N k).AK.cols, _ = _
        rw [hsh.1]
        exact sum_congr rfl fun c hc => by
          rw [Mat.setBlock_row _ _ (by rw [akK_rows A hA]; exact hr) (by rw [akK_cols]; exact mem_range.1 hc)]
      · rw [e2, ← hit.2.2 x r hr]
        unfold Mat.app
        rw [hit.1]
        show ∑ c ∈ range (freeForced A N k).AN.cols, _ = _
        rw [hsh.2.1]
        exact sum_congr rfl fun c hc => by
          rw [Mat.setBlock_row _ _ (by rw [hit.2.1]; exact hr) (by rw [hit.1]; exact mem_range.1 hc)]
    · have hlt : k * A.cols + r < t * A.cols := by
        have := Nat.mul_le_mul_right A.cols (show k + 1 ≤ t by omega)
        rw [Nat.succ_mul] at this
        omega
      have := ih k (by omega) r hr w x
      rw [← this.1, ← this.2]
      constructor
      · rw [e1]
        unfold Mat.app
        exact sum_congr rfl fun c _ => by rw [Mat.setBlock_out _ _ (by omega)]
      · rw [e2]
        unfold Mat.app
        exact sum_congr rfl fun c _ => by rw [Mat.setBlock_out _ _ (by omega)]

theorem ctMat_cols (s : Lti R) (N : Nat) (hN : 0 < N) : (ctMat s N).cols = N * s.B.cols := by
  show (blockDiags s.B (N - 1)).cols = _
  rw [(blockDiags_shape _ _).2]
  congr 1
  omega

theorem ctMat_rows (s : Lti R) (N : Nat) : (ctMat s N).rows = s.A.cols * N :=
  (freeForced_shape s.A N N).2.2.1

/-- The product of `Ct` and the inputs is the sequence of the states without the initial state and the
constant. -/
theorem ctMat_app (s : Lti R) (hs : s.Shaped) (N : Nat) (hN : 0 < N) (u : Nat → Nat → R) (k : Nat)
    (hk : k < N) (r : Nat) (hr : r < s.A.cols) :
    (ctMat s N).app (flatSeq s.B.cols u) (k * s.A.cols + r) =
      ({ s with K := Mat.zeros s.A.cols 1 } : Lti R).traj (fun _ => 0) u (fun _ _ => 0) (k + 1) r := by
  have hs' : ({ s with K := Mat.zeros s.A.cols 1 } : Lti R).Shaped :=
    ⟨hs.A, hs.pos, hs.B, hs.E, ⟨rfl, rfl⟩, hs.U⟩
  rw [traj_eq _ hs' N hN _ _ _ (k + 1) (by omega) r hr, ctMat, Mat.app_dot,
    (freeForced_app s.A hs.A N N k hk r hr _ (fun _ => 0)).1]
  have hz : ∀ X : Mat R, X.app (fun _ => (0 : R)) = fun _ => 0 := fun X => funext fun i => Mat.app_zero X i
  rw [hz, flatSeq_zero, hz, hz]
  have : (fun c => (Mat.tile (Mat.zeros s.A.cols 1 : Mat R) N).get c 0) = fun _ => 0 := rfl
  rw [this, hz]
  ring

/-- The state without disturbances is the sum of the response to the initial state and the constant and of
the response to the inputs. -/
theorem free_app (s : Lti R) (hs : s.Shaped) (N : Nat) (hN : 0 < N) (x0 : Nat → R) (u : Nat → Nat → R)
    (k : Nat) (hk : k < N) (r : Nat) (hr : r < s.A.cols) :
    (freeForced s.A N N).AN.app x0 (k * s.A.cols + r) +
      (freeForced s.A N N).AK.app (fun c => (s.K.tile N).get c 0) (k * s.A.cols + r) +
      (ctMat s N).app (flatSeq s.B.cols u) (k * s.A.cols + r) =
      s.traj x0 u (fun _ _ => 0) (k + 1) r := by
  have hf := fun w x => freeForced_app s.A hs.A N N k hk r hr w x
  rw [traj_eq _ hs N hN _ _ _ (k + 1) (by omega) r hr, ctMat, Mat.app_dot, (hf _ x0).1, (hf _ x0).1, (hf (fun _ => 0) x0).2]
  have hz : ∀ X : Mat R, X.app (fun _ => (0 : R)) = fun _ => 0 := fun X => funext fun i => Mat.app_zero X i
  rw [flatSeq_zero, hz, hz]
  ring

/-! ## The constraints -/

theorem helperLuM_sat (s : Lti R) (x0 : Nat → R) (rows0 : Nat) (L M : Mat R) (N : Nat)
    (hL : L.cols = s.A.cols + N * s.B.cols) (u : Nat → Nat → R) :
    Sat (helperLuM s x0 rows0 L M).1 (helperLuM s x0 rows0 L M).2 (flatSeq s.B.cols u) ↔
      ∀ r, rows0 ≤ r → r < L.rows → ∑ c ∈ range L.cols, L.get r c * s.stack x0 u c ≤ M.get r 0 := by
  have key : ∀ i, ∑ c ∈ range L.cols, L.get (rows0 + i) c * s.stack x0 u c =
      ∑ c ∈ range s.A.cols, L.get (rows0 + i) (0 + c) * x0 c +
      ∑ c ∈ range (L.cols - s.A.cols), L.get (rows0 + i) (s.A.cols + c) * flatSeq s.B.cols u c := by
    intro i
    rw [hL, sum_range_add, Nat.add_sub_cancel_left]
    congr 1
    · exact sum_congr rfl fun c hc => by
        rw [Nat.zero_add, Lti.stack, if_pos (mem_range.1 hc)]
    · exact sum_congr rfl fun c _ => by
        rw [Lti.stack, if_neg (by omega), Nat.add_sub_cancel_left]
        rfl
  constructor
  · intro h r hr hr'
    obtain ⟨i, rfl⟩ : ∃ i, r = rows0 + i := ⟨r - rows0, by omega⟩
    have := h i (show i < L.rows - rows0 by omega)
    rw [key]
    have h2 : ∑ c ∈ range (L.cols - s.A.cols), L.get (rows0 + i) (s.A.cols + c) * flatSeq s.B.cols u c ≤
      M.get (rows0 + i) 0 - ∑ c ∈ range s.A.cols, L.get (rows0 + i) (0 + c) * x0 c := this
    linarith
  · intro h i hi
    have hi' : i < L.rows - rows0 := hi
    have := h (rows0 + i) (by omega) (by omega)
    rw [key] at this
    show ∑ c ∈ range (L.cols - s.A.cols), L.get (rows0 + i) (s.A.cols + c) * flatSeq s.B.cols u c ≤
      M.get (rows0 + i) 0 - ∑ c ∈ range s.A.cols, L.get (rows0 + i) (0 + c) * x0 c
    linarith

/-! ## Stacks of inequalities -/

/-- `A v <= 0`. -/
def NonPos (A : Mat R) (v : Nat → R) : Prop := ∀ r < A.rows, A.app v r ≤ 0

theorem nonPos_vstack (A B : Mat R) (h : A.cols = B.cols) (v : Nat → R) :
    NonPos (A.vstack B) v ↔ NonPos A v ∧ NonPos B v := by
  constructor
  · intro hs
    refine ⟨fun r hr => ?_, fun r hr => ?_⟩
    · rw [← Mat.app_vstack_lt A B v hr]
      exact hs r (by show r < A.rows + B.rows; omega)
    · rw [← Mat.app_vstack_ge A B h v r]
      exact hs _ (by show A.rows + r < A.rows + B.rows; omega)
  · intro ⟨h1, h2⟩ r hr
    have hr : r < A.rows + B.rows := hr
    by_cases hrA : r < A.rows
    · rw [Mat.app_vstack_lt A B v hrA]
      exact h1 r hrA
    · obtain ⟨i, rfl⟩ : ∃ i, r = A.rows + i := ⟨r - A.rows, by omega⟩
      rw [Mat.app_vstack_ge A B h]
      exact h2 i (by omega)

theorem sat_vstack (A B M : Mat R) (k : Nat) (hk : k = A.rows) (h : A.cols = B.cols) (v : Nat → R) :
    Sat (A.vstack B) ((Mat.zeros k 1).vstack M) v ↔ NonPos A v ∧ Sat B M v := by
  subst hk
  constructor
  · intro hs
    refine ⟨fun r hr => ?_, fun r hr => ?_⟩
    · have := hs r (by show r < A.rows + B.rows; omega)
      rw [show ((Mat.zeros A.rows 1).vstack M).get r 0 = 0 from if_pos hr] at this
      rw [← Mat.app_vstack_lt A B v hr]
      exact this
    · have := hs (A.rows + r) (by show A.rows + r < A.rows + B.rows; omega)
      rw [show ((Mat.zeros A.rows 1).vstack M).get (A.rows + r) 0 = M.get r 0 from by
        show (if A.rows + r < A.rows then _ else M.get (A.rows + r - A.rows) 0) = _
        rw [if_neg (by omega), Nat.add_sub_cancel_left]] at this
      have h2 := Mat.app_vstack_ge A B h v r
      unfold Mat.app at h2
      rw [← h2]
      exact this
  · intro ⟨h1, h2⟩ r hr
    have hr : r < A.rows + B.rows := hr
    by_cases hrA : r < A.rows
    · rw [show ((Mat.zeros A.rows 1).vstack M).get r 0 = 0 from if_pos hrA]
      have := h1 r hrA
      rw [← Mat.app_vstack_lt A B v hrA] at this
      exact this
    · obtain ⟨i, rfl⟩ : ∃ i, r = A.rows + i := ⟨r - A.rows, by omega⟩
      rw [show ((Mat.zeros A.rows 1).vstack M).get (A.rows + i) 0 = M.get i 0 from by
        show (if A.rows + i < A.rows then _ else M.get (A.rows + i - A.rows) 0) = _
        rw [if_neg (by omega), Nat.add_sub_cancel_left]]
      have := h2 i (by omega)
      have h3 := Mat.app_vstack_ge A B h v i
      unfold Mat.app at h3
      rw [h3]
      exact this

theorem app_neg (A : Mat R) (x : Nat → R) (i : Nat) : A.neg.app x i = - A.app x i := by
  simp [Mat.app, Mat.neg]

theorem app_ones1 (r : Nat) (x : Nat → R) (i : Nat) : (Mat.ones r 1 : Mat R).app x i = x 0 := by
  simp [Mat.app, Mat.ones]

theorem sat_hstack_zeros (c : Nat) (Lu M : Mat R) (v : Nat → R) :
    Sat ((Mat.zeros Lu.rows c).hstack Lu) M v ↔ Sat Lu M (fun k => v (c + k)) := by
  have : ∀ i, ((Mat.zeros Lu.rows c).hstack Lu).app v i = Lu.app (fun k => v (c + k)) i := by
    intro i
    rw [Mat.app_hstack, Mat.app_zeros, zero_add]
    rfl
  constructor
  · intro h r hr
    have h1 := h r hr
    have h2 := this r
    unfold Mat.app at h2
    rw [← h2]
    exact h1
  · intro h r hr
    have h1 := h r hr
    have h2 := this r
    unfold Mat.app at h2
    rw [h2]
    exact h1

/-- The variables of the linear program for `ord = 1`: bounds of the absolute values of the elements of `R x`
and `Q u`, and the inputs. -/
theorem lp1_sat (n m N : Nat) (Rm r Q Ct Lu M : Mat R) (hRr : Rm.rows = N * n) (hQ : Q.rows = N * m)
    (hQc : Q.cols = N * m) (hCt : Ct.cols = N * m) (hLu : Lu.cols = N * m) (v : Nat → R) :
    Sat (lp1 n m N Rm r Q Ct Lu M).2.1 (lp1 n m N Rm r Q Ct Lu M).2.2 v ↔
      (∀ i < N * n, |Rm.app (Ct.app fun c => v (N * n + N * m + c)) i| ≤ v i) ∧
      (∀ i < N * m, |Q.app (fun c => v (N * n + N * m + c)) i| ≤ v (N * n + i)) ∧
      Sat Lu M fun c => v (N * n + N * m + c) := by
  unfold lp1
  dsimp only
  have hc1 : ∀ X : Mat R, X.cols = N * m → ∀ Y : Mat R, Y.cols = N * m →
      (((Mat.zeros (N * m) (N * n)).hstack (Mat.eye (N * m)).neg).hstack X).cols =
      (((Mat.zeros (N * m) (N * n)).hstack (Mat.eye (N * m)).neg).hstack Y).cols := by
    intro X hX Y hY
    show N * n + N * m + X.cols = N * n + N * m + Y.cols
    rw [hX, hY]
  have hapE : ∀ (X : Mat R) (i : Nat), i < N * n →
      (((Mat.eye (N * n)).neg.hstack (Mat.zeros (N * n) (N * m))).hstack X).app v i =
        - v i + X.app (fun c => v (N * n + N * m + c)) i := by
    intro X i hi
    rw [Mat.app_hstack, Mat.app_hstack, app_neg, Mat.app_eye _ hi, Mat.app_zeros, add_zero]
    rfl
  have hapU : ∀ (X : Mat R) (i : Nat), i < N * m →
      (((Mat.zeros (N * m) (N * n)).hstack (Mat.eye (N * m)).neg).hstack X).app v i =
        - v (N * n + i) + X.app (fun c => v (N * n + N * m + c)) i := by
    intro X i hi
    rw [Mat.app_hstack, Mat.app_hstack, app_neg, Mat.app_zeros, zero_add, Mat.app_eye _ hi]
    rfl
  rw [sat_vstack _ _ _ _ ?_ ?_, nonPos_vstack _ _ ?_, nonPos_vstack _ _ ?_, nonPos_vstack _ _ ?_,
    sat_hstack_zeros]
  · have e1 : NonPos (((Mat.eye (N * n)).neg.hstack (Mat.zeros (N * n) (N * m))).hstack (Rm.dot Ct).neg) v ↔
        ∀ i < N * n, - Rm.app (Ct.app fun c => v (N * n + N * m + c)) i ≤ v i := by
      refine forall_congr' fun i => forall_congr' fun (hi : i < N * n) => ?_
      rw [hapE _ i hi, app_neg, Mat.app_dot]
      constructor <;> intro h <;> linarith
    have e2 : NonPos (((Mat.eye (N * n)).neg.hstack (Mat.zeros (N * n) (N * m))).hstack (Rm.dot Ct)) v ↔
        ∀ i < N * n, Rm.app (Ct.app fun c => v (N * n + N * m + c)) i ≤ v i := by
      refine forall_congr' fun i => forall_congr' fun (hi : i < N * n) => ?_
      rw [hapE _ i hi, Mat.app_dot]
      constructor <;> intro h <;> linarith
    have e3 : NonPos (((Mat.zeros (N * m) (N * n)).hstack (Mat.eye (N * m)).neg).hstack Q.neg) v ↔
        ∀ i < N * m, - Q.app (fun c => v (N * n + N * m + c)) i ≤ v (N * n + i) := by
      refine forall_congr' fun i => forall_congr' fun (hi : i < N * m) => ?_
      rw [hapU _ i hi, app_neg]
      constructor <;> intro h <;> linarith
    have e4 : NonPos (((Mat.zeros (N * m) (N * n)).hstack (Mat.eye (N * m)).neg).hstack Q) v ↔
        ∀ i < N * m, Q.app (fun c => v (N * n + N * m + c)) i ≤ v (N * n + i) := by
      refine forall_congr' fun i => forall_congr' fun (hi : i < N * m) => ?_
      rw [hapU _ i hi]
      constructor <;> intro h <;> linarith
    rw [e1, e2, e3, e4]
    constructor
    · rintro ⟨⟨h1, h2, h3, h4⟩, h5⟩
      exact ⟨fun i hi => abs_le.2 ⟨by have := h1 i hi; linarith, h2 i hi⟩,
        fun i hi => abs_le.2 ⟨by have := h3 i hi; linarith, h4 i hi⟩, h5⟩
    · rintro ⟨h1, h2, h5⟩
      exact ⟨⟨fun i hi => by have := (abs_le.1 (h1 i hi)).1; linarith, fun i hi => (abs_le.1 (h1 i hi)).2,
        fun i hi => by have := (abs_le.1 (h2 i hi)).1; linarith, fun i hi => (abs_le.1 (h2 i hi)).2⟩, h5⟩
  · exact hc1 _ hQc _ hQc
  · show N * n + N * m + Ct.cols = N * n + N * m + Q.cols
    rw [hCt, hQc]
  · rfl
  · show 2 * N * (n + m) = N * n + (N * n + (N * m + N * m))
    ring
  · show N * n + N * m + Ct.cols = N * n + N * m + Lu.cols
    rw [hCt, hLu]

/-- The variables of the linear program for `ord = np.inf`: bounds of the norms of `R x` and `Q u`, and the
inputs. -/
theorem lpInf_sat (n m N : Nat) (Rm r Q Ct Lu M : Mat R) (hRr : Rm.rows = N * n) (hQ : Q.rows = N * m)
    (hQc : Q.cols = N * m) (hCt : Ct.cols = N * m) (hLu : Lu.cols = N * m) (v : Nat → R) :
    Sat (lpInf n m N Rm r Q Ct Lu M).2.1 (lpInf n m N Rm r Q Ct Lu M).2.2 v ↔
      (∀ i < N * n, |Rm.app (Ct.app fun c => v (2 + c)) i| ≤ v 0) ∧
      (∀ i < N * m, |Q.app (fun c => v (2 + c)) i| ≤ v 1) ∧ Sat Lu M fun c => v (2 + c) := by
  unfold lpInf
  dsimp only
  have hapE : ∀ (X : Mat R) (i : Nat),
      (((Mat.ones (N * n) 1).neg.hstack (Mat.zeros (N * n) 1)).hstack X).app v i =
        - v 0 + X.app (fun c => v (2 + c)) i := by
    intro X i
    rw [Mat.app_hstack, Mat.app_hstack, app_neg, app_ones1, Mat.app_zeros, add_zero]
    rfl
  have hapU : ∀ (X : Mat R) (i : Nat),
      (((Mat.zeros (N * m) 1).hstack (Mat.ones (N * m) 1).neg).hstack X).app v i =
        - v 1 + X.app (fun c => v (2 + c)) i := by
    intro X i
    rw [Mat.app_hstack, Mat.app_hstack, app_neg, Mat.app_zeros, zero_add, app_ones1]
    rfl
  rw [sat_vstack _ _ _ _ ?_ ?_, nonPos_vstack _ _ ?_, nonPos_vstack _ _ ?_, nonPos_vstack _ _ ?_,
    sat_hstack_zeros]
  · have e1 : NonPos (((Mat.ones (N * n) 1).neg.hstack (Mat.zeros (N * n) 1)).hstack (Rm.dot Ct).neg) v ↔
        ∀ i < N * n, - Rm.app (Ct.app fun c => v (2 + c)) i ≤ v 0 := by
      refine forall_congr' fun i => forall_congr' fun (hi : i < N * n) => ?_
      rw [hapE _ i, app_neg, Mat.app_dot]
      constructor <;> intro h <;> linarith
    have e2 : NonPos (((Mat.ones (N * n) 1).neg.hstack (Mat.zeros (N * n) 1)).hstack (Rm.dot Ct)) v ↔
        ∀ i < N * n, Rm.app (Ct.app fun c => v (2 + c)) i ≤ v 0 := by
      refine forall_congr' fun i => forall_congr' fun (hi : i < N * n) => ?_
      rw [hapE _ i, Mat.app_dot]
      constructor <;> intro h <;> linarith
    have e3 : NonPos (((Mat.zeros (N * m) 1).hstack (Mat.ones (N * m) 1).neg).hstack Q.neg) v ↔
        ∀ i < N * m, - Q.app (fun c => v (2 + c)) i ≤ v 1 := by
      refine forall_congr' fun i => forall_congr' fun (hi : i < N * m) => ?_
      rw [hapU _ i, app_neg]
      constructor <;> intro h <;> linarith
    have e4 : NonPos (((Mat.zeros (N * m) 1).hstack (Mat.ones (N * m) 1).neg).hstack Q) v ↔
        ∀ i < N * m, Q.app (fun c => v (2 + c)) i ≤ v 1 := by
      refine forall_congr' fun i => forall_congr' fun (hi : i < N * m) => ?_
      rw [hapU _ i]
      constructor <;> intro h <;> linarith
    rw [e1, e2, e3, e4]
    constructor
    · rintro ⟨⟨h1, h2, h3, h4⟩, h5⟩
      exact ⟨fun i hi => abs_le.2 ⟨by have := h1 i hi; linarith, h2 i hi⟩,
        fun i hi => abs_le.2 ⟨by have := h3 i hi; linarith, h4 i hi⟩, h5⟩
    · rintro ⟨h1, h2, h5⟩
      exact ⟨⟨fun i hi => by have := (abs_le.1 (h1 i hi)).1; linarith, fun i hi => (abs_le.1 (h1 i hi)).2,
        fun i hi => by have := (abs_le.1 (h2 i hi)).1; linarith, fun i hi => (abs_le.1 (h2 i hi)).2⟩, h5⟩
  · rfl
  · show 1 + 1 + Ct.cols = 1 + 1 + Q.cols
    rw [hCt, hQc]
  · rfl
  · show 2 * N * (n + m) = N * n + (N * n + (N * m + N * m))
    ring
  · show 1 + 1 + Ct.cols = 2 + Lu.cols
    rw [hCt, hLu]

end Abs

end Tulip
