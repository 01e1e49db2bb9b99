import Verif.Abstract.GetInputLemmas
import Verif.Abstract.Lp

/-!
# The inputs that implement a transition: theorems about `get_input_helper`
-/

namespace Tulip

namespace Abs

open Finset

set_option linter.unusedSectionVars false

variable {R : Type} [Field R] [LinearOrder R] [IsStrictOrderedRing R]

/-! ## Specification -/

/-- Whatever the disturbances, the inputs `u` lead from `x0` to `target` in `N` steps through `stay`, and each
input is allowed in the state where it is applied. -/
def Lti.Leads (s : Lti R) (pc : Pc R) (N : Nat) (x0 : Nat → R) (u : Nat → Nat → R) (stay target : HP R) : Prop :=
  ∀ d, s.Possible pc N d → (∀ k, 0 < k → k < N → stay.Mem (s.traj x0 u d k)) ∧
    target.Mem (s.traj x0 u d N) ∧ ∀ k < N, s.InputOk (s.traj x0 u d k) (u k)

/-- From the state `x`, a controller that observes the states can reach `target` in `k` steps through
`stay`, whatever the disturbances. -/
def Lti.Ctrl (s : Lti R) (pc : Pc R) (stay target : HP R) : Nat → (Nat → R) → Prop
  | 0, x => target.Mem x
  | k + 1, x => stay.Mem x ∧ ∃ u, s.InputOk x u ∧
      ∀ d, (s.Disturbed → InHull (pc.extreme s.W) d) → s.Ctrl pc stay target k (s.next x u d)

/-- The largest absolute value of the first `k` elements. -/
def supNorm (f : Nat → R) : Nat → R
  | 0 => 0
  | k + 1 => max (supNorm f k) |f k|

/-- The norm of the vector of the first `k` elements; for `ord = 2` its square. -/
def normOf (ord : Norm) (k : Nat) (f : Nat → R) : R :=
  match ord with
  | .one => ∑ i ∈ range k, |f i|
  | .two => ∑ i ∈ range k, f i ^ 2
  | .inf => supNorm f k
  | .other => 0

/-- `|R x| + |Q u| + r' x`, for the states `y 0, y 1, ...` in `x`. -/
def costOf (ord : Norm) (n m N : Nat) (Rm r Q : Mat R) (y u : Nat → Nat → R) : R :=
  normOf ord (N * n) (Rm.app (flatSeq n y)) + normOf ord (N * m) (Q.app (flatSeq m u)) +
    ∑ i ∈ range (N * n), r.get i 0 * flatSeq n y i

/-- The states at times 1, 2, ... without disturbances. -/
def Lti.states (s : Lti R) (x0 : Nat → R) (u : Nat → Nat → R) (k : Nat) : Nat → R :=
  s.traj x0 u (fun _ _ => 0) (k + 1)

/-- The states at times 1, 2, ... without disturbances, from the state 0 and without the constant `K`. -/
def Lti.forced (s : Lti R) (u : Nat → Nat → R) : Nat → Nat → R :=
  ({ s with K := Mat.zeros s.A.cols 1 } : Lti R).states (fun _ => 0) u

/-- The contract of the solver of linear programs: a solution is feasible and optimal; if there is none, the
program is not feasible or not bounded. -/
structure Tools.GoodLp (T : Tools R) : Prop where
  sound : ∀ c G h v f, T.lp c G h = some (v, f) → Sat G h v ∧ f = c.app v 0 ∧
    ∀ v', Sat G h v' → f ≤ c.app v' 0
  complete : ∀ c G h, c.cols = G.cols → T.lp c G h = none →
    (¬ ∃ v, Sat G h v) ∨ ∀ b, ∃ v, Sat G h v ∧ c.app v 0 < b

/-- The cost of a quadratic program, `1/2 v' P v + q' v`. -/
def qpCost (P q : Mat R) (v : Nat → R) : R :=
  1 / 2 * ∑ i ∈ range P.rows, v i * P.app v i + ∑ i ∈ range P.rows, q.get i 0 * v i

/-- The contract of the solver of quadratic programs. -/
def Tools.GoodQp (T : Tools R) : Prop :=
  ∀ P q G h v f, T.qp P q G h = some (v, f) → Sat G h v ∧ f = qpCost P q v ∧
    ∀ v', Sat G h v' → f ≤ qpCost P q v'

/-! ## Proofs -/

theorem supNorm_nonneg (f : Nat → R) (k : Nat) : 0 ≤ supNorm f k := by
  induction k with
  | zero => exact le_refl _
  | succ k ih => exact le_trans ih (le_max_left _ _)

theorem supNorm_le (f : Nat → R) (k : Nat) (y : R) (hy : 0 ≤ y) : supNorm f k ≤ y ↔ ∀ i < k, |f i| ≤ y := by
  induction k with
  | zero => simp [supNorm, hy]
  | succ k ih =>
    simp only [supNorm, max_le_iff, ih]
    constructor
    · rintro ⟨h1, h2⟩ i hi
      by_cases hik : i = k
      · rw [hik]; exact h2
      · exact h1 i (by omega)
    · intro h
      exact ⟨fun i hi => h i (by omega), h k (by omega)⟩

theorem abs_le_supNorm (f : Nat → R) (k i : Nat) (hi : i < k) : |f i| ≤ supNorm f k :=
  (supNorm_le f k _ (supNorm_nonneg f k)).1 (le_refl _) i hi

theorem normOf_congr (ord : Norm) (k : Nat) (f g : Nat → R) (h : ∀ i < k, f i = g i) :
    normOf ord k f = normOf ord k g := by
  cases ord
  · exact sum_congr rfl fun i hi => by rw [h i (mem_range.1 hi)]
  · exact sum_congr rfl fun i hi => by rw [h i (mem_range.1 hi)]
  · show supNorm f k = supNorm g k
    induction k with
    | zero => rfl
    | succ k ih => rw [supNorm, supNorm, ih fun i hi => h i (by omega), h k (by omega)]
  · rfl

theorem normOf_nonneg (ord : Norm) (k : Nat) (f : Nat → R) : 0 ≤ normOf ord k f := by
  cases ord
  · exact sum_nonneg fun i _ => abs_nonneg _
  · exact sum_nonneg fun i _ => sq_nonneg _
  · exact supNorm_nonneg f k
  · exact le_refl _

theorem sat_congr (L M : Mat R) (v w : Nat → R) (h : ∀ c < L.cols, v c = w c) : Sat L M v ↔ Sat L M w := by
  unfold Sat
  refine forall_congr' fun r => forall_congr' fun _ => ?_
  rw [sum_congr rfl fun c hc => by rw [h c (mem_range.1 hc)]]

/-- A linear program that describes the minimisation of `J` over `F`: each feasible point projects to `F`,
with a cost of at least `J`, and each point of `F` lifts to a feasible point of cost `J`. -/
structure Represents (cGh : Mat R × Mat R × Mat R) (F : (Nat → R) → Prop) (J : (Nat → R) → R)
    (pr lift : (Nat → R) → Nat → R) : Prop where
  down : ∀ v, Sat cGh.2.1 cGh.2.2 v → F (pr v) ∧ J (pr v) ≤ cGh.1.app v 0
  up : ∀ w, F w → Sat cGh.2.1 cGh.2.2 (lift w) ∧ cGh.1.app (lift w) 0 = J w
  cols : cGh.1.cols = cGh.2.1.cols

theorem Represents.opt {cGh : Mat R × Mat R × Mat R} {F J pr lift} (h : Represents cGh F J pr lift)
    (T : Tools R) (hT : T.GoodLp) {v : Nat → R} {f : R} (hv : T.lp cGh.1 cGh.2.1 cGh.2.2 = some (v, f)) :
    F (pr v) ∧ f = J (pr v) ∧ ∀ w, F w → f ≤ J w := by
  obtain ⟨h1, h2, h3⟩ := hT.sound _ _ _ _ _ hv
  obtain ⟨h4, h5⟩ := h.down v h1
  have hle : ∀ w, F w → f ≤ J w := fun w hw => by
    obtain ⟨h6, h7⟩ := h.up w hw
    rw [← h7]
    exact h3 _ h6
  exact ⟨h4, le_antisymm (hle _ h4) (by rw [h2]; exact h5), hle⟩

theorem Represents.fail {cGh : Mat R × Mat R × Mat R} {F J pr lift} (h : Represents cGh F J pr lift)
    (T : Tools R) (hT : T.GoodLp) (hv : T.lp cGh.1 cGh.2.1 cGh.2.2 = none) {b : R}
    (hb : ∀ w, F w → b ≤ J w) : ¬ ∃ w, F w := by
  rintro ⟨w, hw⟩
  rcases hT.complete _ _ _ h.cols hv with h1 | h1
  · exact h1 ⟨_, (h.up w hw).1⟩
  · obtain ⟨v, hv, hlt⟩ := h1 b
    obtain ⟨h2, h3⟩ := h.down v hv
    exact absurd (lt_of_le_of_lt (le_trans (hb _ h2) h3) hlt) (lt_irrefl _)

/-- The cost in terms of the array `Ct`. -/
def costCt (ord : Norm) (n m N : Nat) (Rm r Q Ct : Mat R) (w : Nat → R) : R :=
  normOf ord (N * n) (Rm.app (Ct.app w)) + normOf ord (N * m) (Q.app w) + r.T.app (Ct.app w) 0

theorem app_row_ones (k : Nat) (v : Nat → R) : (Mat.ones 1 k : Mat R).app v 0 = ∑ i ∈ range k, v i :=
  sum_congr rfl fun i _ => by show 1 * v i = v i; rw [one_mul]

theorem represents1 (n m N : Nat) (Rm r Q Ct Lu M : Mat R) (hRr : Rm.rows = N * n) (hQ : Q.rows = N * m)
    (hQc : Q.cols = N * m) (hCt : Ct.cols = N * m) (hLu : Lu.cols = N * m) :
    Represents (lp1 n m N Rm r Q Ct Lu M) (Sat Lu M) (costCt .one n m N Rm r Q Ct)
      (fun v c => v (N * n + N * m + c))
      (fun w c => if c < N * n then |Rm.app (Ct.app w) c|
        else if c < N * n + N * m then |Q.app w (c - N * n)| else w (c - (N * n + N * m))) := by
  have hc : ∀ v : Nat → R, (lp1 n m N Rm r Q Ct Lu M).1.app v 0 =
      (∑ i ∈ range (N * n), v i + ∑ i ∈ range (N * m), v (N * n + i)) +
        r.T.app (Ct.app fun c => v (N * n + N * m + c)) 0 := by
    intro v
    show ((Mat.ones 1 (N * (n + m))).hstack (r.T.dot Ct)).app v 0 = _
    rw [Mat.app_hstack, app_row_ones, Mat.app_dot, Nat.mul_add, sum_range_add]
    congr 2
  refine ⟨fun v hv => ?_, fun w hw => ?_, ?_⟩
  · obtain ⟨h1, h2, h3⟩ := (lp1_sat n m N Rm r Q Ct Lu M hRr hQ hQc hCt hLu v).1 hv
    refine ⟨h3, ?_⟩
    rw [hc]
    refine add_le_add (add_le_add (sum_le_sum fun i hi => h1 i (mem_range.1 hi))
      (sum_le_sum fun i hi => h2 i (mem_range.1 hi))) (le_refl _)
  · have ew : (fun c => (fun c => if c < N * n then |Rm.app (Ct.app w) c|
        else if c < N * n + N * m then |Q.app w (c - N * n)| else w (c - (N * n + N * m)))
          (N * n + N * m + c)) = w := by
      funext c
      simp only
      rw [if_neg (by omega), if_neg (by omega), Nat.add_sub_cancel_left]
    refine ⟨(lp1_sat n m N Rm r Q Ct Lu M hRr hQ hQc hCt hLu _).2 ?_, ?_⟩
    · rw [ew]
      refine ⟨fun i hi => ?_, fun i hi => ?_, hw⟩
      · simp only [if_pos hi, le_refl]
      · rw [if_neg (by omega), if_pos (by omega), Nat.add_sub_cancel_left]
    · rw [hc, ew]
      unfold costCt normOf
      congr 2
      · exact sum_congr rfl fun i hi => if_pos (mem_range.1 hi)
      · exact sum_congr rfl fun i hi => by
          have := mem_range.1 hi
          rw [if_neg (by omega), if_pos (by omega), Nat.add_sub_cancel_left]
  · show N * (n + m) + Ct.cols = N * n + N * m + Ct.cols
    rw [Nat.mul_add]

theorem representsInf (n m N : Nat) (hn : 0 < N * n) (hm : 0 < N * m) (Rm r Q Ct Lu M : Mat R)
    (hRr : Rm.rows = N * n) (hQ : Q.rows = N * m)
    (hQc : Q.cols = N * m) (hCt : Ct.cols = N * m) (hLu : Lu.cols = N * m) :
    Represents (lpInf n m N Rm r Q Ct Lu M) (Sat Lu M) (costCt .inf n m N Rm r Q Ct)
      (fun v c => v (2 + c))
      (fun w c => if c = 0 then supNorm (Rm.app (Ct.app w)) (N * n)
        else if c = 1 then supNorm (Q.app w) (N * m) else w (c - 2)) := by
  have hc : ∀ v : Nat → R, (lpInf n m N Rm r Q Ct Lu M).1.app v 0 =
      v 0 + v 1 + r.T.app (Ct.app fun c => v (2 + c)) 0 := by
    intro v
    show ((Mat.ones 1 2).hstack (r.T.dot Ct)).app v 0 = _
    rw [Mat.app_hstack, app_row_ones, Mat.app_dot, sum_range_succ, sum_range_succ, sum_range_zero, zero_add]
    rfl
  refine ⟨fun v hv => ?_, fun w hw => ?_, rfl⟩
  · obtain ⟨h1, h2, h3⟩ := (lpInf_sat n m N Rm r Q Ct Lu M hRr hQ hQc hCt hLu v).1 hv
    refine ⟨h3, ?_⟩
    rw [hc]
    refine add_le_add (add_le_add ((supNorm_le _ _ _ (le_trans (abs_nonneg _) (h1 0 hn))).2 h1)
      ((supNorm_le _ _ _ (le_trans (abs_nonneg _) (h2 0 hm))).2 h2)) (le_refl _)
  · have ew : (fun c => (fun c => if c = 0 then supNorm (Rm.app (Ct.app w)) (N * n)
        else if c = 1 then supNorm (Q.app w) (N * m) else w (c - 2)) (2 + c)) = w := by
      funext c
      simp only
      rw [if_neg (by omega), if_neg (by omega), Nat.add_sub_cancel_left]
    refine ⟨(lpInf_sat n m N Rm r Q Ct Lu M hRr hQ hQc hCt hLu _).2 ?_, ?_⟩
    · rw [ew]
      refine ⟨fun i hi => ?_, fun i hi => ?_, hw⟩
      · rw [if_pos rfl]
        exact abs_le_supNorm _ _ _ hi
      · rw [if_neg (by omega), if_pos rfl]
        exact abs_le_supNorm _ _ _ hi
    · rw [hc, ew]
      rfl

/-! ### The cost of the quadratic program -/

theorem sum_T (A : Mat R) (v w : Nat → R) :
    ∑ i ∈ range A.cols, v i * A.T.app w i = ∑ i ∈ range A.rows, A.app v i * w i := by
  simp only [Mat.app, Mat.T, mul_sum, sum_mul]
  rw [sum_comm]
  exact sum_congr rfl fun i _ => sum_congr rfl fun j _ => by ring

/-- Twice the cost of the quadratic program is the cost of the trajectory minus a constant. -/
theorem qpCost_eq (s : Lti R) (N : Nat) (hN : 0 < N) (x0 : Nat → R) (Rm r Q : Mat R)
    (hR : Rm.rows = N * s.A.cols ∧ Rm.cols = N * s.A.cols) (hr : r.rows = N * s.A.cols)
    (hQ : Q.rows = N * s.B.cols ∧ Q.cols = N * s.B.cols) :
    ∃ k0, ∀ w : Nat → R, 2 * qpCost (qp2 s x0 N Rm r Q (ctMat s N)).1 (qp2 s x0 N Rm r Q (ctMat s N)).2 w + k0 =
      ∑ i ∈ range (N * s.A.cols), (Rm.app (fun c => (freeForced s.A N N).AN.app x0 c +
        (freeForced s.A N N).AK.app (fun c => (s.K.tile N).get c 0) c + (ctMat s N).app w c) i) ^ 2 +
      ∑ i ∈ range (N * s.B.cols), Q.app w i ^ 2 +
      ∑ i ∈ range (N * s.A.cols), r.get i 0 * ((freeForced s.A N N).AN.app x0 i +
        (freeForced s.A N N).AK.app (fun c => (s.K.tile N).get c 0) i + (ctMat s N).app w i) := by
  have hCc := ctMat_cols s N hN
  have hCr : (ctMat s N).rows = N * s.A.cols := by rw [ctMat_rows, Nat.mul_comm]
  obtain ⟨hKc, hNc, hKr, hNr⟩ := freeForced_shape s.A N N
  rw [Nat.mul_comm] at hKc hKr hNr
  generalize ctMat s N = Ct at *
  let free : Nat → R := fun c => (freeForced s.A N N).AN.app x0 c +
    (freeForced s.A N N).AK.app (fun c => (s.K.tile N).get c 0) c
  refine ⟨∑ i ∈ range (N * s.A.cols), Rm.app free i ^ 2 + ∑ i ∈ range (N * s.A.cols), r.get i 0 * free i, fun w => ?_⟩
  -- the quadratic part
  have eP : ∑ i ∈ range (qp2 s x0 N Rm r Q Ct).1.rows, w i * (qp2 s x0 N Rm r Q Ct).1.app w i =
      ∑ i ∈ range (N * s.B.cols), Q.app w i ^ 2 + ∑ i ∈ range (N * s.A.cols), Rm.app (Ct.app w) i ^ 2 := by
    have e0 : ∀ i, (qp2 s x0 N Rm r Q Ct).1.app w i =
        Q.T.app (Q.app w) i + Ct.T.app (Rm.T.app (Rm.app (Ct.app w))) i := by
      intro i
      have : (qp2 s x0 N Rm r Q Ct).1.app w i =
          (Q.T.dot Q).app w i + ((Ct.T.dot (Rm.T.dot Rm)).dot Ct).app w i := by
        unfold Mat.app qp2
        dsimp only [Mat.add]
        have hcc : ((Ct.T.dot (Rm.T.dot Rm)).dot Ct).cols = (Q.T.dot Q).cols := by
          show Ct.cols = Q.cols
          rw [hCc, hQ.2]
        rw [hcc, ← sum_add_distrib]
        exact sum_congr rfl fun c _ => by ring
      rw [this]
      simp only [Mat.app_dot]
      congr 1
      have e1 : ∀ x : Nat → R, (Rm.T.dot Rm).app x = Rm.T.app (Rm.app x) := fun x => funext fun j => Mat.app_dot ..
      have e2 : ∀ x : Nat → R, (Ct.T.dot (Rm.T.dot Rm)).app x i = Ct.T.app ((Rm.T.dot Rm).app x) i := fun x => Mat.app_dot ..
      rw [e1]
    have hrows : (qp2 s x0 N Rm r Q Ct).1.rows = Q.cols := rfl
    simp only [e0, mul_add, sum_add_distrib, hrows]
    congr 1
    · rw [sum_T, hQ.1]
      exact sum_congr rfl fun i _ => by ring
    · have hQC : Q.cols = Ct.cols := by rw [hQ.2, hCc]
      have hCR : Ct.rows = Rm.cols := by rw [hCr, hR.2]
      rw [hQC, sum_T, hCR, sum_T, hR.1]
      exact sum_congr rfl fun i _ => by ring
  -- the linear part
  have eq : ∑ i ∈ range (qp2 s x0 N Rm r Q Ct).1.rows, (qp2 s x0 N Rm r Q Ct).2.get i 0 * w i =
      ∑ i ∈ range (N * s.A.cols), Rm.app free i * Rm.app (Ct.app w) i +
        1 / 2 * ∑ i ∈ range (N * s.A.cols), r.get i 0 * Ct.app w i := by
    have hrows : (qp2 s x0 N Rm r Q Ct).1.rows = Ct.cols := by
      show Q.cols = Ct.cols
      rw [hQ.2, hCc]
    have hfree : ∀ k, (((col s.A.cols x0).T.dot (freeForced s.A N N).AN.T).add
        ((freeForced s.A N N).AK.dot (s.K.tile N)).T).get 0 k = free k := by
      intro k
      show ∑ c ∈ range s.A.cols, x0 c * (freeForced s.A N N).AN.get k c +
        ∑ c ∈ range (freeForced s.A N N).AK.cols, (freeForced s.A N N).AK.get k c * (s.K.tile N).get c 0 = _
      show _ = ∑ c ∈ range (freeForced s.A N N).AN.cols, _ + ∑ c ∈ range (freeForced s.A N N).AK.cols, _
      rw [hNc]
      congr 1
      exact sum_congr rfl fun c _ => mul_comm _ _
    have hget : ∀ i, (qp2 s x0 N Rm r Q Ct).2.get i 0 =
        ∑ k ∈ range (N * s.A.cols), free k * (Rm.T.app (Rm.app fun c => Ct.get c i)) k +
          1 / 2 * ∑ k ∈ range (N * s.A.cols), r.get k 0 * Ct.get k i := by
      intro i
      show ((((col s.A.cols x0).T.dot (freeForced s.A N N).AN.T).add
        ((freeForced s.A N N).AK.dot (s.K.tile N)).T).dot ((Rm.T.dot Rm).dot Ct)).get 0 i +
        1 / 2 * (r.T.dot Ct).get 0 i = _
      congr 1
      · show ∑ k ∈ range (((col s.A.cols x0).T.dot (freeForced s.A N N).AN.T).add
          ((freeForced s.A N N).AK.dot (s.K.tile N)).T).cols, _ = _
        have hcols : (((col s.A.cols x0).T.dot (freeForced s.A N N).AN.T).add
          ((freeForced s.A N N).AK.dot (s.K.tile N)).T).cols = N * s.A.cols := hNr
        rw [hcols]
        refine sum_congr rfl fun k _ => ?_
        rw [hfree, Mat.dot_get]
        congr 1
        exact Mat.app_dot ..
      · congr 1
        show ∑ k ∈ range r.rows, _ = _
        rw [hr]
        rfl
    rw [hrows]
    simp only [hget, add_mul, sum_add_distrib]
    congr 1
    · -- move the sums
      have e1 : ∀ k, ∑ i ∈ range Ct.cols, Rm.T.app (Rm.app fun c => Ct.get c i) k * w i =
          Rm.T.app (Rm.app (Ct.app w)) k := by
        intro k
        have e2 : ∀ (X : Mat R) (F : Nat → Nat → R),
            ∑ i ∈ range Ct.cols, X.app (fun c => F c i) k * w i =
              X.app (fun c => ∑ i ∈ range Ct.cols, F c i * w i) k := by
          intro X F
          simp only [Mat.app, sum_mul, mul_sum]
          rw [sum_comm]
          exact sum_congr rfl fun c _ => sum_congr rfl fun i _ => by ring
        rw [e2 Rm.T (fun c i => Rm.app (fun c => Ct.get c i) c)]
        refine Mat.app_congr _ (fun c _ => ?_) k
        simp only [Mat.app, sum_mul, mul_sum]
        rw [sum_comm]
        exact sum_congr rfl fun c _ => sum_congr rfl fun i _ => by ring
      calc ∑ i ∈ range Ct.cols, (∑ k ∈ range (N * s.A.cols),
            free k * (Rm.T.app (Rm.app fun c => Ct.get c i)) k) * w i
          = ∑ k ∈ range (N * s.A.cols), free k *
              ∑ i ∈ range Ct.cols, Rm.T.app (Rm.app fun c => Ct.get c i) k * w i := by
            simp only [sum_mul, mul_sum]
            rw [sum_comm]
            exact sum_congr rfl fun c _ => sum_congr rfl fun i _ => by ring
        _ = ∑ k ∈ range Rm.cols, free k * Rm.T.app (Rm.app (Ct.app w)) k := by
            rw [hR.2]
            exact sum_congr rfl fun k _ => by rw [e1]
        _ = _ := by rw [sum_T, hR.1]
    · simp only [Mat.app, mul_sum, sum_mul]
      rw [sum_comm]
      exact sum_congr rfl fun c _ => sum_congr rfl fun i _ => by ring
  unfold qpCost
  rw [eP, eq]
  have e3 : ∀ i, Rm.app (fun c => free c + Ct.app w c) i ^ 2 =
      Rm.app free i ^ 2 + 2 * (Rm.app free i * Rm.app (Ct.app w) i) + Rm.app (Ct.app w) i ^ 2 := by
    intro i
    rw [Mat.app_add]
    ring
  show _ = ∑ i ∈ range (N * s.A.cols), Rm.app (fun c => free c + Ct.app w c) i ^ 2 + _ +
    ∑ i ∈ range (N * s.A.cols), r.get i 0 * (free i + Ct.app w i)
  simp only [e3, mul_add, sum_add_distrib, ← mul_sum]
  ring

/-! ### `get_input_helper` -/

/-- The states that the cost counts: for `ord = 2` the states, otherwise only the response to the inputs. -/
def Lti.counted (s : Lti R) (ord : Norm) (x0 : Nat → R) (u : Nat → Nat → R) : Nat → Nat → R :=
  match ord with
  | .two => s.states x0 u
  | _ => s.forced u

/-- The constraints that `createLM` describes, apart from those on the initial state. -/
def FeasLM (pc : Pc R) (s : Lti R) (N : Nat) (listP : List (HP R)) (ind : Option (List Nat)) (x0 : Nat → R)
    (u : Nat → Nat → R) : Prop :=
  ∀ d, s.Possible pc N d → ∀ i ≤ N,
    (∀ P, 0 < i → listP[i]? = some P →
      P.Mem (s.traj x0 u (distAt (ind.getD (List.range' 1 N)) i d) i)) ∧
    (i < N → s.InputOk (s.traj x0 u (distAt (ind.getD (List.range' 1 N)) i d) i) (u i))

theorem block_lt {N p c : Nat} (h : c < N * p) : c / p < N ∧ c % p < p ∧ c = c / p * p + c % p := by
  have hp : 0 < p := Nat.pos_of_ne_zero fun h0 => by subst h0; omega
  refine ⟨Nat.div_lt_of_lt_mul (by rw [Nat.mul_comm]; exact h), Nat.mod_lt _ hp, ?_⟩
  rw [Nat.mul_comm]
  exact (Nat.div_add_mod c p).symm

theorem ctMat_flat (s : Lti R) (hs : s.Shaped) (N : Nat) (hN : 0 < N) (u : Nat → Nat → R) (c : Nat)
    (hc : c < N * s.A.cols) :
    (ctMat s N).app (flatSeq s.B.cols u) c = flatSeq s.A.cols (s.forced u) c := by
  obtain ⟨h1, h2, h3⟩ := block_lt hc
  conv => lhs; rw [h3]
  rw [ctMat_app s hs N hN u _ h1 _ h2]
  rfl

theorem costCt_eq (ord : Norm) (s : Lti R) (hs : s.Shaped) (N : Nat) (hN : 0 < N) (Rm r Q : Mat R)
    (hR : Rm.cols = N * s.A.cols) (hr : r.rows = N * s.A.cols) (u : Nat → Nat → R) :
    costCt ord s.A.cols s.B.cols N Rm r Q (ctMat s N) (flatSeq s.B.cols u) =
      costOf ord s.A.cols s.B.cols N Rm r Q (s.forced u) u := by
  unfold costCt costOf
  congr 1
  · congr 1
    refine normOf_congr _ _ _ _ fun i _ => Mat.app_congr _ (fun c hc => ?_) i
    exact ctMat_flat s hs N hN u c (by rw [hR] at hc; exact hc)
  · show ∑ c ∈ range r.rows, r.get c 0 * _ = _
    rw [hr]
    exact sum_congr rfl fun c hc => by rw [ctMat_flat s hs N hN u c (mem_range.1 hc)]

theorem qpCost_states (s : Lti R) (hs : s.Shaped) (N : Nat) (hN : 0 < N) (x0 : Nat → R) (Rm r Q : Mat R)
    (hR : Rm.rows = N * s.A.cols ∧ Rm.cols = N * s.A.cols) (hr : r.rows = N * s.A.cols)
    (hQ : Q.rows = N * s.B.cols ∧ Q.cols = N * s.B.cols) :
    ∃ k0, ∀ u : Nat → Nat → R,
      2 * qpCost (qp2 s x0 N Rm r Q (ctMat s N)).1 (qp2 s x0 N Rm r Q (ctMat s N)).2 (flatSeq s.B.cols u) + k0 =
      costOf .two s.A.cols s.B.cols N Rm r Q (s.states x0 u) u := by
  obtain ⟨k0, h⟩ := qpCost_eq s N hN x0 Rm r Q hR hr hQ
  refine ⟨k0, fun u => ?_⟩
  rw [h]
  have hst : ∀ c, c < N * s.A.cols → (freeForced s.A N N).AN.app x0 c +
        (freeForced s.A N N).AK.app (fun c => (s.K.tile N).get c 0) c +
        (ctMat s N).app (flatSeq s.B.cols u) c = flatSeq s.A.cols (s.states x0 u) c := by
    intro c hc
    obtain ⟨h1, h2, h3⟩ := block_lt hc
    conv => lhs; rw [h3]
    rw [free_app s hs N hN x0 u _ h1 _ h2]
    rfl
  unfold costOf normOf
  dsimp only
  congr 1
  · congr 1
    refine sum_congr rfl fun i _ => ?_
    congr 1
    exact Mat.app_congr _ (fun c hc => hst c (by rw [hR.2] at hc; exact hc)) i
  · exact sum_congr rfl fun c hc => by rw [hst c (mem_range.1 hc)]

theorem lastInputs_flat (m N len : Nat) (v : Nat → R) (c : Nat) (hc : c < N * m) :
    flatSeq m (lastInputs m N len v) c = v (len - N * m + c) := by
  obtain ⟨_, _, h3⟩ := block_lt hc
  unfold flatSeq lastInputs
  rw [← h3]

/-- The values of bounded arguments under a linear function are bounded. -/
theorem app_bound (X : Mat R) (i : Nat) (w : Nat → R) (b : R) (hw : ∀ c < X.cols, |w c| ≤ b) :
    - (∑ c ∈ range X.cols, |X.get i c| * b) ≤ X.app w i := by
  refine neg_le_of_abs_le ?_
  unfold Mat.app
  refine le_trans (abs_sum_le_sum_abs _ _) (sum_le_sum fun c hc => ?_)
  rw [abs_mul]
  exact mul_le_mul_of_nonneg_left (hw c (mem_range.1 hc)) (abs_nonneg _)

theorem possible_exists (pc : Pc R) (s : Lti R) (hW : s.GoodDist pc) (N : Nat) : ∃ d, s.Possible pc N d := by
  by_cases h : s.Disturbed
  · exact ⟨fun _ => (pc.extreme s.W).get 0, fun _ _ _ => row_mem _ _ (by have := (hW h).2.2.1; omega)⟩
  · exact ⟨fun _ _ => 0, fun h' => absurd h' h⟩

/-- The set of inputs is bounded. -/
def Lti.Bounded (s : Lti R) : Prop := ∃ b, ∀ x u, s.InputOk x u → ∀ j < s.B.cols, |u j| ≤ b

/-- What `get_input_helper` returns. -/
theorem helper_core (T : Tools R) (s : Lti R) (hs : s.Shaped) (hW : s.GoodDist T.toPc) (N : Nat) (hN : 0 < N)
    (hm : 0 < s.B.cols) (x0 : Nat → R) (P1 P3 : HP R) (cl sn : Bool)
    (hdim : ∀ P ∈ (helperList T P1 P3 N cl).1, P.A.cols = s.A.cols)
    (hlen : (helperList T P1 P3 N cl).1.length = N + 1) (hhead : (helperList T P1 P3 N cl).1[0]? = some P1)
    (hU : s.U.A.cols = s.B.cols ∨ ∀ P ∈ (helperList T P1 P3 N cl).1, P.Pointed)
    (Rm r Q : Mat R) (hR : Rm.rows = N * s.A.cols ∧ Rm.cols = N * s.A.cols) (hr : r.rows = N * s.A.cols)
    (hQ : Q.rows = N * s.B.cols ∧ Q.cols = N * s.B.cols) (ord : Norm)
    (hlp : T.GoodLp) (hqp : T.GoodQp) :
    match getInputHelper T x0 s P1 P3 N Rm r Q ord cl sn with
    | .ok u c =>
      ord ≠ .other ∧
      FeasLM T.toPc s N (helperList T P1 P3 N cl).1 (helperList T P1 P3 N cl).2 x0 u ∧
      (ord ≠ .two → c = costOf ord s.A.cols s.B.cols N Rm r Q (s.counted ord x0 u) u) ∧
      ∀ u', FeasLM T.toPc s N (helperList T P1 P3 N cl).1 (helperList T P1 P3 N cl).2 x0 u' →
        costOf ord s.A.cols s.B.cols N Rm r Q (s.counted ord x0 u) u ≤
          costOf ord s.A.cols s.B.cols N Rm r Q (s.counted ord x0 u') u'
    | .lpFail => (ord = .one ∨ ord = .inf) ∧ (s.Bounded →
        ¬ ∃ u, FeasLM T.toPc s N (helperList T P1 P3 N cl).1 (helperList T P1 P3 N cl).2 x0 u)
    | .err e => (ord = .two ∧ sn = false ∧ e = .exception) ∨ (ord = .two ∧ e = .runtime) ∨
        (ord = .other ∧ e = .unboundLocal) := by
  obtain ⟨L, M, hLM, hLc, _, _, hfeas⟩ := createLM_spec T.toPc s hs hW N hN _ hlen hdim
    (helperList T P1 P3 N cl).2 hU
  have hF : ∀ u, Sat (helperLuM s x0 P1.A.rows L M).1 (helperLuM s x0 P1.A.rows L M).2 (flatSeq s.B.cols u) ↔
      FeasLM T.toPc s N (helperList T P1 P3 N cl).1 (helperList T P1 P3 N cl).2 x0 u := by
    intro u
    rw [helperLuM_sat s x0 _ L M N hLc u]
    unfold FeasLM
    rw [← hfeas x0 u]
    constructor
    · intro h r hr hr'
      exact h r (hr P1 hhead) hr'
    · intro h r hr hr'
      refine h r (fun P hP => ?_) hr'
      rw [hhead] at hP
      cases hP
      exact hr
  have hLuc : (helperLuM s x0 P1.A.rows L M).1.cols = N * s.B.cols := by
    show L.cols - s.A.cols = _
    rw [hLc, Nat.add_sub_cancel_left]
  unfold getInputHelper
  simp only [hLM]
  generalize (helperLuM s x0 P1.A.rows L M).1 = Lu at *
  generalize (helperLuM s x0 P1.A.rows L M).2 = M' at *
  have hCt := ctMat_cols s N hN
  have hn : 0 < N * s.A.cols := Nat.mul_pos hN hs.pos
  have hmN : 0 < N * s.B.cols := Nat.mul_pos hN hm
  -- a linear program
  have hlin : ∀ (ord : Norm) (cGh : Mat R × Mat R × Mat R) (off : Nat) lift, (ord = .one ∨ ord = .inf) →
      Represents cGh (Sat Lu M') (costCt ord s.A.cols s.B.cols N Rm r Q (ctMat s N))
        (fun v c => v (off + c)) lift → cGh.2.1.cols = off + N * s.B.cols →
      match (match T.lp cGh.1 cGh.2.1 cGh.2.2 with
        | none => Help.lpFail
        | some (v, cost) => Help.ok (lastInputs s.B.cols N cGh.2.1.cols v) cost) with
      | .ok u c =>
        ord ≠ .other ∧
        FeasLM T.toPc s N (helperList T P1 P3 N cl).1 (helperList T P1 P3 N cl).2 x0 u ∧
        (ord ≠ .two → c = costOf ord s.A.cols s.B.cols N Rm r Q (s.counted ord x0 u) u) ∧
        ∀ u', FeasLM T.toPc s N (helperList T P1 P3 N cl).1 (helperList T P1 P3 N cl).2 x0 u' →
          costOf ord s.A.cols s.B.cols N Rm r Q (s.counted ord x0 u) u ≤
            costOf ord s.A.cols s.B.cols N Rm r Q (s.counted ord x0 u') u'
      | .lpFail => (ord = .one ∨ ord = .inf) ∧ (s.Bounded →
          ¬ ∃ u, FeasLM T.toPc s N (helperList T P1 P3 N cl).1 (helperList T P1 P3 N cl).2 x0 u)
      | .err e => (ord = .two ∧ sn = false ∧ e = .exception) ∨ (ord = .two ∧ e = .runtime) ∨
          (ord = .other ∧ e = .unboundLocal) := by
    intro ord cGh off lift hord hrep hoff
    have hcnt : ∀ u, s.counted ord x0 u = s.forced u := fun u => by rcases hord with rfl | rfl <;> rfl
    rcases hres : T.lp cGh.1 cGh.2.1 cGh.2.2 with _ | ⟨v, f⟩
    · refine ⟨hord, fun ⟨b, hb⟩ ⟨u, hu⟩ => ?_⟩
      -- the inputs are bounded, and so is the cost
      obtain ⟨d, hd⟩ := possible_exists T.toPc s hW N
      refine hrep.fail T hlp hres (b := - ∑ c ∈ range (r.T.dot (ctMat s N)).cols,
        |(r.T.dot (ctMat s N)).get 0 c| * b) (fun w hw => ?_) ⟨_, (hF u).2 hu⟩
      have hw' : FeasLM T.toPc s N (helperList T P1 P3 N cl).1 (helperList T P1 P3 N cl).2 x0
          (fun k j => w (k * s.B.cols + j)) := by
        rw [← hF]
        refine (sat_congr _ _ _ _ fun c hc => ?_).1 hw
        rw [hLuc] at hc
        obtain ⟨_, _, h3⟩ := block_lt hc
        show w c = w (c / s.B.cols * s.B.cols + c % s.B.cols)
        rw [← h3]
      have h1 : ∀ c < N * s.B.cols, |w c| ≤ b := by
        intro c hc
        obtain ⟨h1, h2, h3⟩ := block_lt hc
        have : |w (c / s.B.cols * s.B.cols + c % s.B.cols)| ≤ b :=
          hb _ _ ((hw' d hd (c / s.B.cols) (by omega)).2 h1) _ h2
        rw [← h3] at this
        exact this
      have h2 := app_bound (r.T.dot (ctMat s N)) 0 w b (fun c hc => h1 c (by
        have : (r.T.dot (ctMat s N)).cols = (ctMat s N).cols := rfl
        rw [this, hCt] at hc
        exact hc))
      rw [Mat.app_dot] at h2
      unfold costCt
      have h3 := normOf_nonneg ord (N * s.A.cols) (Rm.app ((ctMat s N).app w))
      have h4 := normOf_nonneg ord (N * s.B.cols) (Q.app w)
      have h5 : (ctMat s N).app w = fun c => (ctMat s N).app w c := rfl
      linarith
    · obtain ⟨h1, h2, h3⟩ := hrep.opt T hlp hres
      have hw : ∀ c < N * s.B.cols,
          v (off + c) = flatSeq s.B.cols (lastInputs s.B.cols N cGh.2.1.cols v) c := fun c hc => by
        rw [lastInputs_flat _ _ _ _ _ hc, hoff, Nat.add_sub_cancel]
      have hcost : costCt ord s.A.cols s.B.cols N Rm r Q (ctMat s N) (fun c => v (off + c)) =
          costOf ord s.A.cols s.B.cols N Rm r Q (s.forced (lastInputs s.B.cols N cGh.2.1.cols v))
            (lastInputs s.B.cols N cGh.2.1.cols v) := by
        rw [← costCt_eq ord s hs N hN Rm r Q hR.2 hr]
        unfold costCt
        have e1 : (ctMat s N).app (fun c => v (off + c)) =
            (ctMat s N).app (flatSeq s.B.cols (lastInputs s.B.cols N cGh.2.1.cols v)) :=
          funext fun i => Mat.app_congr _ (fun c hc => hw c (by rw [hCt] at hc; exact hc)) i
        have e2 : Q.app (fun c => v (off + c)) =
            Q.app (flatSeq s.B.cols (lastInputs s.B.cols N cGh.2.1.cols v)) :=
          funext fun i => Mat.app_congr _ (fun c hc => hw c (by rw [hQ.2] at hc; exact hc)) i
        rw [e1, e2]
      refine ⟨by rcases hord with rfl | rfl <;> simp, ?_, fun _ => ?_, fun u' hu' => ?_⟩
      · rw [← hF]
        exact (sat_congr _ _ _ _ fun c hc => hw c (by rw [hLuc] at hc; exact hc)).1 h1
      · rw [hcnt, ← hcost]
        exact h2
      · rw [hcnt, hcnt, ← hcost, ← h2, ← costCt_eq ord s hs N hN Rm r Q hR.2 hr]
        exact h3 _ ((hF u').2 hu')
  cases ord with
  | one =>
    refine hlin .one _ (N * s.A.cols + N * s.B.cols) _ (Or.inl rfl)
      (represents1 s.A.cols s.B.cols N Rm r Q (ctMat s N) Lu M' hR.1 hQ.1 hQ.2 hCt hLuc) ?_
    show N * s.A.cols + N * s.B.cols + (ctMat s N).cols = _
    rw [hCt]
  | inf =>
    refine hlin .inf _ 2 _ (Or.inr rfl)
      (representsInf s.A.cols s.B.cols N hn hmN Rm r Q (ctMat s N) Lu M' hR.1 hQ.1 hQ.2 hCt hLuc) ?_
    show 1 + 1 + (ctMat s N).cols = _
    rw [hCt]
  | other => exact Or.inr (Or.inr ⟨rfl, rfl⟩)
  | two =>
    dsimp only
    cases sn with
    | false => exact Or.inl ⟨rfl, rfl, rfl⟩
    | true =>
      simp only [Bool.not_true, Bool.false_eq_true, if_false]
      rcases hres : T.qp (qp2 s x0 N Rm r Q (ctMat s N)).1 (qp2 s x0 N Rm r Q (ctMat s N)).2 Lu M' with _ | ⟨v, f⟩
      · exact Or.inr (Or.inl ⟨by trivial, rfl⟩)
      · obtain ⟨h1, h2, h3⟩ := hqp _ _ _ _ _ _ hres
        have hw : ∀ c < N * s.B.cols, v c = flatSeq s.B.cols (lastInputs s.B.cols N Lu.cols v) c := fun c hc => by
          rw [lastInputs_flat _ _ _ _ _ hc, hLuc, Nat.sub_self, Nat.zero_add]
        have hsat : Sat Lu M' (flatSeq s.B.cols (lastInputs s.B.cols N Lu.cols v)) :=
          (sat_congr _ _ _ _ fun c hc => hw c (by rw [hLuc] at hc; exact hc)).1 h1
        have hPr : (qp2 s x0 N Rm r Q (ctMat s N)).1.rows = N * s.B.cols := hQ.2
        have hPc : (qp2 s x0 N Rm r Q (ctMat s N)).1.cols = N * s.B.cols := hQ.2
        have hcost : qpCost (qp2 s x0 N Rm r Q (ctMat s N)).1 (qp2 s x0 N Rm r Q (ctMat s N)).2 v =
            qpCost (qp2 s x0 N Rm r Q (ctMat s N)).1 (qp2 s x0 N Rm r Q (ctMat s N)).2
              (flatSeq s.B.cols (lastInputs s.B.cols N Lu.cols v)) := by
          unfold qpCost
          rw [hPr]
          congr 1
          · congr 1
            refine sum_congr rfl fun i hi => ?_
            rw [hw i (mem_range.1 hi)]
            congr 1
            exact Mat.app_congr _ (fun c hc => hw c (by rw [hPc] at hc; exact hc)) i
          · exact sum_congr rfl fun i hi => by rw [hw i (mem_range.1 hi)]
        refine ⟨by simp, (hF _).1 hsat, fun h => absurd rfl h, fun u' hu' => ?_⟩
        obtain ⟨k0, hk⟩ := qpCost_states s hs N hN x0 Rm r Q hR hr hQ
        have h4 := h3 _ ((hF u').2 hu')
        rw [h2, hcost] at h4
        show costOf .two s.A.cols s.B.cols N Rm r Q (s.states x0 _) _ ≤
          costOf .two s.A.cols s.B.cols N Rm r Q (s.states x0 u') u'
        rw [← hk, ← hk]
        linarith

end Abs

end Tulip
