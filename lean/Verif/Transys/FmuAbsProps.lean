import Verif.Transys.FmuHybridProps
import Verif.Abstract.DiscReachProps

/-!
# C140: the moves of an exported controller and the transitions of the abstraction

`discretize` finds the transitions, with `solve_feasible`; the exported controller makes the moves. Here the
two are compared, for a linear system without disturbances, without the constant term (which is not exported), and
with inputs whose bounds do not depend on the state.
-/

namespace Tulip
namespace Fmu

open Finset Abs

/-- `matrix2str`, `contrib/fmu/poly2str.py:4-14`: the entries by columns. -/
def exportMat (A : Mat ℚ) (e : Nat) : ℚ := A.get (e % A.rows) (e / A.rows)

/-- An exported polytope; its center is any point. -/
def exportHP (P : HP ℚ) (center : Nat → ℚ) : Poly := exportPoly P.A.rows P.A.cols P.A.get P.b center

theorem exportMat_get (A : Mat ℚ) {i j : Nat} (hi : i < A.rows) : exportMat A (j * A.rows + i) = A.get i j := by
  rw [exportMat, blockMod hi, Nat.add_comm, Nat.add_mul_div_right _ _ (by omega), Nat.div_eq_of_lt hi, Nat.zero_add]

theorem exportHP_mem (P : HP ℚ) (c x : Nat → ℚ) : (exportHP P c).Mem x ↔ P.Mem x := exportPoly_mem _ _ _ _ _ _

/-- A trajectory without disturbances. -/
def Steps (D : Dyn X U W) (w : W) (stay T : Set X) (n : Nat) (x : X) : Prop :=
  ∃ (xs : Nat → X) (us : Nat → U), xs 0 = x ∧ (∀ k < n, xs (k + 1) = D.next (xs k) (us k) w ∧ xs k ∈ stay ∧
    us k ∈ D.input (xs k)) ∧ xs n ∈ T

theorem Steps.cons {D : Dyn X U W} {w : W} {stay T : Set X} {n : Nat} {x : X} {u : U} (hx : x ∈ stay) (hu : u ∈ D.input x)
    (h : Steps D w stay T n (D.next x u w)) : Steps D w stay T (n + 1) x := by
  obtain ⟨xs, us, h0, h1, h2⟩ := h
  refine ⟨fun k => if k = 0 then x else xs (k - 1), fun k => if k = 0 then u else us (k - 1), rfl, fun k hk => ?_, ?_⟩
  · rcases k with _ | k
    · simp only [Nat.zero_add, if_true, Nat.one_ne_zero, if_false, Nat.sub_self]
      exact ⟨h0, hx, hu⟩
    · simp only [Nat.add_sub_cancel, Nat.succ_ne_zero, if_false]
      exact h1 k (by omega)
  · simp only [Nat.succ_ne_zero, if_false, Nat.add_sub_cancel]
    exact h2

theorem steps_of_open {D : Dyn X U W} [Inhabited U] {w : W} (hw : w ∈ D.dist) {stay T : Set X} (us : List U) :
    ∀ {x : X}, x ∈ D.Open stay T us → Steps D w stay T us.length x := by
  induction us with
  | nil => intro x hx; exact ⟨fun _ => x, fun _ => default, rfl, fun k hk => absurd hk (by simp), hx⟩
  | cons u us ih =>
    rintro x ⟨h1, h2, h3⟩
    exact (ih (h3 w hw)).cons h1 h2

theorem steps_of_exactly {D : Dyn X U W} [Inhabited U] {w : W} (hw : w ∈ D.dist) {stay T : Set X} (n : Nat) :
    ∀ {x : X}, x ∈ D.Exactly stay T n → Steps D w stay T n x := by
  induction n with
  | zero => intro x hx; exact ⟨fun _ => x, fun _ => default, rfl, fun k hk => absurd hk (by simp), hx⟩
  | succ n ih =>
    rintro x ⟨h1, u, h2, h3⟩
    exact (ih (h3 w hw)).cons h1 h2

/-- From where `solve_feasible` finds that the system can be driven to the target in `N` steps, through states of the
source cell, there is a trajectory. -/
theorem steps_of_driven {D : Dyn X U W} [Inhabited U] {w : W} (hw : w ∈ D.dist) {stay T : Set X} {N : Nat} (hN : 0 < N)
    (cl : Bool) {x : X} (hx : x ∈ stay) (h : x ∈ D.Driven N cl false stay T) : Steps D w stay T N x := by
  obtain ⟨n, rfl⟩ : ∃ n, N = n + 1 := ⟨N - 1, by omega⟩
  cases cl with
  | true =>
    simp only [Dyn.Driven, if_true, Bool.false_eq_true, if_false, Nat.add_sub_cancel] at h
    obtain ⟨u, hu, h⟩ := h
    exact (steps_of_exactly hw n (h w hw)).cons hx hu
  | false =>
    simp only [Dyn.Driven, Bool.false_eq_true, if_false, Nat.add_sub_cancel] at h
    obtain ⟨u, us, hl, hu, h⟩ := h
    have := (steps_of_open hw us (h w hw)).cons hx hu
    rwa [hl] at this

/-- **C140.** From a state of a cell from which the system can be driven to the goal in `N` steps through states of the
cell, as `solve_feasible` computes with `closed_loop` or without it for the cell as transition set, the exported
controller can make the move: its optimization has a solution. -/
theorem canMove_of_driven (s : Lti ℚ) (pc : Pc ℚ) (hs : s.Shaped) (hE : ¬ s.Disturbed) (hK : ∀ i < s.A.cols, s.K.get i 0 = 0)
    (hU : s.U.A.cols = s.B.cols) (cell goal : HP ℚ) (c1 c2 c3 : Nat → ℚ) {N : Nat} (hN : 0 < N) (cl : Bool) (x : Nat → ℚ)
    (hx : cell.Mem x) (h : x ∈ (s.dyn pc).Driven N cl false {x | cell.Mem x} {x | goal.Mem x}) :
    CanMove s.A.cols s.B.cols N (exportMat s.A) (exportMat s.B) (exportHP cell c1) (exportHP s.U c2) (exportHP goal c3) x := by
  obtain ⟨xs, us, h0, h1, h2⟩ := steps_of_driven (D := s.dyn pc) (w := fun _ => 0) (fun h => absurd h hE) hN cl hx h
  refine ⟨xs, us, fun i _ => by rw [h0], fun k hk i hi => ?_, fun k hk => ⟨?_, ?_⟩, (exportHP_mem _ _ _).2 h2⟩
  · rw [(h1 k hk).1]
    show s.next (xs k) (us k) (fun _ => 0) i = _
    have e3 : ∑ j ∈ range s.E.cols, s.E.get i j * (0 : ℚ) = 0 := by simp
    rw [Lti.next, e3, hK i hi, add_zero, add_zero]
    congr 1
    · refine sum_congr rfl fun j _ => ?_
      have := exportMat_get s.A (i := i) (j := j) (by rw [hs.A]; exact hi)
      rw [hs.A] at this
      rw [this]
    · refine sum_congr rfl fun j _ => ?_
      have := exportMat_get s.B (i := i) (j := j) (by rw [hs.B]; exact hi)
      rw [hs.B] at this
      rw [this]
  · exact (exportHP_mem _ _ _).2 (h1 k hk).2.1
  · have := (h1 k hk).2.2
    simp only [Lti.dyn, Lti.InputOk, hU, if_true] at this
    exact (exportHP_mem _ _ _).2 this

theorem exactly_of_open {D : Dyn X U W} {stay T : Set X} (us : List U) :
    ∀ {x : X}, x ∈ D.Open stay T us → x ∈ D.Exactly stay T us.length := by
  induction us with
  | nil => intro x hx; exact hx
  | cons u us ih =>
    rintro x ⟨h1, h2, h3⟩
    exact ⟨h1, u, h2, fun w hw => ih (h3 w hw)⟩

theorem HP.Mem_congr {P : HP ℚ} {x y : Nat → ℚ} (h : ∀ i < P.A.cols, x i = y i) (hx : P.Mem x) : P.Mem y := by
  intro r hr
  have := hx r hr
  rwa [show ∑ c ∈ range P.A.cols, P.A.get r c * x c = ∑ c ∈ range P.A.cols, P.A.get r c * y c from
    sum_congr rfl fun c hc => by rw [h c (Finset.mem_range.1 hc)]] at this

/-- **C140.** The exported controller can make a move exactly from the states of the cell from which the system can be
driven to the goal through states of the cell, with inputs chosen in advance or not. -/
theorem canMove_iff_driven (s : Lti ℚ) (pc : Pc ℚ) (hs : s.Shaped) (hE : ¬ s.Disturbed) (hK : ∀ i < s.A.cols, s.K.get i 0 = 0)
    (hU : s.U.A.cols = s.B.cols) (cell goal : HP ℚ) (hc : cell.A.cols = s.A.cols) (hg : goal.A.cols = s.A.cols)
    (c1 c2 c3 : Nat → ℚ) {N : Nat} (hN : 0 < N) (cl : Bool) (x : Nat → ℚ) :
    CanMove s.A.cols s.B.cols N (exportMat s.A) (exportMat s.B) (exportHP cell c1) (exportHP s.U c2) (exportHP goal c3) x ↔
      cell.Mem x ∧ x ∈ (s.dyn pc).Driven N cl false {x | cell.Mem x} {x | goal.Mem x} := by
  refine ⟨?_, fun h => canMove_of_driven s pc hs hE hK hU cell goal c1 c2 c3 hN cl x h.1 h.2⟩
  rintro ⟨xs, us, h0, h1, h2, h3⟩
  have hnext : ∀ k < N, ∀ y w : Nat → ℚ, (∀ i < s.A.cols, y i = xs k i) →
      ∀ i < s.A.cols, s.next y (us k) w i = xs (k + 1) i := by
    intro k hk y w hy i hi
    have e3 : ∑ j ∈ range s.E.cols, s.E.get i j * w j = 0 := by
      refine Finset.sum_eq_zero fun j hj => ?_
      by_cases e : s.E.get i j = 0
      · rw [e, zero_mul]
      · exact absurd ⟨i, by rw [hs.E]; exact hi, j, Finset.mem_range.1 hj, e⟩ hE
    rw [h1 k hk i hi, Lti.next, e3, hK i hi, add_zero, add_zero]
    congr 1
    · refine sum_congr rfl fun j hj => ?_
      have := exportMat_get s.A (i := i) (j := j) (by rw [hs.A]; exact hi)
      rw [hs.A] at this
      rw [this, hy j (Finset.mem_range.1 hj)]
    · refine sum_congr rfl fun j _ => ?_
      have := exportMat_get s.B (i := i) (j := j) (by rw [hs.B]; exact hi)
      rw [hs.B] at this
      rw [this]
  have hin : ∀ k < N, ∀ y, us k ∈ (s.dyn pc).input y := by
    intro k hk y
    simp only [Lti.dyn, Lti.InputOk, hU, if_true]
    exact (exportHP_mem _ _ _).1 (h2 k hk).2
  have hopen : ∀ m k, k + m = N → ∀ y : Nat → ℚ, (∀ i < s.A.cols, y i = xs k i) →
      y ∈ (s.dyn pc).Open {x | cell.Mem x} {x | goal.Mem x} ((List.range' k m).map us) := by
    intro m
    induction m with
    | zero =>
      intro k hk y hy
      have e : k = N := by omega
      subst e
      exact HP.Mem_congr (fun i hi => (hy i (by rw [← hg]; exact hi)).symm) ((exportHP_mem _ _ _).1 h3)
    | succ m ih =>
      intro k hk y hy
      rw [List.range'_succ, List.map_cons]
      exact ⟨HP.Mem_congr (fun i hi => (hy i (by rw [← hc]; exact hi)).symm) ((exportHP_mem _ _ _).1 (h2 k (by omega)).1),
        hin k (by omega) y, fun w _ => ih (k + 1) (by omega) _ (hnext k (by omega) y w hy)⟩
  have hx : ∀ i < s.A.cols, x i = xs 0 i := fun i hi => (h0 i hi).symm
  refine ⟨HP.Mem_congr (fun i hi => h0 i (by rw [← hc]; exact hi)) ((exportHP_mem _ _ _).1 (h2 0 hN).1), ?_⟩
  have hfirst : ∀ w, (s.dyn pc).next x (us 0) w ∈
      (s.dyn pc).Open {x | cell.Mem x} {x | goal.Mem x} ((List.range' 1 (N - 1)).map us) :=
    fun w => hopen (N - 1) 1 (by omega) _ (hnext 0 hN x w hx)
  cases cl with
  | true =>
    simp only [Dyn.Driven, if_true, Bool.false_eq_true, if_false]
    refine ⟨us 0, hin 0 hN x, fun w _ => ?_⟩
    have := exactly_of_open _ (hfirst w)
    rwa [List.length_map, List.length_range'] at this
  | false =>
    simp only [Dyn.Driven, Bool.false_eq_true, if_false]
    exact ⟨us 0, (List.range' 1 (N - 1)).map us, by simp, hin 0 hN x, fun w _ => hfirst w⟩

/-! ### Disagreement: abstractions that are not conservative -/

namespace Leave

/-- The interval from `a` to `b`. -/
def seg (a b : ℚ) : HP ℚ := ⟨⟨2, 1, fun i _ => if i = 0 then 1 else -1⟩, fun i => if i = 0 then b else -a⟩

/-- `x' = x + u` with inputs in `[-2, 2]` and without disturbances. -/
def sys : Lti ℚ where
  A := ⟨1, 1, fun _ _ => 1⟩
  B := ⟨1, 1, fun _ _ => 1⟩
  E := ⟨1, 1, fun _ _ => 0⟩
  K := ⟨1, 1, fun _ _ => 0⟩
  U := seg (-2) 2
  W := seg 0 0

theorem seg_mem (a b : ℚ) (x : Nat → ℚ) : (seg a b).Mem x ↔ a ≤ x 0 ∧ x 0 ≤ b := by
  constructor
  · intro h
    have h0 := h 0 (by show 0 < 2; omega)
    have h1 := h 1 (by show 1 < 2; omega)
    simp [seg] at h0 h1
    exact ⟨h1, h0⟩
  · rintro ⟨h1, h0⟩ r hr
    have hr : r < 2 := hr
    interval_cases r
    · simp [seg]; exact h0
    · simp [seg]; exact h1

end Leave

open Leave in
/-- **C140, counterexample.** By default an abstraction is not conservative: the transitions are found with the region of the given
partition as transition set, here `[0, 5]`, but the exported controller requires that the state stays in the cell, here
`[0, 1]`. From every state of the cell the system can be driven to `[4, 5]` in two steps through `[0, 5]`, and from no state the
optimization of the exported controller has a solution. -/
theorem leave_counterexample (pc : Pc ℚ) (c1 c2 c3 : Nat → ℚ) :
    (∀ x, (seg 0 1).Mem x → ∀ cl, x ∈ (sys.dyn pc).Driven 2 cl false {x | (seg 0 5).Mem x} {x | (seg 4 5).Mem x}) ∧
    ∀ x, ¬ ∃ z, Problem 1 1 2 (exportHP (seg 0 1) c1) (exportHP sys.U c2) (exportHP (seg 4 5) c3) (exportMat sys.A)
      (exportMat sys.B) x z := by
  constructor
  · intro x hx cl
    obtain ⟨a, b⟩ := (seg_mem _ _ _).1 hx
    have hn : ∀ y u w : Nat → ℚ, (sys.dyn pc).next y u w 0 = y 0 + u 0 := by
      intro y u w
      simp [Lti.dyn, Lti.next, sys]
    have hin : ∀ y, (fun _ => 2) ∈ (sys.dyn pc).input y := by
      intro y
      simp only [Lti.dyn, Lti.InputOk]
      exact (seg_mem _ _ _).2 ⟨by norm_num, by norm_num⟩
    have h1 : ∀ w, (sys.dyn pc).next x (fun _ => 2) w ∈ {x | (seg 0 5).Mem x} := fun w =>
      (seg_mem _ _ _).2 (by rw [hn]; constructor <;> linarith)
    have h2 : ∀ w w', (sys.dyn pc).next ((sys.dyn pc).next x (fun _ => 2) w) (fun _ => 2) w' ∈ {x | (seg 4 5).Mem x} :=
      fun w w' => (seg_mem _ _ _).2 (by rw [hn, hn]; constructor <;> linarith)
    cases cl with
    | true =>
      simp only [Dyn.Driven, if_true, Bool.false_eq_true, if_false]
      exact ⟨fun _ => 2, hin x, fun w _ => ⟨h1 w, fun _ => 2, hin _, fun w' _ => h2 w w'⟩⟩
    | false =>
      simp only [Dyn.Driven, Bool.false_eq_true, if_false]
      exact ⟨fun _ => 2, [fun _ => 2], rfl, hin x, fun w _ => ⟨h1 w, hin _, fun w' _ => h2 w w'⟩⟩
  · intro x h
    obtain ⟨xs, us, _, h1, h2, h3⟩ := (problem_iff 1 1 2 (by omega) _ _ _ _ _ rfl rfl rfl x).1 h
    have e := h1 1 (by omega) 0 (by omega)
    have a := (seg_mem _ _ _).1 ((exportHP_mem _ _ _).1 (h2 1 (by omega)).1)
    have b := (seg_mem _ _ _).1 ((exportHP_mem _ _ _).1 (h2 1 (by omega)).2)
    have c := (seg_mem _ _ _).1 ((exportHP_mem _ _ _).1 h3)
    simp [exportMat, sys] at e
    linarith [a.2, b.2, c.1]

open Leave in
/-- The hypotheses of `canMove_iff_driven` hold, and the move is possible, for a goal that is near. -/
example (pc : Pc ℚ) (x : Nat → ℚ) (hx : (seg 0 1).Mem x) :
    CanMove 1 1 2 (exportMat sys.A) (exportMat sys.B) (exportHP (seg 0 1) x) (exportHP sys.U x) (exportHP (seg 1 2) x) x := by
  refine (canMove_iff_driven sys pc ⟨rfl, by decide, rfl, rfl, ⟨rfl, rfl⟩, Or.inl rfl⟩ ?_ (fun _ _ => rfl) rfl (seg 0 1) (seg 1 2)
    rfl rfl x x x (by omega) false x).2 ⟨hx, ?_⟩
  · rintro ⟨i, _, j, _, h⟩
    exact h rfl
  · obtain ⟨a, b⟩ := (seg_mem _ _ _).1 hx
    have hn : ∀ y u w : Nat → ℚ, (sys.dyn pc).next y u w 0 = y 0 + u 0 := by
      intro y u w
      simp [Lti.dyn, Lti.next, sys]
    simp only [Dyn.Driven, Bool.false_eq_true, if_false]
    refine ⟨fun _ => 0, [fun _ => 1], rfl, ?_, fun w _ => ⟨?_, ?_, fun w' _ => ?_⟩⟩
    · exact (seg_mem _ _ _).2 ⟨by norm_num, by norm_num⟩
    · exact (seg_mem _ _ _).2 (by rw [hn]; constructor <;> linarith)
    · exact (seg_mem _ _ _).2 ⟨by norm_num, by norm_num⟩
    · exact (seg_mem _ _ _).2 (by rw [hn, hn]; constructor <;> linarith)

end Fmu
end Tulip
