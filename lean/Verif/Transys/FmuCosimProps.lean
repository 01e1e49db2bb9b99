import Verif.Transys.FmuSlaveProps
import Verif.Transys.FmuHybridProps

/-!
# C143: an exported unit in co-simulation with the system
-/

namespace Tulip
namespace Fmu

open Finset

/-! ## Specification -/

/-- What the master does for the period `k`: a step to its end, then the values of the state `x` and of the discrete inputs `d` at that
time, and a step of size 0. -/
def visit (U : Fixed) (x : Nat → ℚ) (d : List Int) (k : Nat) : List Call :=
  .step (U.period * k) U.period ::
    ((List.range U.n).map (fun i => .setReal (U.p + i) (x i)) ++
      ((List.range U.t.nInputValue.length).map (fun i => .setInteger (U.p + U.n + i) (d.getD i 0)) ++
        [.step (U.period * (k + 1)) 0]))

/-- The calls for the first `K` periods, where `x k` is the state at the time of the tick `k`. -/
def calls (U : Fixed) (x : Nat → Nat → ℚ) (d : Nat → List Int) (K : Nat) : List Call :=
  (List.range K).flatMap fun k => visit U (x (k + 1)) (d k) k

/-- What the unit has stored when it makes the tick. -/
def stored (U : Fixed) (M : Memory) (x : Nat → Nat → ℚ) (d : Nat → List Int) (k : Nat) : (Nat → ℚ) × List Int :=
  (fun i => if i < U.n then x (k + 1) i else M.input i, d k)

/-! ## Proofs -/

theorem lastReal_append_list (r : Nat) (a b : List Call) : ∀ d, lastReal r d (a ++ b) = lastReal r (lastReal r d a) b := by
  induction a with
  | nil => intro d; rfl
  | cons c a ih => intro d; cases c <;> simp only [List.cons_append, lastReal, ih]

theorem lastInt_append_list (r : Nat) (a b : List Call) : ∀ d, lastInt r d (a ++ b) = lastInt r (lastInt r d a) b := by
  induction a with
  | nil => intro d; rfl
  | cons c a ih => intro d; cases c <;> simp only [List.cons_append, lastInt, ih]

theorem readings_append_list (U : Fixed) (M : Memory) (tStart : ℚ) (b a : List Call) : ∀ before,
    readings U M tStart before (a ++ b) = readings U M tStart before a ++ readings U M tStart (before ++ a) b := by
  induction a with
  | nil => intro before; simp [readings]
  | cons c a ih => intro before; simp only [List.cons_append, readings, ih, List.append_assoc, List.nil_append]

theorem lastReal_sets (p r : Nat) (f : Nat → ℚ) (d : ℚ) (n : Nat) :
    lastReal r d ((List.range n).map fun i => .setReal (p + i) (f i)) = if p ≤ r ∧ r < p + n then f (r - p) else d := by
  induction n with
  | zero => rw [if_neg (by omega)]; rfl
  | succ n ih =>
    rw [List.range_succ, List.map_append, List.map_singleton, lastReal_append]
    simp only []
    by_cases h : p + n = r
    · rw [if_pos h, if_pos (by omega), ← h, Nat.add_sub_cancel_left]
    · rw [if_neg h, ih]
      by_cases h' : p ≤ r ∧ r < p + n
      · rw [if_pos h', if_pos (by omega)]
      · rw [if_neg h', if_neg (by omega)]

theorem lastInt_sets (p r : Nat) (f : Nat → Int) (d : Int) (n : Nat) :
    lastInt r d ((List.range n).map fun i => .setInteger (p + i) (f i)) = if p ≤ r ∧ r < p + n then f (r - p) else d := by
  induction n with
  | zero => rw [if_neg (by omega)]; rfl
  | succ n ih =>
    rw [List.range_succ, List.map_append, List.map_singleton, lastInt_append]
    simp only []
    by_cases h : p + n = r
    · rw [if_pos h, if_pos (by omega), ← h, Nat.add_sub_cancel_left]
    · rw [if_neg h, ih]
      by_cases h' : p ≤ r ∧ r < p + n
      · rw [if_pos h', if_pos (by omega)]
      · rw [if_neg h', if_neg (by omega)]

theorem lastReal_ints (p r : Nat) (f : Nat → Int) (d : ℚ) (l : List Nat) :
    lastReal r d (l.map fun i => .setInteger (p + i) (f i)) = d := by
  induction l with
  | nil => rfl
  | cons i l ih => simp only [List.map_cons, lastReal, ih]

theorem lastInt_reals (p r : Nat) (f : Nat → ℚ) (d : Int) (l : List Nat) :
    lastInt r d (l.map fun i => .setReal (p + i) (f i)) = d := by
  induction l with
  | nil => rfl
  | cons i l ih => simp only [List.map_cons, lastInt, ih]

theorem stepsOf_reals (p : Nat) (f : Nat → ℚ) (l : List Nat) : stepsOf (l.map fun i => .setReal (p + i) (f i)) = [] := by
  induction l with
  | nil => rfl
  | cons i l ih => simp only [List.map_cons, stepsOf, ih]

theorem stepsOf_ints (p : Nat) (f : Nat → Int) (l : List Nat) : stepsOf (l.map fun i => .setInteger (p + i) (f i)) = [] := by
  induction l with
  | nil => rfl
  | cons i l ih => simp only [List.map_cons, stepsOf, ih]

theorem readings_reals (U : Fixed) (M : Memory) (tStart : ℚ) (p : Nat) (f : Nat → ℚ) (l : List Nat) : ∀ before,
    readings U M tStart before (l.map fun i => .setReal (p + i) (f i)) = [] := by
  induction l with
  | nil => intro _; rfl
  | cons i l ih => intro before; simp only [List.map_cons, readings, ih, List.append_nil]

theorem readings_ints (U : Fixed) (M : Memory) (tStart : ℚ) (p : Nat) (f : Nat → Int) (l : List Nat) : ∀ before,
    readings U M tStart before (l.map fun i => .setInteger (p + i) (f i)) = [] := by
  induction l with
  | nil => intro _; rfl
  | cons i l ih => intro before; simp only [List.map_cons, readings, ih, List.append_nil]

theorem reading_visit (U : Fixed) (M : Memory) (x : Nat → ℚ) (d : List Int) (hd : d.length = U.t.nInputValue.length)
    (before : List Call) (c : ℚ × ℚ) :
    reading U M (before ++ (.step c.1 c.2 :: ((List.range U.n).map (fun i => .setReal (U.p + i) (x i)) ++
      (List.range U.t.nInputValue.length).map (fun i => .setInteger (U.p + U.n + i) (d.getD i 0))))) =
      (fun i => if i < U.n then x i else M.input i, d) := by
  simp only [reading, lastReal_append_list, lastInt_append_list, lastReal, lastInt, lastReal_sets, lastInt_sets, lastReal_ints, lastInt_reals]
  congr 1
  · funext i
    by_cases h : i < U.n
    · rw [if_pos h, if_pos h, if_pos (by omega), Nat.add_sub_cancel_left]
    · rw [if_neg h, if_neg h]
  · apply List.ext_getElem
    · simp [hd]
    · intro i h1 h2
      simp only [List.length_map, List.length_range] at h1
      simp only [List.getElem_map, List.getElem_range]
      rw [if_pos (by omega), Nat.add_sub_cancel_left, List.getD_eq_getElem?_getD, List.getElem?_eq_getElem h2]
      rfl

/-- The two steps of a visit: the first one only arrives at the time of the tick, the second makes it. -/
theorem visit_steps (period eps : ℚ) (he : 0 ≤ eps) (c : Clock) (hc : c.atBreakpoint = false) :
    (doStep period eps c (period * c.count) period).2.1 = false ∧
      (doStep period eps (doStep period eps c (period * c.count) period).2.2 (period * (c.count + 1)) 0).2.1 = true ∧
      (doStep period eps (doStep period eps c (period * c.count) period).2.2 (period * (c.count + 1)) 0).2.2.count = c.count + 1 ∧
      (doStep period eps (doStep period eps c (period * c.count) period).2.2 (period * (c.count + 1)) 0).2.2.atBreakpoint = false := by
  have e : period * (c.count : ℚ) + period = period * (c.count + 1) := by ring
  have h1 : period * ((c.count : ℚ) + 1) ≥ period * (c.count + 1) - eps := by linarith
  have h2 : ¬ period * ((c.count : ℚ) + 1) > period * (c.count + 1) + eps := by linarith
  have e1 : doStep period eps c (period * c.count) period =
      (.ok, false, { c with atBreakpoint := true, last := period * (c.count + 1) }) := by
    simp only [doStep, e, h1, h2, hc, if_true, if_false, Bool.false_eq_true]
  rw [e1]
  simp only [doStep, add_zero, h1, h2, if_true, if_false, and_self]

theorem cosim_readings (U : Fixed) (M : Memory) (he : 0 ≤ U.eps) (tStart : ℚ) (x : Nat → Nat → ℚ) (d : Nat → List Int)
    (hd : ∀ k, (d k).length = U.t.nInputValue.length) (K : Nat) :
    readings U M tStart [] (calls U x d K) = (List.range K).map (stored U M x d) ∧
      (clockAfter U.period U.eps tStart (stepsOf (calls U x d K))).count = K ∧
      (clockAfter U.period U.eps tStart (stepsOf (calls U x d K))).atBreakpoint = false := by
  induction K with
  | zero => exact ⟨rfl, rfl, rfl⟩
  | succ K ih =>
    obtain ⟨ih1, ih2, ih3⟩ := ih
    have hcalls : calls U x d (K + 1) = calls U x d K ++ visit U (x (K + 1)) (d K) K := by
      simp [calls, List.range_succ]
    have hv := visit_steps U.period U.eps he _ ih3
    rw [ih2] at hv
    have hs : stepsOf (visit U (x (K + 1)) (d K) K) = [(U.period * K, U.period), (U.period * (K + 1), 0)] := by
      simp only [visit, stepsOf, stepsOf_append, stepsOf_reals, stepsOf_ints, List.nil_append]
    have hclock : clockAfter U.period U.eps tStart (stepsOf (calls U x d (K + 1))) =
        (doStep U.period U.eps (doStep U.period U.eps (clockAfter U.period U.eps tStart (stepsOf (calls U x d K)))
          (U.period * K) U.period).2.2 (U.period * (K + 1)) 0).2.2 := by
      rw [hcalls, stepsOf_append, hs]
      rw [show stepsOf (calls U x d K) ++ [(U.period * K, U.period), (U.period * (K + 1), 0)] =
        (stepsOf (calls U x d K) ++ [(U.period * K, U.period)]) ++ [(U.period * (K + 1), 0)] by simp]
      rw [clockAfter_append, clockAfter_append]
    refine ⟨?_, by rw [hclock]; exact hv.2.2.1, by rw [hclock]; exact hv.2.2.2⟩
    rw [hcalls, readings_append_list, ih1, List.nil_append, List.range_succ, List.map_append, List.map_singleton]
    congr 1
    have e : visit U (x (K + 1)) (d K) K = (.step (U.period * K) U.period ::
        ((List.range U.n).map (fun i => .setReal (U.p + i) (x (K + 1) i)) ++
          (List.range U.t.nInputValue.length).map (fun i => .setInteger (U.p + U.n + i) ((d K).getD i 0)))) ++
        [.step (U.period * (K + 1)) 0] := by
      simp [visit]
    rw [e, readings_append_list]
    simp only [readings, readings_append_list, readings_reals, readings_ints, hv.1, Bool.false_eq_true, if_false, List.append_nil,
      List.nil_append]
    rw [reading_visit U M (x (K + 1)) (d K) (hd K) (calls U x d K) (U.period * K, U.period)]
    have hst : stepsOf (calls U x d K ++ Call.step (U.period * K) U.period ::
        ((List.range U.n).map (fun i => Call.setReal (U.p + i) (x (K + 1) i)) ++
          (List.range U.t.nInputValue.length).map (fun i => Call.setInteger (U.p + U.n + i) ((d K).getD i 0)))) =
        stepsOf (calls U x d K) ++ [(U.period * K, U.period)] := by
      rw [stepsOf_append]
      simp only [stepsOf, stepsOf_append, stepsOf_reals, stepsOf_ints, List.nil_append]
    rw [hst, clockAfter_append, if_pos hv.2.1]
    rfl

/-- **C143.** The sizes of the steps are those that the unit gives as the maximal ones, when it is initialized with the time 0, and the
unit accepts all steps. -/
theorem cosim_steps (U : Fixed) (M : Memory) (he : 0 ≤ U.eps) (x : Nat → Nat → ℚ) (d : Nat → List Int)
    (hd : ∀ k, (d k).length = U.t.nInputValue.length) (K : Nat) :
    (clockAfter U.period U.eps 0 (stepsOf (calls U x d K))).last = U.period * K ∧
      maxStepSize U.period (clockAfter U.period U.eps 0 (stepsOf (calls U x d K))) = U.period ∧
      maxStepSize U.period (clockAfter U.period U.eps 0 (stepsOf (calls U x d K) ++ [(U.period * K, U.period)])) = 0 ∧
      ∀ r ∈ doSteps U.period U.eps (clockInit 0) (stepsOf (calls U x d K)), r.1 = .ok := by
  have key : ∀ K, (clockAfter U.period U.eps 0 (stepsOf (calls U x d K))).last = U.period * K ∧
      (∀ r ∈ doSteps U.period U.eps (clockInit 0) (stepsOf (calls U x d K)), r.1 = .ok) ∧
      doStep U.period U.eps (clockAfter U.period U.eps 0 (stepsOf (calls U x d K))) (U.period * K) U.period =
        (.ok, false, ⟨K, true, U.period * (K + 1)⟩) := by
    intro K
    have hstep : ∀ K, doStep U.period U.eps (clockAfter U.period U.eps 0 (stepsOf (calls U x d K))) (U.period * K) U.period =
        (.ok, false, ⟨K, true, U.period * (K + 1)⟩) := by
      intro K
      obtain ⟨_, h2, h3⟩ := cosim_readings U M he 0 x d hd K
      have e : U.period * (K : ℚ) + U.period = U.period * (K + 1) := by ring
      have h1 : U.period * ((K : ℚ) + 1) ≥ U.period * (K + 1) - U.eps := by linarith
      have h4 : ¬ U.period * ((K : ℚ) + 1) > U.period * (K + 1) + U.eps := by linarith
      simp only [doStep, h2, e, h1, h4, h3, if_true, if_false, Bool.false_eq_true]
    refine ⟨?_, ?_, hstep K⟩ <;> induction K with
    | zero => simp [calls, stepsOf, clockAfter, doSteps, clockInit]
    | succ K ih =>
      have hcalls : calls U x d (K + 1) = calls U x d K ++ visit U (x (K + 1)) (d K) K := by
        simp [calls, List.range_succ]
      have hs : stepsOf (visit U (x (K + 1)) (d K) K) = [(U.period * K, U.period), (U.period * (K + 1), 0)] := by
        simp only [visit, stepsOf, stepsOf_append, stepsOf_reals, stepsOf_ints, List.nil_append]
      have h1 : U.period * ((K : ℚ) + 1) ≥ U.period * (K + 1) - U.eps := by linarith
      have h4 : ¬ U.period * ((K : ℚ) + 1) > U.period * (K + 1) + U.eps := by linarith
      have h2 : doStep U.period U.eps ⟨K, true, U.period * (K + 1)⟩ (U.period * (K + 1)) 0 =
          (.ok, true, ⟨K + 1, false, U.period * (K + 1)⟩) := by
        simp only [doStep, add_zero, h1, h4, if_true, if_false]
      rw [hcalls, stepsOf_append, hs]
      rw [show stepsOf (calls U x d K) ++ [(U.period * K, U.period), (U.period * (K + 1), 0)] =
        (stepsOf (calls U x d K) ++ [(U.period * K, U.period)]) ++ [(U.period * (K + 1), 0)] by simp]
      first
      | rw [clockAfter_append, clockAfter_append, hstep, h2]
        push_cast
        rfl
      | intro r hr
        rw [doSteps_append, doSteps_append] at hr
        rcases List.mem_append.1 hr with hr | hr
        · rcases List.mem_append.1 hr with hr | hr
          · exact ih r hr
          · rw [List.mem_singleton.1 hr]
            have := hstep K
            rw [clockAfter] at this
            rw [this]
        · rw [List.mem_singleton.1 hr, List.getLast?_concat]
          have := hstep K
          rw [clockAfter] at this
          simp only [Option.map_some, Option.getD_some, this, h2]
  obtain ⟨_, h2, h3⟩ := cosim_readings U M he 0 x d hd K
  obtain ⟨k1, k2, k3⟩ := key K
  refine ⟨k1, ?_, ?_, k2⟩
  · rw [maxStepSize, h3, h2, k1]
    simp only [Bool.false_eq_true, if_false]
    ring
  · rw [clockAfter_append, k3]
    rfl

/-- **C143.** The exported unit in co-simulation with the linear system. The master makes a step to the end of each period, sets the state of
the system and the discrete inputs, makes a step of size 0, and applies the values of `u0`, `u1`, ... for the next period. If the
tables return `q`, the moves are possible, and the solver returns a point that it considers whenever there is one, then at every time
`k` the unit answers, the state of the system is in the location with number `k / N`, and the inputs are within their bounds. -/
theorem cosimulation (U : Fixed) (M : Memory) (hM : M.dInput.length = U.t.nInputValue.length) (he : 0 ≤ U.eps) (tStart : ℚ)
    (hN : 0 < U.P.totalSteps) (A B : Nat → ℚ) (regions : Int → Poly) (bound : Poly) (hr : ∀ r, (regions r).l = U.n) (hb : bound.l = U.p)
    (solve : Int → Int → Nat → (Nat → ℚ) → Nat → ℚ)
    (hsolve : ∀ r g N x, 0 < N → (∃ z, Problem U.n U.p N (regions r) bound (regions g) A B x z) →
      Problem U.n U.p N (regions r) bound (regions g) A B x (solve r g N x))
    (hcontrol : ∀ r g (N : Nat) x v, U.P.control r g N x v =
      firstInput ⟨U.n, U.p, N, (cartesianProd (regions r) bound).k, (regions g).k⟩ (solve r g N x))
    (x : Nat → Nat → ℚ) (d : Nat → List Int) (hd : ∀ k, (d k).length = U.t.nInputValue.length) (q : Nat → Int × Int)
    (hq : ∀ k, fsmRun U.t (initFsm U.t) (inputsRead U.t U.P ((List.range k).map (stored U M x d))) =
      some ((List.range (k / U.P.totalSteps + 1)).map q))
    (hx0 : ∀ i < U.n, x 0 i = U.P.x0 i) (hin : (regions U.P.dRegion0).Mem (x 0))
    (hmove : ∀ m x, (regions (locs U.P.dRegion0 q m)).Mem x → CanMove U.n U.p U.P.totalSteps A B
      (regions (locs U.P.dRegion0 q m)) bound (regions (locs U.P.dRegion0 q (m + 1))) x)
    (hdyn : ∀ k s, slaveRun U M tStart (calls U x d k) = some s → ∀ u : Nat → ℚ, (∀ j < U.p, fmiGetReal U s j = some (u j)) →
      ∀ i < U.n, x (k + 1) i = ∑ j ∈ range U.n, A (j * U.n + i) * x k j + ∑ j ∈ range U.p, B (j * U.n + i) * u j) (k : Nat) :
    ∃ s u, slaveRun U M tStart (calls U x d k) = some s ∧ (∀ j < U.p, fmiGetReal U s j = some (u j)) ∧
      (regions (locs U.P.dRegion0 q (k / U.P.totalSteps))).Mem (x k) ∧ bound.Mem u := by
  have hmem : ∀ (r : Int) (a b : Nat → ℚ), (∀ i < U.n, a i = b i) → (regions r).Mem a → (regions r).Mem b := by
    intro r a b hab h i hi
    have := h i hi
    rwa [Finset.sum_congr rfl fun j hj => by rw [hab j (by rw [← hr r]; exact Finset.mem_range.1 hj)]] at this
  have hst : ∀ k, ∀ i < U.n, states U.P.x0 (stored U M x d) k i = x k i := by
    intro k i hi
    cases k with
    | zero => exact (hx0 i hi).symm
    | succ k => simp only [states, stored, if_pos hi]
  have hslave : ∀ k c, control U.t U.P M.u M.y ((List.range k).map (stored U M x d)) = some c →
      ∃ s, slaveRun U M tStart (calls U x d k) = some s ∧ ∀ j < U.p, fmiGetReal U s j = some (c.u j) := by
    intro k c hc
    have h := slave_history U M hM tStart (calls U x d k)
    rw [(cosim_readings U M he tStart x d hd k).1, hc] at h
    obtain ⟨s, h1, _, _, _, h5⟩ := h
    exact ⟨s, h1, fun j hj => by rw [h5, if_pos hj]⟩
  obtain ⟨c, h1, h2, h3⟩ := hybrid_controller U.t U.P hN M.u M.y U.n U.p A B regions bound hr hb solve hsolve hcontrol
    (stored U M x d) q hq (hmem _ _ _ (fun i hi => hx0 i hi) hin) hmove (by
      intro k c hc i hi
      obtain ⟨s, hs, hu⟩ := hslave k c hc
      rw [hst _ i hi, hdyn k s hs c.u hu i hi]
      congr 1
      exact Finset.sum_congr rfl fun j hj => by rw [hst k j (Finset.mem_range.1 hj)]) k
  obtain ⟨s, hs, hu⟩ := hslave k c h1
  exact ⟨s, c.u, hs, hu, hmem _ _ _ (hst k) h2, h3⟩

/-! ### Example: all hypotheses hold for the controller and the system of the example in `FmuHybridProps.lean` -/

namespace Hybrid

noncomputable def unit : Fixed where
  n := 1
  p := 1
  t := flip
  P := params
  period := 1
  eps := 0

def memory : Memory := ⟨fun _ => 0, fun _ => 0, fun _ => 0, fun _ => 0, []⟩

/-- The states of the system. -/
noncomputable def cx : Nat → Nat → ℚ
  | 0 => fun _ => 1 / 3
  | k + 1 => fun i => if i < 1 then ∑ j ∈ range 1, 1 * cx k j + ∑ j ∈ range 1, 1 *
    input (locs 0 seq (k / 2)) (locs 0 seq (k / 2 + 1)) (2 - k % 2) (cx k) j else 0

theorem stored_eq (k : Nat) : stored unit memory cx (fun _ => []) k = (cx (k + 1), []) := by
  refine Prod.ext ?_ rfl
  funext i
  show (if i < 1 then cx (k + 1) i else 0) = cx (k + 1) i
  by_cases h : i < 1
  · rw [if_pos h]
  · rw [if_neg h, cx]
    simp only [h, if_false]

theorem cosim_states : ∀ k, states params.x0 (stored unit memory cx fun _ => []) k = cx k
  | 0 => rfl
  | k + 1 => congrArg Prod.fst (stored_eq k)

theorem cosim_run (k : Nat) : fsmRun flip (initFsm flip)
      (inputsRead flip params ((List.range k).map (stored unit memory cx fun _ => []))) =
    some ((List.range (k / params.totalSteps + 1)).map seq) := by
  have h := run_flip (inputsRead flip params ((List.range k).map (stored unit memory cx fun _ => []))) 0
  have hl : (inputsRead flip params ((List.range k).map (stored unit memory cx fun _ => []))).length = k / params.totalSteps + 1 := by
    show (everyTick 2 1 _).length + 1 = k / 2 + 1
    rw [length_everyTick, List.length_map, List.length_range]
  rw [hl] at h
  rw [show initFsm flip = ((0 % 2 : Nat) : Int) from rfl, h]
  simp only [Nat.zero_add]

/-- The system in co-simulation is in the regions 0, 0, 1, 1, 0, 0, ... forever. -/
example (k : Nat) : ∃ s u, slaveRun unit memory 0 (calls unit cx (fun _ => []) k) = some s ∧
    (∀ j < 1, fmiGetReal unit s j = some (u j)) ∧ (region ((k / 2 % 2 : Nat) : Int)).Mem (cx k) ∧ bound.Mem u := by
  have h := cosimulation unit memory rfl (le_refl _) 0 (by show 0 < 2; omega) (fun _ => 1) (fun _ => 1) region bound
    (fun _ => rfl) rfl solve
    (fun r g M x _ h => by
      have h : ∃ z, Prob r g M x z := h
      show Prob r g M x (solve r g M x)
      rw [solve, dif_pos h]; exact h.choose_spec)
    (fun r g M x v => rfl) cx (fun _ => []) (fun _ => rfl) seq cosim_run (fun _ _ => rfl)
    ((fromBox_mem 1 _ _ _).2 fun i _ => by norm_num [unit, params, cx])
    (fun m x hx => by
      refine move _ _ ?_ x hx
      show (locs 0 seq m = 0 ∧ locs 0 seq (m + 1) = 1) ∨ (locs 0 seq m = 1 ∧ locs 0 seq (m + 1) = 0)
      rw [locs_eq, locs_eq]
      rcases Nat.mod_two_eq_zero_or_one m with e | e
      · left; rw [e, show (m + 1) % 2 = 1 by omega]; exact ⟨rfl, rfl⟩
      · right; rw [e, show (m + 1) % 2 = 0 by omega]; exact ⟨rfl, rfl⟩)
    (fun k s hs u hu i hi => by
      obtain ⟨c, v, hc, _, hcu⟩ := schedule_at flip params (by show 0 < 2; omega) (fun _ => 0) (fun _ => 0)
        (stored unit memory cx fun _ => []) seq cosim_run k
      have hh := slave_history unit memory rfl 0 (calls unit cx (fun _ => []) k)
      rw [(cosim_readings unit memory (le_refl _) 0 cx (fun _ => []) (fun _ => rfl) k).1] at hh
      rw [show control unit.t unit.P memory.u memory.y ((List.range k).map (stored unit memory cx fun _ => [])) = some c from hc] at hh
      obtain ⟨s', h1, _, _, _, h5⟩ := hh
      rw [hs] at h1
      have h5 := h5 0
      rw [← Option.some.inj h1, hu 0 (by decide)] at h5
      have h5 : u 0 = c.u 0 := Option.some.inj h5
      have hi : i < 1 := hi
      rw [cosim_states] at hcu
      rw [cx]
      simp only [hi, if_true]
      show _ = ∑ j ∈ range 1, 1 * cx k j + ∑ j ∈ range 1, 1 * u j
      rw [Finset.sum_range_one, Finset.sum_range_one, Finset.sum_range_one, h5, hcu]
      rfl) k
  rw [← locs_eq]
  exact h

end Hybrid

end Fmu
end Tulip
