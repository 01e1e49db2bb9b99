import Verif.Transys.FmuCtl
import Verif.Transys.FmuProps
import Mathlib.Tactic.Linarith

/-!
# C138: the schedule of an exported controller

The specification: which discrete inputs the exported controller reads, namely zeros at the start, and then
those of every tick whose number is a multiple of the horizon.
-/

namespace Tulip
namespace Fmu

open Mach LGraph

variable {ν V X U : Type} [DecidableEq ν] [DecidableEq V]

/-- The discrete inputs of the ticks `k`, `2 * k`, ..., when the first of `is` is the tick with number `i`. -/
def everyTick (k : Nat) : Nat → List (X × List Int) → List (List Int)
  | _, [] => []
  | i, c :: is => if i % k = 0 then c.2 :: everyTick k (i + 1) is else everyTick k (i + 1) is

/-- The discrete inputs that the controller reads. -/
def inputsRead (t : Tables) (P : Params X U) (is : List (X × List Int)) : List (List Int) :=
  List.replicate t.nInputValue.length 0 :: everyTick P.totalSteps 1 is

/-- The state of the controller after `n` ticks, the last of which measured `x`: `rs` are the states and
values of the tables so far. -/
structure Follows (P : Params X U) (rs : List (Int × Int)) (n : Nat) (x : X) (c : Ctl X U) : Prop where
  /-- The goal is the last value and the region is the value before it. -/
  goal : ∃ r, rs.getLast? = some r ∧ c.goal = r.2 ∧ c.fsm = r.1
  region : c.dRegion = match rs.dropLast.getLast? with
    | some r => r.2
    | none => P.dRegion0
  /-- The steps left, after the current one, to reach the goal. -/
  steps : c.nSteps = P.totalSteps - 1 - (n % P.totalSteps : Nat)
  state : c.hatx = x
  /-- The input was computed for this region, goal and state, with a horizon that ends at the goal. -/
  input : ∃ u, c.u = P.control c.dRegion c.goal (c.nSteps + 1) x u

theorem everyTick_append (k : Nat) (is : List (X × List Int)) (c : X × List Int) : ∀ i,
    everyTick k i (is ++ [c]) = everyTick k i is ++ if (i + is.length) % k = 0 then [c.2] else [] := by
  induction is with
  | nil => intro i; simp only [List.nil_append, everyTick, List.length_nil, Nat.add_zero]
  | cons d is ih =>
    intro i
    have : i + 1 + is.length = i + (is.length + 1) := by omega
    simp only [List.cons_append, everyTick, ih, List.length_cons, this]
    split <;> simp

theorem fsmRun_append (t : Tables) (a : List (List Int)) : ∀ (q : Int) (x : List Int) (rs : List (Int × Int)),
    fsmRun t q (a ++ [x]) = some rs → ∃ rs' r, rs = rs' ++ [r] ∧ fsmRun t q a = some rs' ∧
      fsmTransition t ((rs'.getLast?.map (·.1)).getD q) x = some r := by
  induction a with
  | nil =>
    intro q x rs h
    simp only [List.nil_append, fsmRun, Option.bind_eq_bind, Option.bind_eq_some_iff] at h
    obtain ⟨r, hr, _, h1, h2⟩ := h
    injection h1 with h1
    injection h2 with h2
    exact ⟨[], r, by rw [← h2, ← h1]; rfl, rfl, by simpa using hr⟩
  | cons y a ih =>
    intro q x rs h
    simp only [List.cons_append, fsmRun, Option.bind_eq_bind, Option.bind_eq_some_iff] at h
    obtain ⟨r, hr, rest, h1, h2⟩ := h
    injection h2 with h2
    obtain ⟨rs', r', e, h3, h4⟩ := ih _ _ _ h1
    refine ⟨r :: rs', r', by rw [← h2, e]; rfl, ?_, ?_⟩
    · simp only [fsmRun, hr, Option.bind_eq_bind, Option.bind_some, h3]
    · rw [List.getLast?_cons]
      cases hl : rs'.getLast? with
      | none => rw [hl] at h4; simpa using h4
      | some z => rw [hl] at h4; simpa using h4

/-- **C138.** The schedule of the exported controller: if the tables are defined on the discrete inputs
that are read, then after initialization and `n` ticks the goal is the value that the tables returned
last, the region is the value before it, the horizon ends when the number of ticks is the next multiple of
the total number of steps, and the input was computed for the last measurement. -/
theorem control_schedule (t : Tables) (P : Params X U) (hN : 0 < P.totalSteps) (u : U) (y : X)
    (is : List (X × List Int)) : ∀ rs, fsmRun t (initFsm t) (inputsRead t P is) = some rs →
    ∃ c, control t P u y is = some c ∧
      Follows P rs is.length ((is.getLast?.map (·.1)).getD P.x0) c := by
  induction is using List.reverseRecOn with
  | nil =>
    intro rs h
    simp only [inputsRead, everyTick, fsmRun, Option.bind_eq_bind, Option.bind_eq_some_iff] at h
    obtain ⟨r, hr, _, h1, h2⟩ := h
    injection h1 with h1
    injection h2 with h2
    subst h1 h2
    refine ⟨_, by simp only [control, initController, hr, Option.bind_eq_bind, Option.bind_some, List.foldlM_nil]; rfl, ?_⟩
    exact ⟨⟨r, rfl, rfl, rfl⟩, rfl, by simp [computeControl], rfl, _, by simp [computeControl]; rfl⟩
  | append_singleton is i ih =>
    intro rs h
    have hsplit : inputsRead t P (is ++ [i]) =
        inputsRead t P is ++ if (1 + is.length) % P.totalSteps = 0 then [i.2] else [] := by
      simp only [inputsRead, everyTick_append, List.cons_append]
    have hrun : ∀ c, control t P u y is = some c → control t P u y (is ++ [i]) = tick t P c i := by
      intro c hc
      simp only [control, Option.bind_eq_bind, Option.bind_eq_some_iff] at hc ⊢
      obtain ⟨c0, h0, h1⟩ := hc
      rw [h0, Option.bind_some, List.foldlM_append, h1]
      simp
    have hmod : (is.length + 1) % P.totalSteps = if (1 + is.length) % P.totalSteps = 0 then 0
        else is.length % P.totalSteps + 1 := by
      have hlt := Nat.mod_lt is.length hN
      rw [Nat.add_comm 1]
      split
      · assumption
      · rename_i hne
        rw [Nat.add_mod] at hne ⊢
        rcases Nat.lt_or_ge 1 P.totalSteps with h1 | h1
        · rw [Nat.mod_eq_of_lt h1] at hne ⊢
          rcases Nat.lt_or_ge (is.length % P.totalSteps + 1) P.totalSteps with h2 | h2
          · exact Nat.mod_eq_of_lt h2
          · have : is.length % P.totalSteps + 1 = P.totalSteps := by omega
            rw [this] at hne; simp at hne
        · have : P.totalSteps = 1 := by omega
          rw [this] at hne; simp [Nat.mod_one] at hne
    rw [hsplit] at h
    by_cases hk : (1 + is.length) % P.totalSteps = 0
    · rw [if_pos hk] at h
      rw [if_pos hk] at hmod
      obtain ⟨rs', r, e, h1, h2⟩ := fsmRun_append t _ _ _ _ h
      obtain ⟨c, hc, hf⟩ := ih rs' h1
      obtain ⟨q, hq, hg, hs⟩ := hf.goal
      rw [hq] at h2
      simp only [Option.map_some, Option.getD_some] at h2
      have hle : c.nSteps ≤ 0 := by
        have hlt := Nat.mod_lt is.length hN
        have : is.length % P.totalSteps + 1 = P.totalSteps := by
          by_contra hc'
          have : (is.length + 1) % P.totalSteps = is.length % P.totalSteps + 1 := by
            rw [Nat.add_mod]
            rcases Nat.lt_or_ge 1 P.totalSteps with h1 | h1
            · rw [Nat.mod_eq_of_lt h1]; exact Nat.mod_eq_of_lt (by omega)
            · have : P.totalSteps = 1 := by omega
              rw [this] at hc'; simp [Nat.mod_one] at hc'
          omega
        rw [hf.steps]; omega
      refine ⟨computeControl P { c with
        y := i.1, dInput := i.2, hatx := i.1, dRegion := c.goal, nSteps := P.totalSteps, goal := r.2, fsm := r.1 }, ?_, ?_⟩
      · rw [hrun c hc, tick, transitionFunction]
        simp only [hle, if_true, hs, h2]
      · subst e
        refine ⟨⟨r, by simp, rfl, rfl⟩, ?_, ?_, ?_, ?_⟩
        · simp only [computeControl, List.dropLast_concat, hq, hg]
        · simp only [computeControl, List.length_append, List.length_cons, List.length_nil, Nat.zero_add, hmod]
          omega
        · simp [computeControl]
        · exact ⟨c.u, by simp [computeControl]⟩
    · rw [if_neg hk, List.append_nil] at h
      rw [if_neg hk] at hmod
      obtain ⟨c, hc, hf⟩ := ih rs h
      have hgt : ¬ c.nSteps ≤ 0 := by
        have hlt := Nat.mod_lt (is.length + 1) hN
        rw [hf.steps]; omega
      refine ⟨computeControl P { c with y := i.1, dInput := i.2, hatx := i.1 }, ?_, ?_⟩
      · rw [hrun c hc, tick, transitionFunction]
        simp only [hgt, if_false]
      · refine ⟨hf.goal, hf.region, ?_, ?_, ?_⟩
        · simp only [computeControl, List.length_append, List.length_cons, List.length_nil, Nat.zero_add, hmod, hf.steps]
          push_cast
          ring
        · simp [computeControl]
        · exact ⟨c.u, by simp [computeControl]⟩

/-- **C138.** For the tables exported from a deterministic controller: if the discrete inputs that are read
encode the inputs of a path of the controller from its initial state, then the goal is the location that
the last edge of the path outputs, and the region is the location that the edge before it outputs. -/
theorem control_follows {toInt : V → Option Int} {m : Machine ν V} (ok : Exportable toInt m) (hd : Det m)
    {pick : Nat} {s0 : ν} (h0 : m.graph.initial[pick]? = some s0) (P : Params X U) (hN : 0 < P.totalSteps)
    (u : U) (y : X) : ∃ tab m', mealyexport toInt m pick = .ok (tab, m') ∧
      ∀ is es, Path m s0 es → List.Forall₂ (fun e xs => Encodes m.inputs e.2.2 xs) es (inputsRead tab P is) →
      ∃ c rs, control tab P u y is = some c ∧ Follows P rs is.length ((is.getLast?.map (·.1)).getD P.x0) c ∧
        List.Forall₂ (Shows toInt m) es rs := by
  obtain ⟨tab, m', h1, h2⟩ := mealyexport_simulates ok hd h0
  refine ⟨tab, m', h1, fun is es hp hx => ?_⟩
  obtain ⟨rs, h3, h4⟩ := h2 es hp _ hx
  obtain ⟨c, hc, hf⟩ := control_schedule tab P hN u y is rs h3
  exact ⟨c, rs, hc, hf, h4⟩

/-! ## Timing -/

/-- The number of ticks. -/
def ticks (rs : List (Status × Bool × Clock)) : Nat := (rs.filter fun r => r.2.1).length

/-- The call ends within the tolerance of the given time. -/
def Near (eps : ℚ) (c : ℚ × ℚ) (time : ℚ) : Prop := time - eps ≤ c.1 + c.2 ∧ c.1 + c.2 ≤ time + eps

theorem doSteps_append (period eps : ℚ) (cs : List (ℚ × ℚ)) (c : ℚ × ℚ) : ∀ k,
    doSteps period eps k (cs ++ [c]) = doSteps period eps k cs ++
      [doStep period eps (((doSteps period eps k cs).getLast?.map (·.2.2)).getD k) c.1 c.2] := by
  induction cs with
  | nil => intro k; simp [doSteps]
  | cons d cs ih =>
    intro k
    simp only [List.cons_append, doSteps, ih]
    rw [List.getLast?_cons]
    cases (doSteps period eps (doStep period eps k d.1 d.2).2.2 cs).getLast? <;> simp

/-- The clock after the given calls. -/
def clockAfter (period eps tStart : ℚ) (cs : List (ℚ × ℚ)) : Clock :=
  ((doSteps period eps (clockInit tStart) cs).getLast?.map (·.2.2)).getD (clockInit tStart)

theorem clock_inv (period eps tStart : ℚ) (cs : List (ℚ × ℚ)) :
    (clockAfter period eps tStart cs).count = ticks (doSteps period eps (clockInit tStart) cs) ∧
      ((clockAfter period eps tStart cs).atBreakpoint = true → ∃ (j : Nat) (c : ℚ × ℚ) (r : Status × Bool × Clock), cs[j]? = some c ∧
        (doSteps period eps (clockInit tStart) cs)[j]? = some r ∧ r.1 = .ok ∧ r.2.1 = false ∧
        Near eps c (period * ((clockAfter period eps tStart cs).count + 1))) := by
  induction cs using List.reverseRecOn with
  | nil => simp [clockAfter, doSteps, ticks, clockInit]
  | append_singleton cs c ih =>
    have hlen : ∀ k, (doSteps period eps k cs).length = cs.length := by
      clear ih
      induction cs with
      | nil => intro k; rfl
      | cons d cs ih => intro k; simp [doSteps, ih]
    obtain ⟨ih1, ih2⟩ := ih
    have e : doSteps period eps (clockInit tStart) (cs ++ [c]) = doSteps period eps (clockInit tStart) cs ++
        [doStep period eps (clockAfter period eps tStart cs) c.1 c.2] := doSteps_append _ _ _ _ _
    have e2 : clockAfter period eps tStart (cs ++ [c]) = (doStep period eps (clockAfter period eps tStart cs) c.1 c.2).2.2 := by
      rw [clockAfter, e]; simp
    have keep : ∀ k' : Clock, k'.count = (clockAfter period eps tStart cs).count →
        (k'.atBreakpoint = true → (clockAfter period eps tStart cs).atBreakpoint = true) →
        k'.atBreakpoint = true → ∃ (j : Nat) (d : ℚ × ℚ) (r : Status × Bool × Clock), (cs ++ [c])[j]? = some d ∧
        (doSteps period eps (clockInit tStart) cs ++ [doStep period eps (clockAfter period eps tStart cs) c.1 c.2])[j]? = some r ∧
        r.1 = .ok ∧ r.2.1 = false ∧ Near eps d (period * (k'.count + 1)) := by
      intro k' h1 h2 h3
      obtain ⟨j, d, r, a1, a2, a3, a4, a5⟩ := ih2 (h2 h3)
      have hj : j < cs.length := by
        by_contra hc; rw [List.getElem?_eq_none (by omega)] at a1; simp at a1
      refine ⟨j, d, r, ?_, ?_, a3, a4, by rw [h1]; exact a5⟩
      · rw [List.getElem?_append_left hj]; exact a1
      · rw [List.getElem?_append_left (by rw [hlen]; exact hj)]; exact a2
    rw [e2, e]
    have ht : ticks (doSteps period eps (clockInit tStart) cs ++
        [doStep period eps (clockAfter period eps tStart cs) c.1 c.2]) =
        (clockAfter period eps tStart cs).count +
          if (doStep period eps (clockAfter period eps tStart cs) c.1 c.2).2.1 then 1 else 0 := by
      rw [ih1, ticks, ticks, List.filter_append, List.length_append]
      congr 1
      rw [List.filter_cons]
      split <;> rfl
    rw [ht]
    generalize hk : clockAfter period eps tStart cs = k at *
    by_cases c1 : c.1 + c.2 ≥ period * (k.count + 1) - eps
    · by_cases c2 : c.1 + c.2 > period * (k.count + 1) + eps
      · have hd : doStep period eps k c.1 c.2 = (.discard, false, { k with last := period * (k.count + 1) }) := by
          simp only [doStep, c1, c2, if_true]
        rw [hd] at keep ⊢
        exact ⟨by simp, fun h => keep _ rfl (fun h => h) h⟩
      · by_cases c3 : k.atBreakpoint = true
        · have hd : doStep period eps k c.1 c.2 =
              (.ok, true, { count := k.count + 1, atBreakpoint := false, last := c.1 + c.2 }) := by
            simp only [doStep, c1, c2, c3, if_true, if_false]
          rw [hd]
          exact ⟨by simp, fun h => by simp at h⟩
        · have hd : doStep period eps k c.1 c.2 =
              (.ok, false, { k with atBreakpoint := true, last := c.1 + c.2 }) := by
            simp only [doStep, c1, c2, c3, if_true, if_false, Bool.false_eq_true]
          rw [hd]
          refine ⟨by simp, fun _ => ⟨cs.length, c, (.ok, false, { k with atBreakpoint := true, last := c.1 + c.2 }), by simp,
            ?_, rfl, rfl, c1, not_lt.1 c2⟩⟩
          rw [List.getElem?_append_right (by rw [hlen]), hlen]; simp
    · have hd : doStep period eps k c.1 c.2 = (.ok, false, { k with last := c.1 + c.2 }) := by
        simp only [doStep, c1, if_false]
      rw [hd] at keep ⊢
      exact ⟨by simp, fun h => keep _ rfl (fun h => h) h⟩

/-- **C138.** For every history of calls of `fmiDoStep`: a call that makes the tick with number `n` ends
within the tolerance of the time `n * period`, and an earlier call, without a tick, ended there as well. -/
theorem doStep_tick (period eps tStart : ℚ) (cs : List (ℚ × ℚ)) (c : ℚ × ℚ)
    (h : (doStep period eps (clockAfter period eps tStart cs) c.1 c.2).2.1 = true) :
    ∃ n : Nat, n = ticks (doSteps period eps (clockInit tStart) cs) + 1 ∧ Near eps c (period * n) ∧
      ∃ (j : Nat) (d : ℚ × ℚ) (r : Status × Bool × Clock), cs[j]? = some d ∧ (doSteps period eps (clockInit tStart) cs)[j]? = some r ∧
        r.1 = .ok ∧ r.2.1 = false ∧ Near eps d (period * n) := by
  obtain ⟨h1, h2⟩ := clock_inv period eps tStart cs
  generalize hk : clockAfter period eps tStart cs = k at *
  refine ⟨_, rfl, ?_⟩
  have hn : ((ticks (doSteps period eps (clockInit tStart) cs) + 1 : Nat) : ℚ) = (k.count : ℚ) + 1 := by
    rw [← h1]; push_cast; rfl
  rw [hn]
  by_cases c1 : c.1 + c.2 ≥ period * (k.count + 1) - eps
  · by_cases c2 : c.1 + c.2 > period * (k.count + 1) + eps
    · simp only [doStep, c1, c2, if_true, Bool.false_eq_true] at h
    · by_cases c3 : k.atBreakpoint = true
      · exact ⟨⟨c1, not_lt.1 c2⟩, h2 c3⟩
      · simp only [doStep, c1, c2, c3, if_true, if_false, Bool.false_eq_true] at h
  · simp only [doStep, c1, if_false, Bool.false_eq_true] at h

/-- **C138.** A call is discarded if and only if it would end later than the time of the next tick; it then
reports that time and has no other effect. -/
theorem doStep_discard (period eps tStart : ℚ) (he : 0 ≤ eps) (cs : List (ℚ × ℚ)) (c : ℚ × ℚ) :
    ((doStep period eps (clockAfter period eps tStart cs) c.1 c.2).1 = .discard ↔
      period * (ticks (doSteps period eps (clockInit tStart) cs) + 1 : Nat) + eps < c.1 + c.2) ∧
    ((doStep period eps (clockAfter period eps tStart cs) c.1 c.2).1 = .discard →
      (doStep period eps (clockAfter period eps tStart cs) c.1 c.2).2.1 = false ∧
      (doStep period eps (clockAfter period eps tStart cs) c.1 c.2).2.2 = { clockAfter period eps tStart cs with
        last := period * (ticks (doSteps period eps (clockInit tStart) cs) + 1 : Nat) }) := by
  obtain ⟨h1, _⟩ := clock_inv period eps tStart cs
  generalize hk : clockAfter period eps tStart cs = k at *
  have hn : ((ticks (doSteps period eps (clockInit tStart) cs) + 1 : Nat) : ℚ) = (k.count : ℚ) + 1 := by
    rw [← h1]; push_cast; rfl
  rw [hn]
  by_cases c2 : c.1 + c.2 > period * (k.count + 1) + eps
  · have c1 : c.1 + c.2 ≥ period * (k.count + 1) - eps := by
      have := le_of_lt c2; linarith
    simp only [doStep, c1, c2, if_true]
    simp
  · have hnd : (doStep period eps k c.1 c.2).1 ≠ .discard := by
      simp only [doStep, c2, if_false]
      split
      · split <;> simp
      · simp
    exact ⟨⟨fun h => absurd h hnd, fun h => absurd h c2⟩, fun h => absurd h hnd⟩

/-- **C138.** After a call that is not discarded, the last successful time is the end of the call. -/
theorem doStep_last (period eps : ℚ) (k : Clock) (c : ℚ × ℚ) (h : (doStep period eps k c.1 c.2).1 = .ok) :
    (doStep period eps k c.1 c.2).2.2.last = c.1 + c.2 := by
  by_cases c1 : c.1 + c.2 ≥ period * (k.count + 1) - eps
  · by_cases c2 : c.1 + c.2 > period * (k.count + 1) + eps
    · simp [doStep, c1, c2] at h
    · by_cases c3 : k.atBreakpoint = true
      · simp only [doStep, c1, c2, c3, if_true, if_false]
      · simp only [doStep, c1, c2, c3, if_true, if_false, Bool.false_eq_true]
  · simp only [doStep, c1, if_false]

/-- Calls without ticks keep the number of ticks and the fact that the time of the next tick was reached. -/
theorem doSteps_keep (period eps : ℚ) (ds : List (ℚ × ℚ)) : ∀ k : Clock, k.atBreakpoint = true →
    (∀ r ∈ doSteps period eps k ds, r.2.1 = false) →
    (((doSteps period eps k ds).getLast?.map (·.2.2)).getD k).atBreakpoint = true ∧
      (((doSteps period eps k ds).getLast?.map (·.2.2)).getD k).count = k.count := by
  induction ds with
  | nil => intro k hk _; exact ⟨hk, rfl⟩
  | cons d ds ih =>
    intro k hk h
    simp only [doSteps, List.forall_mem_cons] at h
    have hd : (doStep period eps k d.1 d.2).2.2.atBreakpoint = true ∧ (doStep period eps k d.1 d.2).2.2.count = k.count := by
      have h1 := h.1
      revert h1
      simp only [doStep, hk, if_true]
      split
      · split
        · intro _; exact ⟨rfl, rfl⟩
        · intro h; simp at h
      · intro _; exact ⟨rfl, rfl⟩
    have := ih _ hd.1 h.2
    rw [hd.2] at this
    simp only [doSteps, List.getLast?_cons, Option.map_some, Option.getD_some]
    cases hl : (doSteps period eps (doStep period eps k d.1 d.2).2.2 ds).getLast? with
    | none => rw [hl] at this; simpa using this
    | some r => rw [hl] at this; simpa using this

/-- **C138.** The second call that ends at the time of the next tick makes it: if the call `d` ended there, and neither it nor
the calls `ds` after it made a tick, a call that ends there makes the tick. -/
theorem doStep_second (period eps tStart : ℚ) (cs ds : List (ℚ × ℚ)) (d c : ℚ × ℚ) (n : Nat)
    (hn : n = ticks (doSteps period eps (clockInit tStart) cs) + 1) (hd : Near eps d (period * n))
    (hno : ∀ r ∈ doSteps period eps (clockAfter period eps tStart cs) (d :: ds), r.2.1 = false)
    (hc : Near eps c (period * n)) :
    (doStep period eps (((doSteps period eps (clockAfter period eps tStart cs) (d :: ds)).getLast?.map (·.2.2)).getD
      (clockAfter period eps tStart cs)) c.1 c.2).1 = .ok ∧
    (doStep period eps (((doSteps period eps (clockAfter period eps tStart cs) (d :: ds)).getLast?.map (·.2.2)).getD
      (clockAfter period eps tStart cs)) c.1 c.2).2.1 = true := by
  obtain ⟨h1, _⟩ := clock_inv period eps tStart cs
  generalize hk : clockAfter period eps tStart cs = k at *
  have hn' : (n : ℚ) = (k.count : ℚ) + 1 := by rw [hn, ← h1]; push_cast; rfl
  rw [hn'] at hd hc
  have h0 : (doStep period eps k d.1 d.2).2.2.atBreakpoint = true ∧ (doStep period eps k d.1 d.2).2.2.count = k.count := by
    have h2 := hno _ (by simp only [doSteps]; exact List.mem_cons_self)
    revert h2
    simp only [doStep, if_pos (show d.1 + d.2 ≥ period * (k.count + 1) - eps from hd.1),
      if_neg (not_lt.2 hd.2 : ¬ d.1 + d.2 > period * (k.count + 1) + eps)]
    split
    · intro h; simp at h
    · intro _; exact ⟨rfl, rfl⟩
  have h2 := doSteps_keep period eps ds _ h0.1 fun r hr => hno r (by simp only [doSteps]; exact List.mem_cons_of_mem _ hr)
  rw [h0.2] at h2
  have h3 : ((doSteps period eps k (d :: ds)).getLast?.map (·.2.2)).getD k =
      ((doSteps period eps (doStep period eps k d.1 d.2).2.2 ds).getLast?.map (·.2.2)).getD
        (doStep period eps k d.1 d.2).2.2 := by
    simp only [doSteps, List.getLast?_cons]
    cases (doSteps period eps (doStep period eps k d.1 d.2).2.2 ds).getLast? <;> rfl
  rw [h3]
  generalize ((doSteps period eps (doStep period eps k d.1 d.2).2.2 ds).getLast?.map (·.2.2)).getD
        (doStep period eps k d.1 d.2).2.2 = k' at h2
  simp only [doStep, h2.2, h2.1, if_pos (show c.1 + c.2 ≥ period * (k.count + 1) - eps from hc.1),
      if_neg (not_lt.2 hc.2 : ¬ c.1 + c.2 > period * (k.count + 1) + eps), if_true]
  exact ⟨trivial, trivial⟩

/-- **C138.** A master that always makes the maximal step is never discarded, and every second step is a
tick, exactly at the multiples of the period. -/
theorem master_ticks (period eps tStart : ℚ) (he : 0 ≤ eps) (n : Nat) :
    (master period eps (2 * n) (clockInit tStart)).map (fun r => (r.1, r.2.1, r.2.2.count, r.2.2.last)) =
      (List.range n).flatMap fun i => [(Status.ok, false, i, period * ((i + 1 : Nat) : ℚ)),
        (Status.ok, true, i + 1, period * ((i + 1 : Nat) : ℚ))] := by
  have key : ∀ n j, ∀ k : Clock, k.count = j → k.atBreakpoint = false →
      (master period eps (2 * n) k).map (fun r => (r.1, r.2.1, r.2.2.count, r.2.2.last)) =
      (List.range' j n).flatMap fun i => [(Status.ok, false, i, period * ((i + 1 : Nat) : ℚ)),
        (Status.ok, true, i + 1, period * ((i + 1 : Nat) : ℚ))] := by
    intro n
    induction n with
    | zero => intro j k _ _; simp [master]
    | succ n ih =>
      intro j k hj hb
      have e1 : doStep period eps k k.last (maxStepSize period k) =
          (.ok, false, { k with atBreakpoint := true, last := period * (k.count + 1) }) := by
        have hs : k.last + maxStepSize period k = period * (k.count + 1) := by
          rw [maxStepSize, hb]; simp
        simp only [doStep, hs]
        rw [if_pos (by linarith), if_neg (by linarith), hb]
        simp
      have e2 : ∀ k' : Clock, k'.atBreakpoint = true → k'.last = period * (k'.count + 1) →
          doStep period eps k' k'.last (maxStepSize period k') =
          (.ok, true, { count := k'.count + 1, atBreakpoint := false, last := period * (k'.count + 1) }) := by
        intro k' h1 h2
        have hs : k'.last + maxStepSize period k' = period * (k'.count + 1) := by
          rw [maxStepSize, h1, h2]; simp
        simp only [doStep, hs]
        rw [if_pos (by linarith), if_neg (by linarith), h1]
        simp
      have : 2 * (n + 1) = (2 * n + 1) + 1 := by ring
      rw [this, master, master, e1]
      simp only []
      rw [e2 _ rfl rfl]
      simp only [List.map_cons]
      rw [ih (j + 1) _ (by simp [hj]) rfl, List.range'_succ]
      simp [hj]
  rw [List.range_eq_range']
  exact key n 0 _ rfl rfl

/-! ### Examples -/

/-- Two steps for each move; the input records its arguments. -/
def demo : Params Nat (List Int) where
  totalSteps := 2
  x0 := 9
  dRegion0 := 7
  control := fun r g n x _ => [r, g, n, x]

/-- A controller that goes back and forth between the locations 5 and 7, or stays if it is told to. -/
def shuttle : Machine String Nat where
  graph := {
    nodes := [("a", []), ("b", [])]
    initial := ["b"]
    edges := [("a", "b", [("stay", 0), ("loc", 7)]), ("a", "a", [("stay", 1), ("loc", 5)]),
      ("b", "a", [("stay", 0), ("loc", 5)]), ("b", "b", [("stay", 1), ("loc", 7)])] }
  inputs := [("stay", [0, 1])]
  outputs := [("loc", [5, 7])]

def shuttleTables : Option Tables := (mealyexport (fun n : Nat => some (n : Int)) shuttle 0).toOption.map (·.1)

theorem shuttle_ok : Exportable (fun n : Nat => some (n : Int)) shuttle ∧ Det shuttle ∧
    shuttle.graph.initial[0]? = some "b" := by
  refine ⟨⟨by decide +kernel, by decide +kernel, by decide +kernel, by decide +kernel, ?_, ?_⟩, ?_, by decide +kernel⟩
  · have : ∀ e ∈ shuttle.graph.edges, ∀ p ∈ shuttle.inputs, (p.2.any fun v => decide (e.2.2.get? p.1 = some v)) = true := by
      decide +kernel
    intro e he p hp
    obtain ⟨v, hv, h⟩ := List.any_eq_true.1 (this e he p hp)
    exact ⟨v, hv, by simpa using h⟩
  · have : ∀ e ∈ shuttle.graph.edges, (e.2.2.get? "loc").isSome = true := by decide +kernel
    intro e he
    obtain ⟨v, hv⟩ := Option.isSome_iff_exists.1 (this e he)
    exact ⟨v, v, hv, rfl⟩
  · intro e he f hf h1 h2
    have h3 := restrict_ext_of_get? h2 "stay" (by decide +kernel)
    clear h2
    revert f e
    decide +kernel

/-- Only the second and the fourth of the five inputs are read: stay, then move. -/
example : (shuttleTables.bind fun t => (control t demo [] 0 [(1, [0]), (2, [1]), (3, [0]), (4, [0]), (5, [1])]).map
    fun c => (c.dRegion, c.goal, c.nSteps, c.u)) = some (5, 7, 0, [5, 7, 1, 5]) ∧
    (shuttleTables.bind fun t => (control t demo [] 0 [(1, [0]), (2, [1]), (3, [0])]).map
    fun c => (c.dRegion, c.goal, c.nSteps, c.u)) = some (5, 5, 0, [5, 5, 1, 3]) := by decide +kernel

/-- The hypotheses of `control_follows` hold for a path whose second input is read at the second tick. -/
example : (shuttleTables.map fun t => inputsRead t demo [(1, [0]), (2, [1]), (3, [0])]) = some [[0], [1]] ∧
    Path shuttle "b" [("b", "a", [("stay", 0), ("loc", 5)]), ("a", "a", [("stay", 1), ("loc", 5)])] ∧
    List.Forall₂ (fun (e : String × String × Attr Nat) xs => Encodes shuttle.inputs e.2.2 xs)
      [("b", "a", [("stay", 0), ("loc", 5)]), ("a", "a", [("stay", 1), ("loc", 5)])] [[0], [1]] := by
  refine ⟨by decide +kernel, ⟨by decide +kernel, rfl, by decide +kernel, rfl, trivial⟩, ?_⟩
  exact .cons (.cons ⟨by decide, 0, by decide +kernel, by decide +kernel⟩ .nil)
    (.cons (.cons ⟨by decide, 1, by decide +kernel, by decide +kernel⟩ .nil) .nil)

/-- A master with steps of three quarters of a period: the third call, which would end after the next tick,
is discarded, the fourth arrives at the time of the tick and the fifth makes it. -/
example : (doSteps 2 0 (clockInit 0) [(0, 3 / 4), (3 / 4, 3 / 4), (3 / 2, 3 / 4), (3 / 2, 1 / 2), (2, 0)]).map
      (fun r => (r.1, r.2.1, r.2.2.count, r.2.2.last)) =
    [(.ok, false, 0, 3 / 4), (.ok, false, 0, 3 / 2), (.discard, false, 0, 2), (.ok, false, 0, 2), (.ok, true, 1, 2)] := by
  decide +kernel

/-- The hypotheses of `doStep_second` hold with a discarded call in between. -/
example : Near 0 (3 / 2, 1 / 2) (2 * (1 : Nat)) ∧
    (∀ r ∈ doSteps 2 0 (clockAfter 2 0 0 [(0, 3 / 2)]) [(3 / 2, 1 / 2), (2, 1)], r.2.1 = false) ∧
    (doSteps 2 0 (clockAfter 2 0 0 [(0, 3 / 2)]) [(3 / 2, 1 / 2), (2, 1)]).map (·.1) = [.ok, .discard] := by
  refine ⟨⟨by norm_num, by norm_num⟩, ?_, by decide +kernel⟩
  have : ((doSteps 2 0 (clockAfter 2 0 0 [(0, 3 / 2)]) [(3 / 2, 1 / 2), (2, 1)]).all fun r => !r.2.1) = true := by decide +kernel
  simpa using this

end Fmu
end Tulip
