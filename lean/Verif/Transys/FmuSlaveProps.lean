import Verif.Transys.FmuSlave
import Verif.Transys.FmuCtlProps

/-!
# C141: the variables of an exported unit
-/

namespace Tulip
namespace Fmu

/-! ## Specification -/

/-- The value that the calls last gave to the real variable with the reference `r`, or `d`. -/
def lastReal (r : Nat) (d : ℚ) : List Call → ℚ
  | [] => d
  | .setReal vr v :: cs => lastReal r (if vr = r then v else d) cs
  | _ :: cs => lastReal r d cs

/-- The value that the calls last gave to the integer variable with the reference `r`, or `d`. -/
def lastInt (r : Nat) (d : Int) : List Call → Int
  | [] => d
  | .setInteger vr v :: cs => lastInt r (if vr = r then v else d) cs
  | _ :: cs => lastInt r d cs

/-- The requests of steps. -/
def stepsOf : List Call → List (ℚ × ℚ)
  | [] => []
  | .step a b :: cs => (a, b) :: stepsOf cs
  | _ :: cs => stepsOf cs

/-- The measurement and the discrete inputs according to the variables in `modelDescription.xml`: `y0`, `y1`, ... have the
references from `p` on, and the inputs of the controller those from `p + n` on. -/
def reading (U : Fixed) (M : Memory) (cs : List Call) : (Nat → ℚ) × List Int :=
  (fun i => if i < U.n then lastReal (U.p + i) (M.input i) cs else M.input i,
    (List.range U.t.nInputValue.length).map fun i => lastInt (U.p + U.n + i) (M.dInput.getD i 0) cs)

/-- What is read at the ticks of the calls `cs` after the calls `before`. -/
def readings (U : Fixed) (M : Memory) (tStart : ℚ) : List Call → List Call → List ((Nat → ℚ) × List Int)
  | _, [] => []
  | before, c :: cs =>
    (match c with
      | .step a b => if (doStep U.period U.eps (clockAfter U.period U.eps tStart (stepsOf before)) a b).2.1
          then [reading U M before] else []
      | _ => []) ++ readings U M tStart (before ++ [c]) cs

/-! ## Proofs -/

theorem lastReal_append (r : Nat) (c : Call) (cs : List Call) : ∀ d, lastReal r d (cs ++ [c]) =
    match c with
    | .setReal vr v => if vr = r then v else lastReal r d cs
    | _ => lastReal r d cs := by
  induction cs with
  | nil => intro d; cases c <;> simp [lastReal]
  | cons e cs ih => intro d; cases e <;> simp only [List.cons_append, lastReal, ih]

theorem lastInt_append (r : Nat) (c : Call) (cs : List Call) : ∀ d, lastInt r d (cs ++ [c]) =
    match c with
    | .setInteger vr v => if vr = r then v else lastInt r d cs
    | _ => lastInt r d cs := by
  induction cs with
  | nil => intro d; cases c <;> simp [lastInt]
  | cons e cs ih => intro d; cases e <;> simp only [List.cons_append, lastInt, ih]

theorem stepsOf_append (a b : List Call) : stepsOf (a ++ b) = stepsOf a ++ stepsOf b := by
  induction a with
  | nil => rfl
  | cons c a ih => cases c <;> simp [stepsOf, ih]

theorem readings_append (U : Fixed) (M : Memory) (tStart : ℚ) (c : Call) (cs : List Call) : ∀ before,
    readings U M tStart before (cs ++ [c]) = readings U M tStart before cs ++
      match c with
      | .step a b => if (doStep U.period U.eps (clockAfter U.period U.eps tStart (stepsOf (before ++ cs))) a b).2.1
          then [reading U M (before ++ cs)] else []
      | _ => [] := by
  induction cs with
  | nil => intro before; simp [readings]
  | cons e cs ih => intro before; simp only [List.cons_append, readings, ih, List.append_assoc, List.nil_append]

theorem clockAfter_append (period eps tStart : ℚ) (cs : List (ℚ × ℚ)) (c : ℚ × ℚ) :
    clockAfter period eps tStart (cs ++ [c]) = (doStep period eps (clockAfter period eps tStart cs) c.1 c.2).2.2 := by
  rw [clockAfter, doSteps_append]
  simp [clockAfter]

theorem control_append (t : Tables) (P : Params X U) (u : U) (y : X) (is : List (X × List Int)) (i : X × List Int) :
    control t P u y (is ++ [i]) = (control t P u y is).bind fun c => tick t P c i := by
  simp only [control, List.foldlM_append, Option.bind_eq_bind, List.foldlM_cons, List.foldlM_nil, Option.bind_assoc]
  congr 1
  funext c
  congr 1
  funext d
  cases tick t P d i <;> rfl

/-- **C141.** After every history of calls: what is stored for the variables `y0`, `y1`, ... and for the inputs of the
controller, by the references in `modelDescription.xml`, is what the master set last; the time is that of C138 for the
requests of steps; the controller is in the state of C138 after ticks at which it reads these values; and the values of
`u0`, `u1`, ... are the inputs that the controller computed last. The calls are undefined exactly when the ticks are, which
is when the tables have no entry for the discrete inputs. -/
theorem slave_history (U : Fixed) (M : Memory) (hM : M.dInput.length = U.t.nInputValue.length) (tStart : ℚ) (cs : List Call) :
    match control U.t U.P M.u M.y (readings U M tStart [] cs) with
    | none => slaveRun U M tStart cs = none
    | some c => ∃ s, slaveRun U M tStart cs = some s ∧ s.ctl = c ∧ (s.input, s.dInput) = reading U M cs ∧
        s.clock = clockAfter U.period U.eps tStart (stepsOf cs) ∧
        ∀ vr, fmiGetReal U s vr = if vr < U.p then some (c.u vr) else none := by
  induction cs using List.reverseRecOn with
  | nil =>
    simp only [readings, control, List.foldlM_nil, slaveRun, slaveInit, Option.bind_eq_bind]
    cases h : initController U.t U.P M.u M.y with
    | none => rfl
    | some c =>
      simp only [Option.bind_some]
      refine ⟨_, rfl, rfl, ?_, rfl, ?_⟩
      · simp only [reading, lastReal, lastInt, ite_self]
        congr 1
        apply List.ext_getElem
        · rw [List.length_map, List.length_range, hM]
        · intro i h1 h2
          simp [List.getD_eq_getElem?_getD, h1]
      · intro vr
        simp only [fmiGetReal, outputFunction]
        split <;> rfl
  | append_singleton cs c ih =>
    have hrun : slaveRun U M tStart (cs ++ [c]) = (slaveRun U M tStart cs).bind fun s => c.run U s := by
      simp only [slaveRun, List.foldlM_append, Option.bind_eq_bind, List.foldlM_cons, List.foldlM_nil, Option.bind_assoc]
      congr 1
      funext s
      congr 1
      funext s'
      cases Call.run U s' c <;> rfl
    rw [hrun, readings_append, List.nil_append]
    cases hc : control U.t U.P M.u M.y (readings U M tStart [] cs) with
    | none =>
      rw [hc] at ih
      have ih : slaveRun U M tStart cs = none := ih
      have : ∀ l, control U.t U.P M.u M.y (readings U M tStart [] cs ++ l) = none := by
        intro l
        simp only [control, List.foldlM_append, Option.bind_eq_bind] at hc ⊢
        cases h : initController U.t U.P M.u M.y with
        | none => rfl
        | some c =>
          rw [h, Option.bind_some] at hc
          rw [Option.bind_some, hc]; rfl
      rw [this, ih]
      rfl
    | some ctl =>
      rw [hc] at ih
      obtain ⟨s, h1, h2, h3, h4, h5⟩ := ih
      rw [h1, Option.bind_some]
      have hin := congrArg Prod.fst h3
      have hd := congrArg Prod.snd h3
      simp only [reading] at hin hd
      cases c with
      | setReal vr v =>
        simp only [List.append_nil, hc]
        refine ⟨_, rfl, ?_, ?_, ?_, ?_⟩
        · simp only [fmiSetReal]; split <;> exact h2
        · have e2 : (fmiSetReal U s vr v).dInput = s.dInput := by simp only [fmiSetReal]; split <;> rfl
          have e1 : (fmiSetReal U s vr v).input = (reading U M (cs ++ [.setReal vr v])).1 := by
            funext i
            simp only [reading, lastReal_append]
            by_cases hv : vr ≥ U.p ∧ vr < U.p + U.n
            · simp only [fmiSetReal, if_pos hv]
              by_cases e : i = vr - U.p
              · rw [if_pos e, if_pos (by omega), if_pos (by omega)]
              · rw [if_neg e, hin]
                simp only []
                split
                · rw [if_neg (by omega)]
                · rfl
            · simp only [fmiSetReal, if_neg hv, hin]
              split
              · rw [if_neg (by omega)]
              · rfl
          rw [e2, e1, hd]
          simp only [reading, lastInt_append]
        · rw [stepsOf_append]
          simp only [stepsOf, List.append_nil, fmiSetReal]
          split <;> exact h4
        · intro x
          rw [← h5 x]
          have e : (fmiSetReal U s vr v).output = s.output := by simp only [fmiSetReal]; split <;> rfl
          simp only [fmiGetReal, e]
      | setInteger vr v =>
        simp only [List.append_nil, hc]
        refine ⟨_, rfl, ?_, ?_, ?_, ?_⟩
        · simp only [fmiSetInteger]; split <;> exact h2
        · have e2 : (fmiSetInteger U s vr v).input = s.input := by simp only [fmiSetInteger]; split <;> rfl
          have e1 : (fmiSetInteger U s vr v).dInput = (reading U M (cs ++ [.setInteger vr v])).2 := by
            simp only [reading, lastInt_append]
            by_cases hv : vr ≥ U.p + U.n ∧ vr < U.p + U.n + U.t.nInputValue.length
            · simp only [fmiSetInteger, if_pos hv, hd]
              apply List.ext_getElem
              · simp
              · intro i a1 a2
                rw [List.getElem_set]
                simp only [List.getElem_map, List.getElem_range]
                by_cases e : vr - U.p - U.n = i
                · rw [if_pos e, if_pos (by omega)]
                · rw [if_neg e, if_neg (by omega)]
            · simp only [fmiSetInteger, if_neg hv, hd]
              apply List.map_congr_left
              intro i hi
              have := List.mem_range.1 hi
              rw [if_neg (by omega)]
          rw [e2, e1, hin]
          simp only [reading, lastReal_append]
        · rw [stepsOf_append]
          simp only [stepsOf, List.append_nil, fmiSetInteger]
          split <;> exact h4
        · intro x
          rw [← h5 x]
          have e : (fmiSetInteger U s vr v).output = s.output := by simp only [fmiSetInteger]; split <;> rfl
          simp only [fmiGetReal, e]
      | step a b =>
        have hr : ∀ cs : List Call, reading U M (cs ++ [.step a b]) = reading U M cs := by
          intro cs; simp only [reading, lastReal_append, lastInt_append]
        have hk : clockAfter U.period U.eps tStart (stepsOf (cs ++ [.step a b])) =
            (doStep U.period U.eps (clockAfter U.period U.eps tStart (stepsOf cs)) a b).2.2 := by
          rw [stepsOf_append]
          exact clockAfter_append _ _ _ _ (a, b)
        simp only []
        by_cases ht : (doStep U.period U.eps (clockAfter U.period U.eps tStart (stepsOf cs)) a b).2.1 = true
        · rw [if_pos ht, control_append, hc, Option.bind_some]
          simp only [Call.run, slaveStep, h4, ht, if_true, h2, h3]
          cases hs : tick U.t U.P ctl (reading U M cs) with
          | none => rfl
          | some c' =>
            refine ⟨_, rfl, rfl, ?_, hk.symm, fun vr => ?_⟩
            · rw [hr]; exact h3
            · simp only [fmiGetReal, outputFunction]
              split <;> rfl
        · rw [if_neg ht, List.append_nil, hc]
          simp only [Call.run, slaveStep, h4, ht, if_false, Bool.false_eq_true, Option.map_some]
          refine ⟨_, rfl, h2, ?_, hk.symm, fun vr => ?_⟩
          · rw [hr]; exact h3
          · rw [← h5 vr]; rfl

/-- **C141.** The references of the variables are different. The references of `y0`, `y1`, ... and of the inputs are those by which
`slave_history` reads them, and those of `u0`, `u1`, ... are those for which `fmiGetReal` returns the inputs computed. -/
theorem xmlVars_refs (n p : Nat) (names : List String) :
    ((xmlVars n p names).map (·.ref)) = List.range (p + n + names.length) ∧
      (∀ i < p, ⟨"u" ++ toString i, i, true, true⟩ ∈ xmlVars n p names) ∧
      (∀ i < n, ⟨"y" ++ toString i, p + i, true, false⟩ ∈ xmlVars n p names) ∧
      (∀ i (h : i < names.length), ⟨names[i], p + n + i, false, false⟩ ∈ xmlVars n p names) := by
  refine ⟨?_, fun i hi => ?_, fun i hi => ?_, fun i hi => ?_⟩
  · have e1 : (List.range p).map (fun i => i) = List.range p := List.map_id _
    simp only [xmlVars, List.map_append, List.map_map, Function.comp_def]
    rw [e1]
    have e2 : names.zipIdx.map (fun x => x.2 + p + n) = (List.range names.length).map fun i => p + n + i := by
      apply List.ext_getElem
      · simp
      · intro i h1 h2
        simp
        omega
    rw [e2, List.range_add, List.range_add]
    congr 2
    exact List.map_congr_left fun i _ => Nat.add_comm _ _
  · exact List.mem_append_left _ (List.mem_append_left _ (List.mem_map.2 ⟨i, List.mem_range.2 hi, rfl⟩))
  · exact List.mem_append_left _ (List.mem_append_right _ (List.mem_map.2 ⟨i, List.mem_range.2 hi, by rw [Nat.add_comm]⟩))
  · refine List.mem_append_right _ (List.mem_map.2 ⟨(names[i], i), ?_, ?_⟩)
    · exact List.mk_mem_zipIdx_iff_getElem?.2 (List.getElem?_eq_getElem hi)
    · simp only [XmlVar.mk.injEq, and_true, true_and]
      omega

/-- The names of the variables may be equal: `exportXML` does not compare the names of the inputs of the controller
with those of the inputs and states of the system. -/
theorem xmlVars_names_counterexample : ∃ names : List String, names.Nodup ∧ ¬ ((xmlVars 1 1 names).map (·.name)).Nodup :=
  ⟨["stay", "u0"], by decide +kernel, by decide +kernel⟩

/-! ### Examples -/

/-- The tables of `shuttle`, two states and one input of the system; the input tells the goal, and the sum of the measured states. -/
def unitDemo (t : Tables) : Fixed where
  n := 2
  p := 1
  t := t
  P := { totalSteps := 1, x0 := fun _ => 0, dRegion0 := 7, control := fun _ g _ x _ => fun i => if i = 0 then 10 * g + x 0 + x 1 else 0 }
  period := 1
  eps := 0

def memoryDemo : Memory := ⟨fun _ => 0, fun _ => 0, fun _ => 0, fun _ => 0, [0]⟩

/-- The master sets `y0`, `y1` and `stay`, and overwrites `y1`; the second request makes a tick. A value for `y0` afterwards
is not read before the next tick, and one with the reference of `u0` never. -/
def historyDemo : List Call :=
  [.setReal 1 3, .setReal 2 4, .setInteger 3 1, .step 0 1, .setReal 2 (1 / 2), .step 1 0, .setReal 1 8, .setReal 0 100]

example : (shuttleTables.bind fun t => (slaveRun (unitDemo t) memoryDemo 0 historyDemo).map fun s =>
      (s.ctl.goal, fmiGetReal (unitDemo t) s 0, fmiGetReal (unitDemo t) s 1, s.dInput)) = some (5, some (107 / 2), none, [1]) ∧
    (shuttleTables.map fun t => (readings (unitDemo t) memoryDemo 0 [] historyDemo).map fun r => (r.1 0, r.1 1, r.2)) =
      some [(3, 1 / 2, [1])] ∧
    (shuttleTables.map fun t => decide (memoryDemo.dInput.length = (unitDemo t).t.nInputValue.length)) = some true := by
  decide +kernel

example : xmlVars 2 1 ["stay"] =
    [⟨"u0", 0, true, true⟩, ⟨"y0", 1, true, false⟩, ⟨"y1", 2, true, false⟩, ⟨"stay", 3, false, false⟩] := by decide +kernel

end Fmu
end Tulip
