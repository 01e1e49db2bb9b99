import Verif.Transys.FmuCtl

/-!
# Model of the variables of `contrib/fmu/exportFMU.py` and of the calls of `contrib/fmu/sources/TuLiPFMU.c`

The exported unit as its master sees it: the variables in `modelDescription.xml`, and the functions that set and get
their values and make steps.
-/

namespace Tulip
namespace Fmu

/-- A variable in `modelDescription.xml`. -/
structure XmlVar where
  name : String
  ref : Nat
  /-- `Real` or `Integer`. -/
  real : Bool
  /-- The causality. -/
  output : Bool
deriving DecidableEq

/-- The variables that `exportXML` writes, `exportFMU.py:34-66`, for `n` states, `p` inputs of the system and the names of
the inputs of the controller, in the order of `ctrl.inputs`. -/
def xmlVars (n p : Nat) (names : List String) : List XmlVar :=
  ((List.range p).map fun i => ⟨"u" ++ toString i, i, true, true⟩) ++
  ((List.range n).map fun i => ⟨"y" ++ toString i, i + p, true, false⟩) ++
  (names.zipIdx.map fun x => ⟨x.1, x.2 + p + n, false, false⟩)

/-- `ModelInstance`, `TuLiPFMU.c:58-71`. Arrays of numbers of type `double` are functions; places after the end are neither
read nor written. -/
structure Slave where
  ctl : Ctl (Nat → ℚ) (Nat → ℚ)
  input : Nat → ℚ
  output : Nat → ℚ
  dInput : List Int
  clock : Clock

/-- What is fixed at compile time: `n`, `p` (`m` is `n`), the tables, the data and the period. -/
structure Fixed where
  n : Nat
  p : Nat
  t : Tables
  P : Params (Nat → ℚ) (Nat → ℚ)
  period : ℚ
  eps : ℚ

/-- A call of the master, for one variable. -/
inductive Call
  | setReal (vr : Nat) (v : ℚ)
  | setInteger (vr : Nat) (v : Int)
  | step (now size : ℚ)

/-- The arrays after allocation, of which nothing is known. -/
structure Memory where
  u : Nat → ℚ
  y : Nat → ℚ
  input : Nat → ℚ
  output : Nat → ℚ
  dInput : List Int

/-- The loop of `output_function`, `TuLiPControl.c:89-96`. -/
def outputFunction (p : Nat) (c : Ctl (Nat → ℚ) (Nat → ℚ)) (out : Nat → ℚ) (i : Nat) : ℚ := if i < p then c.u i else out i

/-- `fmiInstantiateSlave` and `fmiInitializeSlave`, `TuLiPFMU.c:266-333`. -/
def slaveInit (U : Fixed) (M : Memory) (tStart : ℚ) : Option Slave := do
  let c ← initController U.t U.P M.u M.y
  some { ctl := c, input := M.input, output := outputFunction U.p c M.output, dInput := M.dInput, clock := clockInit tStart }

/-- `fmiSetReal`, `TuLiPFMU.c:342-353`, for one variable. -/
def fmiSetReal (U : Fixed) (s : Slave) (vr : Nat) (v : ℚ) : Slave :=
  if vr ≥ U.p ∧ vr < U.p + U.n then { s with input := fun i => if i = vr - U.p then v else s.input i } else s

/-- `fmiSetInteger`, `TuLiPFMU.c:363-374`, for one variable. -/
def fmiSetInteger (U : Fixed) (s : Slave) (vr : Nat) (v : Int) : Slave :=
  if vr ≥ U.p + U.n ∧ vr < U.p + U.n + U.t.nInputValue.length then { s with dInput := s.dInput.set (vr - U.p - U.n) v } else s

/-- `fmiGetReal`, `TuLiPFMU.c:218-230`, for one variable; `none` if nothing is written. -/
def fmiGetReal (U : Fixed) (s : Slave) (vr : Nat) : Option ℚ := if vr < U.p then some (s.output vr) else none

/-- `fmiDoStep`, `TuLiPFMU.c:132-175`. -/
def slaveStep (U : Fixed) (s : Slave) (now size : ℚ) : Option (Status × Slave) :=
  let r := doStep U.period U.eps s.clock now size
  if r.2.1 then do
    let c ← tick U.t U.P s.ctl (s.input, s.dInput)
    some (r.1, { s with ctl := c, output := outputFunction U.p c s.output, clock := r.2.2 })
  else some (r.1, { s with clock := r.2.2 })

/-- A call. -/
def Call.run (U : Fixed) (s : Slave) : Call → Option Slave
  | .setReal vr v => some (fmiSetReal U s vr v)
  | .setInteger vr v => some (fmiSetInteger U s vr v)
  | .step now size => (slaveStep U s now size).map (·.2)

/-- Calls after the initialization. -/
def slaveRun (U : Fixed) (M : Memory) (tStart : ℚ) (cs : List Call) : Option Slave := do
  let s ← slaveInit U M tStart
  cs.foldlM (Call.run U) s

end Fmu
end Tulip
