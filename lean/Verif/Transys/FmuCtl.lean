import Verif.Transys.Fmu
import Mathlib.Data.Rat.Defs
import Mathlib.Algebra.Order.Ring.Unbundled.Rat

/-!
# Model of `contrib/fmu/sources/TuLiPControl.c` and of `fmiDoStep` of `contrib/fmu/sources/TuLiPFMU.c`

The exported controller: the tables of `Verif.Transys.Fmu` with a receding horizon computation of the
input, and the timing of its steps. Vectors of numbers are of any types `X` (states and measurements) and
`U` (inputs). The optimization is a parameter. Numbers of type `double` that are times are rational, without
rounding.
-/

namespace Tulip
namespace Fmu

variable {X U : Type}

/-- The data of `data.c` and `pppdata.c`, `exportFMU.py:92-129`. -/
structure Params (X U : Type) where
  totalSteps : Nat
  x0 : X
  dRegion0 : Int
  /-- `compute_control` (`TuLiPControl.c:10-22`) of the region, the goal, the number of steps left and the
  state; the last argument is the content of `u` before the call. -/
  control : Int → Int → Int → X → U → U

/-- `Controller`, `TuLiPControl.h:22-31`; `fsm` is `fsm->currentState`. -/
structure Ctl (X U : Type) where
  u : U
  y : X
  hatx : X
  dRegion : Int
  goal : Int
  nSteps : Int
  dInput : List Int
  fsm : Int

/-- `compute_control`, `TuLiPControl.c:10-22`, followed by `controller->nSteps--`. -/
def computeControl (P : Params X U) (c : Ctl X U) : Ctl X U :=
  { c with u := P.control c.dRegion c.goal c.nSteps c.hatx c.u, nSteps := c.nSteps - 1 }

/-- `instantiate_controller` and `init_controller`, `TuLiPControl.c:24-58`. `u` and `y` are the contents of
the memory that is allocated. -/
def initController (t : Tables) (P : Params X U) (u : U) (y : X) : Option (Ctl X U) :=
  let dInput : List Int := List.replicate t.nInputValue.length 0
  match fsmTransition t (initFsm t) dInput with
  | none => none
  | some r => some (computeControl P
      { u, y, hatx := P.x0, dRegion := P.dRegion0, goal := r.2, nSteps := P.totalSteps, dInput, fsm := r.1 })

/-- `transition_function`, `TuLiPControl.c:71-86`, with `estimate_function`, `:113-120`, for `n = m`. -/
def transitionFunction (t : Tables) (P : Params X U) (c : Ctl X U) : Option (Ctl X U) :=
  let c : Ctl X U := { c with hatx := c.y }
  if c.nSteps ≤ 0 then
    match fsmTransition t c.fsm c.dInput with
    | none => none
    | some r => some (computeControl P
        { c with dRegion := c.goal, nSteps := P.totalSteps, goal := r.2, fsm := r.1 })
  else some (computeControl P c)

/-- `input_function` (`TuLiPControl.c:98-109`) and `transition_function`: a tick. -/
def tick (t : Tables) (P : Params X U) (c : Ctl X U) (i : X × List Int) : Option (Ctl X U) :=
  transitionFunction t P { c with y := i.1, dInput := i.2 }

/-- The controller after initialization and ticks with the given measurements and discrete inputs. -/
def control (t : Tables) (P : Params X U) (u : U) (y : X) (is : List (X × List Int)) : Option (Ctl X U) := do
  let c ← initController t P u y
  is.foldlM (tick t P) c

/-! ## Timing -/

/-- The part of `ModelInstance` (`TuLiPFMU.c:59-71`) that concerns time. -/
structure Clock where
  count : Nat
  atBreakpoint : Bool
  last : ℚ

/-- The result of `fmiDoStep`. -/
inductive Status
  | ok
  | discard
deriving DecidableEq

/-- `fmiInstantiateSlave` and `fmiInitializeSlave`, `TuLiPFMU.c:280-282`, `:322-323`. -/
def clockInit (tStart : ℚ) : Clock := { count := 0, atBreakpoint := false, last := tStart }

/-- `fmiDoStep`, `TuLiPFMU.c:132-175`: the status, whether the controller makes a tick, and the clock. -/
def doStep (period eps : ℚ) (k : Clock) (now step : ℚ) : Status × Bool × Clock :=
  let stop := now + step
  let target := period * (k.count + 1)
  if stop ≥ target - eps then
    if stop > target + eps then (.discard, false, { k with last := target })
    else if k.atBreakpoint then (.ok, true, { count := k.count + 1, atBreakpoint := false, last := stop })
    else (.ok, false, { k with atBreakpoint := true, last := stop })
  else (.ok, false, { k with last := stop })

/-- `fmiGetMaxStepSize`, `TuLiPFMU.c:198-208`. -/
def maxStepSize (period : ℚ) (k : Clock) : ℚ :=
  if k.atBreakpoint then 0 else period * (k.count + 1) - k.last

/-- Calls of `fmiDoStep`, with the results of each. -/
def doSteps (period eps : ℚ) : Clock → List (ℚ × ℚ) → List (Status × Bool × Clock)
  | _, [] => []
  | k, c :: cs => let r := doStep period eps k c.1 c.2; r :: doSteps period eps r.2.2 cs

/-- A master that asks for the maximal step size and makes a step of this size from the last time. -/
def master (period eps : ℚ) : Nat → Clock → List (Status × Bool × Clock)
  | 0, _ => []
  | n + 1, k =>
    let r := doStep period eps k k.last (maxStepSize period k)
    r :: master period eps n r.2.2

end Fmu
end Tulip
