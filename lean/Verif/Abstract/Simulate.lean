import Verif.Abstract.GetInput
import Verif.Abstract.FindController
import Verif.Transys.Machines
import Verif.Synth.Formulas

/-!
# Simulation of a controlled system, `tulip/abstract/plot.py:301-515`

The states are vectors (functions from indices); `simulate2d` stores them as two lists of coordinates. Printing and
plotting are not modelled.
-/

namespace Tulip

namespace Abs

open Mach (Machine reaction)

variable {R : Type} [Field R] [LinearOrder R] [IsStrictOrderedRing R] {ν : Type} [DecidableEq ν]

/-- The initialization in `simulate2d`, `plot.py:374-382`. The functions `_simulate2d_ea` and `_simulate2d_ee`
(`plot.py:442-477`) have a parameter `ctrl`, and are called without arguments: `TypeError`. The function
`_simulate2d_aa` (`plot.py:480-504`) mentions `d_init`, which is a parameter of `simulate2d`, not a global name:
`NameError`. -/
def simInit (qinit : List Char) : Except PyErr (Nat × ν) :=
  if qinit = "\\E \\A".toList ∨ qinit = "\\A \\E".toList then .error .typeError
  else if qinit = "\\E \\E".toList then .error .typeError
  else if qinit = "\\A \\A".toList then .error .nameError
  else .error .valueError

/-- `np.dot(sys_dyn.A, [x[-1], y[-1]]) + np.dot(sys_dyn.B, u[ind])`, `plot.py:418-420`. -/
def simNext (s : Lti R) (x u : Nat → R) (i : Nat) : R :=
  ((List.range s.A.cols).map fun j => s.A.get i j * x j).sum + ((List.range s.B.cols).map fun j => s.B.get i j * u j).sum

/-- The states of an interval, after the first, `plot.py:416-422`. -/
def simStates (s : Lti R) (u : Nat → Nat → R) (x : Nat → R) : Nat → Nat → List (Nat → R)
  | _, 0 => []
  | k, n + 1 => let x' := simNext s x (u k); x' :: simStates s u x' (k + 1) n

/-- `ppp2ts.index(v)`. -/
def indexOf (names : List Synth.Elem) (v : Synth.Elem) : Except PyErr Nat :=
  match names.findIdx? (· == v) with
  | some i => .ok i
  | none => .error .valueError

/-- An iteration of the loop of `simulate2d`, `plot.py:402-429`: `nd` is a state of the controller, `part` the index
of a region. The result: the next state of the controller and region, the states, the outputs. -/
def simPeriod (T : Tools R) (m : Machine ν Synth.Elem) (s : Lti R) (ab : PwaAbs R) (names : List Synth.Elem)
    (inside : Cell R → (Nat → R) → Bool) (ins : Attr Synth.Elem) (nd : ν) (part : Nat) (x : Nat → R) :
    Except PyErr (ν × Nat × List (Nat → R) × Attr Synth.Elem) := do
  let (nd, out) ← reaction m nd ins
  match Dict.get? out "loc" with
  | none => .error .keyError
  | some v =>
    let stop ← indexOf names v
    let (u, _) ← getInput T x s.A.cols s ab part stop none none none .one 5 true
    let xs := simStates s u x 0 ab.N
    match findDiscreteState inside (xs.getLast?.getD x) ab.regions with
    | none => .error .typeError
    | some part =>
      match names[part]? with
      | none => .error .indexError
      | some name => if name = v then .ok (nd, part, xs, out) else .error .assertion

/-- The loop of `simulate2d`, `plot.py:402-429`, for the inputs `env_inputs[1:]`: the states of each interval and the
outputs. -/
def simLoop (T : Tools R) (m : Machine ν Synth.Elem) (s : Lti R) (ab : PwaAbs R) (names : List Synth.Elem)
    (inside : Cell R → (Nat → R) → Bool) :
    List (Attr Synth.Elem) → ν → Nat → (Nat → R) → Except PyErr (List (List (Nat → R) × Attr Synth.Elem))
  | [], _, _, _ => .ok []
  | ins :: rest, nd, part, x => do
    let (nd, part, xs, out) ← simPeriod T m s ab names inside ins nd part x
    let r ← simLoop T m s ab names inside rest nd part (xs.getLast?.getD x)
    .ok ((xs, out) :: r)

/-- `simulate2d`, `plot.py:301-438`, where `center` picks a point in the first polytope of a region
(`pick_point_in_polytope`, `plot.py:507-515`). With `\A \A` the initial state is the argument `x_init`. The number `T` of
intervals is the number of inputs (after the first). -/
def simulate2d (T : Tools R) (m : Machine ν Synth.Elem) (s : Lti R) (ab : PwaAbs R) (names : List Synth.Elem)
    (inside : Cell R → (Nat → R) → Bool) (center : Nat → Nat → R) (inputs : List (Attr Synth.Elem)) (qinit : List Char)
    (xInit : Nat → R) : Except PyErr (List (List (Nat → R) × Attr Synth.Elem)) := do
  let (part, nd) ← simInit qinit
  if qinit = "\\A \\A".toList then simLoop T m s ab names inside inputs nd part xInit
  else if findDiscreteState inside (center part) ab.regions = some part then
    simLoop T m s ab names inside inputs nd part (center part)
  else .error .assertion

end Abs

end Tulip
