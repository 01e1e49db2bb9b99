import Verif.Abstract.Feasible

/-!
# Locating a discrete state, and testing an input sequence

`tulip/abstract/find_controller.py`. Membership of a point in a region (`x0 in region`, `pc.is_inside`) is an
operation of the package `polytope`, here a parameter `inside`.
-/

namespace Tulip

namespace Abs

variable {P X U : Type}

/-- The loop of `find_discrete_state`, from index `i` on. -/
def findFrom (inside : P → X → Bool) (x : X) : Nat → List P → Option Nat
  | _, [] => none
  | i, region :: part => if inside region x then some i else findFrom inside x (i + 1) part

/-- `find_discrete_state` (`tulip/abstract/find_controller.py:638-675`). -/
def findDiscreteState (inside : P → X → Bool) (x : X) (part : List P) : Option Nat :=
  findFrom inside x 0 part

/-- The loop of `is_seq_inside` (`tulip/abstract/find_controller.py:623-627`): the state and the flag `inside`
after the inputs of the list. `step x u` is `A.dot(x) + B.dot(u) + K`. -/
def seqLoop (inside : P → X → Bool) (step : X → U → X) (P0 : P) : List U → X × Bool → X × Bool
  | [], s => s
  | u :: us, (x, ok) =>
    let x' := step x u
    seqLoop inside step P0 us (x', if inside P0 x' then ok else false)

/-- `is_seq_inside` (`tulip/abstract/find_controller.py:580-632`). With no rows in `u_seq`, the expression
`u_seq[N - 1, :]` raises `IndexError`. -/
def isSeqInside (inside : P → X → Bool) (step : X → U → X) (x0 : X) (us : List U) (P0 P1 : P) :
    Except PyErr Bool :=
  match us.getLast? with
  | none => .error .indexError
  | some un =>
    let (x, ok) := seqLoop inside step P0 us.dropLast (x0, true)
    .ok (if inside P1 (step x un) then ok else false)

end Abs

end Tulip
