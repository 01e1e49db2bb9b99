import Verif.Transys.Machines

/-!
# Model of `contrib/fmu/ctrlexport.py` and `contrib/fmu/sources/FSM.c`

The export of a Mealy machine to tables in C, and the C functions that run on the tables. The two
files are modelled by the values of the variables that they define, not by their text; that the
compiler reads back the numbers written is trusted. The integers of C do not overflow in the model.
A read outside an array, and a remainder by zero, are `none`: they are undefined in C.
-/

namespace Tulip
namespace Fmu

open Mach

variable {ν V : Type} [DecidableEq ν] [DecidableEq V]

/-- The variables defined in `mealydata.c` and `mealydata.h`, `ctrlexport.py:38-97`. -/
structure Tables where
  /-- `nInputValue`, whose length is `nInputVariable`. -/
  nInputValue : List Nat
  initState : Nat
  transition : List (List Int)
  output : List (List Int)

/-- `list.index(x)`. -/
def indexOf {α : Type} [DecidableEq α] (l : List α) (x : α) : Except PyErr Nat :=
  match l.idxOf? x with
  | some i => .ok i
  | none => .error .valueError

/-- The loop of `input2num`, `ctrlexport.py:15-20`. -/
def input2numLoop (a : Attr V) : Nat → Nat → Ports V → Except PyErr Nat
  | result, _, [] => .ok result
  | result, tmp, (name, values) :: rest =>
    match a.get? name with
    | none => .error .keyError
    | some v => do
      let i ← indexOf values v
      input2numLoop a (result + i * tmp) (tmp * values.length) rest

/-- `input2num`, `ctrlexport.py:12-22`. -/
def input2num (inputs : Ports V) (a : Attr V) : Except PyErr Nat := input2numLoop a 0 1 inputs

/-- `table[i][j] = x` for an array of `numpy`, with indices that are not negative. -/
def put (table : List (List Int)) (i j : Nat) (x : Int) : Except PyErr (List (List Int)) :=
  match table[i]? with
  | none => .error .indexError
  | some row => if j < row.length then .ok (table.set i (row.set j x)) else .error .indexError

/-- The body of the inner loop, `ctrlexport.py:78-81`. `toInt` is the conversion of a value to `intc`,
`none` if `numpy` raises `ValueError`. -/
def exportEdge (toInt : V → Option Int) (inputs : Ports V) (states : List ν) (index : Nat)
    (t : List (List Int) × List (List Int)) (e : ν × ν × Attr V) :
    Except PyErr (List (List Int) × List (List Int)) := do
  let i ← input2num inputs e.2.2
  let j ← indexOf states e.2.1
  let transition ← put t.1 index i (j : Int)
  match e.2.2.get? "loc" with
  | none => .error .keyError
  | some v => match toInt v with
    | none => .error .valueError
    | some x => do
      let output ← put t.2 index i x
      .ok (transition, output)

/-- The body of the outer loop, `ctrlexport.py:75-81`. -/
def exportState (toInt : V → Option Int) (m : Machine ν V) (states : List ν)
    (t : List (List Int) × List (List Int)) (s : ν) :
    Except PyErr (List (List Int) × List (List Int)) := do
  let index ← indexOf states s
  (out m.graph s).foldlM (exportEdge toInt m.inputs states index) t

/-- `numpy.zeros((n, k))`. -/
def zeros (n k : Nat) : List (List Int) := List.replicate n (List.replicate k 0)

/-- `mealyexport`, `ctrlexport.py:10-97`: the tables, and the machine after the call.
`pick` is the place of the state that `initial.pop()` returns. -/
def mealyexport (toInt : V → Option Int) (m : Machine ν V) (pick : Nat) :
    Except PyErr (Tables × Machine ν V) :=
  let numinputs := (m.inputs.map fun p => p.2.length).foldl (· * ·) 1
  match m.graph.initial[pick]? with
  | none => .error .keyError
  | some s0 => do
    let states := m.graph.nodes.keys
    let init ← indexOf states s0
    let t ← states.foldlM (exportState toInt m states) (zeros states.length numinputs, zeros states.length numinputs)
    .ok ({ nInputValue := m.inputs.map fun p => p.2.length, initState := init,
           transition := t.1, output := t.2 },
         { m with graph := { m.graph with initial := m.graph.initial.eraseIdx pick } })

/-- The loop of `value2index`, `ctrlexport.py:106-111`, where `%` truncates toward zero. -/
def value2indexLoop : Int → Int → List Nat → List Int → Option Int
  | result, _, [], _ => some result
  | _, _, _ :: _, [] => none
  | result, tmp, n :: ns, x :: xs =>
    if n = 0 then none else value2indexLoop (result + x.tmod n * tmp) (tmp * n) ns xs

/-- `value2index`, `ctrlexport.py:101-113`. -/
def value2index (t : Tables) (input : List Int) : Option Int := value2indexLoop 0 1 t.nInputValue input

/-- `table[i][j]` in C. -/
def read (table : List (List Int)) (i j : Int) : Option Int :=
  if i < 0 ∨ j < 0 then none else (table[i.toNat]?).bind fun row => row[j.toNat]?

/-- `init_fsm`, `FSM.c:3-8`. -/
def initFsm (t : Tables) : Int := t.initState

/-- `fsm_transition`, `FSM.c:10-16`: the next state and the value returned. -/
def fsmTransition (t : Tables) (current : Int) (input : List Int) : Option (Int × Int) := do
  let index ← value2index t input
  let next ← read t.transition current index
  let out ← read t.output current index
  some (next, out)

/-- Calls of `fsm_transition` on the given inputs: the states entered and the values returned. -/
def fsmRun (t : Tables) : Int → List (List Int) → Option (List (Int × Int))
  | _, [] => some []
  | q, i :: is => do
    let r ← fsmTransition t q i
    let rest ← fsmRun t r.1 is
    some (r :: rest)

end Fmu
end Tulip
