import Verif.Basic

/-!
# Model of `tulip/transys/mathfunc.py`

A call passes the list of its inputs, and the list of its outputs: a function of one input takes the
value itself and wraps it in a tuple (`mathfunc.py:189-190`), which is not modelled.
-/

namespace Tulip
namespace MathFunc

/-- `LabeledStateInputOutputPair`, `mathfunc.py:43-103`. -/
structure Pair (V : Type) where
  state : V
  inputs : Dict String V
  outputs : Dict String V
  labels : List V

/-- `FunctionOnLabeledState`, `mathfunc.py:106-166`. `stateIndex` is where the first input key
`"state"` is. -/
structure Fn (V : Type) where
  inputKeys : List String
  outputKeys : List String
  stateIndex : Nat
  pairs : List (Pair V)

/-- What `f[x]` returns: `None`, the one output, or the tuple of the outputs. -/
inductive Out (V : Type) where
  | none
  | one (v : V)
  | tuple (l : List V)

section
variable {V : Type} [DecidableEq V]

/-- `FunctionOnLabeledState.__init__`, `mathfunc.py:144-166`; `list.index` raises `ValueError`. -/
def new (inputKeys outputKeys : List String) : Except PyErr (Fn V) :=
  if "state" ∈ inputKeys then .ok ⟨inputKeys, outputKeys, inputKeys.idxOf "state", []⟩
  else .error .valueError

/-- `get_state_and_input_dict`, `mathfunc.py:186-209`. -/
def stateAndInputs (f : Fn V) (x : List V) : Except PyErr (V × Dict String V) :=
  if f.inputKeys.length = x.length then
    match x[f.stateIndex]? with
    | some s => .ok (s, Dict.update [] ((f.inputKeys.zip x).eraseIdx f.stateIndex))
    | none => .error .indexError
  else .error .assertion

/-- `get_output_dict`, `mathfunc.py:211-229`. -/
def outputDict (f : Fn V) (y : List V) : Except PyErr (Dict String V) :=
  if f.outputKeys.length = y.length then .ok (Dict.update [] (f.outputKeys.zip y))
  else .error .assertion

/-- `get_output_tuple`, `mathfunc.py:231-247`. -/
def outputTuple (f : Fn V) (d : Dict String V) : Except PyErr (Out V) :=
  match d with
  | [] => .ok .none
  | [p] => .ok (.one p.2)
  | d => match f.outputKeys.mapM (fun k => Dict.get? d k) with
    | some l => .ok (.tuple l)
    | none => .error .keyError

/-- `dict == dict`. -/
def sameDict (d e : Dict String V) : Bool :=
  d.length == e.length && d.all fun p => Dict.get? e p.1 == some p.2

/-- `LabeledStateInputOutputPair.is_at`, `mathfunc.py:76-83`. -/
def isAt (s : V) (i : Dict String V) (p : Pair V) : Bool := p.state == s && sameDict p.inputs i

/-- Replace the outputs and labels of the first pair at the input, or append a pair,
`mathfunc.py:286-301`. -/
def put (s : V) (i o : Dict String V) (labels : List V) : List (Pair V) → List (Pair V)
  | [] => [⟨s, i, o, labels⟩]
  | p :: ps => if isAt s i p then { p with outputs := o, labels := labels } :: ps
    else p :: put s i o labels ps

/-- `FunctionOnLabeledState.add`, `mathfunc.py:270-301`. -/
def add (f : Fn V) (x y : List V) (labels : List V) : Except PyErr (Fn V) := do
  let (s, i) ← stateAndInputs f x
  let o ← outputDict f y
  pure { f with pairs := put s i o labels f.pairs }

/-- `FunctionOnLabeledState.__getitem__`, `mathfunc.py:174-184`. -/
def getItem (f : Fn V) (x : List V) : Except PyErr (Out V) := do
  let (s, i) ← stateAndInputs f x
  match f.pairs.find? (isAt s i) with
  | none => .error .keyError
  | some p => outputTuple f p.outputs

/-- `FunctionOnLabeledState.__len__`, `mathfunc.py:171-172`. -/
def len (f : Fn V) : Nat := f.pairs.length

/-- A call `f.add(x, y, labels)` of a program: one that raises leaves `f` as it is. -/
def call (f : Fn V) (c : List V × List V × List V) : Fn V :=
  match add f c.1 c.2.1 c.2.2 with
  | .ok g => g
  | .error _ => f

end
end MathFunc
end Tulip
