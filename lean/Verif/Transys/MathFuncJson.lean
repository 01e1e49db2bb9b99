import Verif.Transys.MathFunc

/-!
# Model of the constructor with single keys, and of the JSON export, of `tulip/transys/mathfunc.py`

A file is the list of the objects that it holds, each as the list of its items in order: how the
library `json` writes numbers, texts and indentation is not modelled.
-/

namespace Tulip
namespace MathFunc
variable {V : Type} [DecidableEq V]

/-- The argument `input_keys` or `output_keys` of the constructor: a text or a list. -/
inductive Keys
  | one (k : List Char)
  | many (ks : List String)

/-- The attribute `_input_keys` or `_output_keys`, `mathfunc.py:151-164`. -/
def Keys.list : Keys → List String
  | .one k => [String.ofList k]
  | .many ks => ks

/-- `s.startswith(p)`. -/
def startsWith : List Char → List Char → Bool
  | [], _ => true
  | _ :: _, [] => false
  | a :: p, b :: s => a == b && startsWith p s

/-- `s.index(p)` of texts, `none` for the `ValueError`. -/
def textIndex (p : List Char) : List Char → Option Nat
  | [] => if p = [] then some 0 else none
  | c :: s => if startsWith p (c :: s) then some 0 else (textIndex p s).map (· + 1)

/-- `input_keys.index("state")`, `mathfunc.py:165`: of a text, the place where `state` starts. -/
def Keys.indexOfState : Keys → Except PyErr Nat
  | .one k => match textIndex ['s', 't', 'a', 't', 'e'] k with
    | some n => .ok n
    | none => .error .valueError
  | .many ks => if "state" ∈ ks then .ok (ks.idxOf "state") else .error .valueError

/-- `FunctionOnLabeledState.__init__`, `mathfunc.py:144-165`. -/
def init (i o : Keys) : Except PyErr (Fn V) := do
  let n ← i.indexOfState
  pure ⟨i.list, o.list, n, []⟩

/-- A value in an object of the file: a value of the function, a list, or a set of Python, which the
library cannot write. -/
inductive Cell (V : Type)
  | val (v : V)
  | list (l : List V)
  | set (l : List V)
  deriving DecidableEq, Repr

/-- The labels of an object, `mathfunc.py:92-94`. `ts` is `None` or the look-up
`s ↦ transys.states[s]["ap"]`. -/
def labelCell (ts : Option (V → Except PyErr (Cell V))) (p : Pair V) : Except PyErr (Cell V) :=
  match ts with
  | some ap => ap p.state
  | none => .ok (.list p.labels)

/-- `LabeledStateInputOutputPair.to_json`, `mathfunc.py:85-103`. -/
def toJson (ts : Option (V → Except PyErr (Cell V))) (p : Pair V) :
    Except PyErr (Dict String (Cell V)) := do
  let labels ← labelCell ts p
  let ret : Dict String (Cell V) := Dict.update [] [("state", .val p.state), ("labels", labels)]
  let ret := p.inputs.foldl (fun d kv => Dict.set d kv.1 (.val kv.2)) ret
  let ret := p.outputs.foldl (fun d kv => Dict.set d kv.1 (.val kv.2)) ret
  pure ret

/-- Whether the library can write a value. -/
def Cell.writable : Cell V → Bool
  | .set _ => false
  | _ => true

/-- What is in the file: the list that was written, or a text that stops in the middle. -/
inductive JFile (V : Type)
  | objects (l : List (Dict String (Cell V)))
  | cut

/-- The objects of all pairs, `mathfunc.py:316-317`. -/
def toJsons (ts : Option (V → Except PyErr (Cell V))) : List (Pair V) →
    Except PyErr (List (Dict String (Cell V)))
  | [] => .ok []
  | p :: ps => do
    let d ← toJson ts p
    let ds ← toJsons ts ps
    .ok (d :: ds)

/-- `FunctionOnLabeledState.save`, `mathfunc.py:303-320`: the outcome, and the file afterwards. The
file is emptied when it is opened, before anything is computed. -/
def save (f : Fn V) (ts : Option (V → Except PyErr (Cell V))) : Except PyErr Unit × JFile V :=
  match toJsons ts f.pairs with
  | .error e => (.error e, .cut)
  | .ok l => if l.all (fun d => d.all fun kv => kv.2.writable) then (.ok (), .objects l)
    else (.error .typeError, .cut)

end MathFunc
end Tulip
