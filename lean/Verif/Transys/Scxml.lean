import Verif.Transys.Graph
import Verif.Spec.Compose

/-!
# Model of `tulip/transys/export/machine2scxml.py`

`str(state)` and the text of a dictionary of labels are parameters.
-/

namespace Tulip.Scxml

abbrev Str := List Char

variable {ν V : Type} [DecidableEq ν] [DecidableEq V]

/-- `indent`, `machine2scxml.py:65-69`. -/
def indent (n : Nat) : Str := '\n' :: List.replicate n '\t'

/-- One transition, the body of the loop of `transitions_str`, `machine2scxml.py:79-86`. -/
def transText (str : ν → Str) (repr : Attr V → Str) (e : ν × ν × Attr V) : Str :=
  indent 2 ++ c!"<transition " ++ (indent 3 ++ c!"event=\"input_present\" ") ++
    (indent 3 ++ c!"cond=\"" ++ repr e.2.2 ++ c!"\" ") ++ (indent 3 ++ c!"target=\"" ++ str e.2.1 ++ c!"\"/>") ++
    (indent 2 ++ c!"</transition>")

/-- `transitions_str`, `machine2scxml.py:70-87`. -/
def transitionsStr (str : ν → Str) (repr : Attr V → Str) (g : LGraph ν V) (u : ν) : Except PyErr Str := do
  let es ← g.findEdges (some [u]) none []
  .ok (es.flatMap (transText str repr))

/-- The loop over the states, `machine2scxml.py:98-102`. -/
def statesStr (str : ν → Str) (repr : Attr V → Str) (g : LGraph ν V) : List ν → Except PyErr Str
  | [] => .ok []
  | u :: us => do
    let t ← transitionsStr str repr g u
    let r ← statesStr str repr g us
    .ok (c!"\t<state id=\"" ++ str u ++ c!"\">" ++ (t ++ c!"\n") ++ c!"\t</state>\n" ++ r)

/-- `mealy2scxml`, `machine2scxml.py:36-104`, with the result of `mealy.states.initial()` as a parameter; it is called
in the message of the exception as well. -/
def exportWith (call : List ν → Except PyErr (List ν)) (str : ν → Str) (repr : Attr V → Str) (g : LGraph ν V) :
    Except PyErr Str := do
  let l ← call g.initial
  if g.initial.length ≠ 1 then .error .exception
  else
    match l with
    | [] => .error .indexError
    | i :: _ => do
      let r ← statesStr str repr g g.nodes.keys
      .ok ((c!"<?xml version=\"1.0\" encoding=\"UTF-8\"?>\n" ++ c!"<scxml xmlns=\"http://www.w3.org/2005/07/scxml\" " ++
        c!" version=\"1.0\" ") ++ (c!"initial=\"" ++ str i ++ c!"\">\n") ++ r ++ c!"</scxml>")

/-- `states.initial` is a `SubSet` (`labeled_graphs.py:141`), which is a `MathSet` and has no `__call__`
(`mathset.py:91-535`, `:538-653`). -/
def callSubSet (_ : List ν) : Except PyErr (List ν) := .error .typeError

/-- `mealy2scxml`, `machine2scxml.py:36-104`. -/
def mealy2scxml (str : ν → Str) (repr : Attr V → Str) (g : LGraph ν V) : Except PyErr Str :=
  exportWith callSubSet str repr g

/-- The same if a call of the set returned its elements in a list, as the code expects. -/
def intended (str : ν → Str) (repr : Attr V → Str) (g : LGraph ν V) : Except PyErr Str := exportWith .ok str repr g

end Tulip.Scxml
