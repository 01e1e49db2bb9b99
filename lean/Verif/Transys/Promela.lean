import Verif.Transys.Graph
import Verif.Spec.Compose

/-!
# Model of `tulip/transys/export/graph2promela.py`

The states and the atomic propositions are strings, the labels of states are sets of propositions. The time stamp
(`time.strftime`) and the text that Python prints for a dictionary of labels are parameters. The messages that
`get_label_of` prints on the terminal are not modelled.
-/

namespace Tulip.Pml

/-- Values of labels: a set of atomic propositions, a string, or `True`. -/
inductive LVal where
  | aps (l : List (List Char))
  | text (w : List Char)
  | yes
  deriving DecidableEq, Repr

/-- A transition system with its name and its atomic propositions, in the order in which the set enumerates them. -/
structure Fts where
  graph : LGraph (List Char) LVal
  name : List Char
  props : List (List Char)

/-- What `get_label_of` returns from a found pair, `graph2promela.py:112`: an element `in` it. -/
def apOf (attr : Attr LVal) : Except PyErr (List (List Char)) :=
  match attr.get? "ap" with
  | some (.aps l) => .ok l
  | some _ => .error .typeError
  | none => .error .keyError

/-- `get_label_of`, `graph2promela.py:107-112`. -/
def labelOf (g : LGraph (List Char) LVal) (s : List Char) : Except PyErr (List (List Char)) := do
  let found ← g.findStates (some [s]) []
  match found with
  | [] => .error .indexError
  | p :: _ => apOf p.2

/-- One assignment of `state_ap2promela`, `graph2promela.py:82-85`. -/
def apLine (label : List (List Char)) (p : List Char) : List Char :=
  if p ∈ label then c!"\t\t " ++ p ++ c!" = 1;\n" else c!"\t\t " ++ p ++ c!" = 0;\n"

/-- `state_ap2promela`, `graph2promela.py:71-88`. -/
def stateAp (f : Fts) (s : List Char) : Except PyErr (List Char) := do
  let label ← labelOf f.graph s
  .ok ((f.props.flatMap (apLine label)) ++ (c!"\t\t printf(\"State: " ++ s ++ c!"\\n\");\n") ++ c!"\t\n")

/-- The loop of `trans2promela`, `graph2promela.py:98-104`; `repr` is what Python prints for a dictionary. -/
def transLoop (f : Fts) (repr : Attr LVal → List Char) :
    List (List Char × List Char × Attr LVal) → Except PyErr (List Char)
  | [] => .ok []
  | e :: es => do
    let a ← stateAp f e.2.1
    let r ← transLoop f repr es
    .ok ((c!"\t :: atomic{\n" ++ (c!"\t\t printf(\"" ++ repr e.2.2 ++ c!"\\n\");\n") ++ a ++
      (c!"\t\t goto " ++ e.2.1 ++ c!"\n") ++ c!"\t }\n") ++ r)

/-- `trans2promela`, `graph2promela.py:90-106`. -/
def transText (f : Fts) (repr : Attr LVal → List Char) (es : List (List Char × List Char × Attr LVal)) :
    Except PyErr (List Char) := do
  let r ← transLoop f repr es
  .ok (c!"\t if\n" ++ r ++ c!"\t fi;\n\n")

/-- `str(state).replace(' ', '_')`, `graph2promela.py:132`. -/
def underscore (s : List Char) : List Char := s.map fun c => if c = ' ' then '_' else c

/-- The loop over the states, `graph2promela.py:128-135`: `find({state}, as_dict=True)` has no parameter `as_dict`, so
that it becomes a desired label. -/
def stateLoop (f : Fts) (repr : Attr LVal → List Char) : List (List Char) → Except PyErr (List Char)
  | [] => .ok []
  | s :: ss => do
    let es ← f.graph.findEdges (some [s]) none [("as_dict", .yes)]
    let t ← transText f repr es
    let r ← stateLoop f repr ss
    .ok ((underscore s ++ c!":") ++ t ++ r)

/-- `fts2promela`, `graph2promela.py:39-137`. No atomic proposition is `None` or `True` here. -/
def fts2promela (f : Fts) (repr : Attr LVal → List Char) (date : List Char) (procname : Option (List Char)) :
    Except PyErr (List Char) := do
  let body ← stateLoop f repr f.graph.nodes.keys
  .ok (c!"/*\n * Promela file generated with TuLiP\n" ++ (c!" * Date: " ++ date ++ c!"\n */\n\n") ++
    (f.props.flatMap fun p => c!"bool " ++ p ++ c!";\n") ++
    (c!"\nactive proctype " ++ procname.getD f.name ++ c!"(){\n") ++ c!"\t if\n" ++
    (f.graph.initial.flatMap fun s => c!"\t :: goto " ++ s ++ c!"\n") ++ c!"\t fi;\n" ++ body ++ c!"}\n")

end Tulip.Pml
