import Verif.Transys.Graph

/-!
# Model of the constructors of transition systems in `tulip/transys/transys.py`

`tuple2fts`, `line_labeled_with`, `cycle_labeled_with` and `add_initial_states` (`transys.py:708-1008`).

States are strings or integers. A labeling is a list of pairs or a list of labels (lists that mix both
are outside the model); a label is `None`, a string, or a set of strings. `S`, `S0`, `AP`, `Act`, `trans` are
lists. The name of the system is not modelled.
-/

namespace Tulip

namespace Constr

/-- States and atomic propositions: strings, integers, `True`. -/
inductive Atom
  | str (s : String) | int (n : Int) | tt
  deriving DecidableEq, Repr

/-- `f'{s}'`. -/
def Atom.text : Atom → String
  | .str s => s
  | .int n => toString n
  | .tt => "True"

/-- Labels of states. -/
inductive Label
  | none | str (s : String) | set (l : List String)
  deriving DecidableEq, Repr

/-- The argument `L`. -/
inductive Labeling
  | pairs (l : List (Atom × Label)) | labels (l : List Label)
  deriving DecidableEq, Repr

/-- A transition system; the atomic propositions are the set on which the label type `ap` is based. -/
structure Ts where
  graph : LGraph Atom Label
  aps : List Atom

/-- `prepend_with`, `labeled_graphs.py:1629-1662`. -/
def prependWith (pre : Option String) (l : List Atom) : List Atom :=
  match pre with
  | none => l
  | some p => l.map fun s => .str (p ++ s.text)

/-- `state, ap_label = x`, `transys.py:791`, `:837`. A set of two strings is unpacked, in an order that
Python does not define: `ord a b` tells that `a` comes first. A string of two characters is unpacked as
well. -/
def unpack (ord : String → String → Bool) : Label → Except PyErr (Atom × Label)
  | .none => .error .typeError
  | .str s => match s.toList with
    | [a, b] => .ok (.str (String.ofList [a]), .str (String.ofList [b]))
    | _ => .error .valueError
  | .set [a, b] => if ord a b then .ok (.str a, .str b) else .ok (.str b, .str a)
  | .set _ => .error .valueError

/-- `pair_labels_with_states`, `transys.py:776-801`, for a labeling that is not `None`. The items of the
result are unpacked later, one by one. -/
def pairLabels (ord : String → String → Bool) (states : List Atom) :
    Labeling → Except PyErr (List (Except PyErr (Atom × Label)))
  | .pairs [] | .labels [] => .error .indexError
  | .pairs l => .ok (l.map .ok)
  | .labels (x :: l) => match x with
    | .none | .str _ => .ok ((states.zip (x :: l)).map .ok)
    | .set s => match unpack ord (.set s) with
      | .ok _ => .ok ((x :: l).map (unpack ord))
      | .error _ => .ok ((states.zip (x :: l)).map .ok)

/-- The values of the label type `ap`: a `PowerSet` of the atomic propositions. A string is not accepted
(`is_subset` raises `TypeError`, which `TypedDict` takes for a rejection). -/
def apContains (aps : List Atom) : Label → Bool
  | .set l => l.all fun p => decide (.str p ∈ aps)
  | _ => false

/-- The label types of states, `transys.py:554-560`. -/
def nodeTypes (aps : List Atom) : Dict String (LabelType Label) := [("ap", { contains := apContains aps })]

/-- `FTS()`, `transys.py:513-615`: no actions, no atomic propositions. -/
def newFts : LGraph Atom Label where
  nodeTypes := nodeTypes []
  nodeDefaults := [("ap", .set [])]
  edgeTypes := [("env_actions", { contains := fun _ => false }), ("sys_actions", { contains := fun _ => false })]

/-- The loop over the state labels, `transys.py:836-844`. The name of the state is built from the prefix
even if it is `None`. The label is stored in a plain dictionary, without a check. -/
def labelStates (pre : Option String) (g : LGraph Atom Label) :
    List (Except PyErr (Atom × Label)) → Except PyErr (LGraph Atom Label)
  | [] => .ok g
  | x :: xs => do
    let p ← x
    let label : Label := if p.2 = .none then .set [] else p.2
    let state := Atom.str (pre.getD "None" ++ p.1.text)
    match g.nodes.get? state with
    | none => .error .keyError
    | some a => labelStates pre { g with nodes := g.nodes.set state (a.set "ap" label) } xs

/-- `[from_state, to_state]` with the prefix, `transys.py:848-850`. -/
def withPrefix (pre : Option String) (s : Atom) : Atom :=
  match pre with
  | none => s
  | some p => .str (p ++ s.text)

/-- The loop over transitions without actions, `transys.py:847-854`; a tuple with three items cannot be
unpacked. -/
def addUnlabeled (pre : Option String) (g : LGraph Atom Label) :
    List (Atom × Atom × Option String) → Except PyErr (LGraph Atom Label)
  | [] => .ok g
  | (_, _, some _) :: _ => .error .valueError
  | (u, v, none) :: ts => do
    let g ← g.addEdge (withPrefix pre u) (withPrefix pre v) []
    addUnlabeled pre g ts

/-- The loop over transitions with actions, `transys.py:857-866`. -/
def addLabeled (pre : Option String) (g : LGraph Atom Label) :
    List (Atom × Atom × Option String) → Except PyErr (LGraph Atom Label)
  | [] => .ok g
  | (_, _, none) :: _ => .error .valueError
  | (u, v, some a) :: ts => do
    let g ← g.addEdge (withPrefix pre u) (withPrefix pre v) [("actions", .str a)]
    addLabeled pre g ts

/-- `ts.actions |= actions`, `transys.py:856`: `ts.actions` is a dictionary, so that the items have to be
pairs; a string of two characters is one. -/
def extendActions (actions : List String) : Except PyErr Unit :=
  if actions.all fun a => a.length = 2 then .ok () else .error .valueError

/-- `tuple2fts`, `transys.py:708-867`. -/
def tuple2fts (ord : String → String → Bool) (S S0 AP : List Atom) (L : Option Labeling)
    (Act : Option (List String)) (trans : List (Atom × Atom × Option String)) (pre : Option String) :
    Except PyErr Ts := do
  let labeling ← match L with
    | none => .ok []
    | some L => pairLabels ord S L
  let g ← match newFts.addNodesFrom ((prependWith pre S).map fun s => (s, [])) with
    | (g, none) => .ok g
    | (_, some e) => .error e
  let g ← g.addInitialFrom (prependWith pre S0)
  let aps := unique AP
  let g : LGraph Atom Label := { g with nodeTypes := nodeTypes aps }
  let g ← labelStates pre g labeling
  let g ← match Act with
    | none => addUnlabeled pre g trans
    | some actions => do
      extendActions actions
      addLabeled pre g trans
  return ⟨g, aps⟩

/-- `set(ap_subset)`, `transys.py:919-923`: the set of the characters for a string. -/
def apsOf : Label → List Atom
  | .none => []
  | .str s => s.toList.map fun c => .str (String.ofList [c])
  | .set l => l.map .str

/-- `line_labeled_with`, `transys.py:870-932`. -/
def lineLabeledWith (ord : String → String → Bool) (L : List Label) (m : Int) : Except PyErr Ts :=
  let n := L.length
  let num : Nat → Atom := fun i => .int (m + i)
  tuple2fts ord ((List.range n).map num) [] (.tt :: L.flatMap apsOf) (some (.labels L)) none
    ((List.range (n - 1)).map fun i => (num i, num (i + 1), none)) (some "s")

/-- `cycle_labeled_with`, `transys.py:935-977`. -/
def cycleLabeledWith (ord : String → String → Bool) (L : List Label) : Except PyErr Ts := do
  let ts ← lineLabeledWith ord L 0
  let g ← ts.graph.addEdge (.str ("s" ++ toString ((L.length : Int) - 1))) (.str "s0") []
  return { ts with graph := g }

/-- `ts.states.initial |= pairs`, where the items are pairs of a state and its attributes: no pair is a
state. -/
def initialOr {α : Type} (g : LGraph Atom Label) (pairs : List α) : Except PyErr (LGraph Atom Label) :=
  if pairs.isEmpty then .ok g else .error .valueError

/-- `add_initial_states`, `transys.py:980-1008`. The label that is searched for is the string `'label'`. -/
def addInitialStates (ts : Ts) : List Label → Except PyErr Ts
  | [] => .ok ts
  | _ :: ls => do
    let found ← ts.graph.findStates none [("ap", .str "label")]
    let g ← initialOr ts.graph found
    addInitialStates { ts with graph := g } ls

end Constr

end Tulip
