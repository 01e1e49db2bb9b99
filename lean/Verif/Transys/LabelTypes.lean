import Verif.Transys.Graph

/-!
# Model of the declarations of label types

`tulip/transys/labeled_graphs.py:935-1034`, `:1077-1093`: the constructor of `LabeledDiGraph`, `add_label_types`
and `is_consistent`. The codomain of a label is an object that can change, so that types are references; the
methods of the graph see the codomains as they are at the time of the call.
-/

namespace Tulip
namespace Ltype

/-- A reference to a codomain: an object with `__contains__`. -/
abbrev Ref := Nat

/-- The codomains: `v in values`. -/
abbrev Heap (V : Type) := Ref → V → Bool

/-- The value of the key `'setter'`, `labeled_graphs.py:881-891`. -/
inductive Setter
  | yes
  | other (r : Ref)
  deriving DecidableEq, Repr

/-- An element of `label_types`, a dictionary, `labeled_graphs.py:864-896`: its keys `'name'`, `'values'`,
`'default'` and `'setter'`, if present. -/
structure TypeDef (V : Type) where
  name : Option String := none
  values : Option Ref := none
  default : Option V := none
  setter : Option Setter := none

/-- What declarations result in: label types, defaults, and attributes of the object. -/
structure Decls (V : Type) where
  types : Dict String Ref := []
  defaults : Attr V := []
  attrs : Dict String Ref := []

/-- `d['name']`, `d['values']`. -/
def pair {V : Type} (d : TypeDef V) : Except PyErr (String × Ref) :=
  match d.name, d.values with
  | some n, some r => .ok (n, r)
  | _, _ => .error .keyError

/-- A dictionary from its items; the last one of several with the same key counts. -/
def dictOf {α : Type} (l : List (String × α)) : Dict String α := Dict.update [] l

/-- The items of `defaults`, `labeled_graphs.py:1019-1023`. -/
def defaultsOf {V : Type} (l : List (TypeDef V)) : List (String × V) :=
  l.filterMap fun d => match d.name, d.default with
    | some n, some v => some (n, v)
    | _, _ => none

/-- The items of `setters`, `labeled_graphs.py:1024-1028`. -/
def settersOf {V : Type} (l : List (TypeDef V)) : List (String × Setter) :=
  l.filterMap fun d => match d.name, d.setter with
    | some n, some v => some (n, v)
    | _, _ => none

/-- What an attribute is set to, `labeled_graphs.py:1029-1033`. -/
def target (types : Dict String Ref) (name : String) : Setter → Option Ref
  | .yes => types.get? name
  | .other r => some r

/-- `_init_labeling`, `labeled_graphs.py:987-1034`. -/
def initLabeling {V : Type} (l : Option (List (TypeDef V))) : Except PyErr (Decls V) := do
  match l with
  | none => .ok {}
  | some l =>
    let types := dictOf (← l.mapM pair)
    .ok { types, defaults := dictOf (defaultsOf l)
          attrs := (dictOf (settersOf l)).filterMap fun p => (target types p.1 p.2).map fun r => (p.1, r) }

/-- A `LabeledDiGraph`: the declarations, the attributes made by `'setter'`, the flag `deterministic`, and the
nodes, edges and initial states. -/
structure Obj (ν V : Type) where
  nodeTypes : Dict String Ref := []
  nodeDefaults : Attr V := []
  edgeTypes : Dict String Ref := []
  edgeDefaults : Attr V := []
  attrs : Dict String Ref := []
  deterministic : Bool := false
  nodes : Dict ν (Attr V) := []
  edges : List (ν × ν × Attr V) := []
  initial : List ν := []

variable {ν V : Type} [DecidableEq ν] [DecidableEq V]

/-- `LabeledDiGraph.__init__`, `labeled_graphs.py:935-964`. -/
def create (nodeLabels edgeLabels : Option (List (TypeDef V))) (deterministic : Bool := false) :
    Except PyErr (Obj ν V) := do
  let n ← initLabeling nodeLabels
  let e ← initLabeling edgeLabels
  .ok { nodeTypes := n.types, nodeDefaults := n.defaults, edgeTypes := e.types, edgeDefaults := e.defaults
        attrs := n.attrs.update e.attrs, deterministic }

/-- `add_label_types`, `labeled_graphs.py:966-985`. -/
def addLabelTypes (o : Obj ν V) (l : List (TypeDef V)) (isEdge : Bool) : Except PyErr (Obj ν V) := do
  let d ← initLabeling (some l)
  if isEdge then
    .ok { o with edgeTypes := o.edgeTypes.update d.types, edgeDefaults := o.edgeDefaults.update d.defaults
                 attrs := o.attrs.update d.attrs }
  else
    .ok { o with nodeTypes := o.nodeTypes.update d.types, nodeDefaults := o.nodeDefaults.update d.defaults
                 attrs := o.attrs.update d.attrs }

/-- The label types as the methods of the graph see them (`set_types`, `labeled_graphs.py:1138`, `:1234`). -/
def typesAt (h : Heap V) (t : Dict String Ref) : Dict String (LabelType V) := t.map fun p => (p.1, ⟨h p.2, none⟩)

/-- The graph as its methods see it. -/
def view (h : Heap V) (o : Obj ν V) : LGraph ν V :=
  { nodeTypes := typesAt h o.nodeTypes, nodeDefaults := o.nodeDefaults
    edgeTypes := typesAt h o.edgeTypes, edgeDefaults := o.edgeDefaults
    nodes := o.nodes, edges := o.edges, initial := o.initial }

/-- The object after a method changed its nodes, edges and initial states. -/
def put (o : Obj ν V) (g : LGraph ν V) : Obj ν V :=
  { o with nodes := g.nodes, edges := g.edges, initial := g.initial }

/-- `g.name.add(v)`, where the attribute was made by `'setter'`; `AttributeError` if there is none. -/
def allow (h : Heap V) (o : Obj ν V) (name : String) (v : V) : Except PyErr (Heap V) :=
  match o.attrs.get? name with
  | some r => .ok fun r' w => if r' = r ∧ w = v then true else h r' w
  | none => .error .attribute

/-- `g.name.remove(v)`. -/
def forbid (h : Heap V) (o : Obj ν V) (name : String) (v : V) : Except PyErr (Heap V) :=
  match o.attrs.get? name with
  | some r => if h r v then .ok fun r' w => if r' = r ∧ w = v then false else h r' w else .error .keyError
  | none => .error .attribute

/-- `is_consistent`, `labeled_graphs.py:1077-1093`: `networkx` keeps the labels of nodes and edges in
dictionaries of its own (`networkx.MultiDiGraph.add_node` is called with keyword arguments, `:1148-1150`, and so
is `add_edge`, `:1273-1281`), which have no method `is_consistent`. -/
def isConsistent (o : Obj ν V) : Except PyErr Bool :=
  if o.nodes.isEmpty && o.edges.isEmpty then .ok true else .error .attribute

end Ltype
end Tulip
