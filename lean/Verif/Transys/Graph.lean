import Verif.Transys.MathSet

/-!
# Model of `tulip/transys/labeled_graphs.py`

A `LabeledDiGraph` is a `networkx.MultiDiGraph`. Nodes are hashable values. The model keeps nodes
and edges in lists; the order in which networkx enumerates them is not modelled, and neither are
edge keys (`networkx` chooses a fresh key for each new edge; calls that pass a key are outside the
model). A dictionary of attributes given together with keyword attributes is one dictionary here
(`_update_attr_dict_with_attr`, `labeled_graphs.py:1095-1111`).
-/

namespace Tulip

/-- Attributes of a node or edge. -/
abbrev Attr (V : Type) := Dict String V

/-- `d == e` on dictionaries. -/
def Dict.beqv {κ V : Type} [DecidableEq κ] [DecidableEq V] (d e : Dict κ V) : Bool :=
  d.all (fun p => d.get? p.1 == e.get? p.1) && e.all (fun p => d.get? p.1 == e.get? p.1)

/-- The values of a label type: `__contains__`, and the guard semantics if the object is callable
(`labeled_graphs.py:62-106`). -/
structure LabelType (V : Type) where
  contains : V → Bool
  guard : Option (V → V → Bool) := none

/-- The table given to `TypedDict.set_types`. -/
def allowedOf {V : Type} (types : Dict String (LabelType V)) :
    Dict String (Option (V → Except PyErr Bool)) :=
  types.map fun p => (p.1, some fun v => .ok (p.2.contains v))

/-- `LabeledDiGraph`, `labeled_graphs.py:764-`, with `states.initial` (a `SubSet` of the states,
all of whose elements can be hashed: only its `_set` is used). -/
structure LGraph (ν V : Type) where
  nodeTypes : Dict String (LabelType V) := []
  nodeDefaults : Attr V := []
  edgeTypes : Dict String (LabelType V) := []
  edgeDefaults : Attr V := []
  nodes : Dict ν (Attr V) := []
  edges : List (ν × ν × Attr V) := []
  initial : List ν := []

namespace LGraph

variable {ν V : Type} [DecidableEq ν] [DecidableEq V]

/-- `n in graph`, `states.__contains__`, `labeled_graphs.py:169-171`. -/
def hasNode (g : LGraph ν V) (n : ν) : Bool := g.nodes.has n

/-- `_check_for_untyped_keys`, `labeled_graphs.py:1036-1075`: `True` if it raises
`AttributeError`. -/
def untyped (types : Dict String (LabelType V)) (attr : Attr V) (check : Bool) : Bool :=
  check && attr.any fun p => !types.has p.1

/-- The typed attributes built by `add_node` and `add_edge`, `labeled_graphs.py:1178-1281` and
`:1233-1239`: defaults, then the given attributes; `ValueError` for a value that is not allowed. -/
def typedAttr (types : Dict String (LabelType V)) (defaults attr : Attr V) :
    Except PyErr (Attr V) :=
  match (TDict.mk [] (allowedOf types)).update defaults with
  | (_, some e) => .error e
  | (d, none) => match d.update attr with
    | (_, some e) => .error e
    | (d', none) => .ok d'.items

/-- `add_node`, `labeled_graphs.py:1113-1150`. For a node that exists networkx updates its
attributes, here with the defaults as well. -/
def addNode (g : LGraph ν V) (n : ν) (attr : Attr V) (check : Bool := true) :
    Except PyErr (LGraph ν V) := do
  let typed ← typedAttr g.nodeTypes g.nodeDefaults attr
  if untyped g.nodeTypes typed check then .error .attribute
  else .ok { g with nodes := g.nodes.set n (((g.nodes.get? n).getD []).update typed) }

/-- The attributes of the edges from `u` to `v`: `get_edge_data(u, v, default=dict()).values()`. -/
def edgeData (g : LGraph ν V) (u v : ν) : List (Attr V) :=
  (g.edges.filter fun e => e.1 == u && e.2.1 == v).map (·.2.2)

/-- `add_edge`, `labeled_graphs.py:1178-1281`, and `Transitions.add`, `:488-508`. -/
def addEdge (g : LGraph ν V) (u v : ν) (attr : Attr V) (check : Bool := true) :
    Except PyErr (LGraph ν V) := do
  if !g.hasNode u then .error .valueError
  else if !g.hasNode v then .error .valueError
  else
    let typed ← typedAttr g.edgeTypes g.edgeDefaults attr
    if (g.edgeData u v).any (fun d => d.isEmpty) then .error .exception
    else if (g.edgeData u v).any (fun d => attr.beqv d) then .ok g
    else if untyped g.edgeTypes typed check then .error .attribute
    else .ok { g with edges := g.edges ++ [(u, v, typed)] }

/-- Calls one after the other; the first exception ends the loop and the earlier effects stay. -/
def seqM {α σ : Type} (f : σ → α → Except PyErr σ) (s : σ) : List α → σ × Option PyErr
  | [] => (s, none)
  | x :: xs => match f s x with
    | .ok s' => seqM f s' xs
    | .error e => (s, some e)

/-- `add_nodes_from`, `labeled_graphs.py:1152-1176`, for nodes with attributes. -/
def addNodesFrom (g : LGraph ν V) (l : List (ν × Attr V)) (check : Bool := true) :
    LGraph ν V × Option PyErr :=
  seqM (fun g p => g.addNode p.1 p.2 check) g l

/-- `add_edges_from`, `labeled_graphs.py:1283-1335`, for 2- and 3-tuples: the attributes of the
call, updated by those of the tuple. -/
def addEdgesFrom (g : LGraph ν V) (l : List (ν × ν × Attr V)) (attr : Attr V)
    (check : Bool := true) : LGraph ν V × Option PyErr :=
  seqM (fun g e => g.addEdge e.1 e.2.1 (attr.update e.2.2) check) g l

/-- `Transitions.add_comb`, `labeled_graphs.py:529-551`. -/
def addComb (g : LGraph ν V) (us vs : List ν) (attr : Attr V) (check : Bool := true) :
    LGraph ν V × Option PyErr :=
  seqM (fun g e => g.addEdge e.1 e.2 attr check) g (us.flatMap fun u => vs.map fun v => (u, v))

/-- `remove_labeled_edge`, `labeled_graphs.py:1337-1366`, and `Transitions.remove`, `:553-576`. -/
def removeEdge (g : LGraph ν V) (u v : ν) (attr : Attr V) : LGraph ν V :=
  { g with edges := g.edges.filter fun e => !(e.1 == u && e.2.1 == v && e.2.2.beqv attr) }

/-- `remove_labeled_edges_from`, `labeled_graphs.py:1368-1417`. -/
def removeEdgesFrom (g : LGraph ν V) (l : List (ν × ν × Attr V)) (attr : Attr V) : LGraph ν V :=
  l.foldl (fun g e => g.removeEdge e.1 e.2.1 (attr.update e.2.2)) g

/-- `networkx` `remove_node`: the node and the edges at it. `NetworkXError` if absent. -/
def removeNode (g : LGraph ν V) (n : ν) : Except PyErr (LGraph ν V) :=
  if g.hasNode n then
    .ok { g with
      nodes := g.nodes.filter fun p => !(p.1 == n)
      edges := g.edges.filter fun e => !(e.1 == n || e.2.1 == n) }
  else .error .exception

/-- `States.remove`, `labeled_graphs.py:205-212`. If the state is not in the graph it is not initial
either, unless it was removed by `remove_node` before; then it is dropped from `initial` before the
exception. -/
def removeState (g : LGraph ν V) (n : ν) : Except PyErr (LGraph ν V) :=
  ({ g with initial := if n ∈ g.initial then g.initial.erase n else g.initial }).removeNode n

/-- `states.initial.add`, `mathset.py:598-623`. -/
def addInitial (g : LGraph ν V) (n : ν) : Except PyErr (LGraph ν V) :=
  if g.hasNode n then .ok { g with initial := uniqueLoop g.initial [n] } else .error .valueError

/-- `states.initial.add_from`, `mathset.py:625-653`. -/
def addInitialFrom (g : LGraph ν V) (l : List ν) : Except PyErr (LGraph ν V) :=
  if l.all g.hasNode then .ok { g with initial := uniqueLoop g.initial l } else .error .valueError

/-- `states.initial.remove`, `mathset.py:435-470`. -/
def removeInitial (g : LGraph ν V) (n : ν) : Except PyErr (LGraph ν V) :=
  if n ∈ g.initial then .ok { g with initial := g.initial.erase n } else .error .valueError

/-- `Transitions.add_adj`, `labeled_graphs.py:590-658`, with a list of states: `entries` are the
positions of the entries of the sparse matrix, of shape `rows × cols`. -/
def addAdj (g : LGraph ν V) (rows cols : Nat) (entries : List (Nat × Nat)) (states : List ν)
    (attr : Attr V) (check : Bool := true) : LGraph ν V × Option PyErr :=
  if rows != cols then (g, some .valueError)
  else if !states.all g.hasNode then (g, some .valueError)
  else seqM (fun g e => match states[e.1]?, states[e.2]? with
    | some u, some v => g.addEdge u v attr check
    | _, _ => .error .indexError) g entries

/-- `add_adj` with a dictionary from indices to states: the loop over `adj2states` goes over the
*keys* of the dictionary. -/
def addAdjDict (g : LGraph Nat V) (rows cols : Nat) (entries : List (Nat × Nat))
    (states : Dict Nat Nat) (attr : Attr V) (check : Bool := true) : LGraph Nat V × Option PyErr :=
  if rows != cols then (g, some .valueError)
  else if !states.keys.all g.hasNode then (g, some .valueError)
  else seqM (fun g e => match states.get? e.1, states.get? e.2 with
    | some u, some v => g.addEdge u v attr check
    | _, _ => .error .keyError) g entries

/-! ## Queries -/

/-- The loop over the label types in `label_is_desired`, `labeled_graphs.py:83-105`. -/
def labelLoop (types : Dict String (LabelType V)) (desired : Attr V) :
    List (String × V) → Except PyErr Bool
  | [] => .ok true
  | (k, v) :: rest => match types.get? k, desired.get? k with
    | some t, some w => match t.guard with
      | some f => if f v w then labelLoop types desired rest else .ok false
      | none => if v = w then labelLoop types desired rest else .ok false
    | _, _ => .error .keyError

/-- `label_is_desired`, `labeled_graphs.py:62-106`, on typed attributes. (When a `set` is compared
with a `list` the code raises `AssertionError` instead of returning `False`.) -/
def labelIsDesired (types : Dict String (LabelType V)) (attr desired : Attr V) :
    Except PyErr Bool :=
  if attr.beqv desired then .ok true
  else if attr.any (fun p => !desired.has p.1) || desired.any (fun p => !attr.has p.1) then
    .ok false
  else labelLoop types desired attr

/-- Filter with a test that may raise. -/
def filterM' {α : Type} (f : α → Except PyErr Bool) : List α → Except PyErr (List α)
  | [] => .ok []
  | x :: xs => do
    let b ← f x
    let r ← filterM' f xs
    .ok (if b then x :: r else r)

/-- The test of `Transitions.find` on one edge, `labeled_graphs.py:738-760`: the attributes are
checked against the types again. -/
def edgeMatches (g : LGraph ν V) (desired : Attr V) (e : ν × ν × Attr V) : Except PyErr Bool :=
  if desired.isEmpty then .ok true
  else if e.2.2.isEmpty then .ok true
  else do
    let typed ← typedAttr g.edgeTypes [] e.2.2
    labelIsDesired g.edgeTypes typed desired

/-- `Transitions.find`, `labeled_graphs.py:660-761`: `from_states` is `None` or a collection of
states that is not itself a state; `to_states` is `None` or a collection. -/
def findEdges (g : LGraph ν V) (fromStates toStates : Option (List ν)) (desired : Attr V) :
    Except PyErr (List (ν × ν × Attr V)) :=
  let es := match fromStates with
    | none => g.edges
    | some us => g.edges.filter fun e => decide (e.1 ∈ us)
  let es := match toStates with
    | none => es
    | some vs => es.filter fun e => decide (e.2.1 ∈ vs)
  filterM' (g.edgeMatches desired) es

/-- The test of `States.find` on one state, `labeled_graphs.py:401-410`. -/
def nodeMatches (g : LGraph ν V) (desired : Attr V) (p : ν × Attr V) : Except PyErr Bool :=
  if desired.isEmpty then .ok true
  else do
    let typed ← typedAttr g.nodeTypes [] p.2
    labelIsDesired g.nodeTypes typed desired

/-- `States.find`, `labeled_graphs.py:309-418`. -/
def findStates (g : LGraph ν V) (states : Option (List ν)) (desired : Attr V) :
    Except PyErr (List (ν × Attr V)) :=
  let ns := match states with
    | none => g.nodes
    | some l => g.nodes.filter fun p => decide (p.1 ∈ l)
  filterM' (g.nodeMatches desired) ns

/-- `networkx` `successors`: each successor once; `NetworkXError` if the node is absent. -/
def successors (g : LGraph ν V) (u : ν) : Except PyErr (List ν) :=
  if g.hasNode u then .ok (unique ((g.edges.filter fun e => e.1 == u).map (·.2.1)))
  else .error .exception

/-- `networkx` `predecessors`. -/
def predecessors (g : LGraph ν V) (v : ν) : Except PyErr (List ν) :=
  if g.hasNode v then .ok (unique ((g.edges.filter fun e => e.2.1 == v).map (·.1)))
  else .error .exception

/-- `set().union(*map(f, states))`. -/
def unionM (f : ν → Except PyErr (List ν)) : List ν → Except PyErr (List ν)
  | [] => .ok []
  | x :: xs => do
    let a ← f x
    let b ← unionM f xs
    .ok (uniqueLoop a b)

/-- `States.post`, `labeled_graphs.py:226-252`. -/
def post (g : LGraph ν V) : Option (List ν) → Except PyErr (List ν)
  | none => .ok g.initial
  | some l => unionM g.successors l

/-- `States.pre`, `labeled_graphs.py:254-269`. -/
def pre (g : LGraph ν V) (l : List ν) : Except PyErr (List ν) := unionM g.predecessors l

/-- `out_degree`: the number of edges. -/
def outDegree (g : LGraph ν V) (u : ν) : Nat := (g.edges.filter fun e => e.1 == u).length

/-- `States.is_terminal`, `labeled_graphs.py:420-431`. -/
def isTerminal (g : LGraph ν V) (u : ν) : Bool := g.outDegree u == 0

/-- `has_deadends`, `labeled_graphs.py:1419-1427`. -/
def hasDeadends (g : LGraph ν V) : Bool := g.nodes.any fun p => g.outDegree p.1 == 0

/-- The nodes without outgoing edges, `labeled_graphs.py:1434-1438`. -/
def deadends (g : LGraph ν V) : List ν := g.nodes.keys.filter fun u => g.outDegree u == 0

/-- `States.remove_from`, `labeled_graphs.py:214-224`. -/
def removeStates (g : LGraph ν V) (l : List ν) : LGraph ν V × Option PyErr :=
  seqM removeState g l

/-- The loop of `remove_deadends`, `labeled_graphs.py:1432-1439`, with a bound on the number of
rounds; `order` is the order in which the set of dead ends is enumerated. The loop ends when there
are no dead ends. -/
def removeDeadendsLoop (order : List ν → List ν) : Nat → LGraph ν V → LGraph ν V × Option PyErr
  | 0, g => (g, none)
  | fuel + 1, g =>
    if g.deadends.isEmpty then (g, none)
    else match g.removeStates (order g.deadends) with
      | (g', some e) => (g', some e)
      | (g', none) => removeDeadendsLoop order fuel g'

/-- `remove_deadends`, `labeled_graphs.py:1429-1454`. -/
def removeDeadends (order : List ν → List ν) (g : LGraph ν V) : LGraph ν V × Option PyErr :=
  match removeDeadendsLoop order (g.nodes.length + 1) g with
  | (g', some e) => (g', some e)
  | (g', none) =>
    if g.nodes.length == 0 || decide (g'.nodes.length > 0) then (g', none)
    else (g', some .assertion)

end LGraph

end Tulip
