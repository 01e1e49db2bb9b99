import Verif.Transys.Graph
import Verif.Spec.Compose

/-!
# Model of `tulip/transys/export/graph2dot.py` and of `LabeledDiGraph.save`

The DOT graph is modelled as the node and edge statements that are given to the package `graphviz`, not as text.
Parameters: the text that Python prints for a state (`str`), `textwrap.fill`, and the mixture of colors (`webcolors`).
The order in which networkx enumerates edges is the order of the list of edges here (networkx groups them by node).
-/

namespace Tulip.Dot

abbrev Str := List Char

/-- Values of labels and attributes: a string, an iterable (with the texts of its elements, in the order of iteration),
a dictionary of weighted colors, or a value that is not iterable (with its text). -/
inductive DVal where
  | str (s : Str)
  | iter (items : List Str)
  | mix (colors : List (Str × Str))
  | other (s : Str)
  deriving DecidableEq, Repr

abbrev GvAttr := Dict String Str

/-- The attributes of a `LabeledDiGraph` that the export reads (`labeled_graphs.py:949-963`, `transys.py:97-118`,
`automata.py:129-142`, `machines.py:257-275`). The attributes that some classes do not set are optional. Edges have the
keys of networkx. -/
structure DGraph (ν : Type) where
  nodes : Dict ν (Attr DVal)
  edges : List (ν × ν × Nat × Attr DVal) := []
  initial : List ν := []
  accepting : List ν := []
  nodeDef : List String := []
  nodeFmt : Option (Dict String Str) := none
  edgeDef : List String := []
  edgeFmt : Option (Dict String Str) := none
  edgeMask : Option (Dict String (DVal → Bool)) := none
  shape : Dict String Str := [("normal", c!"circle")]

/-- What the export takes from Python and other packages: `str(state)`, the string of a phantom node as a node,
`textwrap.fill(text, width)`, and the mixture of a dictionary of colors (`graph2dot.py:275-292`). -/
structure Env (ν : Type) where
  str : ν → Str
  phantom : ν → ν
  fill : Nat → Str → Str
  blend : List (Str × Str) → Str

variable {ν : Type} [DecidableEq ν]

/-- `d[k]`. -/
def getK (d : Dict String Str) (k : String) : Except PyErr Str :=
  match d.get? k with
  | some v => .ok v
  | none => .error .keyError

/-- `_format_color`, `graph2dot.py:249-298`, for `dot`. -/
def formatColor (P : Env ν) : DVal → Except PyErr Str
  | .str s => .ok s
  | .mix l => .ok (P.blend l)
  | _ => .error .exception

/-- The text of an iterable: `', '.join(str(x) for x in label_value)`, `graph2dot.py:393`, `:503-504`. -/
def commas (l : List Str) : Str := joinWith c!", " l

/-- The value of a label of a node, `graph2dot.py:385-400`. -/
def nodeValue (P : Env ν) (width : Nat) : DVal → Str
  | .str s => P.fill width s
  | .iter l => c!"\\\\{" ++ P.fill width (commas l) ++ c!"\\\\}"
  | .mix l => c!"\\\\{" ++ P.fill width (commas (l.map (·.1))) ++ c!"\\\\}"
  | .other s => P.fill width s

/-- The loop over the labels of a node, `graph2dot.py:378-401`. -/
def nodePieces (P : Env ν) (width : Nat) (defs : List String) (fmt : Dict String Str) :
    Attr DVal → Except PyErr (List Str)
  | [] => .ok []
  | p :: ps =>
    if p.1 ∈ defs then do
      let name ← getK fmt p.1
      let sep ← getK fmt "type?label"
      let rest ← nodePieces P width defs fmt ps
      .ok ((name ++ sep ++ nodeValue P width p.2) :: rest)
    else nodePieces P width defs fmt ps

/-- `_form_node_label`, `graph2dot.py:328-413`, without tikz. -/
def nodeLabel (P : Env ν) (width : Nat) (defs : List String) (fmt : Dict String Str) (u : ν) (d : Attr DVal) :
    Except PyErr Str := do
  let pieces ← nodePieces P width defs fmt d
  let sep ← getK fmt "separator"
  .ok ((P.str u).filter (· != '\'') ++ (if d.isEmpty then [] else c!"\\\\n") ++ joinWith sep pieces)

/-- `hasattr(graph.states, 'accepting')`, `graph2dot.py:423`: no class of tulip sets an attribute `accepting` of the
object `states` (`labeled_graphs.py:132-343`; automata have it as an attribute of the graph, `automata.py:129`). -/
def statesHaveAccepting : Bool := false

/-- `_is_accepting`, `graph2dot.py:416-425`. -/
def isAccepting (g : DGraph ν) (u : ν) : Bool := statesHaveAccepting && decide (u ∈ g.accepting)

/-- The graph of networkx that is built first, `graph2dot.py:528`. -/
structure Nx (ν : Type) where
  nodes : Dict ν GvAttr := []
  edges : Dict (ν × ν × Nat) GvAttr := []

/-- `add_node` of networkx. -/
def Nx.addNode (x : Nx ν) (u : ν) (a : GvAttr) : Nx ν :=
  { x with nodes := x.nodes.set u (((x.nodes.get? u).getD []).update a) }

/-- `add_edge` of networkx: nodes that do not exist are added; an edge that exists is updated. -/
def Nx.addEdge (x : Nx ν) (u v : ν) (key : Nat) (a : GvAttr) : Nx ν :=
  let y := (x.addNode u []).addNode v []
  { y with edges := y.edges.set (u, v, key) (((y.edges.get? (u, v, key)).getD []).update a) }

/-- `new_edge_key` of networkx, when the keys between two nodes are `0, 1, …`. -/
def Nx.freshKey (x : Nx ν) (u v : ν) : Nat := (x.edges.filter fun e => e.1.1 == u && e.1.2.1 == v).length

/-- `_add_incoming_edge`, `graph2dot.py:316-325`. -/
def addIncoming (P : Env ν) (x : Nx ν) (u : ν) : Nx ν :=
  let y := x.addNode (P.phantom u) [("label", c!"\"\""), ("shape", c!"none"), ("width", c!"0")]
  y.addEdge (P.phantom u) u (y.freshKey (P.phantom u) u) []

/-- One color of a gradient, `graph2dot.py:150-169`: `d.get(side, d[other])` evaluates `d[other]` first. -/
def gradColor (d : Attr DVal) (side other : String) : Except PyErr Str :=
  match d.get? other with
  | none => .error .keyError
  | some o =>
    match (d.get? side).getD o with
    | .str s => .ok s
    | .mix (c :: _) => .ok c.1
    | .mix [] => .error .indexError
    | _ => .error .typeError

/-- `left_color` and `right_color` are read before their types are tested, `graph2dot.py:150-155`. -/
def gradient (d : Attr DVal) : Except PyErr Str :=
  match d.get? "top_color", d.get? "bottom_color" with
  | some _, some _ => do
    let l ← gradColor d "left_color" "top_color"
    let r ← gradColor d "right_color" "bottom_color"
    .ok (l ++ c!":" ++ r)
  | _, _ => .error .keyError

/-- `node_style`, `graph2dot.py:172-177`. -/
def nodeStyle (corners filled : Bool) : Str :=
  if corners && filled then c!"\"rounded, filled\""
  else if corners then c!"\"rounded\""
  else if filled then c!"\"filled\"" else c!"\"\""

/-- The color with which a node is filled, `graph2dot.py:145-171`. -/
def fillOf (P : Env ν) (d : Attr DVal) : Except PyErr Str :=
  if (d.get? "fillcolor").getD (.str c!"none") = .str c!"gradient" then gradient d
  else formatColor P ((d.get? "fillcolor").getD (.str c!"none"))

/-- The attributes of a node, `_state2dot`, `graph2dot.py:139-184`. -/
def nodeAttr (P : Env ν) (g : DGraph ν) (u : ν) (d : Attr DVal) (label : Str) : Except PyErr GvAttr := do
  let normal ← getK g.shape "normal"
  let accept := (g.shape.get? "accepting").getD []
  let shape := if isAccepting g u then accept else normal
  let rim ← formatColor P ((d.get? "color").getD (.str c!"black"))
  let fill ← fillOf P d
  .ok [("label", label), ("shape", shape),
    ("style", nodeStyle (shape == c!"rectangle") ((d.get? "fillcolor").getD (.str c!"none") != .str c!"none")),
    ("color", c!"\"" ++ rim ++ c!"\""), ("fillcolor", c!"\"" ++ fill ++ c!"\"")]

/-- The format of the labels of states, with the default of `graph2dot.py:90-95`. -/
def nodeFormat (g : DGraph ν) : Dict String Str :=
  g.nodeFmt.getD [("type?label", []), ("separator", c!"\\\\n")]

/-- `_states2dot_str`, `graph2dot.py:70-118`, and `_state2dot`, `:121-184`. -/
def states2dot (P : Env ν) (width : Nat) (g : DGraph ν) : Nx ν → Dict ν (Attr DVal) → Except PyErr (Nx ν)
  | x, [] => .ok x
  | x, p :: ps => do
    let label ← nodeLabel P width g.nodeDef (nodeFormat g) p.1 p.2
    let y := if p.1 ∈ g.initial then addIncoming P x p.1 else x
    let attr ← nodeAttr P g p.1 p.2 label
    states2dot P width g (y.addNode p.1 attr) ps

/-- The value of a label of an edge, `graph2dot.py:495-507`; the default width of `textwrap.fill` is 70. -/
def edgeValue (P : Env ν) : DVal → Str
  | .str s => s
  | .iter l => c!"\\\\{" ++ P.fill 70 (commas l) ++ c!"\\\\}"
  | .mix l => c!"\\\\{" ++ P.fill 70 (commas (l.map (·.1))) ++ c!"\\\\}"
  | .other s => s

/-- Is a label of an edge shown, `graph2dot.py:480-487`? -/
def edgeShown (defs : List String) (mask : Dict String (DVal → Bool)) (p : String × DVal) : Bool :=
  decide (p.1 ∈ defs) &&
    match mask.get? p.1 with
    | some f => f p.2
    | none => true

/-- The loop over the labels of an edge, `graph2dot.py:479-511`. -/
def edgePieces (P : Env ν) (defs : List String) (fmt : Dict String Str) (mask : Dict String (DVal → Bool))
    (sep : Str) : Attr DVal → Except PyErr Str
  | [] => .ok []
  | p :: ps =>
    if edgeShown defs mask p then do
      let (name, colon) ← match fmt.get? p.1 with
        | some n => do .ok (n, ← getK fmt "type?label")
        | none => .ok (c!":", c!",\\\\n")
      let rest ← edgePieces P defs fmt mask sep ps
      .ok (name ++ colon ++ edgeValue P p.2 ++ sep ++ rest)
    else edgePieces P defs fmt mask sep ps

/-- `_form_edge_label`, `graph2dot.py:464-514`, without tikz. -/
def edgeLabel (P : Env ν) (defs : List String) (fmt : Dict String Str) (mask : Dict String (DVal → Bool))
    (d : Attr DVal) : Except PyErr Str := do
  let sep ← getK fmt "separator"
  let text ← edgePieces P defs fmt mask sep d
  .ok (c!"\"" ++ text ++ c!"\"")

/-- `edge_data.get('color', 'black')`, `graph2dot.py:456`, as text. -/
def edgeColor (d : Attr DVal) : Str :=
  match (d.get? "color").getD (.str c!"black") with
  | .str s => s
  | .other s => s
  | .iter l => commas l
  | .mix l => commas (l.map (·.1))

/-- The loop of `_transitions2dot_str`, `graph2dot.py:449-461`. -/
def transLoop (P : Env ν) (g : DGraph ν) (fmt : Dict String Str) (mask : Dict String (DVal → Bool)) :
    Nx ν → List (ν × ν × Nat × Attr DVal) → Except PyErr (Nx ν)
  | x, [] => .ok x
  | x, (u, v, key, d) :: es => do
    let label ← edgeLabel P g.edgeDef fmt mask d
    transLoop P g fmt mask (x.addEdge u v key [("label", label), ("color", edgeColor d)]) es

/-- `_transitions2dot_str`, `graph2dot.py:428-461`: without formats or masks no transition is exported. -/
def transitions2dot (P : Env ν) (g : DGraph ν) (x : Nx ν) : Except PyErr (Nx ν) :=
  match g.edgeFmt, g.edgeMask with
  | some fmt, some mask => transLoop P g fmt mask x g.edges
  | _, _ => .ok x

/-- The statements given to `graphviz`: nodes, edges, and the nodes of the subgraph with `rank=source`. -/
structure Gv where
  nodes : List (Str × GvAttr)
  edges : List (Str × Str × GvAttr)
  source : List Str
  deriving DecidableEq, Repr

/-- `networkx_to_graphviz`, `graphics.py:335-348`, and `_place_initial_states`, `graph2dot.py:301-313`. -/
def toGv (P : Env ν) (g : DGraph ν) (x : Nx ν) : Gv where
  nodes := x.nodes.map fun p => (P.str p.1, p.2)
  edges := x.edges.map fun e => (P.str e.1.1, P.str e.1.2.1, e.2)
  source := g.initial.flatMap fun u => [P.str u, c!"phantominit" ++ P.str u]

/-- `_graph2dot`, `graph2dot.py:517-547`, without tikz. -/
def graph2dot (P : Env ν) (width : Nat) (g : DGraph ν) : Except PyErr Gv := do
  let x ← states2dot P width g {} g.nodes
  let y ← transitions2dot P g x
  .ok (toGv P g y)

/-- `_state2tikz`, `graph2dot.py:187-246`: its last statement names the graph `to_dot_graph`, but the parameter is
called `to_pydot_graph`. -/
def state2tikz (P : Env ν) (g : DGraph ν) (rankdir : Str) (d : Attr DVal) : Except PyErr (Nx ν) := do
  if rankdir ∈ [c!"LR", c!"RL", c!"TB", c!"BT"] then .ok () else .error .valueError
  let _ ← getK g.shape "normal"
  let _ ← formatColor P ((d.get? "color").getD (.str c!"black"))
  .error .nameError

/-- `_states2dot_str` with tikz, `graph2dot.py:96-113`. The label of the node is computed first; it has another form
with tikz, which is not modelled, but the same exceptions. -/
def states2tikz (P : Env ν) (width : Nat) (g : DGraph ν) (rankdir : Str) : Nx ν → Dict ν (Attr DVal) →
    Except PyErr (Nx ν)
  | x, [] => .ok x
  | _, p :: ps => do
    let _ ← nodeLabel P width g.nodeDef (nodeFormat g) p.1 p.2
    let y ← state2tikz P g rankdir p.2
    states2tikz P width g rankdir y ps

/-- `_graph2dot` with tikz; the labels of edges have another form, which is not modelled (a graph without nodes has no
edges). -/
def graph2tikz (P : Env ν) (width : Nat) (g : DGraph ν) (rankdir : Str) : Except PyErr Gv := do
  let x ← states2tikz P width g rankdir {} g.nodes
  .ok (toGv P g x)

/-! ### `LabeledDiGraph.save` -/

/-- Number of characters up to and including the last `c`. -/
def afterLast (c : Char) : Str → Nat
  | [] => 0
  | x :: xs => if afterLast c xs ≠ 0 then afterLast c xs + 1 else if x = c then 1 else 0

/-- `os.path.splitext` (posix): the extension begins at the last dot of the last component, unless all characters
before it are dots. -/
def splitext (p : Str) : Str × Str :=
  let k := afterLast '/' p
  let base := p.drop k
  let j := afterLast '.' base
  if j = 0 ∨ (base.take (j - 1)).all (· == '.') then (p, [])
  else (p.take k ++ base.take (j - 1), base.drop (j - 1))

/-- The path and format of `save`, `labeled_graphs.py:1550-1563`. -/
def target (name : Str) (filename fileformat : Option Str) : Str × Str :=
  let f := filename.getD (if name.isEmpty then c!"out" else name)
  let (root, ext) := splitext f
  let ext := if ext.isEmpty ∨ ext = c!"." then c!".pdf" else ext
  let ext := match fileformat with
    | some s => if s.isEmpty then ext else '.' :: s
    | none => ext
  (root ++ ext, ext.drop 1)

/-- The classes with their own `_save`: none, `FiniteTransitionSystem` (`transys.py:672-704`), `MealyMachine`
(`machines.py:554-567`). -/
inductive Kind where
  | plain
  | fts
  | mealy
  deriving DecidableEq, Repr

/-- What `save` writes: a page with d3, or a DOT source with the picture that GraphViz makes of it. -/
inductive File where
  | html (path : Str)
  | source (path : Str)
  | picture (path format : Str)
  deriving DecidableEq, Repr

/-- `_save` of each class: the exception that it raises. `FiniteTransitionSystem._save` reads `self.env_vars`
(`transys.py:696`), an attribute that no class sets; `MealyMachine._save` calls `mealy2scxml`, which raises `TypeError` for
every machine (`Scxml.mealy2scxml_raises`). For other formats `_save` returns `False`. -/
def ownSave (k : Kind) (format : Str) : Option PyErr :=
  match k with
  | .plain => none
  | .fts => if format ∈ [c!"promela", c!"Promela", c!"pml"] then some .attribute else none
  | .mealy => if format = c!"scxml" then some .typeError else none

/-- `save`, `labeled_graphs.py:1467-1578`, when the conversions succeed. `Digraph.render(filename, format)` of the
package `graphviz` writes the source to `filename` and the picture to `filename.format` (`graph2dot.py:602-606`). -/
def save (k : Kind) (name : Str) (filename fileformat : Option Str) : Except PyErr (List File) :=
  let (path, format) := target name filename fileformat
  if format = c!"html" then .ok [.html path]
  else
    match ownSave k format with
    | some e => .error e
    | none => .ok [.source path, .picture (path ++ c!"." ++ format) format]

end Tulip.Dot
