import Verif.Basic
import Verif.Spec.Transform

/-!
# Syntax trees as graphs of objects

Models the class `Tree` of `tulip/spec/transformation.py`: a multigraph whose nodes are AST node
objects, and the substitutions that change it. `Verif/Spec/Transform.lean` describes the same
substitutions on recursive syntax trees; here node objects have an identity.

Objects are numbers, indices into a list of what they hold (the memory). Terminals have a hash that is the
identity (`ast.py:182-183`), and so have operators (by default), so that a dictionary never confuses two
objects.
-/

namespace Tulip
namespace TreeG

/-- What a node object holds, besides its operands: its class with its value or operator
(`ast.py:156-330`). -/
inductive Head
  | var (x : String) | bool (b : Bool) | num (n : Int) | str (s : String)
  | un (op : UnOp) | bin (op : BinOp) | cmp (op : CmpOp) | ar (op : ArOp) | trunc | ite
  deriving DecidableEq, Repr

/-- A node object (`ast.py:156-234`); terminals have no operands. -/
structure Obj where
  head : Head
  operands : List Nat
  deriving DecidableEq, Repr

/-- `hasattr(u, 'value')`: the node is a terminal, `ast.py:168-175`. -/
def Head.isTerm : Head → Bool
  | .var _ | .bool _ | .num _ | .str _ => true
  | _ => false

/-- The node with the given operands, as a recursive syntax tree. (`none` for numbers of operands that no
operator has, and for a truncation to something else than a number, which the type `Ast` lacks.) -/
def Head.build : Head → List Ast → Option Ast
  | .var x, [] => some (.var x)
  | .bool b, [] => some (.bool b)
  | .num n, [] => some (.num n)
  | .str s, [] => some (.str s)
  | .un op, [x] => some (.un op x)
  | .bin op, [x, y] => some (.bin op x y)
  | .cmp op, [x, y] => some (.cmp op x y)
  | .ar op, [x, y] => some (.ar op x y)
  | .trunc, [x, .num n] => some (.trunc x n)
  | .ite, [c, x, y] => some (.ite c x y)
  | _, _ => none

/-- `Tree`, `transformation.py:64-87`: a multigraph with its nodes and its edges `(u, v, key)` in the order of
insertion, and the root. -/
structure Tree where
  nodes : List Nat
  edges : List (Nat × Nat × Nat)
  root : Nat
  deriving DecidableEq, Repr

/-- `networkx.MultiDiGraph.add_node`. -/
def Tree.addNode (T : Tree) (u : Nat) : Tree :=
  { T with nodes := if u ∈ T.nodes then T.nodes else T.nodes ++ [u] }

/-- `networkx.MultiDiGraph.add_edge(u, v, key=k)`: an edge with the same ends and key is not added twice. -/
def Tree.addEdge (T : Tree) (u v k : Nat) : Tree :=
  let T := (T.addNode u).addNode v
  { T with edges := if (u, v, k) ∈ T.edges then T.edges else T.edges ++ [(u, v, k)] }

/-- `networkx.MultiDiGraph.remove_node`; an error (a subclass of `Exception`) if the node is not in the
graph. -/
def Tree.removeNode (T : Tree) (u : Nat) : Except PyErr Tree :=
  if u ∈ T.nodes then
    .ok { T with
      nodes := T.nodes.filter (· ≠ u)
      edges := T.edges.filter fun e => decide (e.1 ≠ u) && decide (e.2.1 ≠ u) }
  else .error .exception

/-- `Tree._recurse`, `transformation.py:108-121`. The first number bounds the depth of the recursion
(`RecursionError` is a `RuntimeError`). -/
def recurse (h : List Obj) : Nat → Nat → Tree → Except PyErr Tree
  | 0, _, _ => .error .runtime
  | n + 1, u, T =>
    match h[u]? with
    | none => .error .exception
    | some o =>
      if o.head.isTerm then .ok (T.addNode u)
      else o.operands.zipIdx.foldlM (fun T vi => recurse h n vi.1 (T.addEdge u vi.1 vi.2)) T

/-- `Tree.from_recursive_ast`, `transformation.py:97-106`. -/
def fromRec (h : List Obj) (n : Nat) (u : Nat) : Except PyErr Tree :=
  recurse h n u ⟨[], [], u⟩

/-- The ends of the edges from `u`, sorted by key: `sorted(self.edges(u, keys=True), key=lambda x: x[2])`,
`transformation.py:137-140`. -/
def Tree.succs (T : Tree) (u : Nat) : List Nat :=
  ((T.edges.filter (·.1 == u)).mergeSort fun a b => decide (a.2.2 ≤ b.2.2)).map (·.2.1)

/-- `Tree.to_recursive_ast`, `transformation.py:123-142`, for the node `u`. The copies are given as a recursive
syntax tree (see `Head.build`). The first number bounds the depth of the recursion. -/
def toRec (h : List Obj) (T : Tree) : Nat → Nat → Except PyErr Ast
  | 0, _ => .error .runtime
  | n + 1, u =>
    match h[u]? with
    | none => .error .attribute
    | some o =>
      match T.succs u with
      | [] => if o.head.isTerm then (match o.head.build [] with | some t => .ok t | none => .error .exception)
        else .error .assertion
      | v :: vs => do
        let xs ← (v :: vs).mapM (toRec h T n)
        if o.head.isTerm then .error .attribute
        else if o.operands.length = xs.length then
          (match o.head.build xs with | some t => .ok t | none => .error .exception)
        else .error .assertion

/-- `Tree.to_recursive_ast()`, `transformation.py:123-142`. -/
def Tree.toAst (T : Tree) (h : List Obj) (n : Nat) : Except PyErr Ast := toRec h T n T.root

/-- `Tree.add_subtree`, `transformation.py:144-167`. -/
def Tree.addSubtree (T : Tree) (leaf : Nat) (S : Tree) : Except PyErr Tree :=
  if T.edges.any (·.1 == leaf) then .error .assertion
  else
    let T1 := S.edges.foldl (fun T e => T.addEdge e.1 e.2.1 e.2.2) T
    match T1.edges.filter (·.2.1 == leaf) with
    | [] => { T1 with root := S.root }.removeNode leaf
    | [e] => (T1.addEdge e.1 S.root e.2.2).removeNode leaf
    | _ => .error .assertion

/-- The tree to put in place of a node, if it is a variable that is to be replaced,
`transformation.py:355-357`. -/
def subOf (h : List Obj) (D : Dict String Tree) (u : Nat) : Option Tree :=
  match h[u]? with
  | some ⟨.var x, _⟩ => D.get? x
  | _ => none

/-- The body of the loop of `sub_bool_with_subtree`, `transformation.py:355-358`. -/
def subStep (h : List Obj) (D : Dict String Tree) (T : Tree) (u : Nat) : Except PyErr Tree :=
  match subOf h D u with
  | some S => T.addSubtree u S
  | none => .ok T

/-- `sub_bool_with_subtree`, `transformation.py:340-358`. -/
def subBoolTree (h : List Obj) (D : Dict String Tree) (T : Tree) : Except PyErr Tree :=
  T.nodes.foldlM (subStep h D) T

/-- One step of `networkx.relabel_nodes(T, m, copy=False)`. (The new nodes are new objects, so that no key
clashes.) -/
def Tree.relabelOne (T : Tree) (p : Nat × Nat) : Tree :=
  { T with
    nodes := T.nodes.filter (· ≠ p.1) ++ [p.2]
    edges := T.edges.filter (fun e => decide (e.1 ≠ p.1) && decide (e.2.1 ≠ p.1)) ++
      ((T.edges.filter (·.1 == p.1)).map fun e => (p.2, e.2)) ++
      ((T.edges.filter (·.2.1 == p.1)).map fun e => (e.1, p.2, e.2.2)) }

/-- `networkx.relabel_nodes(T, m, copy=False)`. The root is an attribute of `Tree` that networkx does not know, and
stays as it is. -/
def Tree.relabel (T : Tree) (m : List (Nat × Nat)) : Tree := m.foldl Tree.relabelOne T

/-- The loop that collects the nodes to replace, and creates the new objects: `transformation.py:292-306`,
`:325-335` and `:444-452`. It returns the memory and the mapping. -/
def collect (f : Nat → Except PyErr (Option Obj)) : List Nat → List Obj → Except PyErr (List Obj × List (Nat × Nat))
  | [], h => .ok (h, [])
  | u :: us, h => do
    match ← f u with
    | none => collect f us h
    | some o =>
      let r ← collect f us (h ++ [o])
      .ok (r.1, (u, h.length) :: r.2)

/-- The loop followed by the relabeling. -/
def replaceNodes (f : Nat → Except PyErr (Option Obj)) (h : List Obj) (T : Tree) : Except PyErr (List Obj × Tree) := do
  let r ← collect f T.nodes h
  .ok (r.1, T.relabel r.2)

/-- The body of the loop of `sub_values`, `transformation.py:293-306` (see `subValuesRec` for the
`TypeError`). -/
def valueOf (h : List Obj) (values : Dict String PyConst) (u : Nat) : Except PyErr (Option Obj) :=
  match h[u]? with
  | some ⟨.var x, _⟩ =>
    match values.get? x with
    | none => .error .keyError
    | some (.bool _) | some (.int _) => .error .typeError
    | some (.str s) => .ok (some ⟨.str s, []⟩)
  | _ => .ok none

/-- `sub_values`, `transformation.py:281-308`. -/
def subValuesTree (h : List Obj) (values : Dict String PyConst) (T : Tree) : Except PyErr (List Obj × Tree) :=
  replaceNodes (valueOf h values) h T

/-- The body of the loop of `infer_constants`, `transformation.py:444-452`. -/
def quoteOf (h : List Obj) (vars : List String) (u : Nat) : Except PyErr (Option Obj) :=
  match h[u]? with
  | some ⟨.var x, _⟩ => if x ∈ vars then .ok none else .ok (some ⟨.str ("\"" ++ x ++ "\""), []⟩)
  | _ => .ok none

/-- The substitution of `infer_constants`, `transformation.py:443-453`. -/
def quoteTree (h : List Obj) (vars : List String) (T : Tree) : Except PyErr (List Obj × Tree) :=
  replaceNodes (quoteOf h vars) h T

/-- The targets of the edges from `u`, without repetitions, in the order of insertion:
`tree.successors(u)`. -/
def Tree.successors (T : Tree) (u : Nat) : List Nat :=
  ((T.edges.filter (·.1 == u)).map (·.2.1)).foldl (fun l v => if v ∈ l then l else l ++ [v]) []

/-- The first loop of `pair_node_to_var`, `transformation.py:384-390`: the first ancestor with two operands, and
the node below it. Operators have `type == 'operator'`. -/
def pairUp (h : List Obj) (T : Tree) : Nat → Nat → Except PyErr (Nat × Nat)
  | 0, _ => .error .runtime
  | n + 1, c =>
    match T.edges.find? (·.2.1 == c) with
    | none => .error .stopIteration
    | some e =>
      match h[e.1]? with
      | none => .error .attribute
      | some o => if o.operands.length = 2 then .ok (e.1, c) else pairUp h T n e.1

/-- `q == old`: the same object, or terminals of the same class with the same value (`ast.py:198-200`). -/
def sameNode (h : List Obj) (q old : Nat) : Bool :=
  q == old ||
  match h[q]?, h[old]? with
  | some a, some b => a.head.isTerm && a.head == b.head
  | _, _ => false

/-- The second loop of `pair_node_to_var`, `transformation.py:395-399`. -/
def pairDown (T : Tree) : Nat → Nat → Nat
  | 0, v => v
  | n + 1, v =>
    match T.edges.find? (·.1 == v) with
    | none => v
    | some e => pairDown T n e.2.1

/-- `pair_node_to_var`, `transformation.py:361-401`: its first component. `n` bounds the number of iterations of each
loop. -/
def pairTree (h : List Obj) (T : Tree) (n : Nat) (c : Nat) : Except PyErr Nat := do
  let (c, old) ← pairUp h T n c
  match T.successors c with
  | [p, q] => .ok (pairDown T n (if sameNode h q old then p else q))
  | _ => .error .valueError

/-- `str(var)` for a terminal: its value (`ast.py:185-187`). (An operator has operands, so that the loop above does not
stop at it.) -/
def Head.text : Head → String
  | .var x => x
  | .bool b => if b then "True" else "False"
  | .num n => String.ofList (intChars n)
  | .str s => s
  | _ => ""

/-- The body of the loop of `sub_constants`, `transformation.py:326-335`. -/
def constOf (h : List Obj) (T : Tree) (n : Nat) (D : Dict String (List String)) (u : Nat) : Except PyErr (Option Obj) :=
  match h[u]? with
  | some ⟨.str s, _⟩ => do
    let v ← pairTree h T n u
    match h[v]? with
    | none => .error .attribute
    | some o =>
      match D.get? o.head.text with
      | none => .error .keyError
      | some l => if s ∈ l then .ok (some ⟨.num (l.idxOf s), []⟩) else .error .valueError
  | _ => .ok none

/-- `sub_constants`, `transformation.py:311-337`. -/
def subConstantsTree (h : List Obj) (n : Nat) (D : Dict String (List String)) (T : Tree) :
    Except PyErr (List Obj × Tree) :=
  replaceNodes (constOf h T n D) h T

end TreeG
end Tulip
