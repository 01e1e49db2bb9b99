import Verif.Spec.LtlFile
import Verif.Gridworld.World

/-!
# Model of `contrib/readlbt.py`

The reader of the generalized Büchi automata that `lbt` and `scheck` print, and the writer of their DOT text.
-/

namespace Tulip
namespace Lbt

open Gw

/-- A `GBAutomaton` (`contrib/readlbt.py:68-72`): the number of acceptance sets, the nodes with their attributes
`initial` and `acceptance_sets` (`none`: the node has been added by `add_edge` and has no attributes), and the edges
with their attribute `gate`. -/
structure Gba where
  sets : Int
  nodes : Dict Int (Option (Bool × List Int))
  edges : Dict (Int × Int) (List Char)
  deriving DecidableEq, Repr

/-- `DiGraph.add_edge` adds the ends of an edge that are not there. -/
def touch (nodes : Dict Int (Option (Bool × List Int))) (u : Int) : Dict Int (Option (Bool × List Int)) :=
  if nodes.has u then nodes else nodes.set u none

/-- `A.add_edge(u, v, gate=gate)`: between two nodes there is one edge, and its attribute is replaced. -/
def addEdge (A : Gba) (u v : Int) (gate : List Char) : Gba :=
  { A with nodes := touch (touch A.nodes u) v, edges := A.edges.set (u, v) gate }

/-- `A.add_node(n, initial=…, acceptance_sets=…)`. -/
def addNode (A : Gba) (n : Int) (initial : Bool) (acc : List Int) : Gba :=
  { A with nodes := A.nodes.set n (some (initial, acc)) }

/-- `nexts` (`contrib/readlbt.py:93-100`): the first blank or end of a line. -/
def nexts (x : List Char) : Option Nat :=
  match LtlFile.find c!"\n" x, LtlFile.find c!" " x with
  | none, space => space
  | some newline, none => some newline
  | some newline, some space => some (min space newline)

/-- `_split2` (`contrib/readlbt.py:91-116`). -/
def split2 (s : List Char) : List (List Char) :=
  let x := strip s
  match nexts x with
  | none => [x]
  | some n =>
    let y := strip (x.drop n)
    match nexts y with
    | none => [x.take n, y]
    | some m => [x.take n, y.take m, y.drop m]

/-- `int(x)`. -/
def toInt (x : List Char) : Except PyErr Int :=
  match pyInt x with
  | some n => .ok n
  | none => .error .valueError

/-- `l[i]`. -/
def item (l : List (List Char)) (i : Nat) : Except PyErr (List Char) :=
  match l[i]? with
  | some x => .ok x
  | none => .error .indexError

/-- `[int(ac) for ac in l]`. -/
def toInts : List (List Char) → Except PyErr (List Int)
  | [] => .ok []
  | x :: l => do
    let n ← toInt x
    let r ← toInts l
    .ok (n :: r)

/-- The description of a state (`contrib/readlbt.py:131-140`): its name and the automaton with the state. -/
def readState (A : Gba) (part : List Char) : Except PyErr (Int × Gba) := do
  let x := split2 part
  let name ← item x 0
  let name ← toInt name
  let flag ← item x 1
  let initial : Bool := flag = c!"1"
  if x.length > 2 then do
    let rest ← item x 2
    let acc ← toInts (words rest)
    .ok (name, addNode A name initial acc)
  else .ok (name, addNode A name initial [])

/-- One word of the transitions (`contrib/readlbt.py:145-162`): the automaton, the successor and the gate. -/
def readWord (name : Int) (s : Gba × Option Int × List Char) (word : List Char) : Gba × Option Int × List Char :=
  match s.2.1, pyInt word with
  | none, some n => (s.1, some n, s.2.2)
  | some succ, some n => (addEdge s.1 name succ s.2.2, some n, [])
  | succ, none => (s.1, succ, (if s.2.2.length > 0 then s.2.2 ++ c!" " else s.2.2) ++ word)

/-- The transitions of a state (`contrib/readlbt.py:142-164`). -/
def readTransitions (name : Int) (A : Gba) (part : List Char) : Gba :=
  let s := (words part).foldl (readWord name) (A, none, [])
  match s.2.1 with
  | some succ => addEdge s.1 name succ s.2.2
  | none => s.1

/-- The loop (`contrib/readlbt.py:129-164`): `even` is `ii % 2 == 0`, `name` is `state_name`. The first part is a
state, so that `state_name` is bound where it is used. -/
def readParts : Bool → Int → Gba → List (List Char) → Except PyErr Gba
  | _, _, A, [] => .ok A
  | true, _, A, p :: l => do
    let r ← readState A p
    readParts false r.1 r.2 l
  | false, name, A, p :: l => readParts true name (readTransitions name A p) l

/-- `readlbt` (`contrib/readlbt.py:119-165`). -/
def readlbt (s : List Char) : Except PyErr Gba := do
  let parts := split2 s
  let count ← item parts 0
  let _ ← toInt count
  let sets ← item parts 1
  let sets ← toInt sets
  let rest ← item parts 2
  let stateParts := (LtlFile.splitStr c!"-1" rest).filter fun p => (strip p).length > 0
  readParts true 0 ⟨sets, [], []⟩ stateParts

/-- The line of a node (`contrib/readlbt.py:76-81`): `KeyError` if it has no attribute `acceptance_sets`. -/
def dotNode (n : Int) (a : Option (Bool × List Int)) : Except PyErr (List Char) :=
  match a with
  | none => .error .keyError
  | some (_, acc) =>
    .ok (intChars n ++ c!" [label=\"" ++ intChars n ++ c!"\\nacceptance sets: {" ++
      joinWith c!"," (acc.map intChars) ++ c!"}\"]\n")

/-- The lines of the nodes. -/
def dotNodes : List (Int × Option (Bool × List Int)) → Except PyErr (List Char)
  | [] => .ok []
  | p :: l => do
    let x ← dotNode p.1 p.2
    let r ← dotNodes l
    .ok (x ++ r)

/-- The line of an edge (`contrib/readlbt.py:82-86`). -/
def dotEdge (e : (Int × Int) × List Char) : List Char :=
  intChars e.1.1 ++ c!" -> " ++ intChars e.1.2 ++ c!" [label=\"" ++ e.2 ++ c!"\"]\n"

/-- `A.edges(data=True)`: for each node, in order, the edges that leave it. -/
def edgesOf (A : Gba) : List ((Int × Int) × List Char) :=
  A.nodes.keys.flatMap fun u => A.edges.filter fun e => e.1.1 == u

/-- `GBAutomaton.dumpdot` (`contrib/readlbt.py:74-88`). -/
def dumpdot (A : Gba) : Except PyErr (List Char) := do
  let ns ← dotNodes A.nodes
  .ok (c!"digraph A {\n" ++ ns ++ (edgesOf A).flatMap dotEdge ++ c!"}\n")

end Lbt
end Tulip
