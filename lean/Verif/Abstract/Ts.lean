import Verif.Transys.Graph
import Verif.Abstract.Discretize

/-!
# Transition systems of partitions, `tulip/abstract/prop2partition.py:707-738` and
`tulip/abstract/discretization.py:1139-1152` and `:1582-1595`

Labels are sets of propositions (lists of strings here), actions do not occur.
-/

namespace Tulip

namespace Abs

open LGraph

variable {P ν : Type} [DecidableEq ν]

/-- The label types of `FTS()`, `transys/transys.py:513-570`, with the given atomic propositions: the
label `ap` is a set of atomic propositions, there are no actions. -/
def ftsNodeTypes (aps : List String) : Dict String (LabelType (List String)) :=
  [("ap", { contains := fun v => v.all fun p => decide (p ∈ aps) })]

def ftsEdgeTypes : Dict String (LabelType (List String)) :=
  [("env_actions", { contains := fun _ => false }), ("sys_actions", { contains := fun _ => false })]

/-- `FTS()`. -/
def emptyFts : LGraph ν (List String) :=
  { nodeTypes := ftsNodeTypes [], nodeDefaults := [("ap", [])], edgeTypes := ftsEdgeTypes }

/-- The positions of the entries of a sparse matrix of size `n`. -/
def entriesOf (n : Nat) (adj : Nat → Nat → Bool) : List (Nat × Nat) :=
  ((List.range n).flatMap fun i => (List.range n).map fun j => (i, j)).filter fun p => adj p.1 p.2

/-- The transition system of a partition with a matrix: the states, the transitions, the atomic
propositions, the labels. -/
def partToTs (name : Nat → ν) (n : Nat) (adj : Nat → Nat → Bool) (regions : List (Region P))
    (aps : List String) : LGraph ν (List String) × Option PyErr :=
  let states : List ν := (List.range n).map name
  match (emptyFts : LGraph ν (List String)).addNodesFrom (states.map fun s => (s, [])) with
  | (g, some e) => (g, some e)
  | (g, none) => match g.addAdj n n (entriesOf n adj) states [] with
    | (g, some e) => (g, some e)
    | (g, none) =>
      ({ g with nodeTypes := ftsNodeTypes aps }).addNodesFrom
        ((states.zip regions).map fun (p : ν × Region P) => (p.1, [("ap", p.2.props)]))

/-- `prepend_with(range(n), 's')`, `transys/labeled_graphs.py:1629-1660`. -/
def stateName (i : Nat) : String := "s" ++ toString i

/-- `ppp2ts`, `prop2partition.py:707-738`. -/
def ppp2ts (n : Nat) (adj : Nat → Nat → Bool) (regions : List (Region P)) (aps : List String) :
    (LGraph String (List String) × Option PyErr) × List String :=
  (partToTs stateName n adj regions aps, (List.range n).map stateName)

/-- The transition system returned by `_discretize_bi` and `_discretize_dual`,
`discretization.py:1139-1152` and `:1582-1595`: `adj = transitions.T`, the states are the indices. -/
def discTs (S : DState P) (aps : List String) : LGraph Nat (List String) × Option PyErr :=
  partToTs id S.sol.length (fun i j => S.trans j i) S.sol aps

end Abs

end Tulip
