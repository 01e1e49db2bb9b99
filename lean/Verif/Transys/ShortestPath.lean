import Verif.Basic

/-!
# Model of `tulip/transys/graph_algorithms.py`

The graph is given by the list of its edges with their costs: `graph.transitions.find(u)` lists the
edges that leave `u` (`LGraph.findEdges_spec`), and `transition[2][cost_key]` is the cost of an edge.
Costs are added and compared exactly (Python floats round). `not current_cost` is the truth value of a
cost: false for the number 0, true for every vector; the model takes any such test.
-/

namespace Tulip

/-- An entry `(cost, node, path)` of the heap. -/
structure HeapEntry (ν C : Type) where
  cost : C
  node : ν
  path : List ν

/-- What a search returns; `unreachable` is `(inf, [])`. `outOfFuel` stands for a loop that does not
end. -/
inductive Search (ν C : Type) where
  | found (cost : C) (path : List ν)
  | unreachable
  | outOfFuel

/-- Local variables of the search. -/
structure DState (ν C : Type) where
  dist : Dict ν C
  visited : List ν
  queue : List (HeapEntry ν C)

section
variable {ν C : Type} [DecidableEq ν] [Add C] [LT C] [DecidableLT C]

/-- The body of the loop over the edges that leave the node, `graph_algorithms.py:85-93`. `cost` and
`path` are those of the node. -/
def relax (falsy : C → Bool) (cost : C) (path : List ν) (s : DState ν C) (e : ν × ν × C) :
    DState ν C :=
  let v := e.2.1
  if v ∈ s.visited then s
  else
    let new := e.2.2 + cost
    let better := match s.dist.get? v with
      | none => true
      | some d => falsy d || decide (new < d)
    if better then { s with dist := s.dist.set v new, queue := s.queue ++ [⟨new, v, path⟩] } else s

/-- The loop `while Q`, `graph_algorithms.py:74-96`. `pop` is `heappop`: which of the least entries
it returns, and the entries that remain. -/
def dijkstraLoop (edges : List (ν × ν × C)) (targets : ν → Bool) (falsy : C → Bool)
    (pop : List (HeapEntry ν C) → Option (HeapEntry ν C × List (HeapEntry ν C))) :
    Nat → DState ν C → Search ν C
  | 0, _ => .outOfFuel
  | fuel + 1, s => match pop s.queue with
    | none => .unreachable
    | some (e, rest) =>
      let s := { s with queue := rest }
      if e.node ∈ s.visited then dijkstraLoop edges targets falsy pop fuel s
      else
        let s := { s with visited := e.node :: s.visited }
        let path := e.path ++ [e.node]
        if targets e.node then .found e.cost path
        else dijkstraLoop edges targets falsy pop fuel
          ((edges.filter fun x => x.1 == e.node).foldl (relax falsy e.cost path) s)

/-- `dijkstra_single_source_multiple_targets`, `graph_algorithms.py:41-98`. -/
def dijkstra [Zero C] (edges : List (ν × ν × C)) (source : ν) (targets : ν → Bool)
    (falsy : C → Bool)
    (pop : List (HeapEntry ν C) → Option (HeapEntry ν C × List (HeapEntry ν C))) : Search ν C :=
  dijkstraLoop edges targets falsy pop (edges.length + 2)
    ⟨[(source, 0)], [], [⟨0, source, []⟩]⟩

/-- `if cost < best_cost: …`, `graph_algorithms.py:126-128`, where both may be infinite. -/
def betterOf (r best : Search ν C) : Search ν C :=
  match r, best with
  | .found c p, .found b q => if c < b then .found c p else .found b q
  | .found c p, _ => .found c p
  | .unreachable, best => best
  | .outOfFuel, _ => .outOfFuel

/-- The loop over the sources, `graph_algorithms.py:120-131`. -/
def dijkstraMany [Zero C] (edges : List (ν × ν × C)) (targets : ν → Bool) (falsy : C → Bool)
    (pop : List (HeapEntry ν C) → Option (HeapEntry ν C × List (HeapEntry ν C))) :
    List ν → Search ν C → Search ν C
  | [], best => best
  | s :: sources, best =>
    dijkstraMany edges targets falsy pop sources
      (betterOf (dijkstra edges s targets falsy pop) best)

end

end Tulip
