import Verif.Transys.Products

/-!
# Model of `simu_abstract`, `tulip/transys/transys.py:1146-1359`

Sets of states are lists; the matrices `IJ` and `transitions` are Boolean functions of two indices,
of which only those below the number of cells matter. `key` is the text `repr(G.nodes[s]['ap'])` of the
label of a state: equal texts come from equal labels, while equal sets may print differently.
`next(iter(s))` is a parameter, `pick`. The loop is given a number of rounds.
-/

namespace Tulip
namespace Simu

open LGraph Prod'

variable {ν V K : Type} [DecidableEq ν] [DecidableEq V] [DecidableEq K]

/-- `_pre`, `transys.py:1146-1165`. -/
def preOf (ts : LGraph ν V) (cell : List ν) : List ν :=
  uniqueLoop [] ((ts.edges.filter fun e => decide (e.2.1 ∈ cell)).map (·.1))

/-- The coarsest partition: states grouped by the text of their label, `transys.py:1278-1300`. -/
def group (ts : LGraph ν V) (key : ν → K) : Dict K (List ν) :=
  ts.nodes.keys.foldl (fun d s => d.set (key s) (((d.get? (key s)).getD []) ++ [s])) []

/-- `sol`, `IJ` and `transitions`. -/
structure St (ν : Type) where
  sol : List (List ν)
  ij : Nat → Nat → Bool
  tr : Nat → Nat → Bool

/-- `transys.py:1297-1302`. -/
def start (ts : LGraph ν V) (key : ν → K) : St ν where
  sol := (group ts key).map (·.2)
  ij := fun _ _ => true
  tr := fun _ _ => false

/-- The first nonzero entry of `IJ` in the order of `np.nonzero`, `transys.py:1303-1307`: row `j`,
column `i`. -/
def pending (st : St ν) : Option (Nat × Nat) :=
  ((List.range st.sol.length).flatMap fun j => (List.range st.sol.length).map fun i => (j, i)).find?
    fun p => st.ij p.1 p.2

/-- `sol[i]`. -/
def cell (st : St ν) (i : Nat) : List ν := st.sol.getD i []

/-- `m[j, i] = b`. -/
def put (m : Nat → Nat → Bool) (j i : Nat) (b : Bool) : Nat → Nat → Bool :=
  fun a c => if a = j ∧ c = i then b else m a c

/-- `IJ = ((IJ - transitions) > 0).astype(int)`, `transys.py:1355`. -/
def clear (st : St ν) : St ν := { st with ij := fun a b => st.ij a b && !st.tr a b }

/-- Equality of sets. -/
def sameSet (a b : List ν) : Bool := a.all (fun s => decide (s ∈ b)) && b.all (fun s => decide (s ∈ a))

/-- The new cell, `transys.py:1326-1352`: `n` is its index. -/
def split (dual : Bool) (st : St ν) (j i : Nat) (isect : List ν) : St ν :=
  let n := st.sol.length
  let sol := st.sol ++ [isect]
  -- padding with zeros
  let tr := fun a b => if a = n ∨ b = n then false else st.tr a b
  let tr := fun a b => if b = n then tr a i else tr a b
  let tr := put tr j n true
  let sol := if dual then sol else sol.set i ((sol.getD i []).filter fun s => decide (s ∉ sol.getD n []))
  let tr := if dual then tr else fun a b => if a = i then false else tr a b
  let tr := if dual then tr else if i = j then put tr j n false else tr
  -- padding with ones
  let ij := fun a b => if a = n ∨ b = n then true else st.ij a b
  let ij := if dual then ij else fun a b => if a = i ∨ b = i then true else ij a b
  { sol, ij, tr }

/-- One round of the loop, `transys.py:1308-1355`. -/
def step (ts : LGraph ν V) (dual : Bool) (st : St ν) (j i : Nat) : St ν :=
  let st := { st with ij := put st.ij j i false }
  let si := cell st i
  let pre := preOf ts (cell st j)
  if si.all fun s => decide (s ∈ pre) then clear { st with tr := put st.tr j i true }
  else
    let isect := si.filter fun s => decide (s ∈ pre)
    if isect.isEmpty then st
    else match if dual then st.sol.findIdx? (sameSet isect) else none with
      | some k => clear { st with tr := put st.tr j k true }
      | none => clear (split dual st j i isect)

/-- The loop, `transys.py:1303-1355`. -/
def loop (ts : LGraph ν V) (dual : Bool) : Nat → St ν → Option (St ν)
  | 0, _ => none
  | fuel + 1, st => match pending st with
    | none => some st
    | some (j, i) => loop ts dual fuel (step ts dual st j i)

/-- The dictionary `ts2simu`, `transys.py:1211-1217`. -/
def cellsOf (sol : List (List ν)) : Dict ν (List Nat) :=
  sol.zipIdx.foldl (fun d c => c.1.foldl (fun d s => d.set s (((d.get? s).getD []) ++ [c.2])) d) []

/-- The initial states, `transys.py:1219-1221`. -/
def initialCells (ts : LGraph ν V) (d : Dict ν (List Nat)) : Except PyErr (List Nat) :=
  loopM (fun l s => match d.get? s with
    | none => .error .keyError
    | some cs => .ok (uniqueLoop l cs)) [] ts.initial

/-- The graph and the dictionaries that are returned. -/
structure Result (ν V : Type) where
  graph : LGraph Nat V
  simu2ts : List (List ν)
  ts2simu : Dict ν (List Nat)

/-- `_output_fts`, `transys.py:1168-1239`. The type of the labels and those of the actions are those of
`ts`; `noAp` is the empty set, the default label. -/
def outputFts (ts : LGraph ν V) (noAp : V) (pick : List ν → ν) (st : St ν) :
    Except PyErr (Result ν V) := do
  let d := cellsOf st.sol
  let s0 ← initialCells ts d
  let n := st.sol.length
  let g : LGraph Nat V := {
    nodeTypes := ts.nodeTypes.filter fun t => t.1 == "ap"
    nodeDefaults := [("ap", noAp)]
    edgeTypes := ts.edgeTypes }
  let g ← loopM (fun g i => g.addNode i []) g (List.range n)
  let g ← g.addInitialFrom s0
  let g ← loopM (fun g i => do
    let v ← apOf ts (pick (st.sol.getD i []))
    g.addNode i [("ap", v)]) g (List.range n)
  let g ← loopM (fun g i =>
    loopM (fun g j => if st.tr j i then g.addEdge i j [] else .ok g) g (List.range n)) g (List.range n)
  .ok { graph := g, simu2ts := st.sol, ts2simu := d }

/-- `simu_abstract`, `transys.py:1242-1359`, with at most `fuel` rounds; `none` if they do not
suffice. -/
def simuAbstract (ts : LGraph ν V) (dual : Bool) (key : ν → K) (noAp : V) (pick : List ν → ν)
    (fuel : Nat) : Option (Except PyErr (Result ν V)) :=
  (loop ts dual fuel (start ts key)).map (outputFts ts noAp pick)

end Simu
end Tulip
