import Verif.Transys.Graph

/-!
# Model of the drawing of transitions, `tulip/abstract/plot.py`

The arrows that `plot_ts_on_partition` asks polytope to draw, and the matrix of
`project_strategy_on_partition`. What is drawn for an arrow is not modelled.
-/

namespace Tulip
namespace Plot

variable {ν V P : Type} [DecidableEq ν] [DecidableEq V]

/-- `ts2ppp = {state: index for index, state in enumerate(ppp2ts)}`, `plot.py:156-159`. -/
def tsIndex (ppp2ts : List ν) : Dict ν Nat := ppp2ts.zipIdx.foldl (fun d p => d.set p.1 p.2) []

/-- `d[k]`. -/
def look (d : Dict ν Nat) (k : ν) : Except PyErr Nat :=
  match d.get? k with
  | some i => .ok i
  | none => .error .keyError

/-- `only_adjacent and ppp.adj[i, j] == 0`, `plot.py:165-167`, for a partition of `n` regions. `none`: there is no
matrix. -/
def skips (n : Nat) (adj : Option (Nat → Nat → Bool)) (onlyAdjacent : Bool) (i j : Nat) : Except PyErr Bool :=
  if onlyAdjacent then
    match adj with
    | none => .error .typeError
    | some a => if i < n ∧ j < n then .ok (!a i j) else .error .indexError
  else .ok false

/-- One round of the loop, `plot.py:162-174`: the arrow between two regions, if it is drawn. -/
def arrow (regions : List P) (adj : Option (Nat → Nat → Bool)) (index : Dict ν Nat) (onlyAdjacent : Bool)
    (e : ν × ν × Attr V) : Except PyErr (List (P × P)) := do
  let i ← look index e.1
  let j ← look index e.2.1
  let skip ← skips regions.length adj onlyAdjacent i j
  if skip then .ok []
  else
    match regions[i]?, regions[j]? with
    | some p, some q => .ok [(p, q)]
    | _, _ => .error .indexError

/-- The loop of `plot_ts_on_partition`, `plot.py:162-174`. -/
def arrows (regions : List P) (adj : Option (Nat → Nat → Bool)) (index : Dict ν Nat) (onlyAdjacent : Bool) :
    List (ν × ν × Attr V) → Except PyErr (List (P × P))
  | [] => .ok []
  | e :: es => do
    let a ← arrow regions adj index onlyAdjacent e
    let as ← arrows regions adj index onlyAdjacent es
    .ok (a ++ as)

/-- `plot_ts_on_partition`, `plot.py:128-174`: the arrows that are drawn. -/
def plotTs (regions : List P) (adj : Option (Nat → Nat → Bool)) (ts : LGraph ν V) (ppp2ts : List ν) (label : Attr V)
    (onlyAdjacent : Bool) : Except PyErr (List (P × P)) := do
  let es ← ts.findEdges none none label
  arrows regions adj (tsIndex ppp2ts) onlyAdjacent es

/-- The position of an index in a matrix with `n` rows: negative numbers count from the end, and what is not an integer is
refused. -/
def position (n : Nat) : Option Int → Except PyErr Nat
  | some z =>
    if 0 ≤ z ∧ z < n then .ok z.toNat
    else if z < 0 ∧ 0 ≤ z + n then .ok (z + n).toNat
    else .error .indexError
  | none => .error .indexError

/-- One round of the loop of `project_strategy_on_partition`, `plot.py:195-205`: the entry that is set to one, if any. `num`
gives the integer that a value is. -/
def projectStep (n : Nat) (num : V → Option Int) (m : LGraph ν V) (e : ν × ν × Attr V) : Except PyErr (List (Nat × Nat)) :=
  match m.nodes.get? e.1, m.nodes.get? e.2.1 with
  | some a, some b =>
    match a.get? "loc", b.get? "loc" with
    | some x, some y => do
      let i ← position n (num x)
      let j ← position n (num y)
      .ok [(i, j)]
    | _, _ => .ok []
  | _, _ => .error .keyError

/-- The loop. -/
def projectLoop (n : Nat) (num : V → Option Int) (m : LGraph ν V) :
    List (ν × ν × Attr V) → Except PyErr (List (Nat × Nat))
  | [] => .ok []
  | e :: es => do
    let a ← projectStep n num m e
    let as ← projectLoop n num m es
    .ok (a ++ as)

/-- `project_strategy_on_partition`, `plot.py:177-206`: the positions of the ones in the matrix, for a partition of `n`
regions. -/
def projectStrategy (n : Nat) (num : V → Option Int) (m : LGraph ν V) : Except PyErr (List (Nat × Nat)) := do
  let es ← m.findEdges none none []
  projectLoop n num m es

end Plot
end Tulip
