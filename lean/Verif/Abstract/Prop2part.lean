import Verif.Basic
import Verif.Abstract.Geometry

/-!
# Proposition-preserving partitions

Models `tulip/abstract/prop2partition.py`.
-/

namespace Tulip

namespace Abs

variable {P X : Type}

/-- A region with its propositions, `pc.Region(list_poly, props)`. -/
structure Region (P : Type) where
  poly : P
  props : List String
deriving DecidableEq

/-- `dum_prop.add(cur_prop)` on a set. -/
def addProp (props : List String) (p : String) : List String :=
  if p ∈ props then props else props ++ [p]

/-- The variables of the loop over the regions, `prop2partition.py:317-353`: `regions` and
`prop_holds_reg`. -/
structure SplitState (P : Type) where
  regions : List (Region P)
  holds : List Bool

/-- The body of the loop over the regions, `prop2partition.py:317-353`. `regions[i]` exists at each
call; `pc.reduce` does not change the set of points. -/
def splitStep (G : Geom P X) (prop : String) (poly : P) (s : SplitState P) (i : Nat) : SplitState P :=
  match s.regions[i]? with
  | none => s
  | some now =>
    let dummy := G.inter now.poly poly
    if G.fulldim dummy then
      let regions := s.regions.set i ⟨dummy, addProp now.props prop⟩
      let rest := G.diff now.poly poly
      if G.fulldim rest then ⟨regions ++ [⟨rest, now.props⟩], s.holds ++ [true]⟩
      else ⟨regions, s.holds ++ [true]⟩
    else ⟨s.regions ++ [now], s.holds ++ [false]⟩

/-- The loop that removes the regions where the proposition does not hold,
`prop2partition.py:354-358`; `k` is `hold_count`. -/
def removeFailed {α : Type} : List Bool → Nat → Nat → List α → List α
  | [], _, _, regions => regions
  | true :: hs, k, count, regions => removeFailed hs (k + 1) count regions
  | false :: hs, k, count, regions =>
    removeFailed hs (k + 1) (count + 1) (regions.eraseIdx (k - count))

/-- The body of the loop over the propositions, `prop2partition.py:312-358`. -/
def splitBy (G : Geom P X) (regions : List (Region P)) (p : String × P) : List (Region P) :=
  let s := (List.range regions.length).foldl (splitStep G p.1 p.2) ⟨regions, []⟩
  removeFailed s.holds 0 0 s.regions

/-- A `PropPreservingPartition`, `prop2partition.py:66-141`, without the adjacency matrix. -/
structure Partition (P : Type) where
  domain : P
  regions : List (Region P)
  propRegions : Dict String P

/-- `PropPreservingPartition.__init__` with `check=True`, `prop2partition.py:94-141` and
`is_symbolic`, `:156-174`. `le` is the test `region <= domain` of the package `polytope`. -/
def Partition.make (le : P → P → Bool) (domain : P) (regions : List (Region P))
    (propRegions : Dict String P) : Except PyErr (Partition P) :=
  if regions.any fun r => !le r.poly domain then .error .valueError
  else if regions.any fun r => r.props.any fun p => !propRegions.has p then .error .valueError
  else .ok ⟨domain, regions, propRegions⟩

/-- `prop2part`, `prop2partition.py:286-370`, without the adjacency matrix. -/
def prop2part (G : Geom P X) (le : P → P → Bool) (space : P) (props : Dict String P) :
    Except PyErr (Partition P) :=
  Partition.make le space (props.foldl (splitBy G) [⟨space, []⟩]) props

/-- `all(...)` with a test that may raise. -/
def allE {α : Type} (f : α → Except PyErr Bool) : List α → Except PyErr Bool
  | [] => .ok true
  | a :: l => do
    let b ← f a
    if b then allE f l else .ok false

/-- `preserves_predicates`, `prop2partition.py:176-206`. `big` is the test that the volume exceeds
`ABS_TOL`. -/
def Partition.preserves (G : Geom P X) (le : P → P → Bool) (big : P → Bool) (p : Partition P) :
    Except PyErr Bool :=
  allE (fun r => do
    let b ← allE (fun prop => match p.propRegions.get? prop with
      | none => .error .keyError
      | some q => .ok (le r.poly q)) r.props
    if b then
      .ok ((p.propRegions.filter fun q => q.1 ∉ r.props).all fun q => !big (G.inter r.poly q.2))
    else .ok false) p.regions

/-- A refined region: the region, the index of the active subsystem or box, and the index of its
parent. -/
structure Piece (P : Type) where
  region : Region P
  sub : Nat
  parent : Nat
deriving DecidableEq

/-- The pieces of a list of regions inside one set, `prop2partition.py:465-487` and `:632-647` (the
inner loops). `inter` is the intersection of a region with the set, `keep` is `pc.is_fulldim` or the
test of the Chebyshev radius. -/
def cut (inter : P → P → P) (keep : P → Bool) (i : Nat) (cell : P) (regions : List (Region P)) :
    List (Piece P) :=
  regions.zipIdx.filterMap fun r =>
    let isect := inter r.1.poly cell
    if keep isect then some ⟨⟨isect, r.1.props⟩, i, r.2⟩ else none

/-- The pieces of all sets. -/
def refine (inter : P → P → P) (keep : P → Bool) (cells : List P) (regions : List (Region P)) :
    List (Piece P) :=
  cells.zipIdx.flatMap fun c => cut inter keep c.2 c.1 regions

/-- `pwa_partition`, `prop2partition.py:409-501`: the regions, `subsys_list` and `parents`.
`domain` is `pwa_sys.domain` and `subs` are the domains of its subsystems. -/
def pwaPartition (G : Geom P X) (le : P → P → Bool) (domain : P) (subs : List P) (ppp : Partition P) :
    Except PyErr (Partition P × List Nat × List Nat) :=
  if G.fulldim (G.diff ppp.domain domain) then .error .exception
  else
    let pieces := refine G.inter G.fulldim subs ppp.regions
    (Partition.make le ppp.domain (pieces.map (·.region)) ppp.propRegions).map fun p =>
      (p, pieces.map (·.sub), pieces.map (·.parent))

/-- The adjacency matrix of the refined regions, `prop2partition.py:489-501`: rows of the loop, as a
function. `adjacent` is `pc.is_adjacent`; the loop sets both entries for `j < i`. -/
def pwaAdj (adjacent : P → P → Bool) (oldAdj : Nat → Nat → Bool) (pieces : List (Piece P))
    (i j : Nat) : Bool :=
  match pieces[i]?, pieces[j]? with
  | some a, some b =>
    if i = j then true
    else if j < i then (oldAdj a.parent b.parent || a.parent == b.parent) &&
      adjacent a.region.poly b.region.poly
    else (oldAdj b.parent a.parent || b.parent == a.parent) &&
      adjacent b.region.poly a.region.poly
  | _, _ => false

end Abs

end Tulip
