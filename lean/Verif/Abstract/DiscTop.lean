import Verif.Abstract.Ts

/-!
# `discretize` and the class `AbstractPwa`, `tulip/abstract/discretization.py:245-660` and the first and last lines of
`_discretize_bi` and `_discretize_dual`; `part2convex`, `tulip/abstract/prop2partition.py:373-406`

The loops of the two algorithms are in `Verif.Abstract.Discretize`. The systems are identified by the index of the
subsystem, and indices are natural numbers. Plotting and logging are not modelled.
-/

namespace Tulip

namespace Abs

variable {P X K : Type} [Field K] [LinearOrder K]

/-- The regions of `part2convex` with the index of the region that each is from, `prop2partition.py:394-405`. `pieces r` are the
polytopes of `pc.union(r, r, check_convex=True)`. -/
def convexPieces (pieces : P → List P) (regions : List (Region P)) : List (Region P × Nat) :=
  regions.zipIdx.flatMap fun r => (pieces r.1.poly).map fun p => (⟨p, r.1.props⟩, r.2)

/-- `part2convex`, `prop2partition.py:373-406`, without the adjacency matrix. -/
def part2convex (pieces : P → List P) (ppp : Partition P) : Partition P × List Nat :=
  let l := convexPieces pieces ppp.regions
  (⟨ppp.domain, l.map (·.1), ppp.propRegions⟩, l.map (·.2))

/-- `[l[i] for i in idx]`. -/
def pick (l : List Nat) : List Nat → Except PyErr (List Nat)
  | [] => .ok []
  | i :: idx => do
    let a ← getIdx l i
    let r ← pick l idx
    .ok (a :: r)

/-- The parameters of `discretize` that are stored in `disc_params`, `discretization.py:1146-1153` and `:1589-1596`, but
`min_cell_volume`. -/
structure DiscParams where
  N : Nat := 10
  transLength : Nat := 1
  closedLoop : Bool := true
  conservative : Bool := false
  useAllHorizon : Bool := false
  maxNumPoly : Nat := 5
deriving DecidableEq

/-- `solve_feasible(P1, P2, ssys, N, closed_loop, use_all_horizon, trans_set, max_num_poly)`, as in
`Verif.Abstract.Feasible`. -/
abbrev Feasible (P : Type) := P → P → Nat → Nat → Bool → Bool → Option P → Nat → Except PyErr P

/-- The functions and parameters of the algorithms for a call of `discretize`: `remove_trans` is set to `False` if not
conservative, `discretization.py:781` and `:1296`. The fields of `O` for the other parameters are used. -/
def discOps (O : DiscOps P K) (F : Feasible P) (removeTrans : Bool) (prm : DiscParams) : DiscOps P K :=
  { O with
    solve := fun sys p q t => F p q sys prm.N prm.closedLoop prm.useAllHorizon t prm.maxNumPoly
    conservative := prm.conservative
    removeTrans := prm.conservative && removeTrans
    transLength := prm.transLength }

/-- The continuous system: `subs` are the domains of the subsystems of a `PwaSysDyn`, or `none` for an `LtiSysDyn`; `domain` is
the domain of the system. -/
structure ContSys (P : Type) where
  domain : P
  subs : Option (List P)

/-- The partition that is refined, its adjacency matrix, the subsystems, and the map to the given partition. -/
structure Prepared (P : Type) where
  part : Partition P
  adj : Nat → Nat → Bool
  subs : List Nat
  part2orig : List Nat

/-- The first lines of the two algorithms, for the system, `discretization.py:763-767` and `:1278-1282`. -/
def preparePwa (G : Geom P X) (le : P → P → Bool) (adjacent : P → P → Bool) (sys : ContSys P) (ppp : Partition P)
    (adj : Nat → Nat → Bool) : Except PyErr (Prepared P) :=
  match sys.subs with
  | none => .ok ⟨ppp, adj, [], List.range ppp.regions.length⟩
  | some subs => do
    let r ← pwaPartition G le sys.domain subs ppp
    .ok ⟨r.1, pwaAdj adjacent adj (refine G.inter G.fulldim subs ppp.regions), r.2.1, r.2.2⟩

/-- The first lines of the two algorithms, for the regions, `discretization.py:769-796` and `:1284-1311`. `findAdj` is
`pc.find_adjacent_regions`. -/
def prepareConvex (pieces : P → List P) (findAdj : List (Region P) → Nat → Nat → Bool) (pwa conservative : Bool)
    (p : Prepared P) : Except PyErr (Prepared P) :=
  if conservative then .ok p
  else do
    let c := part2convex pieces p.part
    let part2orig ← pick p.part2orig c.2
    let subs ← (if pwa then pick p.subs c.2 else .ok [])
    .ok ⟨c.1, findAdj c.1.regions, subs, part2orig⟩

/-- The attributes of `AbstractPwa`, `discretization.py:309-337`. `pwa` are the domains of the subsystems. -/
structure AbsPwa (P : Type) where
  ppp : Partition P
  ts : LGraph Nat (List String)
  ppp2ts : List Nat
  pwa : Option (List P)
  pwaPpp : Partition P
  ppp2pwaMap : List Nat
  ppp2sysMap : Option (List Nat)
  origPpp : Partition P
  ppp2origMap : List Nat
  params : DiscParams

/-- The last lines of the two algorithms, `discretization.py:1125-1176` and `:1568-1619`. -/
def finish (le : P → P → Bool) (sys : ContSys P) (given : Partition P) (p : Prepared P) (prm : DiscParams) (S : DState P) :
    Except PyErr (AbsPwa P) := do
  let new ← Partition.make le p.part.domain S.sol p.part.propRegions
  let ts ← (match discTs S p.part.propRegions.keys with
    | (g, none) => .ok g
    | (_, some e) => .error e)
  let ppp2orig ← pick p.part2orig S.orig
  .ok { ppp := new, ts := ts, ppp2ts := List.range S.sol.length, pwa := sys.subs, pwaPpp := p.part, ppp2pwaMap := S.orig,
        ppp2sysMap := if sys.subs.isSome then some S.subs else none, origPpp := given, ppp2origMap := ppp2orig, params := prm }

/-- What `discretize` is given besides the partition, the system and the parameters of `DiscParams`: the functions of the
package `polytope`, `solve_feasible`, and the other parameters. -/
structure DiscEnv (P X K : Type) where
  G : Geom P X
  /-- `<=` on regions. -/
  le : P → P → Bool
  /-- The polytopes of `pc.union(r, r, check_convex=True)`. -/
  pieces : P → List P
  /-- `pc.find_adjacent_regions`. -/
  findAdj : List (Region P) → Nat → Nat → Bool
  O : DiscOps P K
  F : Feasible P
  removeTrans : Bool

/-- The algorithms' operations, for a system and parameters. -/
def DiscEnv.ops (E : DiscEnv P X K) (sys : ContSys P) (prm : DiscParams) : DiscOps P K :=
  discOps { E.O with pwa := sys.subs.isSome } E.F E.removeTrans prm

/-- The first lines of the two algorithms. -/
def DiscEnv.prepare (E : DiscEnv P X K) (sys : ContSys P) (prm : DiscParams) (given : Partition P) (adj : Nat → Nat → Bool) :
    Except PyErr (Prepared P) := do
  let p ← preparePwa E.G E.le E.O.adjacent sys given adj
  prepareConvex E.pieces E.findAdj sys.subs.isSome prm.conservative p

/-- The algorithms that `discretize` calls, `discretization.py:641-653`. -/
def algorithmOf (simuType : String) :
    Except PyErr (DiscOps P K → List (Region P) → (Nat → Nat → Bool) → List Nat → Nat →
      Option (Except PyErr (DState P))) :=
  if simuType = "bi" then .ok discretizeBi
  else if simuType = "dual" then .ok discretizeDual
  else .error .valueError

/-- `discretize`, `discretization.py:538-660`. The number of iterations of the loop is bounded by `fuel`: `none` means that it is
still running. -/
def discretize (E : DiscEnv P X K) (sys : ContSys P) (given : Partition P) (adj : Nat → Nat → Bool) (prm : DiscParams)
    (simuType : String) (fuel : Nat) : Option (Except PyErr (AbsPwa P)) :=
  match algorithmOf simuType with
  | .error e => some (.error e)
  | .ok alg => match E.prepare sys prm given adj with
    | .error e => some (.error e)
    | .ok p => match alg (E.ops sys prm) p.part.regions p.adj p.subs fuel with
      | none => none
      | some (.error e) => some (.error e)
      | some (.ok S) => some (finish E.le sys given p prm S)

/-! ## The methods of `AbstractPwa` -/

/-- `AbstractPwa.ts2ppp`, `discretization.py:353-356`. -/
def AbsPwa.ts2ppp (A : AbsPwa P) (state : Nat) : Except PyErr (Nat × Region P) := do
  let i ← (match A.ppp2ts.findIdx? (· == state) with
    | some i => .ok i
    | none => .error .valueError)
  let r ← getIdx A.ppp.regions i
  .ok (i, r)

/-- `AbstractPwa.ppp2pwa`, `discretization.py:373-392`. -/
def AbsPwa.ppp2pwa (A : AbsPwa P) (i : Nat) : Except PyErr (Nat × Region P) := do
  let j ← getIdx A.ppp2pwaMap i
  let r ← getIdx A.pwaPpp.regions j
  .ok (j, r)

/-- `AbstractPwa.ppp2sys`, `discretization.py:394-414`: the index of the subsystem. `pwa.list_subsys` of an `LtiSysDyn` is an
`AttributeError`. -/
def AbsPwa.ppp2sys (A : AbsPwa P) (i : Nat) : Except PyErr Nat :=
  match A.ppp2sysMap with
  | none => .ok 0
  | some l => do
    let k ← getIdx l i
    match A.pwa with
    | none => .error .attribute
    | some subs => (getIdx subs k).map fun _ => k

/-- `AbstractPwa.ppp2orig`, `discretization.py:416-433`. -/
def AbsPwa.ppp2orig (A : AbsPwa P) (i : Nat) : Except PyErr (Nat × Region P) := do
  let j ← getIdx A.ppp2origMap i
  let r ← getIdx A.origPpp.regions j
  .ok (j, r)

/-- `AbstractPwa.ppp2trans`, `discretization.py:358-371`: the region and the index of the subsystem. -/
def AbsPwa.ppp2trans (A : AbsPwa P) (i : Nat) : Except PyErr (Region P × Nat) := do
  let r ← A.ppp2pwa i
  let k ← A.ppp2sys i
  .ok (r.2, k)

/-- The check of one transition in `AbstractPwa.verify_transitions`, `discretization.py:483-495`. Of `disc_params`, only `N` and
`use_all_horizon` are passed (`'close_loop'` is not a key), so the defaults `closed_loop=True` and `max_num_poly=5` of
`solve_feasible` apply, `feasible.py:99-120`. -/
def AbsPwa.verifyOne (le : P → P → Bool) (F : Feasible P) (A : AbsPwa P) (u v : Nat) : Except PyErr (Nat × Nat × Bool) := do
  let a ← A.ts2ppp u
  let b ← A.ts2ppp v
  let t ← A.ppp2trans a.1
  let s0 ← F a.2.poly b.2.poly t.2 A.params.N true A.params.useAllHorizon (some t.1.poly) 5
  .ok (a.1, b.1, le a.2.poly s0)

/-- The loop of `verify_transitions`. -/
def AbsPwa.verifyLoop (le : P → P → Bool) (F : Feasible P) (A : AbsPwa P) :
    List (Nat × Nat × Attr (List String)) → Except PyErr (List (Nat × Nat × Bool))
  | [] => .ok []
  | e :: es => do
    let r ← A.verifyOne le F e.1 e.2.1
    let rs ← A.verifyLoop le F es
    .ok (r :: rs)

/-- `AbstractPwa.verify_transitions`, `discretization.py:480-505`: what it logs, for each transition: the indices and whether
the transition is correct. -/
def AbsPwa.verifyTransitions (le : P → P → Bool) (F : Feasible P) (A : AbsPwa P) : Except PyErr (List (Nat × Nat × Bool)) :=
  A.verifyLoop le F A.ts.edges

end Abs

end Tulip
