import Verif.Abstract.Geometry
import Verif.Basic

/-!
# Reachability between polytopes, `tulip/abstract/feasible.py`

The package `polytope` and `poly_to_poly` (a polytope computed by linear algebra and projected) are
parameters; `Solver.Lawful` states what is assumed of them.
-/

namespace Tulip

namespace Abs

variable {P X U W : Type}

/-- The operations that `feasible.py` calls. A system is the number of a subsystem. -/
structure Solver (P : Type) where
  /-- The polytopes of a region; none for a polytope (`len`, iteration). -/
  parts : P → List P
  /-- The polytopes with the largest volumes, `np.argsort(- vol_list)` (a permutation of `parts`). -/
  sorted : P → List P
  /-- `pc.Region(temp, [])`. -/
  region : List P → P
  /-- `union(..., check_convex=True)`. -/
  union : P → P → P
  /-- `pc.reduce`. -/
  reduce : P → P
  /-- `pc.is_fulldim`. -/
  fulldim : P → Bool
  /-- `pc.Polytope()`. -/
  empty : P
  /-- `pc.Region()`, with no polytopes. -/
  emptyRegion : P
  /-- `poly_to_poly(p1, p2, ssys, N, trans_set)`, `feasible.py:425-456`; `trans_set` is not `None`. -/
  poly : P → P → Nat → Nat → P → P
  /-- `a <= b`. -/
  le : P → P → Bool

/-- `volumes_for_reachability`, `feasible.py:459-475`. -/
def volumesForReachability (S : Solver P) (part : P) (maxNumPoly : Nat) : P :=
  if (S.parts part).length ≤ maxNumPoly then part
  else S.region ((S.sorted part).take maxNumPoly)

/-- `start_polys` and `target_polys`, `feasible.py:413-420`. -/
def polys (S : Solver P) (r : P) : List P := if (S.parts r).isEmpty then [r] else S.parts r

/-- `poly_to_poly` with `trans_set` possibly `None`, `feasible.py:451-452`. -/
def polyToPoly (S : Solver P) (p1 p2 : P) (sys N : Nat) (trans : Option P) : P :=
  S.poly p1 p2 sys N (trans.getD p1)

/-- `solve_open_loop`, `feasible.py:379-422`. -/
def solveOpenLoop (S : Solver P) (p1 p2 : P) (sys N : Nat) (trans : Option P)
    (maxNumPoly : Nat := 5) : P :=
  let r1 := volumesForReachability S p1 maxNumPoly
  let r2 := volumesForReachability S p2 maxNumPoly
  ((polys S r1).flatMap fun a => (polys S r2).map fun b => (a, b)).foldl
    (fun s0 ab => S.union s0 (polyToPoly S ab.1 ab.2 sys N trans)) S.empty

/-- The loop of `_solve_closed_loop_fixed_horizon`, `feasible.py:251-261`; the argument is `i`. -/
def fixedLoop (S : Solver P) (p1 pinit : P) (sys : Nat) (trans : Option P) : Nat → P → P
  | 0, p2 => p2
  | i + 1, p2 =>
    let pinit := if i + 1 = 1 then p1 else pinit
    let p2 := S.reduce (solveOpenLoop S pinit p2 sys 1 trans)
    if S.fulldim p2 then fixedLoop S p1 pinit sys trans i p2 else S.empty

/-- `_solve_closed_loop_fixed_horizon`, `feasible.py:208-262`. -/
def solveFixed (S : Solver P) (p1 p2 : P) (sys N : Nat) (trans : Option P) : Except PyErr P :=
  if N = 0 then .error .assertion
  else .ok (fixedLoop S p1 (trans.getD p1) sys trans N p2)

/-- The loop of `_solve_closed_loop_bounded_horizon`, `feasible.py:297-311`. -/
def boundedLoop (S : Solver P) (p1 pinit : P) (sys : Nat) (trans : Option P) : Nat → P → P → P
  | 0, _, s => s
  | i + 1, p2, s =>
    let pinit := if i + 1 = 1 then p1 else pinit
    let p2 := S.reduce (solveOpenLoop S pinit p2 sys 1 trans)
    let s := S.reduce (S.union s p2)
    if S.fulldim p2 then boundedLoop S p1 pinit sys trans i p2 s else s

/-- `_solve_closed_loop_bounded_horizon`, `feasible.py:265-315`. -/
def solveBounded (S : Solver P) (p1 p2 : P) (sys N : Nat) (trans : Option P) : P :=
  let s := boundedLoop S p1 (trans.getD p1) sys trans N p2 S.emptyRegion
  if S.fulldim s then S.reduce s else S.empty

/-- The loop of `_underapproximate_attractor`, `feasible.py:352-367`; `r` is the set of the last
iteration. -/
def attractorLoop (S : Solver P) (p1 pinit : P) (sys : Nat) (trans : Option P) : Nat → P → P → P
  | 0, _, r => r
  | i + 1, p2, _ =>
    let pinit := if i + 1 = 1 then p1 else pinit
    let r := solveOpenLoop S pinit p2 sys 1 trans
    let p2 := S.reduce (S.union p2 r)
    if S.fulldim p2 then attractorLoop S p1 pinit sys trans i p2 r else S.empty

/-- `_underapproximate_attractor`, `feasible.py:319-365`. -/
def attractor (S : Solver P) (p1 p2 : P) (sys N : Nat) (trans : Option P) : Except PyErr P :=
  if N = 0 then .error .assertion
  else .ok (attractorLoop S p1 (trans.getD p1) sys trans N p2 S.empty)

/-- `solve_feasible`, `feasible.py:99-205`. -/
def solveFeasible (S : Solver P) (p1 p2 : P) (sys N : Nat) (closedLoop useAllHorizon : Bool)
    (trans : Option P) (maxNumPoly : Nat := 5) : Except PyErr P :=
  if closedLoop then
    if useAllHorizon then attractor S p1 p2 sys N trans
    else solveFixed S p1 p2 sys N trans
  else if useAllHorizon then .error .valueError
  else .ok (solveOpenLoop S p1 p2 sys N trans maxNumPoly)

/-- `is_feasible`, `feasible.py:67-92`. -/
def isFeasible (S : Solver P) (p1 p2 : P) (sys N : Nat) (closedLoop useAllHorizon : Bool)
    (trans : Option P) : Except PyErr Bool :=
  (solveFeasible S p1 p2 sys N closedLoop useAllHorizon trans).map fun s0 => S.le p1 s0

end Abs

end Tulip
