import Verif.Abstract.Prop2part
import Mathlib.Algebra.Order.Field.Basic

/-!
# Discretization, `tulip/abstract/discretization.py:663-1657`

The package `polytope` and `solve_feasible` are parameters. Matrices are functions of two indices, whose
values outside of the matrix are not used. Plotting and logging are not modelled; neither is the
conversion of the result to a transition system, which is in `Verif.Abstract.Ts`.
-/

namespace Tulip

namespace Abs

/-- The functions and parameters that the two algorithms use. -/
structure DiscOps (P K : Type) where
  /-- `solve_feasible(si, sj, ss, N, closed_loop, use_all_horizon, trans_set, max_num_poly)` for a
  subsystem, two cells and `trans_set`. -/
  solve : Nat → P → P → Option P → Except PyErr P
  inter : P → P → P
  diff : P → P → P
  /-- `volume`. -/
  vol : P → K
  /-- The Chebyshev radius. -/
  rad : P → K
  /-- `pc.separate`; the pieces have the propositions of the region. -/
  separate : P → List P
  /-- `pc.is_adjacent`. -/
  adjacent : P → P → Bool
  /-- `==` on regions. -/
  eqv : P → P → Bool
  /-- The Chebyshev radius of the disturbance set of a subsystem. -/
  rd : Nat → K
  minVol : K
  absTol : K
  conservative : Bool
  /-- `remove_trans`, after it was set to `False` if not conservative. -/
  removeTrans : Bool
  /-- The system is piecewise affine. -/
  pwa : Bool
  transLength : Nat

/-- The variables of the loop. -/
structure DState (P : Type) where
  sol : List (Region P)
  orig : List Nat
  subs : List Nat
  trans : Nat → Nat → Bool
  adj : Nat → Nat → Bool
  ij : Nat → Nat → Bool

/-- `l[i]`. -/
def getIdx {α : Type} (l : List α) (i : Nat) : Except PyErr α :=
  match l[i]? with
  | some a => .ok a
  | none => .error .indexError

/-- Boolean matrix product, `(np.dot(a, b) != 0)`, of matrices of size `n`. -/
def boolDot (n : Nat) (a b : Nat → Nat → Bool) (i j : Nat) : Bool :=
  (List.range n).any fun k => a i k && b k j

/-- The loop of `reachable_within`, `discretization.py:1636-1638`. -/
def powerLoop (n : Nat) (adj : Nat → Nat → Bool) : Nat → (Nat → Nat → Bool) → Nat → Nat → Bool
  | 0, m => m
  | k + 1, m => powerLoop n adj k (boolDot n m adj)

/-- `reachable_within`, `discretization.py:1625-1641`, for matrices with entries `0` and `1`. -/
def reachableWithin (n transLength : Nat) (adjK adj : Nat → Nat → Bool) : Nat → Nat → Bool :=
  if transLength ≤ 1 then adjK else powerLoop n adj (transLength - 1) adjK

/-- `sym_adj_change`, `discretization.py:1644-1657`. -/
def symAdjChange (ij adjK trans : Nat → Nat → Bool) (i a b : Nat) : Bool :=
  if a = i ∨ b = i then adjK a b && !trans a b else ij a b

/-- The first pair to check, in the order of `np.nonzero`, `discretization.py:838-842`. -/
def firstPair (n : Nat) (ij : Nat → Nat → Bool) : Option (Nat × Nat) :=
  ((List.range n).flatMap fun j => (List.range n).map fun i => (j, i)).find? fun p => ij p.1 p.2

variable {P K : Type} [Field K] [LinearOrder K]

/-- The subsystem of a cell, `discretization.py:848-853`. -/
def sysOf (O : DiscOps P K) (S : DState P) (i : Nat) : Except PyErr Nat :=
  if O.pwa then getIdx S.subs i else .ok 0

/-- `trans_set`, `discretization.py:854-859`. -/
def transSet (O : DiscOps P K) (origList : List P) (S : DState P) (i : Nat) :
    Except PyErr (Option P) :=
  if O.conservative then .ok none
  else do
    let o ← getIdx S.orig i
    let c ← getIdx origList o
    .ok (some c)

/-- `pc.is_adjacent(sol[x], sol[y])`, `discretization.py:980-1012`. -/
def nearCells (O : DiscOps P K) (sol : List (Region P)) (x y : Nat) : Bool :=
  match sol[x]?, sol[y]? with
  | some p, some q => O.adjacent p.poly q.poly
  | _, _ => false

/-- `for _ in new: l = np.hstack([l, l[i]])`, `discretization.py:922-933`. -/
def extendAt (l : List Nat) (i : Nat) (new : List P) : Except PyErr (List Nat) :=
  if new.isEmpty then .ok l else (getIdx l i).map fun o => l ++ new.map fun _ => o

/-- The adjacency matrix after a cell was divided, `discretization.py:960-1014`: `i` is the divided cell,
`n` the number of cells before; the indices `n, n + 1, ...` are the new cells of `sol`. -/
def splitAdj (O : DiscOps P K) (sol : List (Region P)) (adj : Nat → Nat → Bool) (n i a b : Nat) :
    Bool :=
  let near := nearCells O sol
  if a = b ∧ (a = i ∨ n ≤ a) then true
  else if a = i ∧ n ≤ b ∨ b = i ∧ n ≤ a then true
  else if n ≤ a ∧ n ≤ b then near a b || near b a
  else if a = i ∨ n ≤ a then adj i b && near a b
  else if b = i ∨ n ≤ b then adj i a && near b a
  else adj a b

/-- The transitions after a cell was divided, `discretization.py:936-957` and, with `remove_trans`,
`:998-1014`. -/
def splitTrans (O : DiscOps P K) (sol : List (Region P)) (adj trans : Nat → Nat → Bool)
    (n i j a b : Nat) : Bool :=
  let near := nearCells O sol
  let removed := O.removeTrans && O.transLength == 1 &&
    ((a == i || decide (n ≤ a)) && b != i && decide (b < n) && adj i b && !near a b ||
      (b == i || decide (n ≤ b)) && a != i && decide (a < n) && adj i a && !near b a)
  if removed then false
  else if a = j ∧ b = i ∧ i ≠ j then true
  else if a = i ∨ n ≤ a ∨ n ≤ b then false
  else trans a b

/-- The pairs to check after a cell was divided, `discretization.py:1016-1024`. -/
def splitIJ (O : DiscOps P K) (n m i : Nat) (adj trans ij : Nat → Nat → Bool) : Nat → Nat → Bool :=
  let adjK := reachableWithin m O.transLength adj adj
  (List.range' n (m - n)).reverse.foldl (fun ij r => symAdjChange ij adjK trans r)
    (symAdjChange ij adjK trans i)

/-- Division of the cell `i`, `discretization.py:905-1031`. -/
def divide (O : DiscOps P K) (S : DState P) (j i : Nat) (si : Region P) (isect diff : P) :
    Except PyErr (DState P) :=
  match O.separate isect with
  | [] => .error .indexError
  | p :: ps =>
    let new := O.separate diff ++ ps
    let n := S.sol.length
    let sol := S.sol.set i ⟨p, si.props⟩ ++ new.map fun q => ⟨q, si.props⟩
    do
      let orig ← (if O.conservative then .ok S.orig else extendAt S.orig i new)
      let subs ← (if O.pwa then extendAt S.subs i new else .ok S.subs)
      let trans := splitTrans O sol S.adj S.trans n i j
      let adj := splitAdj O sol S.adj n i
      .ok ⟨sol, orig, subs, trans, adj, splitIJ O n sol.length i adj trans S.ij⟩

/-- One iteration of the loop of `_discretize_bi`, `discretization.py:838-1045`. -/
def biStep (O : DiscOps P K) (origList : List P) (S : DState P) (j i : Nat) :
    Except PyErr (DState P) := do
  let S := { S with ij := fun a b => if a = j ∧ b = i then false else S.ij a b }
  let si ← getIdx S.sol i
  let sj ← getIdx S.sol j
  let sys ← sysOf O S i
  let ts ← transSet O origList S i
  let s0 ← O.solve sys si.poly sj.poly ts
  let isect := O.inter si.poly s0
  let diff := O.diff si.poly s0
  if O.minVol < O.vol isect ∧ O.rd sys < O.rad isect ∧ O.minVol < O.vol diff ∧
      O.rd sys < O.rad diff then
    divide O S j i si isect diff
  else
    .ok { S with trans := fun a b => if a = j ∧ b = i then decide (O.vol diff < O.absTol)
                                     else S.trans a b }

/-- The loop, with a bound on the number of iterations: `none` means that it is still running. -/
def discLoop (step : DState P → Nat → Nat → Except PyErr (DState P)) :
    Nat → DState P → Option (Except PyErr (DState P))
  | fuel, S => match firstPair S.sol.length S.ij with
    | none => some (.ok S)
    | some (j, i) => match fuel with
      | 0 => none
      | fuel + 1 => match step S j i with
        | .error e => some (.error e)
        | .ok S' => discLoop step fuel S'

/-- The variables before the loop, `discretization.py:756-815`: `part` are the regions (after
`pwa_partition` and `part2convex`), `adj` is their adjacency matrix, `subs` the subsystems. -/
def discInit (O : DiscOps P K) (part : List (Region P)) (adj : Nat → Nat → Bool) (subs : List Nat) :
    DState P :=
  ⟨part, if O.conservative then [0] else List.range part.length, if O.pwa then subs else [],
    fun _ _ => false, adj, reachableWithin part.length O.transLength adj adj⟩

/-- `_discretize_bi`, `discretization.py:756-1045`. -/
def discretizeBi (O : DiscOps P K) (part : List (Region P)) (adj : Nat → Nat → Bool)
    (subs : List Nat) (fuel : Nat) : Option (Except PyErr (DState P)) :=
  discLoop (biStep O (part.map (·.poly))) fuel (discInit O part adj subs)

/-- The new cell of `_discretize_dual`, `discretization.py:1431-1506`. -/
def dualAdd (O : DiscOps P K) (S : DState P) (j i : Nat) (si : Region P) (isect : P) :
    Except PyErr (DState P) :=
  match O.separate isect with
  | [] => .error .indexError
  | p :: _ =>
    let n := S.sol.length
    let sol := S.sol ++ [⟨p, si.props⟩]
    let near (k : Nat) : Bool := match S.sol[k]? with
      | some q => O.adjacent p q.poly
      | none => false
    let far := (List.range n).any fun k => S.adj i k && k != i && !near k
    do
      let orig ← (if O.conservative then .ok S.orig else extendAt S.orig i [p])
      -- `transitions` has not been padded yet
      if O.removeTrans && O.transLength == 1 && far then .error .indexError
      else
        let adj := fun a b => if a = n ∧ b = n ∨ a = n ∧ b = i ∨ a = i ∧ b = n then true
          else if a = n then S.adj i b && near b
          else if b = n then S.adj i a && near a
          else S.adj a b
        let adjK := reachableWithin (n + 1) O.transLength adj adj
        let trans := fun a b =>
          if a = j ∧ b = n ∧ adjK j n then true
          else if b = n then (if a = n then false else S.trans a i) && adjK a i
          else if a = n then false
          else S.trans a b
        .ok ⟨sol, orig, S.subs, trans, adj,
          symAdjChange (symAdjChange S.ij adjK trans i) adjK trans n⟩

/-- One iteration of the loop of `_discretize_dual`, `discretization.py:1344-1530`. -/
def dualStep (O : DiscOps P K) (origList : List P) (S : DState P) (j i : Nat) :
    Except PyErr (DState P) := do
  let S := { S with ij := fun a b => if a = j ∧ b = i then false else S.ij a b }
  let si ← getIdx S.sol i
  let sj ← getIdx S.sol j
  let sys ← sysOf O S i
  let ts ← transSet O origList S i
  let s0 ← O.solve sys si.poly sj.poly ts
  let isect := O.inter si.poly s0
  let vol2 := O.vol si.poly - O.vol isect
  if O.minVol < O.vol isect ∧ O.rd sys < O.rad isect ∧ O.minVol < vol2 ∧ O.rd sys < O.rad si.poly then
    if S.sol.any fun c => O.eqv c.poly isect then
      .ok { S with trans := fun a b => (a == j && (match S.sol[b]? with
        | some c => O.eqv c.poly isect
        | none => false)) || S.trans a b }
    else dualAdd O S j i si isect
  else
    .ok { S with trans := fun a b => if a = j ∧ b = i then decide (vol2 < O.absTol)
                                     else S.trans a b }

/-- `_discretize_dual`, `discretization.py:1260-1530`. -/
def discretizeDual (O : DiscOps P K) (part : List (Region P)) (adj : Nat → Nat → Bool)
    (subs : List Nat) (fuel : Nat) : Option (Except PyErr (DState P)) :=
  discLoop (dualStep O (part.map (·.poly))) fuel (discInit O part adj subs)

end Abs

end Tulip
