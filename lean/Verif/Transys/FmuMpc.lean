import Mathlib.Data.Rat.Defs
import Mathlib.Algebra.Order.Ring.Unbundled.Rat

/-!
# Model of `get_input_helper` (`contrib/fmu/sources/TuLiPControl.c`) and of `contrib/fmu/sources/polytope.c`

The optimization problem that the exported controller gives to the solver ECOS. Numbers of type `double` are
rational, without rounding. An array that is read is a function of the index. Arrays that are filled
from the first to the last place are lists, so that writing at the place `sparsepr` and incrementing
`sparsepr` appends to the list, and `sparsepr` is the length. Allocation does not fail.
-/

namespace Tulip
namespace Fmu

/-! ## Polytopes -/

/-- `Polytope`, `include/polytope.h`: `k` inequalities in `l` dimensions, `A` by columns, for the points
with `A x >= b`. -/
structure Poly where
  k : Nat
  l : Nat
  A : Nat → ℚ
  b : Nat → ℚ
  center : Nat → ℚ

/-- The sum in `isInside`, `polytope.c:33-38`. -/
def rowSum (p : Poly) (x : Nat → ℚ) (j : Nat) : ℚ :=
  (List.range p.l).foldl (fun s i => s + p.A (i * p.k + j) * x i) 0

/-- `isInside`, `polytope.c:26-46`; the bound is read at the index `i`, which is `l` after the loop. -/
def isInside (p : Poly) (x : Nat → ℚ) : Bool :=
  (List.range p.k).all fun j => !decide (rowSum p x j < p.b p.l)

/-- `from_box`, `polytope.c:48-71`; places that are not written are 0 (in `A`, they are set to 0). -/
def fromBox (l : Nat) (upper lower : Nat → ℚ) : Poly :=
  { k := l * 2
    l := l
    A := fun i => if (List.range l).any (fun j => i == j * (l * 2) + 2 * j) then 1
      else if (List.range l).any (fun j => i == j * (l * 2) + 2 * j + 1) then -1 else 0
    b := fun i => if i % 2 = 0 then lower (i / 2) else -1 * upper (i / 2)
    center := fun i => (upper i + lower i) / 2 }

/-- `cartesian_prod`, `polytope.c:84-141`, with `create_poly`, `:73-82`. The place `i + j * k` of `A`, for
`i < k`, is written in the iteration `i`, `j`. -/
def cartesianProd (p1 p2 : Poly) : Poly :=
  let k := p1.k + p2.k
  { k := k
    l := p1.l + p2.l
    A := fun e =>
      let i := e % k
      let j := e / k
      if i < p1.k ∧ j < p1.l then p1.A (i + j * p1.k)
      else if i ≥ p1.k ∧ j ≥ p1.l then p2.A ((i - p1.k) + (j - p1.l) * p2.k)
      else 0
    b := fun i => if i < p1.k then p1.b i else p2.b (i - p1.k)
    center := fun j => if j < p1.l then p1.center j else p2.center (j - p1.l) }

/-- `polytope2str`, `poly2str.py:19-38`, for `A x <= b` with `A` of shape `(k, l)`: the arrays in the C code
are those of `-A` in the order of columns, and of `-b`. -/
def exportPoly (k l : Nat) (A : Nat → Nat → ℚ) (b center : Nat → ℚ) : Poly :=
  { k, l, A := fun e => -1 * A (e % k) (e / k), b := fun i => -1 * b i, center }

/-! ## The optimization problem -/

/-- A sparse matrix by columns: the entries of the column `c` are at the places from `jc[c]` to before
`jc[c + 1]`; `ir` has their rows and `pr` their values. -/
structure Ccs where
  jc : List Nat
  ir : List Nat
  pr : List ℚ

/-- `*(jc+j) = sparsepr`, followed by the entries of a column. -/
def Ccs.col (s : Ccs) (es : List (Nat × ℚ)) : Ccs :=
  { jc := s.jc ++ [s.pr.length], ir := s.ir ++ es.map (·.1), pr := s.pr ++ es.map (·.2) }

/-- The dimensions `n`, `p`, `N`, `l1`, `l2`. -/
structure Dims where
  n : Nat
  p : Nat
  N : Nat
  l1 : Nat
  l2 : Nat

/-- `TuLiPControl.c:164`. -/
def Dims.ecosN (d : Dims) : Nat := d.n * (d.N + 1) + d.p * d.N + 3
/-- `TuLiPControl.c:165`. -/
def Dims.ecosM (d : Dims) : Nat := d.l1 * d.N + d.l2 + d.p * d.N + d.n + 2
/-- `TuLiPControl.c:166`. -/
def Dims.ecosP (d : Dims) : Nat := d.n * (d.N + 1) + 2
/-- `TuLiPControl.c:167`. -/
def Dims.ecosL (d : Dims) : Nat := d.l1 * d.N + d.l2
/-- `ecos_q[0]`, `TuLiPControl.c:186`. -/
def Dims.ecosQ (d : Dims) : Nat := d.p * d.N + d.n + 2
/-- `TuLiPControl.c:189`. -/
def Dims.nnzG (d : Dims) : Nat := d.N * d.p + d.n + d.N * (d.n + d.p) * d.l1 + d.n * d.l2 + 2
/-- `TuLiPControl.c:247`. -/
def Dims.nnzA (d : Dims) : Nat := (d.N + 1) * d.n + d.N * d.n * d.n + d.N * d.n * d.p + 4
/-- `TuLiPControl.c:249`. -/
def Dims.nnzAblock (d : Dims) : Nat := d.n * d.n + d.n * d.p + d.n

/-- The body of the loop over `j`, `TuLiPControl.c:203-218`: the entries of a column. -/
def gCol (d : Dims) (A1 : Nat → ℚ) (k j : Nat) : List (Nat × ℚ) :=
  (List.range d.l1).map (fun i => (i + k * d.l1, -1 * A1 (j * d.l1 + i))) ++
    if j ≥ d.n then [(j - d.n + k * d.p + d.N * d.l1 + d.l2 + 2, -1)] else []

/-- The body of the loop at `TuLiPControl.c:221-233`, for the index `j + N*(n+p)`. -/
def gLast (d : Dims) (A2 : Nat → ℚ) (j : Nat) : List (Nat × ℚ) :=
  (List.range d.l2).map (fun i => (i + d.N * d.l1, -1 * A2 (j * d.l2 + i))) ++
    [(j + d.N * d.l1 + d.l2 + 2 + d.N * d.p, -1)]

/-- The matrix `G`, `TuLiPControl.c:188-244`. The last two entries are written at the places `nnzG-2` and
`nnzG-1`; here they are appended. -/
def genG (d : Dims) (A1 A2 : Nat → ℚ) : Ccs :=
  let s : Ccs := ⟨[], [], []⟩
  let s := (List.range d.N).foldl (fun s k =>
    (List.range (d.n + d.p)).foldl (fun s j => s.col (gCol d A1 k j)) s) s
  let s := (List.range d.n).foldl (fun s j => s.col (gLast d A2 j)) s
  { jc := s.jc ++ [d.nnzG - 2, d.nnzG - 1, d.nnzG, d.nnzG]
    ir := s.ir ++ [d.N * d.l1 + d.l2 + 1, d.N * d.l1 + d.l2]
    pr := s.pr ++ [-1, -1] }

/-- `TuLiPControl.c:262-273`. -/
def aColX (d : Dims) (A : Nat → ℚ) (j : Nat) : List (Nat × ℚ) :=
  (j, 1) :: (List.range d.n).map fun i => (d.n + i, -1 * A (j * d.n + i))

/-- `TuLiPControl.c:276-285`, for the index `j + n`. -/
def aColU (d : Dims) (B : Nat → ℚ) (j : Nat) : List (Nat × ℚ) :=
  (List.range d.n).map fun i => (d.n + i, -1 * B (j * d.n + i))

/-- The body of the loop over `k`, `TuLiPControl.c:288-300`: a copy of the first block. -/
def aBlock (d : Dims) (s : Ccs) (k : Nat) : Ccs :=
  { jc := s.jc ++ (List.range (d.n + d.p)).map fun l => s.jc.getD (l + 1) 0 + s.jc.getD (k * (d.n + d.p)) 0
    ir := s.ir ++ (List.range d.nnzAblock).map fun l => s.ir.getD ((s.pr.length + l) % d.nnzAblock) 0 + k * d.n
    pr := s.pr ++ (List.range d.nnzAblock).map fun l => s.pr.getD ((s.pr.length + l) % d.nnzAblock) 0 }

/-- The matrix `A` of the solver, `TuLiPControl.c:246-324`. The place `(n+p)*N` of `jc` is written twice, the
second time by the statement after the loop of `aBlock`; here the first value is removed. The last four
entries are written at the places from `nnzA-4`; here they are appended. -/
def genA (d : Dims) (A B : Nat → ℚ) : Ccs :=
  let s : Ccs := ⟨[], [], []⟩
  let s := (List.range d.n).foldl (fun s j => s.col (aColX d A j)) s
  let s := (List.range d.p).foldl (fun s j => s.col (aColU d B j)) s
  let s : Ccs := { s with jc := s.jc ++ [s.pr.length] }
  let s := (List.range (d.N - 1)).foldl (fun s k => aBlock d s (k + 1)) s
  let s : Ccs := { s with jc := s.jc.dropLast }
  let s := (List.range d.n).foldl (fun s j => s.col [(d.N * d.n + j, 1)]) s
  { jc := s.jc ++ [d.nnzA - 4, d.nnzA - 3, d.nnzA - 2, d.nnzA]
    ir := s.ir ++ [(d.N + 1) * d.n, (d.N + 1) * d.n + 1, (d.N + 1) * d.n, (d.N + 1) * d.n + 1]
    pr := s.pr ++ [1, 1, -1 / 2, -1 / 2] }

/-- The vector `c`, `TuLiPControl.c:328-345`. -/
def genC (d : Dims) (xc : Nat → ℚ) (i : Nat) : ℚ :=
  if i = d.ecosN - 1 then 1
  else if i ≥ (d.n + d.p) * d.N ∧ i < (d.n + d.p) * d.N + d.n then -2 * xc (i - (d.n + d.p) * d.N)
  else 0

/-- The vector `h`, `TuLiPControl.c:348-365`. -/
def genH (d : Dims) (b1 b2 : Nat → ℚ) (i : Nat) : ℚ :=
  if i < d.l1 * d.N then -1 * b1 (i % d.l1)
  else if i < d.l1 * d.N + d.l2 then -1 * b2 (i - d.l1 * d.N)
  else 0

/-- The vector `b`, `TuLiPControl.c:368-383`. -/
def genB (d : Dims) (x0 : Nat → ℚ) (i : Nat) : ℚ :=
  if i = d.ecosP - 1 then 1 / 2
  else if i = d.ecosP - 2 then -1 / 2
  else if i < d.n then x0 i
  else 0

/-- The input that is returned, `TuLiPControl.c:391-394`, for the solution `z`. -/
def firstInput (d : Dims) (z : Nat → ℚ) (i : Nat) : ℚ := z (i + d.n)

end Fmu
end Tulip
