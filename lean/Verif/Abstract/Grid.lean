import Verif.Abstract.Prop2part
import Mathlib.Algebra.Order.Archimedean.Basic
import Mathlib.Algebra.Order.Field.Basic

/-!
# Grids, `tulip/abstract/prop2partition.py:504-704`

Numbers (`float`) are modelled by an ordered field `K`: rounding is not modelled.
-/

namespace Tulip

namespace Abs

section
variable {K : Type} [Field K] [LinearOrder K]

/-- `compute_interval` (`prop2partition.py:667-690`): the `while True` loop with a bound on the number
of iterations; `none` means that the loop is still running. Intervals are pairs instead of lists of two
numbers. -/
def intervalLoop (high size tol : K) : Nat → K → List (K × K) → Option (List (K × K))
  | 0, _, _ => none
  | fuel + 1, i, acc =>
    if high ≤ i + size + tol then some (acc ++ [(i, high)])
    else intervalLoop high size tol fuel (i + size) (acc ++ [(i, i + size)])

def computeInterval (fuel : Nat) (low high size tol : K) : Option (List (K × K)) :=
  intervalLoop high size tol fuel low []

/-- `product_interval` (`prop2partition.py:693-704`): the elements of the two lists are flat lists of
bounds. -/
def productInterval (l m : List (List K)) : List (List K) :=
  l.flatMap fun a => m.map fun b => a ++ b

/-- The parameter `grid_size` of `add_grid` (`prop2partition.py:504-511`): a `list` of numbers, a
`float`, or something else. -/
inductive SizeArg (K : Type)
  | list (l : List K)
  | float (x : K)
  | other

/-- The parameter `num_grid_pnts` of `add_grid` (`prop2partition.py:512-515`): a `list` (an element
that is not an `int` is `none`), an `int`, or something else. -/
inductive NumArg
  | list (l : List (Option Int))
  | int (n : Int)
  | other

/-- `(high - low) / n` (`prop2partition.py:584-588`). -/
def cellSize (b : K × K) (n : Int) : Except PyErr K :=
  if n = 0 then .error .zeroDivision else .ok ((b.2 - b.1) / n)

/-- The sizes for a list of numbers of cells (`prop2partition.py:582-593`). -/
def listSizes : List (K × K) → List (Option Int) → Except PyErr (List K)
  | b :: bs, some n :: ns => do
    let s ← cellSize b n
    let l ← listSizes bs ns
    .ok (s :: l)
  | _ :: _, none :: _ => .error .exception
  | _, _ => .ok []

/-- The sizes of the cells of the grid (`prop2partition.py:544-609`). `bb` is the bounding box of the
domain, `dim` is its length. -/
def sizeList (bb : List (K × K)) (size : Option (SizeArg K)) (num : Option NumArg) :
    Except PyErr (List K) :=
  match size, num with
  | some _, some _ => .error .exception
  | none, none => .error .exception
  | some (.list l), none => if l.length = bb.length then .ok l else .error .exception
  | some (.float x), none => .ok (bb.map fun _ => x)
  | some .other, none => .error .exception
  | none, some (.list l) =>
    if l.length = bb.length then listSizes bb l else .error .exception
  | none, some (.int n) => listSizes bb (bb.map fun _ => some n)
  | none, some .other => .error .exception

/-- The intervals of the dimensions (`prop2partition.py:612-617`). -/
def gridLists (fuel : Nat) (tol : K) : List (K × K) → List K → Option (List (List (K × K)))
  | b :: bs, s :: ss => do
    let l ← computeInterval fuel b.1 b.2 s tol
    let ls ← gridLists fuel tol bs ss
    some (l :: ls)
  | _, _ => some []

/-- The flat list of bounds of an interval, `[i, i + size]`. -/
def flat (l : List (K × K)) : List (List K) := l.map fun p => [p.1, p.2]

/-- The product of the intervals of the dimensions (`prop2partition.py:610-627`): for one dimension,
`re_list` is never assigned. -/
def gridProduct : List (List (K × K)) → Except PyErr (List (List K))
  | l0 :: l1 :: ls =>
    .ok (ls.foldl (fun re l => productInterval re (flat l)) (productInterval (flat l0) (flat l1)))
  | _ => .error .unboundLocal

/-- The list of pairs of bounds, `temp_list` (`prop2partition.py:631-637`). -/
def pairUp : List K → List (K × K)
  | a :: b :: l => (a, b) :: pairUp l
  | _ => []

end

variable {P X K : Type} [Field K] [LinearOrder K]

/-- `add_grid` (`prop2partition.py:504-661`). `box` is `pc.box2poly`, and `big` is the test of the
Chebyshev radius, `rc > abs_tol / 2`. The result is `none` while `compute_interval` is running. The
adjacency matrix is `pwaAdj` (the two loops set the same entries). -/
def addGrid (G : Geom P X) (le : P → P → Bool) (box : List (K × K) → P) (big : P → Bool) (fuel : Nat)
    (tol : K) (bb : List (K × K)) (size : Option (SizeArg K)) (num : Option NumArg)
    (ppp : Partition P) : Except PyErr (Option (Partition P × List (Piece P))) := do
  let sizes ← sizeList bb size num
  match gridLists fuel tol bb sizes with
  | none => .ok none
  | some ls =>
    let re ← gridProduct ls
    let pieces := refine (fun region cell => G.inter cell region) big (re.map fun r => box (pairUp r))
      ppp.regions
    let p ← Partition.make le ppp.domain (pieces.map (·.region)) ppp.propRegions
    .ok (some (p, pieces))

end Abs

end Tulip
