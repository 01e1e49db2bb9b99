import Verif.Basic
import Mathlib.Data.Rat.Defs

/-!
# Model of the grids and axes of `tulip/graphics.py`

Numbers are rational numbers instead of floating-point numbers. The axes that matplotlib creates are the numbers that
are passed to `add_subplot`.
-/

namespace Tulip
namespace Graphics

/-- `_grouper`, `graphics.py:305-332`: `zip_longest` of `n` references to the same iterator. The fuel is the number of
elements. -/
def grouperLoop {α : Type} (n : Nat) (fill : α) : Nat → List α → List (List α)
  | 0, _ => []
  | _ + 1, [] => []
  | k + 1, x :: l => ((x :: l).take n ++ List.replicate (n - (x :: l).length) fill) :: grouperLoop n fill k ((x :: l).drop n)

def grouper {α : Type} (n : Nat) (fill : α) (l : List α) : List (List α) :=
  if n = 0 then [] else grouperLoop n fill l.length l

/-- `numpy.linspace(a, b, n)`; the end points may be `None`, which `_grouper` uses to fill the last group. -/
def linspace (a b : Option Rat) (n : Int) : Except PyErr (List Rat) :=
  if n < 0 then .error .valueError
  else
    match a, b with
    | some a, some b =>
      if n = 1 then .ok [a]
      else .ok ((List.range n.toNat).map fun k : Nat => a + (k : Rat) * ((b - a) / ((n : Rat) - 1)))
    | _, _ => .error .typeError

/-- The axes, `graphics.py:233-239`: `map` stops at the end of the shorter list. -/
def axisGrids : List (List (Option Rat)) → List Int → Except PyErr (List (List Rat))
  | [a, b] :: ds, n :: ns => do
    let x ← linspace a b n
    let xs ← axisGrids ds ns
    .ok (x :: xs)
  | _ :: _, _ :: _ => .error .indexError
  | _, _ => .ok []

/-- The points with coordinates from the axes, the last one changing fastest. -/
def points : List (List Rat) → List (List Rat)
  | [] => [[]]
  | x :: xs => x.flatMap fun a => (points xs).map (a :: ·)

/-- `numpy.meshgrid`, `ravel` and `vstack`, `graphics.py:240-242`: the columns of the matrix. The first two axes are
swapped by `meshgrid`, and there is nothing to stack for no axis. -/
def columns : List (List Rat) → Except PyErr (List (List Rat))
  | [] => .error .valueError
  | [x] => .ok (x.map fun a => [a])
  | x :: y :: zs => .ok (y.flatMap fun b => x.flatMap fun a => (points zs).map fun p => a :: b :: p)

/-- `dom2vec`, `graphics.py:193-243`: the columns of the matrix. -/
def dom2vec (domain : List Rat) (resolution : List Int) : Except PyErr (List (List Rat)) := do
  let axes ← axisGrids (grouper 2 none (domain.map some)) resolution
  columns axes

/-- The first value that `newax` returns. `none` fills the last row of a matrix. -/
inductive Axes
  | one (i : Nat)
  | row (r : List (Option Nat))
  | list (l : List Nat)
  | matrix (m : List (List (Option Nat)))
  deriving DecidableEq, Repr

/-- The loop of `newax`, `graphics.py:176-183`: `add_subplot(nv, nh, i + 1)` raises `ValueError` beyond the last place. -/
def addAxes (places : Nat) : Nat → List Nat → Except PyErr (List Nat)
  | _, [] => .ok []
  | i, d :: ds =>
    if d = 2 then
      if i + 1 ≤ places then do
        let r ← addAxes places (i + 1) ds
        .ok ((i + 1) :: r)
      else .error .valueError
    else .error .valueError

/-- `newax`, `graphics.py:95-190`, for a layout of `nv` rows and `nh` columns (a number `n` is the layout `(1, n)`). `dims`
is `none` for one number `dim` for all axes. -/
def newax (nv nh : Nat) (asMatrix : Bool) (dim : Nat) (dims : Option (List Nat)) : Except PyErr Axes := do
  let ds := dims.getD (List.replicate (nv * nh) dim)
  if ds.all (fun d => d = 2 ∨ d = 3) then
    let ax ← addAxes (nv * nh) 0 ds
    if asMatrix then
      let m := grouper nh none (ax.map some)
      if nv = 1 ∧ nh = 1 then
        match m with
        | r :: _ => .ok (.row r)
        | [] => .error .indexError
      else .ok (.matrix m)
    else
      if nv = 1 ∧ nh = 1 then
        match ax with
        | i :: _ => .ok (.one i)
        | [] => .error .indexError
      else .ok (.list ax)
  else .error .valueError

end Graphics
end Tulip
