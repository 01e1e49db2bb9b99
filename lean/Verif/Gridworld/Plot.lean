import Verif.Gridworld.World
import Mathlib.Algebra.Order.Ring.Rat
import Mathlib.Tactic.Ring
import Mathlib.Tactic.FieldSimp

/-!
# Drawings of grid worlds

`GridWorld.plot` (`tulip/gridworld.py:413-508`), with matplotlib installed. The requests to matplotlib are recorded in order;
the line width, the font size and colors are not modelled. Coordinates are rational numbers instead of floats.
-/

namespace Tulip
namespace Gw
namespace Draw

/-- A request to matplotlib. -/
inductive Mark
  | text (x y : Int) (s : List Char)
  | point (x y : Int) (fmt : List Char)
  | line (x1 x2 y1 y2 : Rat)
  | patch (x y : Rat)
  deriving DecidableEq, Repr

/-- The limits of the current axes, `plt.axis()`. -/
structure Box where
  xmin : Rat
  xmax : Rat
  ymin : Rat
  ymax : Rat

/-- `np.linspace(a, b, n + 1)[k]` (`tulip/gridworld.py:462-463`). -/
def step (a b : Rat) (n : Nat) (k : Int) : Rat := if n = 0 then a else a + k * ((b - a) / n)

/-- The lines of the grid (`tulip/gridworld.py:464-468`). -/
def gridLines (A : Arr) (b : Box) : List Mark :=
  ((List.range (A.cols + 1)).map fun k =>
    let x := step b.xmin b.xmax A.cols (k : Nat)
    .line x x b.ymin b.ymax) ++
  ((List.range (A.rows + 1)).map fun k =>
    let y := step b.ymin b.ymax A.rows (k : Nat)
    .line b.xmin b.xmax y y)

/-- A letter or a symbol at a cell (`tulip/gridworld.py:471-474`, `:476-479`, `:481-484`). -/
def sign (font : Int) (p : Int × Int) (letter fmt : List Char) : Mark :=
  if font > 0 then .text p.2 p.1 letter else .point p.2 p.1 fmt

/-- `self.W[i][j] == 0` for nonnegative indices; `IndexError` if they are out of bounds. -/
def free (A : Arr) (i j : Int) : Except PyErr Bool :=
  if i < A.rows ∧ j < A.cols then .ok (decide (A.cell i j = 0)) else .error .indexError

/-- The first index and the number of indices of the extent of a troll along an axis of length `n`
(`tulip/gridworld.py:491-498`). -/
def extent (n : Nat) (c r : Int) : Int × Int :=
  let off := max 0 (c - r)
  let size := c - off + r + 1
  (off, if off + size ≥ n then n - off else size)

/-- The gray cells of a row (`tulip/gridworld.py:500-507`). -/
def rowPatches (A : Arr) (b : Box) (i oj : Int) : List Nat → Except PyErr (List Mark)
  | [] => .ok []
  | j :: js => do
    let f ← free A i (j + oj)
    let r ← rowPatches A b i oj js
    .ok ((if f then [.patch (step b.xmin b.xmax A.cols (j + oj)) (step b.ymin b.ymax A.rows (A.rows - i))] else []) ++ r)

/-- The gray cells (`tulip/gridworld.py:499-507`). -/
def patches (A : Arr) (b : Box) (oi oj : Int) (nj : Nat) : List Nat → Except PyErr (List Mark)
  | [] => .ok []
  | i :: is => do
    let row ← rowPatches A b (i + oi) oj (List.range nj)
    let r ← patches A b oi oj nj is
    .ok (row ++ r)

/-- The marks for a troll (`tulip/gridworld.py:480-507`). Simplification: what was drawn before an exception is dropped. -/
def troll (A : Arr) (b : Box) (font : Int) (t : (Int × Int) × Int) : Except PyErr (List Mark) :=
  if t.1.1 ≥ A.rows ∨ t.1.1 < 0 ∨ t.1.2 ≥ A.cols ∨ t.1.2 < 0 then .error .valueError
  else do
    let ei := extent A.rows t.1.1 t.2
    let ej := extent A.cols t.1.2 t.2
    let ps ← patches A b ei.1 ej.1 ej.2.toNat (List.range ei.2.toNat)
    .ok (sign font t.1 c!"E" c!"gx" :: ps)

/-- The loop over trolls. -/
def trollLoop (A : Arr) (b : Box) (font : Int) : List ((Int × Int) × Int) → Except PyErr (List Mark)
  | [] => .ok []
  | t :: ts => do
    let m ← troll A b font t
    let r ← trollLoop A b font ts
    .ok (m ++ r)

/-- What is drawn: the values of the image, row by row, and the marks. -/
structure Drawing where
  image : Int → Int → Int
  marks : List Mark

/-- `GridWorld.plot` (`tulip/gridworld.py:413-508`). `axis` gives the limits of the current axes after `imshow` of an image
with the given numbers of rows and columns. `None.copy()` raises `AttributeError`. -/
def plot (axis : Nat → Nat → Box) (w : World) (font : Int) (showGrid : Bool) (trolls : List ((Int × Int) × Int)) :
    Except PyErr Drawing :=
  match w.W with
  | none => .error .attribute
  | some A => do
    let b := axis A.rows A.cols
    let grid := if showGrid then gridLines A b else []
    let inits := w.inits.map fun p => sign font p c!"I" c!"m+"
    let goals := w.goals.map fun p => sign font p c!"G" c!"r*"
    let ts ← trollLoop A b font trolls
    .ok ⟨fun i j => 1 - A.cell i j, grid ++ inits ++ goals ++ ts⟩

end Draw
end Gw
end Tulip
