import Verif.Gridworld.World
import Verif.Abstract.Prop2part

/-!
# The partition of the plane that a grid world describes

`GridWorld.dump_ppartition` (`tulip/gridworld.py:837-912`). Floats are rational numbers. The package
`polytope` is a parameter: `Geom` (see `Verif/Abstract/Geometry.lean`), the test `le` of inclusion, and
the constructor `Polytope`.
-/

namespace Tulip
namespace Gw
open Abs

/-- The right-hand sides `b` of the four rows of the matrix `A = [[0, -1], [0, 1], [-1, 0], [1, 0]]`
(`tulip/gridworld.py:875-880`, `:898-902`). -/
structure Sides where
  down : Rat
  up : Rat
  left : Rat
  right : Rat

/-- The right-hand side of the domain (`tulip/gridworld.py:881-888`). -/
def domainSides (A : Arr) (side offset : Rat × Rat) : Sides where
  down := -offset.2
  up := offset.2 + A.rows * side.2
  left := -offset.1
  right := offset.1 + A.cols * side.1

/-- The right-hand side of a cell (`tulip/gridworld.py:903-910`). -/
def cellSides (A : Arr) (side offset : Rat × Rat) (k : Int × Int) : Sides where
  down := -offset.2 - (A.rows - k.1 - 1) * side.2
  up := offset.2 + (A.rows - k.1) * side.2
  left := -offset.1 - k.2 * side.1
  right := offset.1 + (k.2 + 1) * side.1

/-- The key `cell_var` (`tulip/gridworld.py:893-896`). -/
def cellVarName (w : World) (nonbool : Bool) (k : Int × Int) : Except PyErr (List Char) :=
  if nonbool then getitem w k false true else .ok (cellName w.pre k.1 k.2)

/-- The loops that fill the `dict` named `cells` (`tulip/gridworld.py:890-911`). -/
def cellLoop {P : Type} (poly : Sides → P) (w : World) (A : Arr) (side offset : Rat × Rat) (nonbool : Bool) :
    List (Int × Int) → Dict String P → Except PyErr (Dict String P)
  | [], d => .ok d
  | k :: ks, d => do
    let name ← cellVarName w nonbool k
    cellLoop poly w A side offset nonbool ks (d.set (String.ofList name) (poly (cellSides A side offset k)))

/-- `GridWorld.dump_ppartition` (`tulip/gridworld.py:837-912`). -/
def dumpPartition {P : Type} (G : Geom P (Rat × Rat)) (le : P → P → Bool) (poly : Sides → P) (w : World)
    (side offset : Rat × Rat) (nonbool : Bool) : Except PyErr (Partition P) :=
  match w.W with
  | none => .error .valueError
  | some A => do
    let cells ← cellLoop poly w A side offset nonbool (indices A.rows A.cols) []
    prop2part G le (poly (domainSides A side offset)) cells

end Gw
end Tulip
