import Verif.Gridworld.World
import Mathlib.Algebra.Order.Ring.Rat

/-!
# Animations of paths in a grid world

`animate_paths` (`tulip/gridworld.py:1527-1613`), with matplotlib installed. Positions are rational numbers instead of floats;
colors and sizes of markers are not modelled. The random numbers are a parameter.
-/

namespace Tulip
namespace Gw
namespace Anim

/-- A point of the plane. -/
abbrev Pt := Rat × Rat

/-- What the axes show: whether the world was drawn on them, and for each path the marker and the trail. -/
structure Frame where
  world : Bool
  lines : List (Pt × List Pt)
  deriving DecidableEq

/-- What `animate_paths` does: it returns an animation with a number of frames, or writes files. `FuncAnimation` calls
`init` (`tulip/gridworld.py:1569-1573`), which draws the world, before it asks for frames. -/
inductive Result
  | animation (frames : List Frame)
  | files (written : List (List Char × Frame))

/-- `[[x, y] for y, x in path]` with the jitter added (`tulip/gridworld.py:1587-1588`); `rand n a k` is the number for path
`n`, coordinate `a` and column `k`. -/
def shake (jitter : Rat) (rand : Nat → Nat → Nat → Rat) (n : Nat) (path : List (Int × Int)) : List Pt :=
  path.zipIdx.map fun p => (p.1.2 + jitter * (rand n 0 p.2 - 1 / 2), p.1.1 + jitter * (rand n 1 p.2 - 1 / 2))

/-- The loop over the paths (`tulip/gridworld.py:1586-1599`): `colors[n]` raises `IndexError` for the eighth path. -/
def data (jitter : Rat) (rand : Nat → Nat → Nat → Rat) : Nat → List (List (Int × Int)) → Except PyErr (List (List Pt))
  | _, [] => .ok []
  | n, p :: ps =>
    if n ≥ 7 then .error .indexError
    else do
      let r ← data jitter rand (n + 1) ps
      .ok (shake jitter rand n p :: r)

/-- The markers and trails at a time (`tulip/gridworld.py:1574-1577`): `d[..., num]` raises `IndexError` for a path that has
ended. -/
def linesAt (num : Nat) : List (List Pt) → Except PyErr (List (Pt × List Pt))
  | [] => .ok []
  | d :: ds =>
    match d[num]? with
    | none => .error .indexError
    | some p => do
      let r ← linesAt num ds
      .ok ((p, d.take (num + 1)) :: r)

/-- `s.zfill(w)` for digits. -/
def zfill (w : Nat) (s : List Char) : List Char := List.replicate (w - s.length) '0' ++ s

/-- The name of the file of a frame (`tulip/gridworld.py:1579-1582`), for paths whose last index is `last`. -/
def frameName (pre : List Char) (last num : Nat) : List Char :=
  pre ++ zfill (digitsOf last).length (digitsOf num) ++ c!".png"

/-- The frames with the given numbers. `world`: whether the world was drawn on the axes before. -/
def frames (world : Bool) (ds : List (List Pt)) : List Nat → Except PyErr (List Frame)
  | [] => .ok []
  | n :: ns => do
    let l ← linesAt n ds
    let r ← frames world ds ns
    .ok (⟨world, l⟩ :: r)

/-- `animate_paths` (`tulip/gridworld.py:1527-1613`). The files are written by the loop at the end, which does not call
`init`. Simplification: files written before an exception are dropped; for an empty first path, `last` is `-1`, and no frame is
made. The frames of an animation are computed when it is shown; here they are computed at once. -/
def animate (jitter : Rat) (rand : Nat → Nat → Nat → Rat) (paths : List (List (Int × Int)))
    (pre : Option (List Char)) : Except PyErr Result :=
  match paths with
  | [] => .error .indexError
  | p :: _ => do
    let ds ← data jitter rand 0 paths
    match pre with
    | some (c :: cs) => do
      let fs ← frames false ds (List.range p.length)
      .ok (.files (fs.zipIdx.map fun q => (frameName (c :: cs) (p.length - 1) q.2, q.1)))
    | _ => do
      let fs ← frames true ds (List.range p.length)
      .ok (.animation fs)

end Anim
end Gw
end Tulip
