import Verif.Gridworld.World

/-!
# Pictures of grid worlds

`GridWorld.pretty` (`tulip/gridworld.py:510-612`). Entries of paths and the lists of initial and goal cells are
pairs of integers.
-/

namespace Tulip
namespace Gw

/-- `direct` (`tulip/gridworld.py:547-559`). -/
def direct (c1 c2 : Int × Int) : Char :=
  if c1.2 > c2.2 then '<'
  else if c1.2 < c2.2 then '>'
  else if c1.1 > c2.1 then '^'
  else if c1.1 < c2.1 then 'v'
  else '.'

/-- The loop over the places of a cell on the path (`tulip/gridworld.py:591-597`). The argument `d` is the value
of the variable `d` before the loop. -/
def arrowLoop (path : List (Int × Int)) (k : Int × Int) : List Nat → Char → Char
  | [], d => d
  | x :: xs, _ =>
    let d := direct k (path.getD ((x + 1) % path.length) (0, 0))
    if d ≠ '.' then d else arrowLoop path k xs d

/-- What is printed for a cell (`tulip/gridworld.py:582-604`). -/
def prettyCell (w : World) (A : Arr) (path : List (Int × Int)) (goalOrder : Bool) (k : Int × Int) :
    Except PyErr (List Char) :=
  if A.cell k.1 k.2 = 0 then
    .ok (
      if k ∈ w.inits then c!"I"
      else if k ∈ w.goals then
        if goalOrder then digitsOf (w.goals.idxOf k) else c!"G"
      else if k ∈ path then
        [arrowLoop path k ((List.range path.length).filter fun n => path[n]? = some k) ' ']
      else c!" ")
  else if A.cell k.1 k.2 = 1 then .ok c!"*"
  else .error .valueError

/-- The loop over columns (`tulip/gridworld.py:579-604`). -/
def prettyRow (w : World) (A : Arr) (path : List (Int × Int)) (goalOrder showGrid : Bool) (i : Nat) :
    List Nat → Except PyErr (List Char)
  | [] => .ok []
  | j :: js => do
    let c ← prettyCell w A path goalOrder (i, j)
    let r ← prettyRow w A path goalOrder showGrid i js
    .ok ((if showGrid then c!"|" else []) ++ c ++ r)

/-- `str(n).rjust(2)`. -/
def rjust2 (n : Nat) : List Char :=
  List.replicate (2 - (digitsOf n).length) ' ' ++ digitsOf n

/-- The loop over rows (`tulip/gridworld.py:571-605`). -/
def prettyRows (w : World) (A : Arr) (path : List (Int × Int)) (goalOrder showGrid : Bool) (pre : List Char) :
    List Nat → Except PyErr (List Char)
  | [] => .ok []
  | i :: is => do
    let row ← prettyRow w A path goalOrder showGrid i (List.range A.cols)
    let rest ← prettyRows w A path goalOrder showGrid pre is
    .ok (pre ++
      (if showGrid then c!"  " ++ List.replicate (A.cols * 2 + 1) '-' ++ c!"\n" ++ pre ++ rjust2 i else c!"|") ++
      row ++ c!"|\n" ++ rest)

/-- `GridWorld.pretty` (`tulip/gridworld.py:510-612`). -/
def pretty (w : World) (showGrid : Bool) (pre : List Char) (path : List (Int × Int)) (goalOrder : Bool) :
    Except PyErr (List Char) :=
  match w.W with
  | none => .ok []
  | some A => do
    let body ← prettyRows w A path goalOrder showGrid pre (List.range A.rows)
    .ok (pre ++
      (if showGrid then c!"  " ++ (List.range A.cols).flatMap rjust2 ++ c!"\n"
        else List.replicate (A.cols + 2) '-' ++ c!"\n") ++
      body ++ pre ++
      (if showGrid then c!"  " ++ List.replicate (A.cols * 2 + 1) '-' ++ c!"\n"
        else List.replicate (A.cols + 2) '-' ++ c!"\n"))

end Gw
end Tulip
