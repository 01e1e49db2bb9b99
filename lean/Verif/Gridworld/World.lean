import Verif.Basic
import Verif.Spec.Compose

/-!
# Grid worlds

`tulip/gridworld.py`. The array `W` is a shape and a function; its values outside the shape do not matter.
Coordinates are pairs of integers. Strings are lists of characters.
-/

namespace Tulip

namespace Gw

/-- A two-dimensional `numpy` array of integers. -/
structure Arr where
  rows : Nat
  cols : Nat
  cell : Int → Int → Int

/-- The array with another value at an index. -/
def Arr.set (A : Arr) (i j v : Int) : Arr :=
  { A with cell := fun i' j' => if i' = i ∧ j' = j then v else A.cell i' j' }

/-- A `GridWorld` (`tulip/gridworld.py:82-118`). `W` is `None` for an empty instance. -/
structure World where
  W : Option Arr
  inits : List (Int × Int)
  goals : List (Int × Int)
  pre : List Char
  offset : Int × Int

/-- `GridWorld(prefix=prefix)` (`tulip/gridworld.py:89-118`). -/
def emptyWorld (pre : List Char) : World := ⟨none, [], [], pre, (0, 0)⟩

/-- An index of an axis of length `n` as Python normalizes it: negative indices count from the end. -/
def norm (n : Nat) (i : Int) : Option Int :=
  if i < -n ∨ i ≥ n then none else some (if i < 0 then n + i else i)

/-- The normalization of a pair of indices. -/
def normKey (A : Arr) (key : Int × Int) : Option (Int × Int) :=
  match norm A.rows key.1, norm A.cols key.2 with
  | some i, some j => some (i, j)
  | _, _ => none

/-- The array and the normalized key, as `__getitem__`, `state` and `is_reachable` compute them: `ValueError` if
the world is empty or the key is out of bounds (`tulip/gridworld.py:173-191`, `249-266`, `352-383`). Keys are
pairs, so the test of their length is not modelled. -/
def keyOf (w : World) (key : Int × Int) : Except PyErr (Arr × (Int × Int)) :=
  match w.W with
  | none => .error .valueError
  | some A =>
    match normKey A key with
    | none => .error .valueError
    | some k => .ok (A, k)

/-- `GridWorld.__getitem__` (`tulip/gridworld.py:153-215`). -/
def getitem (w : World) (key : Int × Int) (useNext nonbool : Bool) : Except PyErr (List Char) := do
  let (_, k) ← keyOf w key
  let r := intChars (k.1 + w.offset.1)
  let c := intChars (k.2 + w.offset.2)
  .ok (
    if nonbool then
      if useNext then
        c!"((X (" ++ w.pre ++ c!"_r = " ++ r ++ c!")) && (X (" ++ w.pre ++ c!"_c = " ++ c ++ c!")))"
      else c!"((" ++ w.pre ++ c!"_r = " ++ r ++ c!") && (" ++ w.pre ++ c!"_c = " ++ c ++ c!"))"
    else (if useNext then c!"X " else []) ++ w.pre ++ c!"_" ++ r ++ c!"_" ++ c)

/-- The name of the variable of a cell, `prefix_R_C`. -/
def cellName (pre : List Char) (i j : Int) : List Char :=
  pre ++ c!"_" ++ intChars i ++ c!"_" ++ intChars j

/-- `GridWorld.state` (`tulip/gridworld.py:229-284`). -/
def state (w : World) (key offset : Int × Int) (nonbool : Bool) :
    Except PyErr (Dict (List Char) Int) := do
  let (A, k) ← keyOf w key
  .ok (
    if nonbool then
      (Dict.set (Dict.set [] (w.pre ++ c!"_r") (k.1 + offset.1)) (w.pre ++ c!"_c")
        (k.2 + offset.2))
    else
      Dict.set
        ((List.range A.rows).foldl (fun d (i : Nat) =>
          (List.range A.cols).foldl (fun d (j : Nat) =>
            Dict.set d (cellName w.pre (i + offset.1) (j + offset.2)) 0) d) [])
        (cellName w.pre (k.1 + offset.1) (k.2 + offset.2)) 1)

/-- `self.W[coord[0]][coord[1]]`: `IndexError` if out of bounds. -/
def index (A : Arr) (coord : Int × Int) : Except PyErr (Int × Int) :=
  match normKey A coord with
  | none => .error .indexError
  | some k => .ok k

/-- `GridWorld.is_empty` (`tulip/gridworld.py:286-314`). -/
def isEmpty (w : World) (coord : Int × Int) (extend : Bool) : Except PyErr Bool :=
  match w.W with
  | none => .error .valueError
  | some A =>
    if extend ∧ (coord.1 < 0 ∨ coord.2 < 0 ∨ coord.1 > A.rows - 1 ∨ coord.2 > A.cols - 1) then .ok false
    else do
      let k ← index A coord
      .ok (A.cell k.1 k.2 == 0)

/-- `GridWorld.mark_occupied` and `GridWorld.mark_empty` (`tulip/gridworld.py:326-334`), with `v` the value 1 or
0. -/
def mark (w : World) (coord : Int × Int) (v : Int) : Except PyErr World :=
  match w.W with
  | none => .error .valueError
  | some A => do
    let k ← index A coord
    .ok { w with W := some (A.set k.1 k.2 v) }

/-! ### Reachability -/

/-- The list `[(1, 0), (-1, 0), (0, 1), (0, -1)]`. -/
def directions : List (Int × Int) := [(1, 0), (-1, 0), (0, 1), (0, -1)]

/-- The inner loop of `is_reachable` (`tulip/gridworld.py:395-408`): extend `OPEN` by the new neighbours. -/
def expand (A : Arr) (current : Int × Int) (closed : List (Int × Int)) :
    List (Int × Int) → List (Int × Int) → List (Int × Int)
  | [], opn => opn
  | d :: ds, opn =>
    let n := (current.1 + d.1, current.2 + d.2)
    if n.1 < 0 ∨ n.1 ≥ A.rows ∨ n.2 < 0 ∨ n.2 ≥ A.cols then expand A current closed ds opn
    else if A.cell n.1 n.2 = 0 ∧ n ∉ closed ∧ n ∉ opn then
      expand A current closed ds (opn ++ [n])
    else expand A current closed ds opn

/-- The loop of `is_reachable` (`tulip/gridworld.py:388-411`) with a bound on the number of its iterations. -/
def search (A : Arr) (stop : Int × Int) : Nat → List (Int × Int) → List (Int × Int) → Option Bool
  | 0, _, _ => none
  | fuel + 1, opn, closed =>
    match opn.getLast? with
    | none => some false
    | some current =>
      if current = stop then some true
      else search A stop fuel (expand A current closed directions opn.dropLast) (closed ++ [current])

/-- `GridWorld.is_reachable` (`tulip/gridworld.py:336-411`). The calls of `is_empty` are with indices in bounds. -/
def isReachable (w : World) (fuel : Nat) (start stop : Int × Int) : Except PyErr (Option Bool) := do
  let (A, s) ← keyOf w start
  let (_, t) ← keyOf w stop
  if ¬ (A.cell s.1 s.2 = 0 ∧ A.cell t.1 t.2 = 0) then .ok (some false)
  else .ok (search A t fuel [s] [])

/-! ### Equality -/

/-- All pairs of indices of an array, in row-major order. -/
def indices (rows cols : Nat) : List (Int × Int) :=
  (List.range rows).flatMap fun (i : Nat) => (List.range cols).map fun (j : Nat) => ((i : Int), (j : Int))

/-- `GridWorld.size` (`tulip/gridworld.py:614-618`). -/
def size (w : World) : Nat × Nat :=
  match w.W with
  | none => (0, 0)
  | some A => (A.rows, A.cols)

/-- `GridWorld.__eq__` (`tulip/gridworld.py:120-142`). `np.all(self.W != other.W)` is whether all elements of the
two arrays differ. -/
def eqWorld (v w : World) : Bool :=
  match v.W, w.W with
  | none, none => true
  | some A, some B =>
    if size v ≠ size w then false
    else if (indices A.rows A.cols).all (fun k => A.cell k.1 k.2 != B.cell k.1 k.2) then false
    else if v.goals ≠ w.goals then false
    else if v.inits ≠ w.inits then false
    else true
  | _, _ => false

/-! ### Reading and writing descriptions -/

/-- The characters where `str.splitlines` breaks a line. -/
def isBreak (c : Char) : Bool :=
  [10, 13, 11, 12, 28, 29, 30, 133, 8232, 8233].contains c.toNat

/-- `str.splitlines`, with `cur` the characters of the current line. -/
def splitlinesFrom (cur : List Char) : List Char → List (List Char)
  | [] => if cur = [] then [] else [cur]
  | '\r' :: '\n' :: l => cur :: splitlinesFrom [] l
  | c :: l => if isBreak c then cur :: splitlinesFrom [] l else splitlinesFrom (cur ++ [c]) l

/-- `str.splitlines`. -/
def splitlines (s : List Char) : List (List Char) := splitlinesFrom [] s

/-- The characters that `str.strip` and `str.split` regard as whitespace. -/
def isSpace (c : Char) : Bool :=
  [9, 10, 11, 12, 13, 28, 29, 30, 31, 32, 133, 160, 5760, 8192, 8193, 8194, 8195, 8196, 8197, 8198,
    8199, 8200, 8201, 8202, 8232, 8233, 8239, 8287, 12288].contains c.toNat

/-- `str.lstrip`. -/
def lstrip (s : List Char) : List Char := s.dropWhile isSpace

/-- `str.strip`. -/
def strip (s : List Char) : List Char := ((lstrip s).reverse.dropWhile isSpace).reverse

/-- `str.split()`, with `cur` the characters of the current word. -/
def wordsFrom (cur : List Char) : List Char → List (List Char)
  | [] => if cur = [] then [] else [cur]
  | c :: l =>
    if isSpace c then (if cur = [] then wordsFrom [] l else cur :: wordsFrom [] l)
    else wordsFrom (cur ++ [c]) l

/-- `str.split()`. -/
def words (s : List Char) : List (List Char) := wordsFrom [] s

/-- The digits of an integer literal without its underscores: an underscore is allowed between two digits. -/
def digitsIn : List Char → Option (List Char)
  | [] => none
  | [c] => if isDig c then some [c] else none
  | c :: '_' :: l => if isDig c then (digitsIn l).map (c :: ·) else none
  | c :: l => if isDig c then (digitsIn l).map (c :: ·) else none

/-- `int(s)` of a string, `none` for `ValueError`. Only the ASCII digits are modelled; Python accepts the decimal
digits of other scripts too. -/
def pyInt (s : List Char) : Option Int :=
  match strip s with
  | '-' :: l => (digitsIn l).map fun d => -(natOf d : Int)
  | '+' :: l => (digitsIn l).map fun d => (natOf d : Int)
  | l => (digitsIn l).map fun d => (natOf d : Int)

/-- A row definition (`tulip/gridworld.py:678-691`): the world after reading the characters of the line from
column `j` on. -/
def loadRow (i : Nat) : Nat → List Char → Arr × List (Int × Int) × List (Int × Int) →
    Except PyErr (Arr × List (Int × Int) × List (Int × Int))
  | _, [], s => .ok s
  | j, c :: l, (A, ini, goal) =>
    if j ≥ A.cols then .ok (A, ini, goal)
    else if c = ' ' then loadRow i (j + 1) l (A.set i j 0, ini, goal)
    else if c = '*' then loadRow i (j + 1) l (A.set i j 1, ini, goal)
    else if c = 'I' then loadRow i (j + 1) l (A, ini ++ [((i : Int), (j : Int))], goal)
    else if c = 'G' then loadRow i (j + 1) l (A, ini, goal ++ [((i : Int), (j : Int))])
    else .error .valueError

/-- The row definitions (`tulip/gridworld.py:672-692`), from row `i` on. -/
def loadRows : Nat → List (List Char) → Arr × List (Int × Int) × List (Int × Int) →
    Except PyErr (Arr × List (Int × Int) × List (Int × Int))
  | _, [], s => .ok s
  | i, line :: l, s =>
    if i ≥ s.1.rows then .ok s
    else do
      let s ← loadRow i 0 line s
      loadRows (i + 1) l s

/-- `np.zeros((int(line_el[0]), int(line_el[1])))` (`tulip/gridworld.py:701-704`): `IndexError` if there is only
one word, `ValueError` if a word is not an integer or is negative. -/
def sizeLine (line : List Char) : Except PyErr Arr :=
  match words line with
  | r :: c :: _ =>
    match pyInt r, pyInt c with
    | some r, some c =>
      if r < 0 ∨ c < 0 then .error .valueError else .ok ⟨r.toNat, c.toNat, fun _ _ => 0⟩
    | _, _ => .error .valueError
  | [r] => if (pyInt r).isNone then .error .valueError else .error .indexError
  | [] => .error .indexError

/-- The loop of `loads` (`tulip/gridworld.py:669-708`). -/
def loadLines : List (List Char) → Except PyErr (Arr × List (Int × Int) × List (Int × Int))
  | [] => .error .valueError
  | line :: l =>
    if strip line = [] ∨ (lstrip line).head? = some '#' then loadLines l
    else do
      let A ← sizeLine line
      loadRows 0 l (A, [], [])

/-- `GridWorld.loads` (`tulip/gridworld.py:620-714`). -/
def loads (s : List Char) : Except PyErr World := do
  let (A, ini, goal) ← loadLines (splitlines s)
  .ok ⟨some A, ini, goal, c!"Y", (0, 0)⟩

/-- `GridWorld(gw_desc, prefix)` (`tulip/gridworld.py:89-118`). -/
def newWorld (s pre : List Char) : Except PyErr World := do
  let w ← loads s
  .ok { w with pre := pre, offset := (0, 0) }

/-- The symbol of a cell in `dumps` (`tulip/gridworld.py:747-759`). -/
def symbol (w : World) (A : Arr) (i j : Nat) : Except PyErr Char :=
  if A.cell i j = 0 then
    .ok (if ((i : Int), (j : Int)) ∈ w.inits then 'I'
      else if ((i : Int), (j : Int)) ∈ w.goals then 'G' else ' ')
  else if A.cell i j = 1 then .ok '*'
  else .error .valueError

/-- A line of `dumps`. -/
def dumpRow (w : World) (A : Arr) (i : Nat) : List Nat → Except PyErr (List Char)
  | [] => .ok []
  | j :: l => do
    let c ← symbol w A i j
    let r ← dumpRow w A i l
    .ok (c :: r)

/-- The lines of `dumps`. -/
def dumpRows (w : World) (A : Arr) (linePrefix : List Char) : List Nat → Except PyErr (List Char)
  | [] => .ok []
  | i :: l => do
    let r ← dumpRow w A i (List.range A.cols)
    let rest ← dumpRows w A linePrefix l
    .ok (linePrefix ++ r ++ c!"\n" ++ rest)

/-- `GridWorld.dumps` (`tulip/gridworld.py:730-761`). -/
def dumps (w : World) (linePrefix : List Char) : Except PyErr (List Char) :=
  match w.W with
  | none => .error .valueError
  | some A => do
    let rows ← dumpRows w A linePrefix (List.range A.rows)
    .ok (linePrefix ++ digitsOf A.rows ++ c!" " ++ digitsOf A.cols ++ c!"\n" ++ rows)

/-- `GridWorld.copy` (`tulip/gridworld.py:222-227`). -/
def copy (w : World) : Except PyErr World := do
  let s ← dumps w []
  newWorld s w.pre

/-! ### Names of variables -/

/-- `s.split(sep)` for a single character, with `cur` the characters of the current fragment. -/
def splitOnFrom (sep : Char) (cur : List Char) : List Char → List (List Char)
  | [] => [cur]
  | c :: l => if c = sep then cur :: splitOnFrom sep [] l else splitOnFrom sep (cur ++ [c]) l

/-- `s.split(sep)` for a single character. -/
def splitOn (sep : Char) (s : List Char) : List (List Char) := splitOnFrom sep [] s

/-- `extract_coord` (`tulip/gridworld.py:1491-1524`), of a `str`. -/
def extractCoord (s : List Char) : Option (List Char × Int × Int) :=
  match (splitOn '_' s).reverse with
  | c :: r :: p :: ps =>
    let pre := joinWith c!"_" (p :: ps).reverse
    if c = c!"n" ∧ r = c!"n" then some (pre, -1, -1)
    else match pyInt c, pyInt r with
      | some c, some r => some (pre, r, c)
      | _, _ => none
  | _ => none

/-! ### Windows and scaling -/

/-- `GridWorld.dump_subworld` (`tulip/gridworld.py:763-835`). With `extend`, a negative size makes `np.ones` raise
`ValueError`; an assignment of slices of different shapes would too, and the shapes are equal (`sub_offset` is
clamped to `-1` for a size of 0, where the slices are empty), except for a world without rows or columns, which
is not modelled. The array of ones has elements of type `float`,
here integers. -/
def subworld (w : World) (size offset : Int × Int) (pre : List Char) (extend : Bool) :
    Except PyErr World :=
  match w.W with
  | none => .error .valueError
  | some A =>
    if extend = false then
      if offset.1 < 0 ∨ offset.1 ≥ A.rows ∨ offset.2 < 0 ∨ offset.2 ≥ A.cols then .error .valueError
      else if size.1 < 1 ∨ size.2 < 1 ∨ offset.1 + size.1 > A.rows ∨ offset.2 + size.2 > A.cols then
        .error .valueError
      else .ok { emptyWorld pre with
        W := some ⟨size.1.toNat, size.2.toNat, fun i j => A.cell (offset.1 + i) (offset.2 + j)⟩ }
    else if size.1 < 0 ∨ size.2 < 0 then .error .valueError
    else
      let so1 := min (max offset.1 0) (A.rows - 1)
      let so2 := min (max offset.2 0) (A.cols - 1)
      let sb1 := min (max (-offset.1) 0) (size.1 - 1)
      let sb2 := min (max (-offset.2) 0) (size.2 - 1)
      let n1 := min size.1 (min (A.rows - so1) (size.1 - sb1))
      let n2 := min size.2 (min (A.cols - so2) (size.2 - sb2))
      .ok { emptyWorld pre with
        W := some ⟨size.1.toNat, size.2.toNat, fun i j =>
          if sb1 ≤ i ∧ i < sb1 + n1 ∧ sb2 ≤ j ∧ j < sb2 + n2 then
            A.cell (so1 + (i - sb1)) (so2 + (j - sb2))
          else 1⟩ }

/-- The loop of `scale` (`tulip/gridworld.py:1101-1114`) on the marks: those cells of the scaled world that are the
first of the block of a marked cell. -/
def scaleMarks (marks : List (Int × Int)) (rows cols xf yf : Nat) : List (Int × Int) :=
  (indices rows cols).filter fun k =>
    (k.1 % yf == 0 && k.2 % xf == 0) && marks.contains (k.1 / yf, k.2 / xf)

/-- `GridWorld.scale` (`tulip/gridworld.py:1083-1119`). An empty world has no attribute `shape`. The factors are
natural numbers. -/
def scale (w : World) (xf yf : Nat) : Except PyErr World :=
  match w.W with
  | none => .error .attribute
  | some A =>
    let rows := A.rows * yf
    let cols := A.cols * xf
    .ok { emptyWorld w.pre with
      W := some ⟨rows, cols, fun i j => if A.cell (i / yf) (j / xf) = 1 then 1 else 0⟩
      goals := scaleMarks w.goals rows cols xf yf
      inits := scaleMarks w.inits rows cols xf yf }

/-- `unoccupied` (`tulip/gridworld.py:1345-1363`): the argument `prefix` is not used. -/
def unoccupied (size : Int × Int) (_pre : List Char) : Except PyErr World :=
  newWorld (intChars size.1 ++ c!" " ++ intChars size.2) c!"Y"

end Gw

end Tulip
