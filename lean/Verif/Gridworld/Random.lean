import Verif.Gridworld.World
import Mathlib.Data.Rat.Floor

/-!
# Random grid worlds

The generators `random_world` and `narrow_passage` of `tulip/gridworld.py`. The generator of random numbers is a
parameter: `draw t n` is the result of the `t`-th call of `np.random.randint(low=0, high=n)`, and `sample` is
`random.sample`. Numbers of type `float` are rational numbers, and arithmetic on them is exact.
-/

namespace Tulip

namespace Gw

/-- What a function that may run forever has done after a number of steps. -/
inductive Outcome (α : Type) where
  | pending
  | timedOut
  | returned (a : α)

/-- `int(np.round(q))` (`tulip/gridworld.py:1188`): to the nearest integer, ties to even. -/
def npRound (q : Rat) : Int :=
  let f := q.floor
  if q - f < 1 / 2 then f
  else if 1 / 2 < q - f then f + 1
  else if f % 2 = 0 then f else f + 1

/-- `avail[np.random.randint(low=0, high=len(avail))]` (`tulip/gridworld.py:1195`, `1206`, `1216`, `1228`):
`randint` raises `ValueError` if `high` is not above `low`. -/
def pick (draw : Nat → Nat → Nat) (t : Nat) (avail : List Nat) : Except PyErr Nat :=
  if avail.length = 0 then .error .valueError
  else
    match avail[draw t avail.length]? with
    | some k => .ok k
    | none => .error .indexError

/-- The free cells that are not in a list (`tulip/gridworld.py:1190-1193`, `1197-1204`, `1208-1214`,
`1221-1227`). A cell is its index in the flat array. -/
def avail (n : Nat) (W : Nat → Int) (taken : List Nat) : List Nat :=
  ((List.range n).filter fun k => W k == 0).filter fun k => !taken.contains k

/-- The loops that choose goals, initial positions and trolls (`tulip/gridworld.py:1189-1216`): `m` more cells, with
`acc` those chosen so far. -/
def pickMany (draw : Nat → Nat → Nat) (n : Nat) (W : Nat → Int) (others : List Nat) :
    Nat → Nat → List Nat → Except PyErr (List Nat)
  | 0, _, acc => .ok acc
  | m + 1, t, acc => do
    let k ← pick draw t (avail n W (others ++ acc))
    pickMany draw n W others m (t + 1) (acc ++ [k])

/-- `W.reshape(size)` (`tulip/gridworld.py:1238`, `1262`). -/
def reshape (rows cols : Nat) (W : Nat → Int) : Arr := ⟨rows, cols, fun i j => W (i * cols + j).toNat⟩

/-- `(k // size[1], k % size[1])` (`tulip/gridworld.py:1239-1241`, `1263-1265`). -/
def unflat (cols k : Nat) : Int × Int := (((k / cols : Nat) : Int), ((k % cols : Nat) : Int))

/-- The loop over the chain of points (`tulip/gridworld.py:1247-1252`), with the indices still to be looked at. -/
def chainOk (w : World) (fuel : Nat) (pts : List (Int × Int)) : List Nat → Except PyErr (Option Bool)
  | [] => .ok (some true)
  | i :: l => do
    let r ← isReachable w fuel (pts.getD i (0, 0)) (pts.getD ((i + 1) % pts.length) (0, 0))
    match r with
    | none => .ok none
    | some false => .ok (some false)
    | some true => chainOk w fuel pts l

/-- The parameters of `random_world` other than its numbers of cells. `late t` is whether the limit on time has
passed when iteration `t` looks at the clock; it is always false if there is no limit. -/
structure RandomArgs where
  draw : Nat → Nat → Nat
  late : Nat → Bool
  rows : Nat
  cols : Nat
  pre : List Char
  feasible : Bool

/-- The test of feasibility (`tulip/gridworld.py:1238-1252`). The bound on the number of steps of `is_reachable` is
the number of cells plus one. -/
def feasibleNow (a : RandomArgs) (inits goals : List Nat) (W : Nat → Int) : Except PyErr (Option Bool) :=
  let pts := (inits ++ goals).map (unflat a.cols)
  chainOk ⟨some (reshape a.rows a.cols W), [], [], a.pre, (0, 0)⟩ (a.rows * a.cols + 1) pts
    (List.range pts.length)

/-- The loop that adds walls (`tulip/gridworld.py:1217-1255`): `b` is `bcounter`, `t` the number of calls of the
generator of random numbers. -/
def wallLoop (a : RandomArgs) (blocks : Int) (goals inits trolls : List Nat) :
    Nat → Nat → (Nat → Int) → Nat → Except PyErr (Outcome (Nat → Int))
  | fuel, t, W, b =>
    if ¬ (b : Int) < blocks then .ok (.returned W)
    else match fuel with
    | 0 => .ok .pending
    | fuel + 1 => do
      let k ← pick a.draw t (avail (a.rows * a.cols) W (goals ++ inits ++ trolls))
      let W' := fun i => if i = k then 1 else W i
      if !a.feasible then wallLoop a blocks goals inits trolls fuel (t + 1) W' (b + 1)
      else if a.late t then .ok .timedOut
      else do
        let r ← feasibleNow a inits goals W'
        match r with
        | none => .ok .pending
        | some true => wallLoop a blocks goals inits trolls fuel (t + 1) W' (b + 1)
        | some false =>
          wallLoop a blocks goals inits trolls fuel (t + 1) (fun i => if i = k then 0 else W' i) b

/-- `random_world` (`tulip/gridworld.py:1122-1266`), with a bound on the number of iterations of its loop. The second
component of the result is the list of trolls, which is returned only if trolls were asked for. -/
def randomWorld (a : RandomArgs) (fuel : Nat) (density : Rat) (numInit numGoals numTrolls : Nat) :
    Except PyErr (Outcome (World × Option (List ((Int × Int) × Int)))) := do
  let n := a.rows * a.cols
  let W : Nat → Int := fun _ => 0
  let blocks := npRound (density * n)
  let goals ← pickMany a.draw n W [] numGoals 0 []
  let inits ← pickMany a.draw n W goals numInit numGoals []
  let trolls ← pickMany a.draw n W (goals ++ inits) numTrolls (numGoals + numInit) []
  let r ← wallLoop a blocks goals inits trolls fuel (numGoals + numInit + numTrolls) W 0
  match r with
  | .pending => .ok .pending
  | .timedOut => .ok .timedOut
  | .returned W =>
    let w : World := ⟨some (reshape a.rows a.cols W), inits.map (unflat a.cols), goals.map (unflat a.cols), a.pre,
      (0, 0)⟩
    .ok (.returned (w, if numTrolls > 0 then some (trolls.map fun k => (unflat a.cols k, 1)) else none))

/-! ### Narrow passages -/

/-- `int(max(1, zone_width))` (`tulip/gridworld.py:1310-1315`). -/
def zone (len : Rat) (cols : Nat) : Nat := (max 1 ((1 - len) / 2 * cols)).floor.toNat

/-- `random.sample(cells, k)`: `ValueError` if there are fewer cells. -/
def sampleOf (sample : List (Int × Int) → Nat → List (Int × Int)) (cells : List (Int × Int)) (k : Nat) :
    Except PyErr (List (Int × Int)) :=
  if k > cells.length then .error .valueError else .ok (sample cells k)

/-- The cells of some columns (`tulip/gridworld.py:1332-1335`, `1337-1340`), in row-major order. -/
def columns (rows : Nat) (xs : List Nat) : List (Int × Int) :=
  (List.range rows).flatMap fun (y : Nat) => xs.map fun (x : Nat) => ((y : Int), (x : Int))

/-- The loops that build the walls (`tulip/gridworld.py:1325-1331`): the value of `W[y][x]`, for a passage
`range(top, top + width)`. -/
def passageCell (izone gzone : Nat) (top width : Int) (W : Int → Int → Int) (y x : Int) : Int :=
  if top ≤ y ∧ y < top + width then W y x
  else if (izone : Int) ≤ x ∧ x < gzone then 1
  else W y x

/-- The row of the top of the passage (`tulip/gridworld.py:1322-1323`): `randint` raises `ValueError` if `high` is
not above `low`. -/
def passageTop (draw : Nat → Nat) (rows : Nat) (width : Int) : Option Int → Except PyErr Int
  | some p => .ok p
  | none =>
    if (rows : Int) - width ≤ 0 then .error .valueError
    else .ok (draw ((rows : Int) - width).toNat : Int)

/-- `narrow_passage` (`tulip/gridworld.py:1269-1342`), with `draw` the result of `np.random.randint`, and with two
samples. The right border is below zero only if the left zone has more cells than the world, and then the test on
the numbers of cells fails. -/
def narrowPassage (draw : Nat → Nat) (sample₁ sample₂ : List (Int × Int) → Nat → List (Int × Int))
    (rows cols : Nat) (width : Int) (numInit numGoals : Nat) (len : Rat) (ptop : Option Int) (pre : List Char) :
    Except PyErr World :=
  if rows < 3 ∨ cols < 3 then .error .valueError
  else do
    let Z ← unoccupied (rows, cols) pre
    let izone := zone len cols
    if izone * rows < numInit ∨ ((cols : Int) - izone) * rows < numGoals then .error .valueError
    else do
      let top ← passageTop draw rows width ptop
      let W := Z.W.map fun A => { A with cell := passageCell izone (cols - izone) top width A.cell }
      let inits ← sampleOf sample₁ (columns rows (List.range izone)) numInit
      let goals ← sampleOf sample₂ (columns rows ((List.range cols).drop (cols - izone))) numGoals
      .ok { Z with W := W, inits := inits, goals := goals }

end Gw

end Tulip
