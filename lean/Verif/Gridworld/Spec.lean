import Verif.Gridworld.World
import Verif.Spec.GRSpec
import Verif.Synth.ToSpec

/-!
# Specifications of grid worlds

`GridWorld.spec` and `add_trolls` of `tulip/gridworld.py`.
-/

namespace Tulip

namespace Gw

open Synth (mapE)

/-- The cells that a transition formula names (`tulip/gridworld.py:981-1007`): the cell itself and its neighbours that
are inside the grid and not occupied, in the order up, left, down, right. -/
def specMoves (A : Arr) (k : Int × Int) : List (Int × Int) :=
  (k.1, k.2) ::
    ((if k.1 > 0 ∧ A.cell (k.1 - 1) k.2 = 0 then [(k.1 - 1, k.2)] else []) ++
      (if k.2 > 0 ∧ A.cell k.1 (k.2 - 1) = 0 then [(k.1, k.2 - 1)] else []) ++
      (if k.1 < A.rows - 1 ∧ A.cell (k.1 + 1) k.2 = 0 then [(k.1 + 1, k.2)] else []) ++
      (if k.2 < A.cols - 1 ∧ A.cell k.1 (k.2 + 1) = 0 then [(k.1, k.2 + 1)] else []))

/-- A transition formula (`tulip/gridworld.py:977-1008`). The disjuncts are appended with `" || "` before each. -/
def transText (w : World) (A : Arr) (nonbool : Bool) (k : Int × Int) : Except PyErr (List Char) := do
  let c ← getitem w k false nonbool
  let ns ← mapE (fun n => getitem w n true nonbool) (specMoves A k)
  .ok (c ++ c!" -> (" ++ joinWith c!" || " ns ++ c!")")

/-- The formula of an occupied cell (`tulip/gridworld.py:1010-1015`). -/
def staticText (w : World) (nonbool : Bool) (k : Int × Int) : Except PyErr (List Char) := do
  let s ← getitem w k true nonbool
  .ok (c!"!(" ++ s ++ c!")")

/-- A disjunct of the formula of mutual exclusion (`tulip/gridworld.py:1022-1050`), with `free` the cells that are not
occupied. The tests for the index `(-1, -1)` are never true. -/
def mutexText (w : World) (free : List (Int × Int)) (k : Int × Int) : Except PyErr (List Char) := do
  let c ← getitem w k true false
  let ns ← mapE (fun n => getitem w n true false) (free.filter fun n => decide (k ≠ n))
  .ok (c!"(" ++ joinWith c!" && " (c :: ns.map fun n => c!"(!" ++ n ++ c!")") ++ c!")")

/-- The safety formulas (`tulip/gridworld.py:966-1051`). -/
def safetyTexts (w : World) (A : Arr) (nonbool : Bool) : Except PyErr (List (List Char)) := do
  let cells := indices A.rows A.cols
  let free := cells.filter fun k => decide (A.cell k.1 k.2 ≠ 1)
  let trans ← mapE (transText w A nonbool) free
  let static ← mapE (staticText w nonbool) (cells.filter fun k => decide (A.cell k.1 k.2 = 1))
  let mutex ← (if nonbool then .ok [] else do
    let disj ← mapE (mutexText w free) free
    .ok [joinWith c!"\n|| " disj])
  .ok (trans ++ static ++ mutex)

/-- The formula of an initial cell (`tulip/gridworld.py:1061-1070`), with `names` the variables in the order of the
iteration over their set. -/
def initText (w : World) (names : List (List Char)) (nonbool : Bool) (k : Int × Int) :
    Except PyErr (List Char) := do
  let s ← getitem w k false nonbool
  .ok (if nonbool then s
    else c!"(" ++ joinWith c!" && " (s :: (names.filter fun n => decide (n ≠ s)).map (c!"!" ++ ·)) ++
      c!")")

/-- The variables (`tulip/gridworld.py:1052-1060`), with `order` the order of the iteration over a set of strings. -/
def specVars (w : World) (A : Arr) (order : List (List Char) → List (List Char)) (nonbool : Bool) :
    Except PyErr (List (List Char) × Dict String Dom) :=
  if nonbool then
    .ok ([], Dict.set (Dict.set [] (String.ofList (w.pre ++ c!"_r")) (.range 0 (A.rows - 1)))
      (String.ofList (w.pre ++ c!"_c")) (.range 0 (A.cols - 1)))
  else do
    let names ← mapE (fun k => getitem w k false false) (indices A.rows A.cols)
    let names := order names
    .ok (names, names.map fun n => (String.ofList n, Dom.boolean))

/-- `GridWorld.spec` (`tulip/gridworld.py:914-1081`). The attribute `offset` of the world is changed during the call and
restored at its end; it is not modelled that an exception (for a mark out of bounds) leaves it changed. -/
def spec (w : World) (order : List (List Char) → List (List Char)) (offset : Int × Int)
    (controlled nonbool : Bool) : Except PyErr GRSpec :=
  match w.W with
  | none => .error .valueError
  | some A => do
    let w' := { w with offset := if nonbool then (0, 0) else offset }
    let safety ← safetyTexts w' A nonbool
    let (names, vars) ← specVars w' A order nonbool
    let inits ← mapE (initText w' names nonbool) w.inits
    let init := joinWith c!" || " inits
    let init := if init = [] then [] else [init]
    let prog ← mapE (fun k => getitem w' k false nonbool) w.goals
    if controlled then GRSpec.make [] vars [] init [] safety [] prog
    else GRSpec.make vars [] init [] safety [] prog []

/-! ### Trolls -/

/-- The offset and the grid world of a troll (`tulip/gridworld.py:1429-1462`). -/
def trollWorld (Y : World) (pre : List Char) (anywhere : Bool) (id : Nat) (center : Int × Int)
    (radius : Int) : Except PyErr ((Int × Int) × World) := do
  let rows : Int := (size Y).1
  let cols : Int := (size Y).2
  if center.1 ≥ rows ∨ center.1 < 0 ∨ center.2 ≥ cols ∨ center.2 < 0 then .error .valueError
  else do
    let o : Int × Int := (max 0 (center.1 - radius), max 0 (center.2 - radius))
    let s1 := center.1 - o.1 + radius + 1
    let s2 := center.2 - o.2 + radius + 1
    let s1 := if o.1 + s1 ≥ rows then rows - o.1 else s1
    let s2 := if o.2 + s2 ≥ cols then cols - o.2 else s2
    let X ← subworld Y (s1, s2) o (pre ++ c!"_" ++ digitsOf id) false
    let c := (center.1 - o.1, center.2 - o.2)
    .ok (o, { X with
      goals := [c]
      inits := if anywhere then
          match X.W with
          | none => []
          | some B => (indices B.rows B.cols).filter fun k => B.cell k.1 k.2 == 0
        else [c] })

/-- The loop over the trolls. -/
def trollWorlds (Y : World) (pre : List Char) (anywhere : Bool) :
    Nat → List ((Int × Int) × Int) → Except PyErr (List ((Int × Int) × World))
  | _, [] => .ok []
  | id, t :: l => do
    let X ← trollWorld Y pre anywhere id t.1 t.2
    let Xs ← trollWorlds Y pre anywhere (id + 1) l
    .ok (X :: Xs)

/-- The states in which a troll can be (`tulip/gridworld.py:1455-1462`). -/
def trollMoves (X : (Int × Int) × World) (nonbool : Bool) : Except PyErr (List (Dict (List Char) Int)) :=
  mapE (fun k => state X.2 k X.1 nonbool) (indices (size X.2).1 (size X.2).2)

/-- The formula that excludes that the agent and a troll are in a cell (`tulip/gridworld.py:1474-1487`). -/
def trollMutex (Y : World) (X : (Int × Int) × World) (nonbool : Bool) (k : Int × Int) :
    Except PyErr (List Char) := do
  let s ← getitem Y k true nonbool
  let x :=
    if nonbool then
      c!"((X " ++ X.2.pre ++ c!"_r = " ++ intChars (k.1 - X.1.1) ++ c!") & (X " ++ X.2.pre ++ c!"_c = " ++
        intChars (k.2 - X.1.2) ++ c!"))"
    else c!"X " ++ X.2.pre ++ c!"_" ++ intChars k.1 ++ c!"_" ++ intChars k.2
  .ok (c!"!(" ++ s ++ c!" && " ++ x ++ c!")")

/-- Whether a cell is in the area of a troll. -/
def inArea (X : (Int × Int) × World) (k : Int × Int) : Bool :=
  decide (k.1 ≥ X.1.1 ∧ k.1 < X.1.1 + (size X.2).1 ∧ k.2 ≥ X.1.2 ∧ k.2 < X.1.2 + (size X.2).2)

/-- The union with the specifications of the trolls (`tulip/gridworld.py:1464-1466`). -/
def unionTrolls (order : List (List Char) → List (List Char)) (nonbool : Bool) :
    GRSpec → List ((Int × Int) × World) → Except PyErr GRSpec
  | s, [] => .ok s
  | s, X :: Xs => do
    let x ← spec X.2 order (-X.1.1, -X.1.2) false nonbool
    let s ← s.union x
    unionTrolls order nonbool s Xs

/-- `add_trolls` (`tulip/gridworld.py:1366-1488`). The attribute `offset` of `Y` is `(0, 0)` or what its owner set. -/
def addTrolls (Y : World) (order : List (List Char) → List (List Char))
    (trolls : List ((Int × Int) × Int)) (pre : List Char) (anywhere nonbool : Bool) :
    Except PyErr (GRSpec × List (List (Dict (List Char) Int))) := do
  let Xs ← trollWorlds Y pre anywhere 0 trolls
  let moves ← mapE (fun X => trollMoves X nonbool) Xs
  let s ← spec Y order (0, 0) true nonbool
  let s ← unionTrolls order nonbool s Xs
  let mutex ← mapE (fun kX => trollMutex Y kX.2 nonbool kX.1)
    ((indices (size Y).1 (size Y).2).flatMap fun k => (Xs.filter fun X => inArea X k).map fun X => (k, X))
  .ok ({ s with sysSafety := s.sysSafety ++ mutex }, moves)

end Gw

end Tulip
