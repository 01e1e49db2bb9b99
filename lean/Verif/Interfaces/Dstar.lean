import Verif.Interfaces.Lbt

/-!
# Model of `contrib/readdstar.py`

The reader of the deterministic Rabin and Streett automata that `ltl2dstar` prints. The file as it is cannot be imported: the
brackets of line 111, in `__str__`, do not match. The attribute `A.edge` is that of `networkx` 1. The model is of
`readdstar` and the functions that it calls, as written, without `__str__`.
-/

namespace Tulip
namespace Dstar

open Gw Lbt

/-- `AcceptancePair` (`contrib/readdstar.py:85-94`), with sets as lists without repetition. -/
structure Pair where
  L : List Int
  U : List Int
  deriving DecidableEq, Repr

/-- The attributes of an edge: `formula` and `subsets of AP`. -/
structure Edge where
  formula : List Char
  subsets : List (List (List Char))
  deriving DecidableEq, Repr

/-- `Automaton` (`contrib/readdstar.py:97-101`); attributes that need not be set are optional. -/
structure Aut where
  autType : List Char
  F : Option (List (Option Pair)) := none
  start : Option Int := none
  ap : Option (List (List Char)) := none
  nodes : List Int := []
  edges : Dict (Int × Int) Edge := []
  deriving DecidableEq, Repr

/-- `s.add(x)`, and `A.add_node(x)`. -/
def addTo (s : List Int) (x : Int) : List Int := if x ∈ s then s else s ++ [x]

/-- `gen_apformula` (`contrib/readdstar.py:117-125`). -/
def genApformula (AP : List (List Char)) (k : Nat) : List Char :=
  joinWith c!" & " (AP.zipIdx.map fun p => if (k >>> p.2) &&& 1 ≠ 0 then p.1 else '!' :: p.1)

/-- `gen_apsubset` (`contrib/readdstar.py:128-136`); the elements in the order of `AP`. -/
def genApsubset (AP : List (List Char)) (k : Nat) : List (List Char) :=
  (AP.zipIdx.filter fun p => decide ((k >>> p.2) &&& 1 ≠ 0)).map (·.1)

/-- The variables of `readdstar`. -/
structure St where
  A : Option Aut := none
  last : Int := -1
  counter : Nat := 0
  deriving DecidableEq, Repr

/-- An attribute of an object, or of `None`. -/
def attr {α : Type} : Option α → Except PyErr α
  | some a => .ok a
  | none => .error .attribute

/-- `l[i]` for an index that may be negative: the place. -/
def place (n : Nat) (i : Int) : Except PyErr Nat :=
  if 0 ≤ i ∧ i < n then .ok i.toNat else if i < 0 ∧ 0 ≤ i + n then .ok (i + n).toNat else .error .indexError

/-- `prop.strip('"').rstrip('"')`. -/
def unquote (s : List Char) : List Char :=
  ((s.dropWhile (· = '"')).reverse.dropWhile (· = '"')).reverse

/-- A word of the signature (`contrib/readdstar.py:186-192`). -/
def readSig (last : Int) (A : Aut) (w : List Char) : Except PyErr Aut := do
  let i ← toInt (w.drop 1)
  let F ← attr A.F
  let k ← place F.length i
  let p := ((F[k]?).join).getD ⟨[], []⟩
  let p := match w.head? with
    | some '+' => { p with L := addTo p.L last }
    | some '-' => { p with U := addTo p.U last }
    | _ => p
  .ok { A with F := some (F.set k (some p)) }

/-- A transition (`contrib/readdstar.py:194-202`). -/
def readTrans (last : Int) (counter : Nat) (A : Aut) (w : List Char) : Except PyErr Aut := do
  let t ← toInt w
  let ap ← attr A.ap
  let f := c!"(" ++ genApformula ap counter ++ c!")"
  let e : Edge := match A.edges.get? (last, t) with
    | none => ⟨f, [genApsubset ap counter]⟩
    | some e => ⟨e.formula ++ c!" | " ++ f, e.subsets ++ [genApsubset ap counter]⟩
  .ok { A with nodes := addTo (addTo A.nodes last) t, edges := A.edges.set (last, t) e }

/-- One line, as words (`contrib/readdstar.py:157-202`). Simplification: when there are both a wrong number in a signature and no
automaton, the exception is that for the latter. -/
def readLine (s : St) (parts : List (List Char)) : Except PyErr St :=
  match parts with
  | [] => .ok s
  | p0 :: rest =>
    if p0.getLast? ≠ some ':' ∧ rest.length = 2 then .ok { s with A := some { autType := p0 } }
    else if p0 = c!"Comment:" then .ok s
    else if p0 = c!"States:" then do
      let _ ← toInt (← item parts 1)
      .ok s
    else if p0 = c!"Acceptance-Pairs:" then do
      let n ← toInt (← item parts 1)
      let A ← attr s.A
      .ok { s with A := some { A with F := some (List.replicate n.toNat none) } }
    else if p0 = c!"Start:" then do
      let n ← toInt (← item parts 1)
      let A ← attr s.A
      .ok { s with A := some { A with start := some n } }
    else if p0 = c!"AP:" then do
      let n ← toInt (← item parts 1)
      let A ← attr s.A
      let ap := (rest.drop 1).map unquote
      if n = ap.length then .ok { s with A := some { A with ap := some ap } } else .error .assertion
    else if p0 = c!"State:" then do
      let q ← toInt (← item parts 1)
      let A ← attr s.A
      .ok { A := some { A with nodes := addTo A.nodes q }, last := q, counter := 0 }
    else if p0 = c!"Acc-Sig:" then
      if rest = [] then .ok s else do
      let A ← attr s.A
      let A ← rest.foldlM (readSig s.last) A
      .ok { s with A := some A }
    else if s.last ≥ 0 ∧ p0 ≠ c!"---" then do
      let A ← attr s.A
      let A ← readTrans s.last s.counter A p0
      .ok { s with A := some A, counter := s.counter + 1 }
    else .ok s

/-- `readdstar` (`contrib/readdstar.py:139-206`) of the lines that `getline` returns; an empty line is the end of the file. -/
def readdstar (lines : List (List Char)) : Except PyErr (Option Aut) := do
  let s ← ((lines.takeWhile (· ≠ [])).map words).foldlM readLine {}
  .ok s.A

end Dstar
end Tulip
