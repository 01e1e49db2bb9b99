import Verif.Basic
import Verif.Spec.Compose
import Verif.Gridworld.World
import Mathlib.Data.List.Dedup

/-!
# Files with LTL formulas

`LTL.dumps` and `LTL.loads` of `tulip/spec/form.py`. Strings are lists of characters.
-/

namespace Tulip

namespace LtlFile

open Gw

/-- An element of a finite domain: an integer or a string. -/
inductive Val where
  | int (n : Int)
  | str (s : List Char)
  deriving DecidableEq, Repr

/-- A domain (`form.py:87-100`): the string `'boolean'`, a pair of integers, the values of an iterable (a set,
in the order of its iteration), or an object that is none of these. -/
inductive VDom where
  | boolean
  | range (lo hi : Int)
  | values (l : List Val)
  | other
  deriving DecidableEq, Repr

/-- The attributes of an `LTL` (`form.py:70-128`). -/
structure Ltl where
  formula : List Char
  inputs : Dict (List Char) VDom
  outputs : Dict (List Char) VDom
  deriving DecidableEq, Repr

/-- `str(x)` of an element. -/
def Val.text : Val → List Char
  | .int n => intChars n
  | .str s => s

/-- `LTL._domain_str` (`form.py:139-147`). -/
def domainStr : VDom → Except PyErr (List Char)
  | .boolean => .ok c!"boolean"
  | .range lo hi => .ok (c!"[" ++ intChars lo ++ c!", " ++ intChars hi ++ c!"]")
  | .values l => .ok (c!"{" ++ joinWith c!", " (l.map Val.text) ++ c!"}")
  | .other => .error .valueError

/-- The loop over a table of variables in `dumps` (`form.py:168-173`). -/
def dumpVars : Dict (List Char) VDom → Except PyErr (List Char)
  | [] => .ok []
  | p :: l => do
    let d ← domainStr p.2
    let rest ← dumpVars l
    .ok (p.1 ++ c!" : " ++ d ++ c!";\n" ++ rest)

/-- A section of `dumps`. -/
def dumpSection (header : List Char) (vars : Dict (List Char) VDom) : Except PyErr (List Char) :=
  if vars.isEmpty then .ok []
  else do
    let v ← dumpVars vars
    .ok (header ++ c!"\n" ++ v)

/-- `LTL.dumps` (`form.py:149-174`); `stamp` is the text of the current time if `timestamp` is given. -/
def dumps (f : Ltl) (stamp : Option (List Char)) : Except PyErr (List Char) := do
  let time := match stamp with
    | some t => c!"# Generated at " ++ t ++ c!"\n"
    | none => []
  let i ← dumpSection c!"INPUT:" f.inputs
  let o ← dumpSection c!"\nOUTPUT:" f.outputs
  .ok (time ++ c!"0  # Version\n%%\n" ++ i ++ o ++ c!"\n%%\n" ++ f.formula)

/-- `LTL.__init__` with `check_vars` (`form.py:176-190`, `176-190`). -/
def newLtl (formula : List Char) (inputs outputs : Dict (List Char) VDom) : Except PyErr Ltl :=
  if inputs.any fun p => outputs.has p.1 then .error .exception else .ok ⟨formula, inputs, outputs⟩

/-- The loop over the lines that reads the version (`form.py:212-225`). -/
def checkVersion : List (List Char) → Except PyErr Unit
  | [] => .ok ()
  | line :: l =>
    let line := (strip line).takeWhile (· ≠ '#')
    if line.isEmpty then checkVersion l
    else match pyInt line with
      | none => .error .valueError
      | some v => if v ≠ 0 then .error .valueError else .ok ()

/-- The removal of comments (`form.py:227-232`): what matches `#.*(\n|$)`. The flag is whether the current
character is in a comment. -/
def stripFrom : Bool → List Char → List Char
  | _, [] => []
  | true, c :: l => if c = '\n' then stripFrom false l else stripFrom true l
  | false, c :: l => if c = '#' then stripFrom true l else c :: stripFrom false l

/-- `s.find(pat)`, `none` for `-1`. -/
def find (pat : List Char) : List Char → Option Nat
  | [] => if pat.isEmpty then some 0 else none
  | c :: l => if pat.isPrefixOf (c :: l) then some 0 else (find pat l).map (· + 1)

/-- `s.split(sep)` for a nonempty string `sep`: `skip` is the number of characters of an occurrence of `sep`
that are left, `cur` the current fragment. -/
def splitStrFrom (sep : List Char) : Nat → List Char → List Char → List (List Char)
  | _, cur, [] => [cur]
  | 0, cur, c :: l =>
    if sep.isPrefixOf (c :: l) then cur :: splitStrFrom sep (sep.length - 1) [] l
    else splitStrFrom sep 0 (cur ++ [c]) l
  | skip + 1, cur, _ :: l => splitStrFrom sep skip cur l

/-- `s.split(sep)`. -/
def splitStr (sep s : List Char) : List (List Char) := splitStrFrom sep 0 [] s

/-- `s.replace(old, new)` for a nonempty string `old`. -/
def replaceStr (old new s : List Char) : List Char := joinWith new (splitStr old s)

/-- The value of an element of a finite domain (`form.py:268-272`). -/
def readVal (s : List Char) : Val :=
  match pyInt s with
  | some n => .int n
  | none => .str s

/-- A range (`form.py:258-262`). -/
def readRange (domain : List Char) : Except PyErr VDom :=
  match splitOn ',' domain with
  | [] => .error .indexError
  | lo :: rest =>
    match pyInt (lo.drop 1) with
    | none => .error .valueError
    | some lo => match rest with
      | [] => .error .indexError
      | hi :: _ =>
        if ']' ∉ hi then .error .valueError
        else match pyInt (hi.takeWhile (· ≠ ']')) with
          | none => .error .valueError
          | some hi => .ok (.range lo hi)

/-- A finite domain (`form.py:263-273`). -/
def readSet (domain : List Char) : Except PyErr VDom :=
  if domain.getLast? ≠ some '}' then .error .assertion
  else .ok (.values (((splitOn ',' (domain.drop 1).dropLast).map readVal).dedup))

/-- A domain (`form.py:258-277`). -/
def readDomain (domain : List Char) : Except PyErr VDom :=
  match domain.head? with
  | none => .error .indexError
  | some c =>
    if c = '[' then readRange domain
    else if c = '{' then readSet domain
    else if domain = c!"boolean" then .ok .boolean
    else .error .typeError

/-- A declaration (`form.py:253-277`). The fragments contain no `;`, so that `rstrip(';')` has no effect. -/
def readDecl (vars : Dict (List Char) VDom) (s : List Char) : Except PyErr (Dict (List Char) VDom) :=
  if (strip s).isEmpty then .ok vars
  else match splitOn ':' s with
    | [name, domain] => do
      let d ← readDomain (lstrip domain)
      .ok (vars.set (strip name) d)
    | _ => .error .valueError

/-- A section (`form.py:252-277`). -/
def readDecls : Dict (List Char) VDom → List (List Char) → Except PyErr (Dict (List Char) VDom)
  | vars, [] => .ok vars
  | vars, s :: l => do
    let vars ← readDecl vars s
    readDecls vars l

/-- The input and output sections (`form.py:234-250`). -/
def sections (declar : List Char) : List Char × List Char :=
  let o := (find c!"OUTPUT:" declar).getD 0
  let (i, o) := match find c!"INPUT:" declar with
    | none => ([], declar.drop o)
    | some i =>
      if i < o then ((declar.take o).drop i, declar.drop o)
      else (declar.drop i, (declar.take i).drop o)
  (replaceStr c!"INPUT:" [] i, replaceStr c!"OUTPUT:" [] o)

/-- The body of the second `try` statement (`form.py:226-277`). -/
def readBody (s : List Char) :
    Except PyErr (List Char × Dict (List Char) VDom × Dict (List Char) VDom) :=
  match splitStr c!"%%\n" (stripFrom false s) with
  | [_, declar, formula] => do
    let i ← readDecls [] (splitOn ';' (sections declar).1)
    let o ← readDecls [] (splitOn ';' (sections declar).2)
    .ok (formula, i, o)
  | _ => .error .valueError

/-- `LTL.loads` (`form.py:206-283`): `ValueError` and `TypeError` are caught and become `ValueError`. -/
def loads (s : List Char) : Except PyErr Ltl := do
  checkVersion (splitlines s)
  match readBody s with
  | .ok (formula, i, o) => newLtl formula i o
  | .error .typeError => .error .valueError
  | .error e => .error e

end LtlFile

end Tulip
