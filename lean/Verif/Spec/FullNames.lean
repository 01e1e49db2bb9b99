import Verif.Spec.Compose

/-!
# Model of the spelled-out operators of `tulip/spec/parser.py`

`parse(formula, full_operators=True)`.
-/

namespace Tulip
namespace Full

/-- `\w`. Simplification: ASCII. -/
def isWordChar (c : Char) : Bool :=
  (65 ≤ c.toNat && c.toNat ≤ 90) || (97 ≤ c.toNat && c.toNat ≤ 122) || isDig c || c == '_'

/-- The case-insensitive comparison of characters, `(?i)`. Simplification: ASCII. -/
def lower (c : Char) : Char := if 65 ≤ c.toNat && c.toNat ≤ 90 then Char.ofNat (c.toNat + 32) else c

/-- `FULL_OPERATOR_NAMES`, `ast.py:105-133`, in its order. -/
def names : List (List Char × List Char) :=
  [(c!"next", c!"X"), (c!"always", c!"[]"), (c!"eventually", c!"<>"), (c!"until", c!"U"),
    (c!"stronguntil", c!"U"), (c!"weakuntil", c!"W"), (c!"unless", c!"W"), (c!"release", c!"V"),
    (c!"implies", c!"->"), (c!"equivalent", c!"<->"), (c!"not", c!"!"), (c!"and", c!"&&"), (c!"or", c!"||")]

/-- The word `name`, in upper or lower case, at the start of a text, with a boundary of a word after it. -/
def matchesAt (name : List Char) (s : List Char) : Bool :=
  decide ((s.take name.length).map lower = name) &&
    match s.drop name.length with
    | [] => true
    | c :: _ => !isWordChar c

/-- `re.sub(rf'(?i)\b{name}\b', symbol, formula)`, `parser.py:104-108`: `skip` is the number of characters that
are left of a match, and `prev` tells whether the character before is part of a word. -/
def subWord (name symbol : List Char) : Nat → Bool → List Char → List Char
  | _, _, [] => []
  | skip + 1, _, c :: s => subWord name symbol skip (isWordChar c) s
  | 0, prev, c :: s =>
    if !prev && matchesAt name (c :: s) then symbol ++ subWord name symbol (name.length - 1) (isWordChar c) s
    else c :: subWord name symbol 0 (isWordChar c) s

/-- `_replace_full_name_operators`, `parser.py:90-109`. -/
def replaceNames (formula : List Char) : List Char :=
  names.foldl (fun s p => subWord p.1 p.2 0 false s) formula

/-- `parse(formula, full_operators)`, `parser.py:52-78`. `none`: the exception for a syntax error. -/
def parseWith (formula : List Char) (fullOperators : Bool) : Option Ast :=
  if fullOperators then parse (replaceNames formula) else parse formula

end Full
end Tulip
