import Verif.Basic
import Verif.Spec.Compose

/-!
# Model of `contrib/spin2dstar.py`

The translator of formulas from the syntax of SPIN to that of `ltl2dstar`. The combinators of `pyparsing` are modelled as
they are used there: `Literal` and `Word` skip white space first, `|` takes the first alternative that matches, and the
parse actions run when their expression has matched, so that what they have pushed remains when an enclosing expression
fails. The module-level list `expr_stack` is passed on from call to call; its last element is the head of the list here.
-/

namespace Tulip
namespace Spin

/-- `SPIN_SYN` (`contrib/spin2dstar.py:48-56`). -/
def spinSyn : Dict (List Char) (List Char) :=
  [(c!"&", c!"&&"), (c!"|", c!"||"), (c!"!", c!"!"), (c!"->", c!"->"), (c!"<->", c!"<->"), (c!"[]", c!"[]"),
    (c!"<>", c!"<>"), (c!"X", c!"X"), (c!"U", c!"U")]

/-- `DSTAR_SYN` (`contrib/spin2dstar.py:58-66`). -/
def dstarSyn : Dict (List Char) (List Char) :=
  [(c!"&", c!"&"), (c!"|", c!"|"), (c!"!", c!"!"), (c!"->", c!"i"), (c!"<->", c!"e"), (c!"[]", c!"G"),
    (c!"<>", c!"F"), (c!"X", c!"X"), (c!"U", c!"U")]

/-- `AST` (`contrib/spin2dstar.py:69-73`), by which of `left` and `right` are the empty text. -/
inductive AST
  | leaf (sym : List Char)
  | un (sym : List Char) (right : AST)
  | bin (sym : List Char) (left right : AST)
  deriving DecidableEq, Repr

/-- `DSTAR_SYN[self.sym]`, or `self.sym` (`contrib/spin2dstar.py:82-85`). -/
def dstarSym (sym : List Char) : List Char := (dstarSyn.get? sym).getD sym

/-- `AST.to_dstar(pretty=True)` (`contrib/spin2dstar.py:81-94`). -/
def toDstar : AST → List Char
  | .leaf s => dstarSym s
  | .un s r => dstarSym s ++ c!" " ++ toDstar r
  | .bin s l r => dstarSym s ++ c!" " ++ toDstar l ++ c!" " ++ toDstar r

/-- `reverse_lookup` (`contrib/spin2dstar.py:97-104`), of a value that occurs. -/
def reverseLookup (value : List Char) : List Char :=
  ((spinSyn.find? fun p => p.2 == value).map (·.1)).getD []

/-- `push_op` (`contrib/spin2dstar.py:107-116`): `none` for `ValueError`. -/
def pushOp (tok : List Char) (stack : List AST) : Option (List AST) :=
  let sym := reverseLookup tok
  if sym ∈ [c!"!", c!"[]", c!"<>", c!"X"] then
    match stack with
    | r :: st => some (.un sym r :: st)
    | _ => none
  else
    match stack with
    | r :: l :: st => some (.bin sym l r :: st)
    | _ => none

/-- What `pyparsing` skips before a token. -/
def isWhite (c : Char) : Bool := c == ' ' || c == '\n' || c == '\t' || c == '\r'

/-- The white space is skipped. -/
def skip (s : List Char) : List Char := s.dropWhile isWhite

/-- `prs.Literal(w)`. -/
def literal (w s : List Char) : Option (List Char) :=
  if w.isPrefixOf (skip s) then some ((skip s).drop w.length) else none

/-- `prs.alphas + "_"`. -/
def isHead (c : Char) : Bool :=
  (65 ≤ c.toNat && c.toNat ≤ 90) || (97 ≤ c.toNat && c.toNat ≤ 122) || c == '_'

/-- `prs.alphanums + "_"`. -/
def isBody (c : Char) : Bool := isHead c || (48 ≤ c.toNat && c.toNat ≤ 57)

/-- `identifier` (`contrib/spin2dstar.py:132-134`): the word and the rest. -/
def identifier (s : List Char) : Option (List Char × List Char) :=
  match skip s with
  | [] => none
  | c :: l => if isHead c then some (c :: l.takeWhile isBody, l.dropWhile isBody) else none

/-- The outcome of a parser: the rest of the text, no match, or an exception of a parse action (or of a recursion that
is too deep). -/
inductive Res
  | ok (rest : List Char)
  | fail
  | raise
  deriving DecidableEq, Repr

/-- The first of the literals that matches: the literal and the rest. -/
def firstOf : List (List Char) → List Char → Option (List Char × List Char)
  | [], _ => none
  | w :: ws, s => match literal w s with
    | some r => some (w, r)
    | none => firstOf ws s

/-- `(op + …).setParseAction(push_op)`, after what follows the operator. -/
def act (tok : List Char) (p : Res × List AST) : Res × List AST :=
  match p with
  | (.ok r, st) => match pushOp tok st with
    | some st => (.ok r, st)
    | none => (.raise, st)
  | p => p

/-- The next alternative, if there is no match. -/
def orElse (p : Res × List AST) (q : List AST → Res × List AST) : Res × List AST :=
  match p with
  | (.fail, st) => q st
  | p => p

/-- `identifier.setParseAction(push_ident)`, `contrib/spin2dstar.py:118-119`, `:141`. -/
def identP (s : List Char) (st : List AST) : Res × List AST :=
  match identifier s with
  | some (w, r) => (.ok r, .leaf w :: st)
  | none => (.fail, st)

/-- `prs.Suppress(")")` after a formula. -/
def closeP (p : Res × List AST) : Res × List AST :=
  match p with
  | (.ok r, st) => match literal c!")" r with
    | some r => (.ok r, st)
    | none => (.fail, st)
  | p => p

mutual
/-- `unary_or_less` (`contrib/spin2dstar.py:137-142`). -/
def unary : Nat → List Char → List AST → Res × List AST
  | 0, _, st => (.raise, st)
  | n + 1, s, st =>
    orElse (prefixed n c!"!" s st) fun st =>
    orElse (prefixed n c!"X" s st) fun st =>
    orElse (prefixed n c!"[]" s st) fun st =>
    orElse (prefixed n c!"<>" s st) fun st =>
    orElse (identP s st) fun st =>
    match literal c!"(" s with
    | some r => closeP (form n r st)
    | none => (.fail, st)

/-- `(op + unary_or_less).setParseAction(push_op)`. -/
def prefixed : Nat → List Char → List Char → List AST → Res × List AST
  | 0, _, _, st => (.raise, st)
  | n + 1, w, s, st =>
    match literal w s with
    | some r => act w (unary n r st)
    | none => (.fail, st)

/-- `form` (`contrib/spin2dstar.py:143-149`). -/
def form : Nat → List Char → List AST → Res × List AST
  | 0, _, st => (.raise, st)
  | n + 1, s, st =>
    orElse (match unary n s st with
      | (.ok r, st) => more n r st
      | p => p) fun st => unary n s st

/-- `prs.ZeroOrMore((… + form).setParseAction(push_op))` (`contrib/spin2dstar.py:143-148`). -/
def more : Nat → List Char → List AST → Res × List AST
  | 0, _, st => (.raise, st)
  | n + 1, s, st =>
    match firstOf [c!"U", c!"&&", c!"||", c!"->", c!"<->"] s with
    | none => (.ok s, st)
    | some (w, r) =>
      match act w (form n r st) with
      | (.ok r, st) => more n r st
      | (.fail, st) => (.ok s, st)
      | (.raise, st) => (.raise, st)
end

/-- `spin_to_AST` (`contrib/spin2dstar.py:122-152`), with `expr_stack` before and after the call. An error of the parser
is `exception`. -/
def spinToAST (stack : List AST) (s : List Char) : Except PyErr AST × List AST :=
  match form (4 * s.length + 4) s stack with
  | (.ok r, st) =>
    if skip r = [] then
      match st with
      | [t] => (.ok t, [])
      | st => (.error .assertion, st)
    else (.error .exception, st)
  | (.fail, st) => (.error .exception, st)
  | (.raise, st) => (.error .valueError, st)

/-- `spin_to_dstar` (`contrib/spin2dstar.py:154-156`). -/
def spinToDstar (stack : List AST) (s : List Char) : Except PyErr (List Char) × List AST :=
  let p := spinToAST stack s
  (p.1.map toDstar, p.2)

/-- Calls one after the other. -/
def calls : List AST → List (List Char) → List (Except PyErr (List Char))
  | _, [] => []
  | st, s :: l => (spinToDstar st s).1 :: calls (spinToDstar st s).2 l

end Spin
end Tulip
