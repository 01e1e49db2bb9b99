import Verif.Spec.Ast

/-!
# Lexer, parser and printer of formulas

Models `tulip/spec/lexyacc.py` (PLY lexer and LALR parser with precedences) and the `flatten`
methods of `tulip/spec/ast.py`.
-/

namespace Tulip

/-! ## Lexer -/

/-- Tokens, `lexyacc.py:55-113` (token types; the value is kept as the constructor argument). -/
inductive Tok
  | name (s : List Char)      -- NAME
  | number (n : Nat)          -- NUMBER
  | tf (b : Bool)             -- TRUE, FALSE
  | ite                       -- ITE
  | un (op : UnOp)            -- NOT (`!`, `~`), NEXT, ALWAYS, EVENTUALLY
  | bin (op : BinOp)          -- AND, OR, XOR, IMP, BIMP, UNTIL, WEAK_UNTIL, RELEASE
  | cmp (op : CmpOp)          -- EQUALS, NEQUALS, LT, LE, GT, GE
  | ar (op : ArOp)            -- PLUS, MINUS, TIMES, DIV
  | trunc                     -- TRUNCATE
  | lparen | rparen | comma | dquotes | prime
  deriving DecidableEq, Repr

/-- First character of a `NAME`: `[A-Za-z_]`, `lexyacc.py:126`. -/
def isNameStart (c : Char) : Bool :=
  (65 ≤ c.toNat && c.toNat ≤ 90) || (97 ≤ c.toNat && c.toNat ≤ 122) || c.toNat == 95

/-- Other characters of a `NAME`: `[A-za-z0-9._:]`, `lexyacc.py:127`.
The range `A-z` is the code points 65 to 122, which contains `[`, `\`, `]`, `^`, `_` and the
backquote besides the letters. -/
def isNameChar (c : Char) : Bool :=
  (65 ≤ c.toNat && c.toNat ≤ 122) || (48 ≤ c.toNat && c.toNat ≤ 57) ||
    c == '.' || c == '_' || c == ':'

/-- `\d` of `t_NUMBER`, `lexyacc.py:185`. Simplification: ASCII digits only. -/
def isDig (c : Char) : Bool := 48 ≤ c.toNat && c.toNat ≤ 57

/-- Value of a decimal numeral. -/
def natOf (cs : List Char) : Nat := cs.foldl (fun a c => 10 * a + (c.toNat - 48)) 0

/-- Upper case of ASCII letters: `t.value.upper()`, `lexyacc.py:132`. -/
def upper (w : List Char) : List Char := w.map Char.toUpper

/-- Token of a word: body of `t_NAME`, `lexyacc.py:124-134`, with the tables
`reserved` and `values` of `:62-84`. -/
def nameTok (w : List Char) : Tok :=
  if w = ['i', 't', 'e'] then .ite
  else if w = ['n', 'e', 'x', 't'] then .un .next
  else if w = ['X'] then .un .next
  else if w = ['G'] then .un .always
  else if w = ['F'] then .un .eventually
  else if w = ['U'] then .bin .strongUntil
  else if w = ['W'] then .bin .weakUntil
  else if w = ['V'] then .bin .release
  else if upper w = ['T', 'R', 'U', 'E'] then .tf true
  else if upper w = ['F', 'A', 'L', 'S', 'E'] then .tf false
  else .name w

/-- One match of PLY's master regular expression at a non-ignored character, with the input that
remains. Function rules come first in definition order (`lexyacc.py:124-162`, `:205-211`), then
the string rules by decreasing length of their regular expression (`:164-201`):
BIMP, IMP, NEQUALS, LE, NOT, TRUNCATE, NUMBER, then one and two character operators.
A comment, a newline and an unknown character (`t_error`, `:213-217`) produce no token. -/
def lexStep : Char → List Char → Option Tok × List Char
  | ' ', r => (none, r)
  | '\t', r => (none, r)
  | '[', ']' :: r => (some (.un .always), r)
  | '<', '>' :: r => (some (.un .eventually), r)
  | '&', '&' :: r => (some (.bin .and), r)
  | '&', r => (some (.bin .and), r)
  | '/', '\\' :: r => (some (.bin .and), r)
  | '|', '|' :: r => (some (.bin .or), r)
  | '|', r => (some (.bin .or), r)
  | '\\', '/' :: r => (some (.bin .or), r)
  | '#', r => (none, r.dropWhile (· != '\n'))
  | '\n', r => (none, r)
  | '<', '-' :: '>' :: r => (some (.bin .bimp), r)
  | '<', '=' :: '>' :: r => (some (.bin .bimp2), r)
  | '-', '>' :: r => (some (.bin .imp), r)
  | '=', '>' :: r => (some (.bin .imp2), r)
  | '!', '=' :: r => (some (.cmp .ne), r)
  | '/', '=' :: r => (some (.cmp .ne2), r)
  | '<', '=' :: r => (some (.cmp .le), r)
  | '=', '<' :: r => (some (.cmp .le2), r)
  | '!', r => (some (.un .not), r)
  | '~', r => (some (.un .tilde), r)
  | '<', '<' :: '>' :: '>' :: r => (some .trunc, r)
  | '^', r => (some (.bin .xor), r)
  | '>', '=' :: r => (some (.cmp .ge), r)
  | '(', r => (some .lparen, r)
  | ')', r => (some .rparen, r)
  | '+', r => (some (.ar .add), r)
  | '-', r => (some (.ar .sub), r)
  | '*', r => (some (.ar .mul), r)
  | '=', r => (some (.cmp .eq), r)
  | '<', r => (some (.cmp .lt), r)
  | '>', r => (some (.cmp .gt), r)
  | '/', r => (some (.ar .div), r)
  | ',', r => (some .comma, r)
  | '"', r => (some .dquotes, r)
  | '\'', r => (some .prime, r)
  | c, r =>
    if isNameStart c then (some (nameTok (c :: r.takeWhile isNameChar)), r.dropWhile isNameChar)
    else if isDig c then (some (.number (natOf (c :: r.takeWhile isDig))), r.dropWhile isDig)
    else (none, r)

theorem length_dropWhile_le {α} (p : α → Bool) (l : List α) :
    (l.dropWhile p).length ≤ l.length := by
  induction l with
  | nil => simp
  | cons a l ih => simp only [List.dropWhile_cons]; split <;> simp <;> omega

theorem lexStep_length (c : Char) (r : List Char) : (lexStep c r).2.length ≤ r.length := by
  fun_cases lexStep c r <;>
    first
    | (simp only [List.length_cons]; omega)
    | exact length_dropWhile_le _ _
    | exact Nat.le_refl _

/-- The token stream of a string: `ply.lex` run over the input. -/
def lex : List Char → List Tok
  | [] => []
  | c :: r =>
    match _h : lexStep c r with
    | (some t, r') => t :: lex r'
    | (none, r') => lex r'
  termination_by s => s.length
  decreasing_by
    all_goals
      have := lexStep_length c r
      simp only [_h] at this
      simp only [List.length_cons]; omega

/-! ## Parser

PLY resolves shift/reduce conflicts with the precedence table `lexyacc.py:264-304`. The LR stack
is modelled as a list of pending items, each of which groups the grammar symbols of one partially
recognised production. -/

/-- Precedence level of a token type, lowest is 1: `lexyacc.py:264-304`. `TRUNCATE` is not in the
table, so that PLY gives it `('right', 0)`. -/
def binLevel : BinOp → Nat
  | .bimp | .bimp2 => 1
  | .imp | .imp2 => 2
  | .xor => 3
  | .or => 4
  | .and => 5
  | .strongUntil | .weakUntil | .release => 7

/-- See `binLevel`. -/
def cmpLevel : CmpOp → Nat
  | .eq | .ne | .ne2 => 8
  | .lt | .le | .le2 | .gt | .ge => 9

/-- See `binLevel`. -/
def arLevel : ArOp → Nat
  | .add | .sub => 10
  | .mul | .div => 11

/-- See `binLevel`; `NOT` and `NEXT` are right-associative. -/
def unLevel : UnOp → Nat
  | .always | .eventually => 6
  | .not | .tilde => 12
  | .next => 13

/-- A partially recognised production on the LR stack. -/
inductive Item
  | bin (op : BinOp) (x : Ast)      -- `expr OP`
  | cmp (op : CmpOp) (x : Ast)
  | ar (op : ArOp) (x : Ast)
  | un (op : UnOp)                  -- `OP`
  | trunc (x : Ast)                 -- `expr TRUNCATE`
  | minus                           -- `MINUS`
  | paren                           -- `LPAREN`
  | ite0                            -- `LPAREN ITE`
  | ite1 (c : Ast)                  -- `LPAREN ITE expr COMMA`
  | ite2 (c x : Ast)                -- `LPAREN ITE expr COMMA expr COMMA`
  | dq                              -- `DQUOTES`
  | dqn (s : List Char)             -- `DQUOTES NAME`
  deriving DecidableEq, Repr

/-- PLY's rule for a shift/reduce conflict between a production and the token to be shifted
(`ply.yacc`, `lr_parse_table`): reduce if the token's level is lower, or equal and the production
is left-associative. -/
def reduces (ruleLevel : Nat) (ruleLeft : Bool) (tokLevel : Nat) : Bool :=
  tokLevel < ruleLevel || (tokLevel == ruleLevel && ruleLeft)

/-- All reductions that PLY performs with a complete expression `e` on top of the stack, when the
lookahead has precedence level `l` (`0` for tokens with which no conflict arises: these always
cause the reductions). -/
def reduceAll (l : Nat) (e : Ast) : List Item → Ast × List Item
  | .bin op x :: st =>
    if reduces (binLevel op) true l then reduceAll l (.bin op x e) st else (e, .bin op x :: st)
  | .cmp op x :: st =>
    if reduces (cmpLevel op) true l then reduceAll l (.cmp op x e) st else (e, .cmp op x :: st)
  | .ar op x :: st =>
    if reduces (arLevel op) true l then reduceAll l (.ar op x e) st else (e, .ar op x :: st)
  | .un op :: st =>
    if reduces (unLevel op) (op == .always || op == .eventually) l
    then reduceAll l (.un op e) st else (e, .un op :: st)
  | st => (e, st)

/-- Configuration of the parser: pending items and, when the last symbol is a complete
expression, that expression. -/
structure PState where
  stack : List Item
  cur : Option Ast
  deriving DecidableEq, Repr

/-- Shift one token, after the reductions it causes. `none` is a syntax error
(`p_error`, `lexyacc.py:472-482`). Productions: `lexyacc.py:385-470`. -/
def pstep (s : PState) (t : Tok) : Option PState :=
  match s.cur with
  | some e =>
    match t with
    | .bin op => let (e', st) := reduceAll (binLevel op) e s.stack; some ⟨.bin op e' :: st, none⟩
    | .cmp op => let (e', st) := reduceAll (cmpLevel op) e s.stack; some ⟨.cmp op e' :: st, none⟩
    | .ar op => let (e', st) := reduceAll (arLevel op) e s.stack; some ⟨.ar op e' :: st, none⟩
    | .trunc => let (e', st) := reduceAll 0 e s.stack; some ⟨.trunc e' :: st, none⟩
    | .prime => let (e', st) := reduceAll 14 e s.stack; some ⟨st, some (.un .next e')⟩
    | .rparen =>
      match reduceAll 0 e s.stack with
      | (e', .paren :: st) => some ⟨st, some e'⟩
      | (e', .ite2 c x :: st) => some ⟨st, some (.ite c x e')⟩
      | _ => none
    | .comma =>
      match reduceAll 0 e s.stack with
      | (e', .ite0 :: st) => some ⟨.ite1 e' :: st, none⟩
      | (e', .ite1 c :: st) => some ⟨.ite2 c e' :: st, none⟩
      | _ => none
    | _ => none
  | none =>
    match s.stack, t with
    | .minus :: st, .number n => some ⟨st, some (.num (-(n : Int)))⟩
    | .minus :: _, _ => none
    | .dq :: st, .name w => some ⟨.dqn w :: st, none⟩
    | .dq :: _, _ => none
    | .dqn w :: st, .dquotes => some ⟨st, some (.str (String.ofList w))⟩
    | .dqn _ :: _, _ => none
    | .trunc x :: st, .number n => some ⟨st, some (.trunc x n)⟩
    | .trunc _ :: _, _ => none
    | .paren :: st, .ite => some ⟨.ite0 :: st, none⟩
    | _, .ite => none
    | st, .name w => some ⟨st, some (.var (String.ofList w))⟩
    | st, .number n => some ⟨st, some (.num n)⟩
    | st, .tf b => some ⟨st, some (.bool b)⟩
    | st, .un op => some ⟨.un op :: st, none⟩
    | st, .ar .sub => some ⟨.minus :: st, none⟩
    | st, .lparen => some ⟨.paren :: st, none⟩
    | st, .dquotes => some ⟨.dq :: st, none⟩
    | _, _ => none

/-- Run the parser over a token list. -/
def prun : PState → List Tok → Option PState
  | s, [] => some s
  | s, t :: ts => (pstep s t).bind (prun · ts)

/-- End of input: reduce everything; the start symbol must be all that remains. -/
def pfinish (s : PState) : Option Ast :=
  match s.cur with
  | none => none
  | some e =>
    match reduceAll 0 e s.stack with
    | (e', []) => some e'
    | _ => none

/-- Parse a token list. -/
def parseToks (ts : List Tok) : Option Ast := (prun ⟨[], none⟩ ts).bind pfinish

/-- `parser.parse(formula)`, `parser.py:50-75` and `lexyacc.py:346-383` (with
`full_operators=False`). `none` stands for the exception raised on a syntax error. -/
def parse (s : List Char) : Option Ast := parseToks (lex s)

/-! ## Printer -/

/-- Decimal digits of a natural number (`Num.value`, see `Ast`). -/
def digitsOf (n : Nat) : List Char :=
  if n < 10 then [Char.ofNat (48 + n)] else digitsOf (n / 10) ++ [Char.ofNat (48 + n % 10)]

/-- Decimal representation of an integer. -/
def intChars : Int → List Char
  | .ofNat n => digitsOf n
  | .negSucc n => '-' :: digitsOf (n + 1)

/-- `OPMAP`, `ast.py:48-102`; `none` is the `KeyError` for spellings that have no entry. -/
def unText : UnOp → Option (List Char)
  | .not => some ['!']
  | .tilde => none
  | .next => some ['X']
  | .always => some ['G']
  | .eventually => some ['F']

/-- See `unText`. -/
def binText : BinOp → Option (List Char)
  | .and => some ['&']
  | .or => some ['|']
  | .xor => some ['^']
  | .imp => some ['-', '>']
  | .imp2 => none
  | .bimp => some ['<', '-', '>']
  | .bimp2 => none
  | .strongUntil => some ['U']
  | .weakUntil => some ['W']
  | .release => some ['V']

/-- See `unText`. -/
def cmpText : CmpOp → Option (List Char)
  | .eq => some ['=']
  | .ne => some ['!', '=']
  | .ne2 => none
  | .lt => some ['<']
  | .le => some ['<', '=']
  | .le2 => none
  | .gt => some ['>']
  | .ge => some ['>', '=']

/-- See `unText`. -/
def arText : ArOp → Option (List Char)
  | .add => some ['+']
  | .sub => some ['-']
  | .mul => some ['*']
  | .div => some ['/']

/-- `( first op second )`: `BinarySpec.flatten`, `ast.py:264-273`. -/
def infixText (x op y : List Char) : List Char :=
  ['(', ' '] ++ x ++ [' '] ++ op ++ [' '] ++ y ++ [' ', ')']

/-- `flatten`, `ast.py:202-203` (terminals: the stored value, hence `Str` without quotes),
`:253-259` (operators), `:264-273` (binary), `:319-320` (Booleans). -/
def flatten : Ast → Option (List Char)
  | .var x => some x.toList
  | .bool true => some ['T', 'r', 'u', 'e']
  | .bool false => some ['F', 'a', 'l', 's', 'e']
  | .num n => some (intChars n)
  | .str s => some s.toList
  | .un op x => do
    let o ← unText op
    let a ← flatten x
    return ['(', ' '] ++ o ++ [' '] ++ a ++ [' ', ')']
  | .bin op x y => do
    let o ← binText op
    let a ← flatten x
    let b ← flatten y
    return infixText a o b
  | .cmp op x y => do
    let o ← cmpText op
    let a ← flatten x
    let b ← flatten y
    return infixText a o b
  | .ar op x y => do
    let o ← arText op
    let a ← flatten x
    let b ← flatten y
    return infixText a o b
  | .trunc x n => do
    let a ← flatten x
    return infixText a ['<', '<', '>', '>'] (intChars n)
  | .ite c x y => do
    let a ← flatten c
    let b ← flatten x
    let d ← flatten y
    return ['(', ' ', 'i', 't', 'e', ' '] ++ a ++ [',', ' '] ++ b ++ [',', ' '] ++ d ++ [' ', ')']

end Tulip
