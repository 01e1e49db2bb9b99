import Verif.Basic
import Verif.Spec.Compose

/-!
# Model of the reader of never claims

`tulip/interfaces/ltl2ba.py`: the lexer and the parser of the output of `ltl2ba`. The model of the parser is
the LALR(1) automaton that `ply` builds from the grammar, with its reductions delayed until the next token is
known, and with its recovery from errors.
-/

namespace Tulip
namespace Ba

/-! ## Lexer -/

/-- The tokens, `ltl2ba.py:47-127`. The tokens that no rule of the grammar uses are `other`; the tokens `TRUE`
and `FALSE` never occur, because the rule for names comes first. -/
inductive Tok
  | never | ifw | fi | goto | skip
  | name (w : List Char)
  | num (n : Nat)
  | not | and | or | lpar | rpar | lbrace | rbrace | semi | colon2 | colon | imp | comment | other
  deriving DecidableEq, Repr

/-- `[A-Za-z_]`, `ltl2ba.py:140`. -/
def isIdStart (c : Char) : Bool :=
  (65 ≤ c.toNat && c.toNat ≤ 90) || (97 ≤ c.toNat && c.toNat ≤ 122) || c == '_'

/-- `[a-zA-Z0-9_]`, `ltl2ba.py:141`. -/
def isIdChar (c : Char) : Bool := isIdStart c || isDig c

/-- `t_name`, `ltl2ba.py:138-144`, with the reserved words, `:104-114`. -/
def word (w : List Char) : Tok :=
  if w = c!"goto" then .goto
  else if w = c!"if" then .ifw
  else if w = c!"fi" then .fi
  else if w = c!"never" then .never
  else if w = c!"skip" then .skip
  else .name w

/-- The rest after a comment, `ltl2ba.py:62-66`, from the text after its start: the comment ends at the last
end in the same line. -/
def commentRest : List Char → Option (List Char)
  | [] => none
  | c :: r =>
    if c = '\n' then none
    else match commentRest r with
      | some s => some s
      | none => match c, r with
        | '*', '/' :: s => some s
        | _, _ => none

/-- One step of the lexer, for the text `c :: r`: the token, if there is one, and the rest. Blanks, newlines
and illegal characters give no token, `ltl2ba.py:100-101`, `:129-136`. Simplification: digits are ASCII. -/
def lexStep (c : Char) (r : List Char) : Option Tok × List Char :=
  if isIdStart c then (some (word (c :: r.takeWhile isIdChar)), r.dropWhile isIdChar)
  else if isDig c then (some (.num (natOf (c :: r.takeWhile isDig))), r.dropWhile isDig)
  else match c, r with
    | '/', '*' :: s => match commentRest s with
      | some t => (some .comment, t)
      | none => (none, r)
    | '!', '=' :: s => (some .other, s)
    | '!', _ => (some .not, r)
    | '&', '&' :: s => (some .and, s)
    | '&', _ => (some .and, r)
    | '|', '|' :: s => (some .or, s)
    | '|', _ => (some .or, r)
    | '^', _ => (some .other, r)
    | '=', _ => (some .other, r)
    | '<', '=' :: s => (some .other, s)
    | '<', _ => (some .other, r)
    | '>', '=' :: s => (some .other, s)
    | '>', _ => (some .other, r)
    | '(', _ => (some .lpar, r)
    | ')', _ => (some .rpar, r)
    | '{', _ => (some .lbrace, r)
    | '}', _ => (some .rbrace, r)
    | ';', _ => (some .semi, r)
    | ':', ':' :: s => (some .colon2, s)
    | ':', _ => (some .colon, r)
    | '-', '>' :: s => (some .imp, s)
    | _, _ => (none, r)

/-- The tokens of a text. The fuel is the length of the text. -/
def lexLoop : Nat → List Char → List Tok
  | 0, _ => []
  | _ + 1, [] => []
  | n + 1, c :: r => match lexStep c r with
    | (some t, s) => t :: lexLoop n s
    | (none, s) => lexLoop n s

/-- The tokens of a text. -/
def lex (s : List Char) : List Tok := lexLoop s.length s

/-! ## Parser -/

/-- The value of an expression: an integer, `p_number`, or a text. -/
inductive Guard
  | int (n : Nat)
  | str (s : List Char)
  deriving DecidableEq, Repr

/-- `f'{x}'`. -/
def Guard.text : Guard → List Char
  | int n => digitsOf n
  | str s => s

/-- The attributes of the parser, `ltl2ba.py:175-178`, `:246-250`: nodes and edges of the graph (a multigraph),
initial nodes, accepting nodes, and symbols (all of them are booleans). Sets are lists without repetitions. -/
structure Auto where
  nodes : List (List Char) := []
  edges : List (List Char × List Char × Guard) := []
  initial : List (List Char) := []
  accepting : List (List Char) := []
  symbols : List (List Char) := []
  deriving DecidableEq, Repr

/-- Adding to a set. -/
def insertNew (x : List Char) (l : List (List Char)) : List (List Char) := if x ∈ l then l else l ++ [x]

/-- `x in s` for texts. -/
def isInfixOf (x : List Char) : List Char → Bool
  | [] => x.isEmpty
  | c :: s => x.isPrefixOf (c :: s) || isInfixOf x s

/-- `p_state`, `ltl2ba.py:327-335`. -/
def addState (w : List Char) (a : Auto) : Auto :=
  let a := { a with nodes := insertNew w a.nodes }
  if isInfixOf c!"init" w then { a with initial := insertNew w a.initial }
  else if isInfixOf c!"accept" w then { a with accepting := insertNew w a.accepting }
  else a

/-- `p_expr_name`, `ltl2ba.py:318-321`. -/
def addSymbol (w : List Char) (a : Auto) : Auto := { a with symbols := insertNew w a.symbols }

/-- `p_clause_labeled`, `ltl2ba.py:274-280`. -/
def addClause (u : List Char) (cs : List (Guard × List Char)) (a : Auto) : Auto :=
  { a with nodes := cs.foldl (fun l c => insertNew c.2 l) (insertNew u a.nodes)
           edges := a.edges ++ cs.map fun c => (u, c.2, c.1) }

/-- What waits for its right operand, on the stack of the parser. -/
inductive Item
  | paren
  | neg
  | conj (g : Guard)
  | disj (g : Guard)
  deriving DecidableEq, Repr

/-- `p_expr_paren`, `ltl2ba.py:298-300`. -/
def parenG (g : Guard) : Guard := .str (c!"(" ++ g.text ++ c!")")

/-- `p_and`, `ltl2ba.py:302-304`. -/
def andG (g h : Guard) : Guard := .str (c!"(" ++ g.text ++ c!" and " ++ h.text ++ c!")")

/-- `p_or`, `ltl2ba.py:306-308`. -/
def orG (g h : Guard) : Guard := .str (c!"(" ++ g.text ++ c!" or " ++ h.text ++ c!")")

/-- `p_not`, `ltl2ba.py:310-312`. -/
def notG (g : Guard) : Guard := .str (c!"(not " ++ g.text ++ c!")")

/-- The reductions of a complete operand `g`, when the next token is `t`, by the table of precedences,
`ltl2ba.py:152-167`: `!` binds more than `&&`, which binds more than `||`; both associate to the left. -/
def reduce (t : Tok) : List Item → Guard → List Item × Guard
  | .neg :: s, g => reduce t s (notG g)
  | .conj h :: s, g => reduce t s (andG h g)
  | .disj h :: s, g => if t = .and then (.disj h :: s, g) else reduce t s (orG h g)
  | s, g => (s, g)

/-- The cases of the `if` that is being read, and the label before the `if`. -/
structure Ctx where
  label : Option (List Char)
  cases : List (Guard × List Char)
  deriving DecidableEq, Repr

/-- The states of the parser. -/
inductive Pos
  /-- nothing read -/
  | start
  /-- after `never` -/
  | never
  /-- after `{` -/
  | brace
  /-- after the comment; no clause yet -/
  | first
  /-- after a label -/
  | label (w : List Char)
  /-- after `label :` -/
  | colon (u : List Char)
  /-- after `if` or after `if` and at least one complete case -/
  | inIf (c : Ctx)
  /-- an operand is expected -/
  | operand (c : Ctx) (s : List Item)
  /-- after an operand; a name is not yet reduced -/
  | after (c : Ctx) (s : List Item) (g : Guard) (pending : Option (List Char))
  /-- after `:: expr ->` -/
  | imp (c : Ctx) (g : Guard)
  /-- after `:: expr -> goto` -/
  | goto (c : Ctx) (g : Guard)
  /-- after `:: expr -> goto name` -/
  | target (c : Ctx) (g : Guard) (w : List Char)
  /-- after `fi` -/
  | fi (c : Ctx)
  /-- after `fi ;` -/
  | semi (c : Ctx)
  /-- after `}` -/
  | done
  deriving DecidableEq, Repr

/-- The end of an operand, when the next token is `t`. -/
def closeOperand (c : Ctx) (s : List Item) (g : Guard) (t : Tok) : Option Pos :=
  match t, reduce t s g with
  | .and, (s, g) => some (.operand c (.conj g :: s))
  | .or, (s, g) => some (.operand c (.disj g :: s))
  | .rpar, (.paren :: s, g) => some (.after c s (parenG g) none)
  | .imp, ([], g) => some (.imp c g)
  | _, _ => none

/-- The next token begins a clause, or ends the clauses. -/
def nextClause (t : Tok) : Option Pos :=
  match t with
  | .name w => some (.label w)
  | .ifw => some (.inIf ⟨none, []⟩)
  | .rbrace => some .done
  | _ => none

/-- The effect of a clause, `ltl2ba.py:270-280`. -/
def clauseEffect (c : Ctx) (a : Auto) : Auto :=
  match c.label with
  | some u => addClause u c.cases a
  | none => a

/-- One token: the new state of the parser, or none if there is a syntax error, and the attributes. -/
def step (p : Pos) (a : Auto) (t : Tok) : Option Pos × Auto :=
  match p, t with
  | .start, .never => (some .never, a)
  | .never, .lbrace => (some .brace, a)
  | .brace, .comment => (some .first, a)
  | .first, .name w => (some (.label w), a)
  | .first, .ifw => (some (.inIf ⟨none, []⟩), a)
  | .label w, .colon => (some (.colon w), addState w a)
  | .label w, .colon2 => (none, addState w a)
  | .label w, .fi => (none, addState w a)
  | .colon u, .ifw => (some (.inIf ⟨some u, []⟩), a)
  | .inIf c, .colon2 => (some (.operand c []), a)
  | .inIf c, .fi => if c.cases.isEmpty then (none, a) else (some (.fi c), a)
  | .operand c s, .lpar => (some (.operand c (.paren :: s)), a)
  | .operand c s, .not => (some (.operand c (.neg :: s)), a)
  | .operand c s, .num n => (some (.after c s (.int n) none), a)
  | .operand c s, .name w => (some (.after c s (.str w) (some w)), a)
  | .after c s g pending, t =>
    if t = .and ∨ t = .or ∨ t = .rpar ∨ t = .imp then
      (closeOperand c s g t, match pending with
        | some w => addSymbol w a
        | none => a)
    else (none, a)
  | .imp c g, .goto => (some (.goto c g), a)
  | .goto c g, .name w => (some (.target c g w), a)
  | .target c g w, .colon2 => (some (.operand ⟨c.label, c.cases ++ [(g, w)]⟩ []), addState w a)
  | .target c g w, .fi => (some (.fi ⟨c.label, c.cases ++ [(g, w)]⟩), addState w a)
  | .target _ _ w, .colon => (none, addState w a)
  | .fi c, .semi => (some (.semi c), a)
  | .semi c, t => match nextClause t with
    | some q => (some q, clauseEffect c a)
    | none => (none, a)
  | _, _ => (none, a)

/-- The loop of `parser.parse`. After an error the parser drops the token and starts anew; the errors of the
next three tokens are not reported. `p_error` fails at the end of the text, because there is no token,
`ltl2ba.py:340-342`. -/
def run : Pos → Nat → Auto → List Tok → Except PyErr Auto
  | p, n, a, [] => if p = .done ∨ n ≠ 0 then .ok a else .error .attribute
  | p, n, a, t :: ts => match step p a t with
    | (some q, a) => run q (n - 1) a ts
    | (none, a) => run .start 3 a ts

/-- `Parser.parse`, `ltl2ba.py:219-256`. -/
def parse (s : List Char) : Except PyErr Auto := run .start 0 {} (lex s)

end Ba
end Tulip
