/-!
# Abstract syntax of `tulip.spec`

Models `tulip/spec/ast.py`. The node classes `Var`, `Bool`, `Num`, `Str`, `Unary`, `Binary`,
`Comparator`, `Arithmetic` and the ternary `Operator('ite', a, b, c)` become constructors.

Python stores the operator of a node as the text that the lexer matched; the five spellings for
which `OPMAP` (ast.py:48-102) has no entry (`~`, `=>`, `<=>`, `=<`, `/=`) are separate operators
here, so that `flatten` can fail on them as `self.opmap[self.operator]` does.
-/

namespace Tulip

/-- Unary operators: `Unary(op, x)`, built by `lexyacc.py:391-397` and `:400-402`. -/
inductive UnOp
  | not | tilde | next | always | eventually
  deriving DecidableEq, Repr

/-- Binary connectives: `Binary(op, x, y)`, `lexyacc.py:404-414`. -/
inductive BinOp
  | and | or | xor | imp | imp2 | bimp | bimp2 | strongUntil | weakUntil | release
  deriving DecidableEq, Repr

/-- Comparators: `Comparator(op, x, y)`, `lexyacc.py:423-432`. -/
inductive CmpOp
  | eq | ne | ne2 | lt | le | le2 | gt | ge
  deriving DecidableEq, Repr

/-- Arithmetic operators: `Arithmetic(op, x, y)`, `lexyacc.py:439-446`
(`<<>>` has its own rule, `lexyacc.py:434-437`). -/
inductive ArOp
  | add | sub | mul | div
  deriving DecidableEq, Repr

/-- Syntax trees, `ast.py:136-440`.

Simplification: `Num` stores the decimal text in Python; here it stores the integer, so that
numerals that differ by leading zeros are identified. -/
inductive Ast
  | var (name : String)
  | bool (b : Bool)
  | num (n : Int)
  | str (s : String)
  | un (op : UnOp) (x : Ast)
  | bin (op : BinOp) (x y : Ast)
  | cmp (op : CmpOp) (x y : Ast)
  | ar (op : ArOp) (x y : Ast)
  | trunc (x : Ast) (n : Int)
  | ite (c x y : Ast)
  deriving DecidableEq, Repr

namespace Ast

/-- Names of the variables of a formula: `Tree.variables`, `transformation.py:89-96`
(as a list of names in left to right order). -/
def vars : Ast → List String
  | var x => [x]
  | bool _ | num _ | str _ => []
  | un _ x => x.vars
  | bin _ x y | cmp _ x y | ar _ x y => x.vars ++ y.vars
  | trunc x _ => x.vars
  | ite c x y => c.vars ++ x.vars ++ y.vars

/-- `OperatorSpec.__len__` and `TerminalSpec.__len__`, `ast.py:189-196`, `:250-251`. -/
def len : Ast → Nat
  | var _ | bool _ | num _ | str _ => 1
  | un _ x => 1 + x.len
  | bin _ x y | cmp _ x y | ar _ x y => 1 + (x.len + y.len)
  | trunc x _ => 1 + (x.len + 1)
  | ite c x y => 1 + (c.len + x.len + y.len)

/-- Abbreviations used in specifications. -/
abbrev not (x : Ast) : Ast := un .not x
abbrev X (x : Ast) : Ast := un .next x
abbrev G (x : Ast) : Ast := un .always x
abbrev F (x : Ast) : Ast := un .eventually x
abbrev and (x y : Ast) : Ast := bin .and x y
abbrev or (x y : Ast) : Ast := bin .or x y
abbrev imp (x y : Ast) : Ast := bin .imp x y
abbrev U (x y : Ast) : Ast := bin .strongUntil x y

end Ast

end Tulip
