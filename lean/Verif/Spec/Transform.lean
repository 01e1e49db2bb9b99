import Verif.Basic
import Verif.Spec.Parser
import Verif.Spec.Compose

/-!
# Syntactic transformations and translations

Models parts of `tulip/spec/transformation.py` and `tulip/spec/translation.py`.

Python works on a `Tree`, a graph whose nodes are the AST node objects, compared by identity
(`__hash__` is `id`). `Tree.from_recursive_ast` and `to_recursive_ast`
(`transformation.py:97-144`) convert between it and the recursive AST. Simplification: the model
works on the recursive AST, with the position in the tree in place of the node's identity. Nodes
are visited in the insertion order of the graph, which is preorder. `Verif/Spec/TreeGraph.lean` models
the graph of objects, and C126 proves that the substitutions on it are those of this file, for every
formula whose objects form a tree.
-/

namespace Tulip

/-! ## Pairing a constant with a variable -/

/-- The nearest ancestor with two operands: its operands, and whether the node is below the
second one. -/
abbrev Above := Option (Ast × Ast × Bool)

/-- Go to the first successor until a terminal is found: `transformation.py:395-399`. -/
def downFirst : Ast → Ast
  | .un _ x => downFirst x
  | .bin _ x _ | .cmp _ x _ | .ar _ x _ => downFirst x
  | .trunc x _ => downFirst x
  | .ite c _ _ => downFirst c
  | t => t

/-- `q == old` for AST nodes: terminals of the same class and value (`ast.py:198-200`); for
operators the comparison is by identity, hence false for two different operands. -/
def nodeEq : Ast → Ast → Bool
  | .var a, .var b => a == b
  | .bool a, .bool b => a == b
  | .num a, .num b => a == b
  | .str a, .str b => a == b
  | _, _ => false

/-- `str(var)` for a terminal, `ast.py:185-187`. -/
def terminalText : Ast → String
  | .var x => x
  | .bool b => if b then "True" else "False"
  | .num n => String.ofList (intChars n)
  | .str s => s
  | _ => ""

/-- First component of the result of `pair_node_to_var`, `transformation.py:361-401`. Without an
ancestor that has two operands, `next` raises `StopIteration`. -/
def pairVar : Above → Except PyErr Ast
  | none => .error .stopIteration
  | some (p, q, second) => .ok (downFirst (if second || nodeEq q p then p else q))

/-! ## `sub_constants` -/

/-- `sub_constants`, `transformation.py:311-337`: replace string constants by the index of the
constant in the domain of the paired variable. `D` maps each string variable to its domain.
`.index` raises `ValueError` for a constant that is not in the domain. -/
def subConstants (D : Dict String (List String)) : Above → Ast → Except PyErr Ast
  | ctx, .str s => do
    let v ← pairVar ctx
    match D.get? (terminalText v) with
    | none => .error .keyError
    | some l => if s ∈ l then .ok (.num (l.idxOf s)) else .error .valueError
  | ctx, .un op x => do return .un op (← subConstants D ctx x)
  | _, .bin op x y => do
    return .bin op (← subConstants D (some (x, y, false)) x) (← subConstants D (some (x, y, true)) y)
  | _, .cmp op x y => do
    return .cmp op (← subConstants D (some (x, y, false)) x) (← subConstants D (some (x, y, true)) y)
  | _, .ar op x y => do
    return .ar op (← subConstants D (some (x, y, false)) x) (← subConstants D (some (x, y, true)) y)
  | _, .trunc x n => do return .trunc (← subConstants D (some (x, .num n, false)) x) n
  | ctx, .ite c x y => do
    return .ite (← subConstants D ctx c) (← subConstants D ctx x) (← subConstants D ctx y)
  | _, t => .ok t

/-- `convert_domain`, `translation.py:512-522`, for a domain given as a list. -/
def convertDomain (l : List String) : Int × Int := (0, (l.length : Int) - 1)

/-! ## `sub_bool_with_subtree` -/

/-- `sub_bool_with_subtree`, `transformation.py:340-358`, with `Tree.add_subtree`, `:144-167`:
every occurrence of a mapped variable in the original tree is replaced by the mapped tree; the
inserted trees are not visited, because the nodes are listed before the loop. -/
def subBool (D : Dict String Ast) : Ast → Ast
  | .var x => (D.get? x).getD (.var x)
  | .un op x => .un op (subBool D x)
  | .bin op x y => .bin op (subBool D x) (subBool D y)
  | .cmp op x y => .cmp op (subBool D x) (subBool D y)
  | .ar op x y => .ar op (subBool D x) (subBool D y)
  | .trunc x n => .trunc (subBool D x) n
  | .ite c x y => .ite (subBool D c) (subBool D x) (subBool D y)
  | t => t

/-- Flattening of one clause by `replace_dependent_vars`, `form.py:1025-1037`. -/
def replaceDependentClause (D : Dict String Ast) (clause : Ast) : Option (List Char) :=
  flatten (subBool D clause)

/-! ## `check_for_undefined_identifiers` -/

/-- `check_for_undefined_identifiers`, `transformation.py:226-278`. The node returned second by
`pair_node_to_var` is the operator above the constant, so that neither of the two checks of the
constant against the domain is ever reached. -/
def checkIdents (domains : List String) : Above → Ast → Except PyErr Unit
  | _, .var x => if x ∈ domains then .ok () else .error .valueError
  | ctx, .str _ => do let _ ← pairVar ctx
  | ctx, .num _ => do let _ ← pairVar ctx
  | _, .bool _ => .ok ()
  | ctx, .un _ x => checkIdents domains ctx x
  | _, .bin _ x y | _, .cmp _ x y | _, .ar _ x y => do
    checkIdents domains (some (x, y, false)) x
    checkIdents domains (some (x, y, true)) y
  | _, .trunc x n => do
    checkIdents domains (some (x, .num n, false)) x
    let _ ← pairVar (some (x, .num n, true))
  | ctx, .ite c x y => do
    checkIdents domains ctx c
    checkIdents domains ctx x
    checkIdents domains ctx y

/-! ## `collect_primed_vars` and `check_syntax` -/

/-- Children of a node, in order. -/
def Ast.children : Ast → List Ast
  | .un _ x => [x]
  | .bin _ x y | .cmp _ x y | .ar _ x y => [x, y]
  | .trunc x n => [x, .num n]
  | .ite c x y => [c, x, y]
  | _ => []

/-- The node is `X` (`u.operator == 'X'`). -/
def Ast.isNext : Ast → Bool
  | .un .next _ => true
  | _ => false

/-- `if u.type == 'var' and c: primed.add(u.value)`, `transformation.py:511-512`. -/
def notePrimed : Ast → Bool → List String → List String
  | .var x, true, acc => x :: acc
  | _, _, acc => acc

/-- The loop of `collect_primed_vars`, `transformation.py:501-519`, with fuel for the number of
iterations. `Q` is the stack with its top first: `Q.extend(successors)` pushes the children, the
last one on top. -/
def primedLoop : Nat → List (Ast × Bool) → List String → List String
  | 0, _, acc => acc
  | _ + 1, [], acc => acc
  | n + 1, (u, c) :: Q, acc =>
    primedLoop n ((u.children.map (·, u.isNext || c)).reverse ++ Q) (notePrimed u c acc)

/-- `collect_primed_vars`, `transformation.py:501-519` (the set as a list). -/
def collectPrimedVars (t : Ast) : List String := primedLoop t.len [(t, false)] []

/-- `GRSpec._assert_no_primed`, `form.py:723-739`. -/
def assertNoPrimed (fs : List Ast) : Except PyErr Unit :=
  if fs.any (fun f => !(collectPrimedVars f).isEmpty) then .error .assertion else .ok ()

/-- `GRSpec.check_syntax`, `form.py:698-721`, on parsed clauses. The fourth check repeats the
third one (`env_prog`); `sys_prog` is never checked. -/
def checkSyntax (envInit sysInit envProg _sysProg envSafety : List Ast) (sysVars : List String) :
    Except PyErr Unit := do
  assertNoPrimed envInit
  assertNoPrimed sysInit
  assertNoPrimed envProg
  assertNoPrimed envProg
  if envSafety.any (fun f => (collectPrimedVars f).any (fun x => decide (x ∈ sysVars))) then
    .error .assertion
  else .ok ()

/-! ## `infer_constants` -/

/-- Replacement of the non-variables of a subtree by quoted constants,
`transformation.py:441-453`. -/
def quoteConstants (vars : List String) : Ast → Ast
  | .var x => if x ∈ vars then .var x else .str ("\"" ++ x ++ "\"")
  | .un op x => .un op (quoteConstants vars x)
  | .bin op x y => .bin op (quoteConstants vars x) (quoteConstants vars y)
  | .cmp op x y => .cmp op (quoteConstants vars x) (quoteConstants vars y)
  | .ar op x y => .ar op (quoteConstants vars x) (quoteConstants vars y)
  | .trunc x n => .trunc (quoteConstants vars x) n
  | .ite c x y => .ite (quoteConstants vars c) (quoteConstants vars x) (quoteConstants vars y)
  | t => t

/-- `infer_constants` with a list of variable names, `transformation.py:404-454`: relabelling
does not update `tree.root`, so that a formula that is a single name is returned unchanged.
`none` stands for the exceptions raised by the parser and by the printer. The check for
conflicts between names and values (`:428-432`) is `inferCheck`. -/
def inferConstants (formula : List Char) (vars : List String) : Option (List Char) := do
  match ← parse formula with
  | .var x => flatten (.var x)
  | t => flatten (quoteConstants vars t)

/-- Domain check of `infer_constants` when a dictionary is given: `transformation.py:428-432` and
`_check_var_conflicts`, `:457-484`: no variable is a value of another string variable. (Two
entries of a dictionary cannot have the same key.) -/
def inferCheck (doms : Dict String (Option (List String))) : Except PyErr Unit :=
  if doms.any (fun p => doms.any (fun q =>
      p.1 != q.1 && (q.2.getD []).contains p.1)) then .error .exception
  else .ok ()

/-! ## `sub_values` -/

/-- A Python value given for a variable. -/
inductive PyConst
  | bool (b : Bool) | int (n : Int) | str (s : String)
  deriving DecidableEq, Repr

/-- `sub_values`, `transformation.py:281-308`. The constructors of `Bool` and `Num` reject values
that are not strings (`ast.py:168-175`, `:306-317`), hence the `TypeError`. -/
def subValuesRec (values : Dict String PyConst) : Ast → Except PyErr Ast
  | .var x =>
    match values.get? x with
    | none => .error .keyError
    | some (.bool _) | some (.int _) => .error .typeError
    | some (.str s) => .ok (.str s)
  | .un op x => do return .un op (← subValuesRec values x)
  | .bin op x y => do return .bin op (← subValuesRec values x) (← subValuesRec values y)
  | .cmp op x y => do return .cmp op (← subValuesRec values x) (← subValuesRec values y)
  | .ar op x y => do return .ar op (← subValuesRec values x) (← subValuesRec values y)
  | .trunc x n => do return .trunc (← subValuesRec values x) n
  | .ite c x y => do
    return .ite (← subValuesRec values c) (← subValuesRec values x) (← subValuesRec values y)
  | t => .ok t

/-- `sub_values` on a whole tree. As in `infer_constants`, a tree that is a single variable keeps
its root. -/
def subValues (values : Dict String PyConst) (t : Ast) : Except PyErr Ast := do
  let r ← subValuesRec values t
  match t with
  | .var x => .ok (.var x)
  | _ => .ok r

/-! ## Translation to Python -/

/-- Python expressions of the emitted fragment. -/
inductive PyExpr
  | name (x : String) | bool (b : Bool) | int (n : Int)
  | not (e : PyExpr) | and (a b : PyExpr) | or (a b : PyExpr) | xor (a b : PyExpr)
  | cmp (op : CmpOp) (a b : PyExpr) | add (a b : PyExpr) | sub (a b : PyExpr)
  deriving DecidableEq, Repr

/-- `translate_ast(tree, 'python')` followed by `flatten`: `_ast_to_python`,
`translation.py:678-707`, and the nodes of `make_python_nodes`, `:316-369`.

Simplification: the result is the expression tree of the emitted text, which is fully
parenthesised: `( a and b )`, `( not a )`, `((not (a)) or b)`, `(a == b)`, `( a == b )`. A string
constant is emitted without quotes, so that Python reads it as a name. `=` becomes `==`.
Operators without an entry in `opmap` raise `KeyError`; spellings that are not listed in
`_ast_to_python` and temporal operators fail its assertions; `ite` raises `ValueError`. -/
def toPy : Ast → Except PyErr PyExpr
  | .var x => .ok (.name x)
  | .bool b => .ok (.bool b)
  | .num n => .ok (.int n)
  | .str s => .ok (.name s)
  | .un .not x => do return .not (← toPy x)
  | .un _ _ => .error .assertion
  | .bin .and x y => do return .and (← toPy x) (← toPy y)
  | .bin .or x y => do return .or (← toPy x) (← toPy y)
  | .bin .xor x y => do return .xor (← toPy x) (← toPy y)
  | .bin .imp x y => do
    let a ← toPy x
    let b ← toPy y
    return .or (.not a) b
  | .bin .bimp x y => do return .cmp .eq (← toPy x) (← toPy y)
  | .bin _ _ _ => .error .assertion
  | .cmp .ne2 _ _ | .cmp .le2 _ _ => .error .assertion
  | .cmp op x y => do return .cmp op (← toPy x) (← toPy y)
  | .ar .add x y => do return .add (← toPy x) (← toPy y)
  | .ar .sub x y => do return .sub (← toPy x) (← toPy y)
  | .ar .mul _ _ | .ar .div _ _ => .error .keyError
  | .trunc _ _ => .error .assertion
  | .ite _ _ _ => .error .valueError

/-- Clauses joined with `and`, `True` if there are none: `form.py:887-894`. -/
def pyConj : List PyExpr → PyExpr
  | [] => .bool true
  | e :: es => es.foldl .and e

/-- `GRSpec.compile_init`, `form.py:847-897`, on the parsed initial conditions (those of
`str_to_int` if `no_str`). The text is `not (env) or (sys)`. -/
def compileInit (envInit sysInit : List Ast) : Except PyErr PyExpr := do
  let env ← envInit.mapM toPy
  let sys ← sysInit.mapM toPy
  return .or (.not (pyConj env)) (pyConj sys)

/-! ## Translation to gr1c -/

/-- Operator texts of `make_gr1c_nodes`, `translation.py:128-182`. -/
def gr1cUn : UnOp → Option (List Char)
  | .not => some ['!']
  | .always => some ['[', ']']
  | .eventually => some ['<', '>']
  | .tilde | .next => none

/-- See `gr1cUn`. -/
def gr1cBin : BinOp → Option (List Char)
  | .and => some ['&']
  | .or => some ['|']
  | .imp => some ['-', '>']
  | .bimp => some ['<', '-', '>']
  | _ => none

/-- `translate_ast(tree, 'gr1c').flatten(prime=…)`: `translation.py:639-659`. `X` sets `prime` for
its operand and prints nothing itself. Operators missing from the table raise `KeyError`
(`none`). -/
def gr1cText : Bool → Ast → Option (List Char)
  | p, .var x => some (x.toList ++ if p then ['\''] else [])
  | _, .bool b => some (if b then ['T', 'r', 'u', 'e'] else ['F', 'a', 'l', 's', 'e'])
  | _, .num n => some (intChars n)
  | _, .str s => some s.toList
  | _, .un .next x => gr1cText true x
  | p, .un op x => do
    let o ← gr1cUn op
    let a ← gr1cText p x
    return ['(', ' '] ++ o ++ [' '] ++ a ++ [' ', ')']
  | p, .bin op x y => do
    let o ← gr1cBin op
    let a ← gr1cText p x
    let b ← gr1cText p y
    return infixText a o b
  | p, .cmp op x y => do
    let o ← cmpText op
    let a ← gr1cText p x
    let b ← gr1cText p y
    return infixText a o b
  | _, .ar _ _ _ | _, .trunc _ _ | _, .ite _ _ _ => none

/-- The formula in one section of the gr1c input: `_gr1c_str`, `translation.py:525-536`, for a
non-empty list of clauses. -/
def gr1cFormula (pre : List Char) (clauses : List (List Char)) : List Char :=
  joinWith ['\n', '&', ' '] (clauses.map fun x => pre ++ ['('] ++ x ++ [')'])

/-- `_gr1c_str`, `translation.py:525-536`. -/
def gr1cSection (clauses : List (List Char)) (name pre : List Char) : List Char :=
  if clauses.isEmpty then name ++ [':', ';', '\n']
  else name ++ [':', ' '] ++ gr1cFormula pre clauses ++ [';', '\n']

end Tulip
