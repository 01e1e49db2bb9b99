import Verif.Spec.GRSpec

/-!
# Model of `tulip/spec/gr1_fragment.py`
-/

namespace Tulip

/-- `_paren`, `gr1_fragment.py:496-497`. -/
def paren (s : List Char) : List Char := c!"(" ++ s ++ c!")"

/-- `check_var_name_conflict`, `transformation.py:487-498`. The variables are returned as a list
(duplicates are harmless: the result is only used as a set). A syntax error is an `Exception`. -/
def checkVarNameConflict (f : List Char) (varname : String) : Except PyErr (List String) :=
  match parse f with
  | none => .error .exception
  | some t => if varname ∈ t.vars then .error .valueError else .ok t.vars

/-- `sys_vars = v | {a0}`: every variable is declared Boolean, `form.py:512-516`. -/
def boolVars (v : List String) : Dict String Dom := v.foldl (fun d x => Dict.set d x .boolean) []

/-- `GRSpec(sys_vars=…, sys_init=…, sys_safety=…, sys_prog=…)`. The clauses are given as Python
sets; the model lists them in the order of the source. -/
def sysSpec (v : List String) (init safety prog : List (List Char)) : Except PyErr GRSpec :=
  GRSpec.make [] (boolVars v) [] init [] safety [] prog

/-- `stability_to_gr1`, `gr1_fragment.py:322-365`. -/
def stabilityToGr1 (p : List Char) (aux : String) : Except PyErr GRSpec := do
  let p := paren p
  let a := paren aux.toList
  let v ← checkVarNameConflict p aux
  sysSpec (v ++ [aux])
    [c!"!" ++ a]
    [a ++ c!" -> " ++ p, a ++ c!" -> X " ++ a]
    [a]

/-- `response_to_gr1`, `gr1_fragment.py:368-407`. -/
def responseToGr1 (p q : List Char) (aux : String) : Except PyErr GRSpec := do
  let p := paren p
  let q := paren q
  let a := paren aux.toList
  let v ← checkVarNameConflict (p ++ c!" -> <> " ++ q) aux
  sysSpec (v ++ [aux])
    []
    [c!"(" ++ p ++ c!" && !" ++ q ++ c!") -> X !" ++ a,
     c!"(!" ++ a ++ c!" && !" ++ q ++ c!") -> X !" ++ a]
    [a]

/-- `eventually_to_gr1`, `gr1_fragment.py:410-446`. -/
def eventuallyToGr1 (p : List Char) (aux : String) : Except PyErr GRSpec := do
  let p := paren p
  let a := paren aux.toList
  let v ← checkVarNameConflict p aux
  sysSpec (v ++ [aux])
    [c!"!(" ++ a ++ c!")"]
    [c!"(!" ++ p ++ c!" && !" ++ a ++ c!") -> X !" ++ a, a ++ c!" -> X " ++ a]
    [a]

/-- `until_to_gr1`, `gr1_fragment.py:449-489`. -/
def untilToGr1 (p q : List Char) (aux : String) : Except PyErr GRSpec := do
  let p := paren p
  let q := paren q
  let a := paren aux.toList
  let v ← checkVarNameConflict (p ++ c!" && " ++ q) aux
  sysSpec (v ++ [aux])
    [c!"!" ++ q ++ c!" -> !" ++ a]
    [q ++ c!" -> " ++ a,
     c!"( (X !" ++ q ++ c!") && !" ++ a ++ c!") -> X !" ++ a,
     a ++ c!" -> X " ++ a,
     c!"(!" ++ a ++ c!") -> " ++ p]
    [a]

/-! ## `split_gr1` -/

/-- The loop that collects the boundary of conjunctions, `gr1_fragment.py:230-247`: a stack popped
at its end, so that the right operand is visited first. Here the top of the stack is the head of
the list. -/
def boundaryLoop : Nat → List Ast → List Ast → List Ast
  | 0, _, b => b
  | _ + 1, [], b => b
  | n + 1, .bin .and x y :: Q, b => boundaryLoop n (y :: x :: Q) b
  | n + 1, u :: Q, b => boundaryLoop n Q (b ++ [u])

/-- Number of nodes. -/
def Ast.size : Ast → Nat
  | .var _ | .bool _ | .num _ | .str _ => 1
  | .un _ x => x.size + 1
  | .bin _ x y | .cmp _ x y | .ar _ x y => x.size + y.size + 1
  | .trunc x _ => x.size + 1
  | .ite c x y => c.size + x.size + y.size + 1

/-- The `while Q` loop started with `Q = [root]`; the number of nodes bounds its iterations
(`boundary_eq` shows that nothing is cut off). -/
def boundary (f : Ast) : List Ast := boundaryLoop f.size [f] []

/-- The dictionary `d` of `split_gr1` before flattening. -/
structure Parts where
  init : List Ast
  safe : List Ast
  live : List Ast

/-- `for u in b`, `gr1_fragment.py:249-270`. -/
def classify : List Ast → Parts
  | [] => ⟨[], [], []⟩
  | .un .always (.un .eventually w) :: b => { classify b with live := w :: (classify b).live }
  | .un .always v :: b => { classify b with safe := v :: (classify b).safe }
  | u :: b => { classify b with init := u :: (classify b).init }

/-- `has_operator(u, g, ops)` with `ops = {'G', 'F', 'U', 'V', 'R'}`, plus `'X'` if `x` holds:
`gr1_fragment.py:298-319` and `:272-276`. The weak until `W` is not in the set; `R` is not a
token of the language. -/
def hasTemporal (x : Bool) : Ast → Bool
  | .var _ | .bool _ | .num _ | .str _ => false
  | .un .always _ | .un .eventually _ => true
  | .un .next a => x || hasTemporal x a
  | .un .not a | .un .tilde a => hasTemporal x a
  | .bin .strongUntil _ _ | .bin .release _ _ => true
  | .bin _ a b | .cmp _ a b | .ar _ a b => hasTemporal x a || hasTemporal x b
  | .trunc a _ => hasTemporal x a
  | .ite c a b => hasTemporal x c || hasTemporal x a || hasTemporal x b

/-- All operands printed: `u.flatten() for u in l`. -/
def flattenAll : List Ast → Option (List (List Char))
  | [] => some []
  | t :: ts => do
    let s ← flatten t
    let r ← flattenAll ts
    return s :: r

/-- The value returned by `split_gr1`. -/
structure Split where
  init : List (List Char)
  safe : List (List Char)
  live : List (List Char)

/-- `split_gr1`, `gr1_fragment.py:204-295`, on a formula already parsed. -/
def splitGr1 (f : Ast) : Except PyErr Split :=
  let d := classify (boundary f)
  if d.init.any (hasTemporal true) then .error .assertion
  else if d.safe.any (hasTemporal false) then .error .assertion
  else if d.live.any (hasTemporal true) then .error .assertion
  else
    match flattenAll d.init.reverse, flattenAll d.safe.reverse, flattenAll d.live with
    | some i, some s, some l => .ok ⟨[joinWith c!" & " i], [joinWith c!" & " s], l⟩
    | _, _, _ => .error .keyError

/-- `str_to_grspec`, `gr1_fragment.py:174-201`. -/
def strToGrspec (f : List Char) : Except PyErr GRSpec :=
  match parse f with
  | none => .error .exception
  | some (.bin .imp env sys) => do
    let a ← splitGr1 env
    let g ← splitGr1 sys
    GRSpec.make [] [] a.init g.init a.safe g.safe a.live g.live
  | some (.bin _ _ _) | some (.un _ _) | some (.cmp _ _ _) | some (.ar _ _ _) |
    some (.trunc _ _) | some (.ite _ _ _) => .error .assertion
  | some _ => .error .attribute

end Tulip
