import Verif.Spec.GRSpec

/-!
# Model of the formula builders of `tulip.synth`

`tulip/synth.py:86-447`: `_pstr`, `_disj`, `_conj`, `_conj_intersection`, `_conj_neg`,
`_conj_neg_diff`, `mutex`, `exactly_one`, `_conj_action`, `_conj_actions`, `iter2var` and
`_add_actions`. Formulas are strings (`List Char`).
-/

namespace Tulip

namespace Synth

/-- `_pstr`, `synth.py:86-87`. -/
def pstr (s : List Char) : List Char := c!"(" ++ s ++ c!")"

/-- `_disj`, `synth.py:90-92`. -/
def disj (xs : List (List Char)) : List Char := joinWith c!" || " (xs.map pstr)

/-- `_conj`, `synth.py:95-98`: empty strings are left out. -/
def conj (xs : List (List Char)) : List Char :=
  joinWith c!" && " ((xs.filter (fun x => !x.isEmpty)).map pstr)

/-- `_conj_intersection`, `synth.py:101-113`. -/
def conjIntersection (set0 set1 : List (List Char)) (parenth : Bool := true) : List Char :=
  let conjuncts := set0.filter (fun x => decide (x ∈ set1))
  joinWith c!" && " (if parenth then conjuncts.map pstr else conjuncts)

/-- `_conj_neg`, `synth.py:116-128`. -/
def conjNeg (set0 : List (List Char)) (parenth : Bool := true) : List Char :=
  if parenth then joinWith c!" && " (set0.map (fun x => c!"!(" ++ x ++ c!")"))
  else joinWith c!" && " (set0.map (fun x => c!"!" ++ x))

/-- `_conj_neg_diff`, `synth.py:131-145`. -/
def conjNegDiff (set0 set1 : List (List Char)) (parenth : Bool := true) : List Char :=
  let items := set0.filter (fun x => !decide (x ∈ set1))
  let items := if parenth then items.map pstr else items
  joinWith c!" && " (items.map (fun x => c!"!" ++ x))

/-- `mutex`, `synth.py:148-155`. -/
def mutex (iterable : List (List Char)) : List (List Char) :=
  let iterable := iterable.filter (fun x => !x.isEmpty)
  if iterable.length ≤ 1 then []
  else [conj (iterable.map (fun x =>
    c!"!(" ++ x ++ c!") || (" ++ conjNegDiff iterable [x] ++ c!")"))]

/-- `exactly_one`, `synth.py:158-171`. -/
def exactlyOne (iterable : List (List Char)) : List (List Char) :=
  if iterable.length ≤ 1 then iterable.map pstr
  else
    let formula (x : List Char) := c!"(" ++ x ++ c!") && " ++ conjNegDiff iterable [x]
    [c!"(" ++ disj (iterable.map formula) ++ c!")"]

/-- Values of a finite domain that `iter2var` can represent: integers and strings.
Values of other types are not modelled (`iter2var` raises `TypeError` for them). -/
inductive Elem
  | int (n : Int)
  | str (s : String)
  deriving DecidableEq, Repr

/-- `isinstance(x, str)`. -/
def Elem.isStr : Elem → Bool
  | .str _ => true
  | .int _ => false

/-- `isinstance(x, int)`. -/
def Elem.isInt : Elem → Bool
  | .int _ => true
  | .str _ => false

/-- The text of a value in a Python format string: `f'{x}'`. -/
def Elem.text : Elem → List Char
  | .int n => intChars n
  | .str s => s.toList

/-- The integer in a value known to be an integer. -/
def Elem.toInt : Elem → Int
  | .int n => n
  | .str _ => 0

/-- The string in a value known to be a string. -/
def Elem.toStr : Elem → String
  | .str s => s
  | .int _ => ""

/-- The argument `must` of `iter2var`: `'mutex'`, `'xor'` or `None`. -/
inductive Must
  | mutex | xor | none
  deriving DecidableEq, Repr

/-- `max(xs)` and `min(xs)` of a nonempty list of integers. -/
def maxOf (x : Int) (xs : List Int) : Int := xs.foldl max x

/-- See `maxOf`. -/
def minOf (x : Int) (xs : List Int) : Int := xs.foldl min x

/-- What `iter2var` returns, with the argument `variables` as it is after the call. The
constraint is `None` or a list with one formula. -/
structure VarRep where
  ids : Dict Elem (List Char)
  constraint : Option (List Char)
  variables' : Dict String Dom
  deriving DecidableEq, Repr

/-- The branch of `iter2var` with one Boolean variable for each value, `synth.py:368-390`. -/
def iter2bools (states : List Elem) (vars : Dict String Dom) (must : Must) :
    Except PyErr VarRep :=
  if !states.all Elem.isStr then .error .typeError
  else
    let ids : Dict Elem (List Char) := states.map (fun x => (x, x.text))
    let vars' := vars.update (states.map (fun x => (x.toStr, Dom.boolean)))
    let values := ids.map (·.2)
    match mutex values with
    | [] => .ok ⟨ids, none, vars'⟩
    | m :: _ =>
      match must with
      | .mutex => .ok ⟨ids, some m, vars'⟩
      | .xor =>
        match exactlyOne values with
        | e :: _ => .ok ⟨ids, some e, vars'⟩
        | [] => .error .indexError
      | .none => .ok ⟨ids, some c!"True", vars'⟩

/-- The branch of `iter2var` with one integer or string variable, `synth.py:391-427`. -/
def iter2value (x : Elem) (xs : List Elem) (vars : Dict String Dom) (statevar : String)
    (must : Must) : Except PyErr VarRep :=
  let states := x :: xs
  if vars.has statevar then .error .valueError
  else if states.all Elem.isInt then
    let hi := maxOf x.toInt (xs.map Elem.toInt)
    let n := if must = .xor then hi else hi + 1
    .ok ⟨states.map (fun x => (x, statevar.toList ++ c!" = " ++ x.text)), none,
      vars.set statevar (.range (minOf x.toInt (xs.map Elem.toInt)) n)⟩
  else if states.all Elem.isStr then
    let domain := states.map Elem.toStr
    let domain := if must = .xor then domain else domain ++ [statevar ++ "none"]
    .ok ⟨states.map (fun x => (x, statevar.toList ++ c!" = \"" ++ x.text ++ c!"\"")), none,
      vars.set statevar (.strs domain)⟩
  else .error .typeError

/-- `iter2var`, `synth.py:266-434`. The values `states` are those of a set or of the nodes of a
graph, so that they are pairwise distinct: the dictionary `state_ids` has one entry for each. -/
def iter2var (states : List Elem) (vars : Dict String Dom) (statevar : String)
    (boolStates : Bool) (must : Must) : Except PyErr VarRep :=
  match states with
  | [] => .ok ⟨[], none, vars⟩
  | x :: xs =>
    if boolStates || decide (must = .none) then iter2bools (x :: xs) vars must
    else iter2value x xs vars statevar must

/-- `_add_actions`, `synth.py:437-447`: the new values of `init` and `trans`. -/
def addActions (constraint : Option (List Char)) (init trans : List (List Char)) :
    List (List Char) × List (List Char) :=
  match constraint with
  | none => (init, trans)
  | some c => (init ++ [c], trans ++ [c!"X (" ++ c ++ c!")"])

/-- `_conj_action(label, action_type, nxt, ids=None)`, `synth.py:174-216`, as called by
`sys_to_spec` and `env_to_spec`. -/
def conjAction (actions : Dict String Elem) (actionType : String) (nxt : Bool) : List Char :=
  match actions.get? actionType with
  | none => []
  | some a =>
    if a = .str "" then []
    else if nxt then c!" X" ++ pstr a.text
    else pstr a.text

/-- The look-ups `solver_expr[type_name][action_value]`, `synth.py:241-247`. -/
def lookupActions (exprs : Dict String (Dict Elem (List Char))) :
    List (String × Elem) → Except PyErr (List (List Char))
  | [] => .ok []
  | (k, v) :: rest => do
    let some ids := exprs.get? k | .error .keyError
    let some f := Dict.get? ids v | .error .keyError
    let fs ← lookupActions exprs rest
    return f :: fs

/-- `_conj_actions`, `synth.py:219-258`. -/
def conjActions (actions : Dict String Elem) (exprs : Dict String (Dict Elem (List Char)))
    (nxt : Bool) : Except PyErr (List Char) :=
  if actions.isEmpty then .ok []
  else do
    let fs ← lookupActions exprs actions
    if nxt then return c!" X" ++ pstr (conj fs) else return pstr (conj fs)

end Synth

end Tulip
