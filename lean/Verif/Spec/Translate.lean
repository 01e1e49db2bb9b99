import Verif.Spec.Cache

/-!
# Model of `translate` (`tulip/spec/translation.py`)

The classes of nodes that `make_jtlv_nodes`, `make_gr1c_nodes`, `make_slugs_nodes` and
`make_wring_nodes` build differ in the table of operator texts and in a few methods: a `Lang`.
`translate_ast` rebuilds the tree with these classes, so that a translation followed by `flatten` is one
recursive function. Log messages are not modelled. (The tables for Promela, SMV and Python do not belong
to `translate`; Python is in `Transform.lean`.)
-/

namespace Tulip
namespace Trans

open Cache

/-- The texts of a language: operators, Boolean constants, variables (`primes` tells whether the
variable is in the scope of `X`), and whether `X` sets the flag instead of being printed. -/
structure Lang where
  un : UnOp → Option (List Char)
  bin : BinOp → Option (List Char)
  cmp : CmpOp → Option (List Char)
  ar : ArOp → Option (List Char)
  bool : Bool → List Char
  var : Bool → String → Except PyErr (List Char)
  primes : Bool

/-- `self.opmap[self.operator]`. -/
def look {α : Type} : Option α → Except PyErr α
  | some a => .ok a
  | none => .error .keyError

/-- `translate_ast(tree, lang).flatten(…)`: `translation.py:639-659`, the methods `flatten` of
`ast.py:190-330`, and those of `translation.py:107-119`, `:168-177`. None of the tables has entries for
`<<>>` and `ite`; a string constant is printed as it is (no clause has one after `str_to_int`). -/
def text (L : Lang) : Bool → Ast → Except PyErr (List Char)
  | p, .var x => L.var p x
  | _, .bool b => .ok (L.bool b)
  | _, .num n => .ok (intChars n)
  | _, .str s => .ok s.toList
  | p, .un op x =>
    if L.primes && decide (op = .next) then text L true x
    else do
      let o ← look (L.un op)
      let a ← text L p x
      return ['(', ' '] ++ o ++ [' '] ++ a ++ [' ', ')']
  | p, .bin op x y => do
    let o ← look (L.bin op)
    let a ← text L p x
    let b ← text L p y
    return infixText a o b
  | p, .cmp op x y => do
    let o ← look (L.cmp op)
    let a ← text L p x
    let b ← text L p y
    return infixText a o b
  | p, .ar op x y => do
    let o ← look (L.ar op)
    let a ← text L p x
    let b ← text L p y
    return infixText a o b
  | _, .trunc _ _ | _, .ite _ _ _ => .error .keyError

/-- `make_gr1c_nodes()`, `translation.py:128-182`. -/
def gr1c : Lang where
  un := gr1cUn
  bin := gr1cBin
  cmp := cmpText
  ar := fun _ => none
  bool := fun b => if b then c!"True" else c!"False"
  var := fun p x => .ok (x.toList ++ if p then c!"'" else [])
  primes := true

/-- `make_slugs_nodes`, `translation.py:185-227`. -/
def slugs : Lang where
  un := gr1cUn
  bin := gr1cBin
  cmp := cmpText
  ar := fun
    | .add => some c!"+"
    | .sub => some c!"-"
    | _ => none
  bool := fun b => if b then c!"TRUE" else c!"FALSE"
  var := fun p x => .ok (x.toList ++ if p then c!"'" else [])
  primes := true

/-- `make_jtlv_nodes`, `translation.py:70-125`; `env_vars` and `sys_vars` are those of the
specification. -/
def jtlv (g : GRSpec) : Lang where
  un := fun
    | .not => some c!"!"
    | .always => some c!"[]"
    | .eventually => some c!"<>"
    | .next => some c!"next"
    | .tilde => none
  bin := fun
    | .and => some c!"&"
    | .or => some c!"|"
    | .imp => some c!"->"
    | .bimp => some c!"<->"
    | .strongUntil => some c!"U"
    | _ => none
  cmp := cmpText
  ar := fun _ => none
  bool := fun b => if b then c!"TRUE" else c!"FALSE"
  var := fun _ x =>
    if g.envVars.has x then .ok (c!"(e." ++ x.toList ++ c!")")
    else if g.sysVars.has x then .ok (c!"(s." ++ x.toList ++ c!")")
    else .error .valueError
  primes := false

/-- `make_wring_nodes`, `translation.py:260-314`. The error for a variable that is not Boolean is an
`AttributeError`, because its message mentions `self.val`. The exclusive or of the parser has the
operator `^`, which is not in the table. -/
def wring (g : GRSpec) : Lang where
  un := fun
    | .not => some c!"!"
    | .always => some c!"G"
    | .eventually => some c!"F"
    | .next => some c!"X"
    | .tilde => none
  bin := fun
    | .and => some c!"*"
    | .or => some c!"+"
    | .imp => some c!"->"
    | .bimp => some c!"<->"
    | .strongUntil => some c!"U"
    | .release => some c!"V"
    | _ => none
  cmp := fun _ => none
  ar := fun _ => none
  bool := fun b => if b then c!"1" else c!"0"
  var := fun _ x =>
    match (if g.envVars.has x then g.envVars.get? x else g.sysVars.get? x) with
    | none => .error .typeError
    | some .boolean => .ok (c!"(" ++ x.toList ++ c!"=1)")
    | some _ => .error .attribute
  primes := false

/-! ## `check_syntax` on an object with caches -/

/-- The loops of `_assert_no_primed`, `form.py:723-739`, and over `env_safety`, `:712-721`: `bad` is the
test that makes the assertion fail. -/
def checkLoop (order : List Part) (bad : Ast → Bool) : Obj → List (List Char) → Obj × Except PyErr Unit
  | st, [] => (st, .ok ())
  | st, x :: xs => match astOf order st x with
    | (st, .error e) => (st, .error e)
    | (st, .ok a) => if bad a then (st, .error .assertion) else checkLoop order bad st xs

/-- The tests of `check_syntax` in order: list of clauses and test. The fourth repeats the third one;
`sys_prog` is not checked. -/
def syntaxTests (g : GRSpec) : List (List (List Char) × (Ast → Bool)) :=
  let primed := fun a => !(collectPrimedVars a).isEmpty
  [(g.envInit, primed), (g.sysInit, primed), (g.envProg, primed), (g.envProg, primed),
    (g.envSafety, fun a => (collectPrimedVars a).any fun v => g.sysVars.has v)]

/-- `check_syntax`, `form.py:698-721`. -/
def checkTests (order : List Part) : Obj → List (List (List Char) × (Ast → Bool)) → Obj × Except PyErr Unit
  | st, [] => (st, .ok ())
  | st, t :: ts => match checkLoop order t.2 st t.1 with
    | (st, .error e) => (st, .error e)
    | (st, .ok ()) => checkTests order st ts

def checkSyntaxObj (order : List Part) (st : Obj) : Obj × Except PyErr Unit :=
  checkTests order st (syntaxTests st.spec)

/-! ## The texts of the clauses -/

/-- One clause: `translate_ast(spec.ast(spec._bool_int[x]), lang).flatten(…)`, `translation.py:633-634`. -/
def clauseText (order : List Part) (L : Lang) (st : Obj) (x : List Char) : Obj × Except PyErr (List Char) :=
  match st.boolInt.get? x with
  | none => (st, .error .keyError)
  | some f => match astOf order st f with
    | (st, .error e) => (st, .error e)
    | (st, .ok b) => (st, text L false b)

/-- `[… for x in getattr(spec, p)]`, `translation.py:633-635`. -/
def partTexts (order : List Part) (L : Lang) : Obj → List (List Char) →
    Obj × Except PyErr (List (List Char))
  | st, [] => (st, .ok [])
  | st, x :: xs => match clauseText order L st x with
    | (st, .error e) => (st, .error e)
    | (st, .ok s) => match partTexts order L st xs with
      | (st, .error e) => (st, .error e)
      | (st, .ok ss) => (st, .ok (s :: ss))

/-- `{p: […] for p in spec._parts}`, `translation.py:633-635`. -/
def allTexts (order : List Part) (L : Lang) : Obj → List Part →
    Obj × Except PyErr (Dict Part (List (List Char)))
  | st, [] => (st, .ok [])
  | st, p :: ps => match partTexts order L st (part st.spec p) with
    | (st, .error e) => (st, .error e)
    | (st, .ok ss) => match allTexts order L st ps with
      | (st, .error e) => (st, .error e)
      | (st, .ok d) => (st, .ok (d.set p ss))

/-! ## Assembling the output -/

/-- `d[p]`. -/
def dget (d : Dict Part (List (List Char))) (p : Part) : Except PyErr (List (List Char)) := look (d.get? p)

/-- One declaration for gr1c, `translation.py:441-454`. -/
def gr1cVar (p : String × Dom) : Except PyErr (List Char) :=
  match p.2 with
  | .boolean => .ok (c!" " ++ p.1.toList)
  | .range lo hi => .ok (c!" " ++ p.1.toList ++ c!" [" ++ intChars lo ++ c!", " ++ intChars hi ++ c!"]")
  | .strs l =>
    if l.isEmpty then .error .valueError
    else .ok (c!" " ++ p.1.toList ++ c!" [" ++ intChars 0 ++ c!", " ++
      intChars ((l.length : Int) - 1) ++ c!"]")

/-- `_to_gr1c`, `translation.py:433-467`. -/
def toGr1c (g : GRSpec) (d : Dict Part (List (List Char))) : Except PyErr (List Char) := do
  let env ← g.envVars.mapM gr1cVar
  let sys ← g.sysVars.mapM gr1cVar
  let envInit ← dget d .envInit
  let envSafety ← dget d .envSafety
  let envProg ← dget d .envProg
  let sysInit ← dget d .sysInit
  let sysSafety ← dget d .sysSafety
  let sysProg ← dget d .sysProg
  return c!"ENV:" ++ env.flatten ++ c!";\n" ++ c!"SYS:" ++ sys.flatten ++ c!";\n" ++
    gr1cSection envInit c!"ENVINIT" [] ++
    gr1cSection envSafety c!"ENVTRANS" c!"[]" ++
    gr1cSection envProg c!"ENVGOAL" c!"[]<>" ++ c!"\n" ++
    gr1cSection sysInit c!"SYSINIT" [] ++
    gr1cSection sysSafety c!"SYSTRANS" c!"[]" ++
    gr1cSection sysProg c!"SYSGOAL" c!"[]<>"

/-- `_slugs_str`, `translation.py:558-570`. -/
def slugsSection (r : List (List Char)) (name sep : List Char) : List Char :=
  if r.isEmpty then c!"[" ++ name ++ c!"]\n"
  else c!"[" ++ name ++ c!"]\n" ++ joinWith (c!" " ++ sep ++ c!" ") (r.filter fun x => !x.isEmpty) ++ c!"\n\n"

/-- One declaration for slugs, `translation.py:580-588`. -/
def slugsVar (p : String × Dom) : Except PyErr (List Char) :=
  match p.2 with
  | .boolean => .ok p.1.toList
  | .range lo hi => .ok (p.1.toList ++ c!": " ++ intChars lo ++ c!"..." ++ intChars hi)
  | .strs _ => .error .valueError

/-- `_format_slugs_vars`, `translation.py:573-589`. -/
def slugsVars (vars : Dict String Dom) (name : List Char) : Except PyErr (List Char) := do
  let a ← vars.mapM slugsVar
  return c!"[" ++ name ++ c!"]\n" ++ joinWith c!"\n" a ++ c!"\n\n"

/-- `_to_slugs`, `translation.py:539-555`. -/
def toSlugs (g : GRSpec) (d : Dict Part (List (List Char))) : Except PyErr (List Char) := do
  let env ← slugsVars g.envVars c!"INPUT"
  let sys ← slugsVars g.sysVars c!"OUTPUT"
  let envSafety ← dget d .envSafety
  let envProg ← dget d .envProg
  let envInit ← dget d .envInit
  let sysSafety ← dget d .sysSafety
  let sysProg ← dget d .sysProg
  let sysInit ← dget d .sysInit
  return env ++ sys ++
    slugsSection envSafety c!"ENV_TRANS" c!"\n" ++
    slugsSection envProg c!"ENV_LIVENESS" c!"\n" ++
    slugsSection envInit c!"ENV_INIT" c!"&" ++
    slugsSection sysSafety c!"SYS_TRANS" c!"\n" ++
    slugsSection sysProg c!"SYS_LIVENESS" c!"\n" ++
    slugsSection sysInit c!"SYS_INIT" c!"&"

/-- `\s`, for the characters that occur. -/
def isSpace (c : Char) : Bool := c = ' ' || c = '\t' || c = '\n' || c = '\r' || c = '\x0b' || c = '\x0c'

/-- `re.sub(r'next\s*\(', 'next(', x)`, `translation.py:426`: from left to right; a match replaces the
white space between `next` and the parenthesis. -/
def collapseNext : List Char → List Char
  | 'n' :: 'e' :: 'x' :: 't' :: r =>
    match r.dropWhile isSpace with
    | '(' :: _ => 'n' :: 'e' :: 'x' :: 't' :: collapseNext (r.dropWhile isSpace)
    | _ => 'n' :: 'e' :: 'x' :: 't' :: collapseNext r
  | c :: r => c :: collapseNext r
  | [] => []
termination_by s => s.length
decreasing_by
  all_goals simp_wf
  · have := (List.dropWhile_suffix isSpace (l := r)).length_le; omega
  all_goals omega

/-- `_jtlv_str`, `translation.py:406-433`. -/
def jtlvSection (m : List (List Char)) (comment pre : List Char) : List Char :=
  if m.isEmpty then []
  else c!"-- " ++ comment ++ c!"\n" ++
    joinWith c!" & \n" ((m.filter fun x => !x.isEmpty).map fun x =>
      c!"\t" ++ pre ++ c!"(" ++ (if pre = c!"[]" then collapseNext x else x) ++ c!")")

/-- `_to_jtlv`, `translation.py:381-403`. -/
def toJtlv (d : Dict Part (List (List Char))) : Except PyErr (List Char × List Char) := do
  let envInit ← dget d .envInit
  let envSafety ← dget d .envSafety
  let envProg ← dget d .envProg
  let sysInit ← dget d .sysInit
  let sysSafety ← dget d .sysSafety
  let sysProg ← dget d .sysProg
  let assumption := joinWith c!" & \n" ([
    jtlvSection envInit c!"valid initial env states" [],
    jtlvSection envSafety c!"safety assumption on environment" c!"[]",
    jtlvSection envProg c!"justice assumption on environment" c!"[]<>"].filter fun x => !x.isEmpty)
  let guarantee := joinWith c!" & \n" ([
    jtlvSection sysInit c!"valid initial system states" [],
    jtlvSection sysSafety c!"safety requirement on system" c!"[]",
    jtlvSection sysProg c!"progress requirement on system" c!"[]<>"].filter fun x => !x.isEmpty)
  return (assumption, guarantee)

/-- The conjunction of one player for Wring, `translation.py:483-493`, `:494-504`. -/
def wringConj (init safety prog : List (List Char)) : List Char :=
  let a := if init.isEmpty then [] else joinWith c!" * " (init.map fun f => c!"(" ++ f ++ c!")")
  let a := if safety.isEmpty then a
    else a ++ (if a.isEmpty then [] else c!" * ") ++ joinWith c!" * " (safety.map fun f => c!"G(" ++ f ++ c!")")
  if prog.isEmpty then a
    else a ++ (if a.isEmpty then [] else c!" * ") ++ joinWith c!" * " (prog.map fun f => c!"G(F(" ++ f ++ c!"))")

/-- `_to_wring`, `translation.py:470-509`. -/
def toWring (d : Dict Part (List (List Char))) : Except PyErr (List Char) := do
  let envInit ← dget d .envInit
  let envSafety ← dget d .envSafety
  let envProg ← dget d .envProg
  let sysInit ← dget d .sysInit
  let sysSafety ← dget d .sysSafety
  let sysProg ← dget d .sysProg
  let assumption := wringConj envInit envSafety envProg
  let guarantee := wringConj sysInit sysSafety sysProg
  return if guarantee.isEmpty then c!"G(1)"
    else if assumption.isEmpty then c!"(" ++ guarantee ++ c!")"
    else c!"((" ++ assumption ++ c!") -> (" ++ guarantee ++ c!"))"

/-- `translate`, `translation.py:603-636`, for the table of the language and its assembly. -/
def translate {α : Type} (order : List Part) (L : Lang)
    (assemble : GRSpec → Dict Part (List (List Char)) → Except PyErr α) (st : Obj) : Obj × Except PyErr α :=
  match checkSyntaxObj order st with
  | (st, .error e) => (st, .error e)
  | (st, .ok ()) => match strToInt order st with
    | (st, .error e) => (st, .error e)
    | (st, .ok ()) => match allTexts order L st order with
      | (st, .error e) => (st, .error e)
      | (st, .ok d) => (st, assemble st.spec d)

/-- `translate(spec, 'gr1c')`. -/
def translateGr1c (order : List Part) (st : Obj) : Obj × Except PyErr (List Char) :=
  translate order gr1c toGr1c st

/-- `translate(spec, 'slugs')`. -/
def translateSlugs (order : List Part) (st : Obj) : Obj × Except PyErr (List Char) :=
  translate order slugs toSlugs st

/-- `translate(spec, 'jtlv')`. -/
def translateJtlv (order : List Part) (st : Obj) : Obj × Except PyErr (List Char × List Char) :=
  translate order (jtlv st.spec) (fun _ => toJtlv) st

/-- `translate(spec, 'wring')`. -/
def translateWring (order : List Part) (st : Obj) : Obj × Except PyErr (List Char) :=
  translate order (wring st.spec) (fun _ => toWring) st

end Trans
end Tulip
