import Verif.Spec.GRSpec
import Verif.Spec.Transform

/-!
# Model of the caches of `GRSpec`

`GRSpec.ast`, `parse`, `str_to_int` and `_collect_cache_garbage` (`tulip/spec/form.py:899-996`), the
constructor's empty caches (`:485`, `:495`), and `translate` (`tulip/spec/translation.py:603-636`)
as far as it reads the caches.

A method that raises leaves behind what it had done: each method returns the object afterwards and
the outcome. The set `_parts` is iterated in an arbitrary order, the same for all calls: a parameter.
Log messages are not modelled.
-/

namespace Tulip
namespace Cache

/-- The attributes that hold clauses, `form.py:496-499`. -/
inductive Part
  | envInit | sysInit | envSafety | sysSafety | envProg | sysProg
  deriving DecidableEq, Repr

/-- `getattr(self, p)`. -/
def part (g : GRSpec) : Part → List (List Char)
  | .envInit => g.envInit
  | .sysInit => g.sysInit
  | .envSafety => g.envSafety
  | .sysSafety => g.sysSafety
  | .envProg => g.envProg
  | .sysProg => g.sysProg

/-- The clauses in the order in which the loops `for p in self._parts: for x in getattr(self, p)` visit
them. -/
def clauses (order : List Part) (g : GRSpec) : List (List Char) := order.flatMap (part g)

/-- A specification with its caches: `_ast` maps texts to trees, `_bool_int` clauses to texts without
string constants. -/
structure Obj where
  spec : GRSpec
  ast : Dict (List Char) Ast
  boolInt : Dict (List Char) (List Char)

/-- A new object, `form.py:485`, `:495`. -/
def new (g : GRSpec) : Obj := { spec := g, ast := [], boolInt := [] }

/-- `vardoms`, `form.py:958-960`. -/
def allVars (g : GRSpec) : Dict String Dom := g.envVars.update g.sysVars

/-- `fvars`, `form.py:907-909`. -/
def strVars (g : GRSpec) : Dict String (List String) :=
  (allVars g).filterMap fun p => match p.2 with
    | .strs l => some (p.1, l)
    | _ => none

/-- One clause in `parse`, `form.py:965-972`. -/
def parseOne (st : Obj) (x : List Char) : Obj × Except PyErr Unit :=
  if st.ast.has x then (st, .ok ())
  else match Tulip.parse x with
    | none => (st, .error .exception)
    | some t => match checkIdents (allVars st.spec).keys none t with
      | .error e => (st, .error e)
      | .ok () => ({ st with ast := st.ast.set x t }, .ok ())

/-- The loop of `parse`, `form.py:962-972`. -/
def parseLoop : Obj → List (List Char) → Obj × Except PyErr Unit
  | st, [] => (st, .ok ())
  | st, x :: xs => match parseOne st x with
    | (st, .error e) => (st, .error e)
    | (st, .ok ()) => parseLoop st xs

/-- `_collect_cache_garbage`, `form.py:978-996`. -/
def collect (order : List Part) (st : Obj) : Obj :=
  let keep := clauses order st.spec ++ (clauses order st.spec).filterMap st.boolInt.get?
  { st with ast := st.ast.filter fun p => decide (p.1 ∈ keep) }

/-- `parse`, `form.py:952-976`. -/
def parse (order : List Part) (st : Obj) : Obj × Except PyErr Unit :=
  match parseLoop st (clauses order st.spec) with
  | (st, .error e) => (st, .error e)
  | (st, .ok ()) => (collect order st, .ok ())

/-- `ast`, `form.py:931-950`. -/
def astOf (order : List Part) (st : Obj) (x : List Char) : Obj × Except PyErr Ast :=
  let r := if st.ast.has x then (st, .ok ()) else parse order st
  match r with
  | (st, .error e) => (st, .error e)
  | (st, .ok ()) => match st.ast.get? x with
    | some a => (st, .ok a)
    | none => (st, .error .keyError)

/-- `self._bool_int.get(x) in self._ast`, `form.py:913`. -/
def cached (st : Obj) (x : List Char) : Bool :=
  match st.boolInt.get? x with
  | some f => st.ast.has f
  | none => false

/-- One clause in `str_to_int`, `form.py:913-928`. -/
def strToIntOne (order : List Part) (D : Dict String (List String)) (st : Obj) (x : List Char) :
    Obj × Except PyErr Unit :=
  if cached st x then (st, .ok ())
  else match astOf order st x with
    | (st, .error e) => (st, .error e)
    | (st, .ok a) => match subConstants D none a with
      | .error e => (st, .error e)
      | .ok b => match flatten b with
        | none => (st, .error .keyError)
        | some f => ({ st with ast := st.ast.set f b, boolInt := st.boolInt.set x f }, .ok ())

/-- The loop of `str_to_int`, `form.py:911-928`. -/
def strToIntLoop (order : List Part) (D : Dict String (List String)) :
    Obj → List (List Char) → Obj × Except PyErr Unit
  | st, [] => (st, .ok ())
  | st, x :: xs => match strToIntOne order D st x with
    | (st, .error e) => (st, .error e)
    | (st, .ok ()) => strToIntLoop order D st xs

/-- `str_to_int`, `form.py:899-929`. -/
def strToInt (order : List Part) (st : Obj) : Obj × Except PyErr Unit :=
  strToIntLoop order (strVars st.spec) st (clauses order st.spec)

/-- What a user may do with the object: assign to its attributes, or call a method that uses the
caches. (`check_syntax`, `compile_init`, `replace_dependent_vars` and `translate` are sequences of
these.) -/
inductive Op
  | edit (g : GRSpec)
  | parse
  | ast (x : List Char)
  | strToInt

/-- One step of a user; exceptions are caught. -/
def step (order : List Part) (st : Obj) : Op → Obj
  | .edit g => { st with spec := g }
  | .parse => (parse order st).1
  | .ast x => (astOf order st x).1
  | .strToInt => (strToInt order st).1

/-- A history. -/
def run (order : List Part) (st : Obj) (ops : List Op) : Obj := ops.foldl (step order) st

/-- The texts of one part after `str_to_int`, as `translate` and the interface to omega read them:
`[spec._bool_int[x] for x in getattr(spec, p)]`. -/
def intTexts (st : Obj) (p : Part) : Except PyErr (List (List Char)) :=
  (part st.spec p).mapM fun x => match st.boolInt.get? x with
    | some f => .ok f
    | none => .error .keyError

end Cache
end Tulip
