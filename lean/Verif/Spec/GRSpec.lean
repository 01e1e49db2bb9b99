import Verif.Basic
import Verif.Spec.Compose

/-!
# Model of `GRSpec`

`tulip/spec/form.py:310-996`. Clauses are strings (`List Char`).
-/

namespace Tulip

/-- Variable domains, `form.py:56-66`, `:578-590`. Simplification: a finite domain of an `LTL`
read from a file may mix integers and strings; in `GRSpec` it is a list of strings. -/
inductive Dom
  | boolean
  | range (lo hi : Int)
  | strs (values : List String)
  deriving DecidableEq, Repr

/-- The attributes of `GRSpec` set by `GRSpec.__init__`, `form.py:447-553`, and the attribute
`formula` of its superclass `LTL` (`form.py:123`). The caches are not modelled. -/
structure GRSpec where
  envVars : Dict String Dom
  sysVars : Dict String Dom
  envInit : List (List Char)
  sysInit : List (List Char)
  envSafety : List (List Char)
  sysSafety : List (List Char)
  envProg : List (List Char)
  sysProg : List (List Char)
  moore : Bool
  plusOne : Bool
  qinit : List Char
  formula : List Char
  deriving DecidableEq, Repr

/-- `_conj(iterable, unary, '&&')`, `form.py:1040-1050`. -/
def conjText (unary : List Char) (clauses : List (List Char)) : List Char :=
  joinWith c!" && " (clauses.map (fun s => unary ++ c!"(" ++ s ++ c!")"))

/-- `conj_cstr`, `form.py:792`. -/
def conjSep (s : List Char) : List Char := if s = [] then [] else c!" && "

/-- One of the two sides of the implication, `form.py:793-805`. -/
def sideText (init safety prog : List (List Char)) : List Char :=
  let s := if init = [] then [] else conjText [] init
  let s := if safety = [] then s else s ++ conjSep s ++ conjText c!"[]" safety
  if prog = [] then s else s ++ conjSep s ++ conjText c!"[]<>" prog

/-- `GRSpec.to_canon`, `form.py:785-814`. -/
def GRSpec.toCanon (s : GRSpec) : List Char :=
  let assumption := sideText s.envInit s.envSafety s.envProg
  let guarantee := sideText s.sysInit s.sysSafety s.sysProg
  if guarantee = [] then c!"True"
  else if assumption = [] then guarantee
  else c!"(" ++ assumption ++ c!") -> (" ++ guarantee ++ c!")"

/-- `LTL.check_vars`, `form.py:176-190`: `Exception` if a variable is declared on both sides. -/
def checkVars (env sys : Dict String Dom) : Bool := !env.keys.any (fun x => sys.has x)

/-- `GRSpec.__init__`, `form.py:447-553`, from already normalised arguments. -/
def GRSpec.make (envVars sysVars : Dict String Dom)
    (envInit sysInit envSafety sysSafety envProg sysProg : List (List Char))
    (moore plusOne : Bool := true) (qinit : List Char := c!"\\A \\A") : Except PyErr GRSpec :=
  let s : GRSpec := ⟨envVars, sysVars, envInit, sysInit, envSafety, sysSafety, envProg, sysProg,
    moore, plusOne, qinit, []⟩
  if checkVars envVars sysVars then .ok { s with formula := s.toCanon } else .error .exception

/-- `GRSpec.copy`, `form.py:741-755`. -/
def GRSpec.copy (s : GRSpec) : Except PyErr GRSpec := do
  let r ← GRSpec.make s.envVars s.sysVars s.envInit s.sysInit s.envSafety s.sysSafety
    s.envProg s.sysProg
  return { r with moore := s.moore, plusOne := s.plusOne, qinit := s.qinit }

/-- Shared variables have the same domain, `form.py:773-778`. -/
def sameDomains (d e : Dict String Dom) : Bool :=
  e.keys.all (fun x => match d.get? x with
    | none => true
    | some a => e.get? x == some a)

/-- `GRSpec.__or__`, `form.py:757-783`, for an `other` of type `GRSpec`. -/
def GRSpec.union (s o : GRSpec) : Except PyErr GRSpec := do
  let r ← s.copy
  if s.moore ≠ o.moore then throw .assertion
  if s.plusOne ≠ o.plusOne then throw .assertion
  if s.qinit ≠ o.qinit then throw .assertion
  if !sameDomains r.envVars o.envVars then throw .valueError
  if !sameDomains r.sysVars o.sysVars then throw .valueError
  return { r with
    envVars := r.envVars.update o.envVars
    sysVars := r.sysVars.update o.sysVars
    envInit := r.envInit ++ o.envInit
    sysInit := r.sysInit ++ o.sysInit
    envSafety := r.envSafety ++ o.envSafety
    sysSafety := r.sysSafety ++ o.sysSafety
    envProg := r.envProg ++ o.envProg
    sysProg := r.sysProg ++ o.sysProg }

/-- Redeclaration check of `GRSpec.declare`, `form.py:588-592`: `none` when an `assert` fails. -/
def declareChecks (target other : Dict String Dom) (d : Dict String Dom) : Bool :=
  d.all (fun p => !other.has p.1 && (match target.get? p.1 with
    | none => true
    | some a => a == p.2))

/-- `GRSpec.declare`, `form.py:555-593`, with the positional and keyword arguments already
collected in the dict `d` (a type hint is converted to a domain by the caller). -/
def GRSpec.declare (s : GRSpec) (d : Dict String Dom) (env : Bool) : Except PyErr GRSpec :=
  if env then
    if declareChecks s.envVars s.sysVars d then .ok { s with envVars := s.envVars.update d }
    else .error .assertion
  else
    if declareChecks s.sysVars s.envVars d then .ok { s with sysVars := s.sysVars.update d }
    else .error .assertion

end Tulip
