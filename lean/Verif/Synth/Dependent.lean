import Verif.Synth.ToSpec
import Verif.Synth.Strategy
import Verif.Spec.Transform
import Verif.Spec.GRSpecProps

/-!
# Model of dependent variables

`build_dependent_var_table` and `map_ap_to_states` (`tulip/synth.py:1191-1255`), and
`replace_dependent_vars` (`tulip/spec/form.py:999-1037`).
-/

namespace Tulip

namespace Synth

/-- `table[p].add(u)`. The sets are kept as lists without repetition. -/
def addTo (u : Elem) (table : Dict String (List Elem)) (p : String) :
    Except PyErr (Dict String (List Elem)) :=
  match table.get? p with
  | some us => .ok (table.set p (if u ∈ us then us else us ++ [u]))
  | none => .error .keyError

/-- `map_ap_to_states`, `synth.py:1238-1255`. -/
def mapApToStates (F : FTS) : Except PyErr (Dict String (List Elem)) :=
  foldE (fun table u =>
    match F.ap u with
    | some label => foldE (addTo u) table label
    | none => .error .keyError) (F.aps.map (fun p => (p, []))) F.states

/-- `build_dependent_var_table`, `synth.py:1191-1235`. The sets of states are iterated in the
order `order`. -/
def buildTable (order : List Elem → List Elem) (F : FTS) (statevar : String) :
    Except PyErr (Dict String (List Char)) := do
  let r ← iter2var F.states [] statevar false .xor
  let table ← mapApToStates F
  mapE (fun p => do
    let fs ← mapE (lookupId r.ids) (order p.2)
    return (p.1, disj fs)) table

end Synth

open Synth

/-- The first loop of `replace_dependent_vars`, `form.py:1012-1024`. -/
def dependentTrees (vs : Dict String Dom) (bool2form : Dict String (List Char)) :
    Except PyErr (Dict String Ast) :=
  mapE (fun p =>
    match vs.get? p.1 with
    | some d =>
      if d = .boolean then
        match parse p.2 with
        | some t => .ok (p.1, t)
        | none => .error .exception
      else .error .assertion
    | none =>
      match parse p.2 with
      | some t => .ok (p.1, t)
      | none => .error .exception) bool2form

/-- `GRSpec.parse` for one clause, `form.py:952-975`. -/
def parseClause (names : List String) (c : List Char) : Except PyErr Ast :=
  match parse c with
  | some t => do
    checkIdents names none t
    return t
  | none => .error .exception

/-- The body of the inner loop of `replace_dependent_vars`, `form.py:1029-1036`. Printing raises
`KeyError` for alternative spellings of operators, see `flatten`. -/
def replaceClause (names : List String) (D : Dict String Ast) (c : List Char) :
    Except PyErr (List Char) := do
  let t ← parseClause names c
  match replaceDependentClause D t with
  | some s => return s
  | none => .error .keyError

/-- `replace_dependent_vars`, `form.py:999-1037`. The specification is changed in place: the
result is what it is after the call. Simplifications: the cache of parsed clauses is empty
before the call; of several exceptions, the one raised here may be that of a different
clause (the parts are visited in the order of a set). -/
def replaceDependentVars (g : GRSpec) (bool2form : Dict String (List Char)) :
    Except PyErr GRSpec := do
  let vs := g.envVars.update g.sysVars
  let D ← dependentTrees vs bool2form
  let part := mapE (replaceClause vs.keys D)
  let envInit ← part g.envInit
  let sysInit ← part g.sysInit
  let envSafety ← part g.envSafety
  let sysSafety ← part g.sysSafety
  let envProg ← part g.envProg
  let sysProg ← part g.sysProg
  return { g with envInit := envInit, sysInit := sysInit, envSafety := envSafety,
                  sysSafety := sysSafety, envProg := envProg, sysProg := sysProg }

end Tulip
