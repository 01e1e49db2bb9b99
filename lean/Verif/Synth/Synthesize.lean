import Verif.Synth.ToSpec
import Verif.Synth.Strategy

/-!
# Model of `synthesize`, `synthesize_many` and `is_realizable`

`tulip/synth.py:1258-1650`. The solvers (`tulip/interfaces/`) are parameters.
-/

namespace Tulip

namespace Synth

open Mach

/-- A transition system given to `synthesize`: what the translation reads of it, and the attributes
that it may have besides: `state_varname`, and `moore`, `plus_one`, `qinit` (which are read together, if
`moore` is there, `synth.py:1649-1655`). -/
structure TsArg where
  fts : FTS
  stateVarname : Option String := none
  options : Option (Bool × Bool × List Char) := none

/-- `_copy_options_from_ts`, `synth.py:1640-1655`. -/
def copyOptions (g : GRSpec) (t : TsArg) (specs : GRSpec) : GRSpec :=
  match t.options with
  | some (moore, plusOne, qinit) => { g with moore := moore, plusOne := plusOne, qinit := qinit }
  | none => { g with moore := specs.moore, plusOne := specs.plusOne, qinit := specs.qinit }

/-- The value `\A \A` of `qinit`. -/
def allAll : List Char := c!"\\A \\A"

/-- `if specs.qinit == r'\A \A'`, `synth.py:1604-1607`, `:1625-1628`: the initial conditions of the system
become assumptions. -/
def moveInit (qinit : List Char) (g : GRSpec) : GRSpec :=
  if qinit = allAll then { g with envInit := g.envInit ++ g.sysInit, sysInit := [] } else g

/-- The part of `_spec_plus_sys` for the system, `synth.py:1590-1612`. `order` is the order of iteration of a
set, see `envFromSysState`. -/
def plusSys (order : List (List Char) → List (List Char)) (specs : GRSpec) (ignoreInit : Bool) :
    Option TsArg → Except PyErr GRSpec
  | none => .ok specs
  | some t => do
    let g ← sysToSpec order t.fts ignoreInit (t.stateVarname.getD "loc") false false
    specs.union (moveInit specs.qinit (copyOptions g t specs))

/-- The part of `_spec_plus_sys` for the environment, `synth.py:1613-1633`. -/
def plusEnv (specs : GRSpec) (ignoreInit : Bool) : Option TsArg → Except PyErr GRSpec
  | none => .ok specs
  | some t => do
    let g ← envToSpec t.fts ignoreInit (t.stateVarname.getD "eloc") false false
    specs.union (copyOptions (moveInit specs.qinit g) t specs)

/-- `_spec_plus_sys`, `synth.py:1578-1637`. Writing to the log is not modelled. -/
def specPlusSys (order : List (List Char) → List (List Char)) (specs : GRSpec) (env sys : Option TsArg)
    (ignoreEnvInit ignoreSysInit : Bool) : Except PyErr GRSpec := do
  let specs ← plusSys order specs ignoreSysInit sys
  plusEnv specs ignoreEnvInit env

/-- What a solver returns: the strategy, or `None`. -/
abbrev Solve (ν : Type) := GRSpec → Except PyErr (Option (Strategy ν))

/-- The functions `synthesize` of the interfaces; `slugs` may be missing, `synth.py:45-50`. -/
structure Solvers (α : Type) where
  gr1c : α
  gr1py : α
  omega : α
  slugs : Option α

/-- The selection of a solver, `synth.py:1471-1493`, `:1553-1571`. -/
def Solvers.pick {α : Type} (I : Solvers α) (name : String) : Except PyErr α :=
  if name = "gr1c" then .ok I.gr1c
  else if name = "slugs" then (match I.slugs with
    | none => .error .valueError
    | some f => .ok f)
  else if name = "gr1py" then .ok I.gr1py
  else if name = "omega" then .ok I.omega
  else .error .valueError

variable {ν : Type} [DecidableEq ν]

/-- What `synthesize` uses from elsewhere: the solvers, the evaluation of the initial condition
(`GRSpec.compile_init`), and the order of iteration of sets of states and of sets of strings. -/
structure Tools (ν : Type) where
  solvers : Solvers (Solve ν)
  isInit : GRSpec → Attr Elem → Except PyErr Bool
  sinit : ν
  order : List (List Char) → List (List Char)
  orderStates : List ν → List ν

/-- `_synthesize`, `synth.py:1466-1495`. -/
def synthesizeSpec (T : Tools ν) (specs : GRSpec) (solver : String) (rmDeadends : Bool) :
    Except PyErr (Option (Machine ν Elem)) := do
  let solve ← T.solvers.pick solver
  let A ← solve specs
  trimStrategy T.orderStates A specs.envVars specs.sysVars (T.isInit specs) T.sinit rmDeadends

/-- `synthesize`, `synth.py:1347-1463`. -/
def synthesize (T : Tools ν) (specs : GRSpec) (env sys : Option TsArg) (ignoreEnvInit ignoreSysInit : Bool)
    (rmDeadends : Bool) (solver : String) : Except PyErr (Option (Machine ν Elem)) := do
  let specs ← specPlusSys T.order specs env sys ignoreEnvInit ignoreSysInit
  synthesizeSpec T specs solver rmDeadends

/-- `is_realizable`, `synth.py:1533-1575`; `check` are the functions `check_realizable` of the
interfaces. -/
def isRealizable (order : List (List Char) → List (List Char)) (check : Solvers (GRSpec → Except PyErr Bool))
    (specs : GRSpec) (env sys : Option TsArg) (ignoreEnvInit ignoreSysInit : Bool) (solver : String) :
    Except PyErr Bool := do
  let specs ← specPlusSys order specs env sys ignoreEnvInit ignoreSysInit
  let f ← check.pick solver
  f specs

/-- The body of the loop of `synthesize_many`, `synth.py:1322-1335`: `name in None` raises `TypeError`. The
options are taken from the conjunction built so far. -/
def manyStep (order : List (List Char) → List (List Char)) (ignoreInit : Option (List String)) (specs : GRSpec)
    (p : String × TsArg) : Except PyErr GRSpec :=
  match ignoreInit with
  | none => .error .typeError
  | some l =>
    let ignore := decide (p.1 ∈ l)
    match p.2.fts.owner with
    | .sys => do
      let g ← sysToSpec order p.2.fts ignore p.1 false false
      specs.union (copyOptions g p.2 specs)
    | .env => do
      let g ← envToSpec p.2.fts ignore p.1 false false
      specs.union (copyOptions g p.2 specs)

/-- `synthesize_many`, `synth.py:1258-1339`. -/
def synthesizeMany (T : Tools ν) (specs : GRSpec) (ts : Dict String TsArg) (ignoreInit : Option (List String))
    (solver : String) : Except PyErr (Option (Machine ν Elem)) := do
  let specs ← foldE (manyStep T.order ignoreInit) specs ts
  synthesizeSpec T specs solver true

end Synth

end Tulip
