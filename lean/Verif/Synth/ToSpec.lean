import Verif.Synth.Formulas

/-!
# Model of `sys_to_spec` and `env_to_spec`

`tulip/synth.py:502-1188`. The transition system is given by what these functions read of it.
-/

namespace Tulip

namespace Synth

/-- `needle in k` for Python strings. -/
def hasSub (needle : List Char) (k : String) : Bool := decide (needle <:+: k.toList)

/-- `'sys' in k`. -/
def isSys (k : String) : Bool := hasSub c!"sys" k

/-- `'env' in k`. -/
def isEnv (k : String) : Bool := hasSub c!"env" k

/-- A transition `(from_state, to_state, label)`, as returned by `Transitions.find`. The entry
`'previous'` of the label, a container of keys, is kept apart from the other entries.
Simplification: the values of the other entries are integers or strings. -/
structure Edge where
  src : Elem
  dst : Elem
  label : Dict String Elem
  previous : List String := []
  deriving DecidableEq, Repr

/-- Who controls the transition system: `FiniteTransitionSystem.owner`, `transys.py:657-670`. -/
inductive Owner
  | sys | env
  deriving DecidableEq, Repr

/-- What `sys_to_spec` and `env_to_spec` read of a `FiniteTransitionSystem`
(`transys.py:216-705`): the states in iteration order, the initial states, the atomic
propositions, the entry `'ap'` of the label of each state (if there is one), the transitions, the
action types with their codomains and the attributes `sys_actions_must`, `env_actions_must`,
`owner`. -/
structure FTS where
  states : List Elem
  initial : List Elem
  aps : List String
  ap : Elem → Option (List String)
  edges : List Edge
  actions : Dict String (List Elem)
  sysMust : Must
  envMust : Must
  owner : Owner

/-- `trans.find([s])`, `labeled_graphs.py:660-761`: the transitions from `s`. -/
def FTS.find (F : FTS) (s : Elem) : List Edge := F.edges.filter (fun e => decide (e.src = s))

/-- A Python loop that appends to a list, and may raise. -/
def mapE {ε α β : Type} (f : α → Except ε β) : List α → Except ε (List β)
  | [] => .ok []
  | x :: xs => do
    let y ← f x
    let ys ← mapE f xs
    return y :: ys

/-- `d[k]`. -/
def lookupId (d : Dict Elem (List Char)) (x : Elem) : Except PyErr (List Char) :=
  match d.get? x with
  | some f => .ok f
  | none => .error .keyError

/-- `_sys_init_from_ts`, `synth.py:781-808`. -/
def sysInitFromTs (F : FTS) (ids : Dict Elem (List Char)) (ignoreInitial : Bool) :
    Except PyErr (List (List Char)) :=
  if ignoreInitial then .ok []
  else if F.initial.isEmpty then .error .exception
  else do
    let fs ← mapE (lookupId ids) F.initial
    return [disj fs]

/-- The solver expressions of the values of each action type. -/
abbrev ActionIds := Dict String (Dict Elem (List Char))

/-- The part of the body of the inner loop of `_sys_trans_from_ts`, `synth.py:886-957`: the
condition of one transition. -/
def sysEdgeText (ids : Dict Elem (List Char)) (sysIds envIds : ActionIds) (e : Edge) :
    Except PyErr (List Char) := do
  let dst ← lookupId ids e.dst
  let envActs := e.label.filter (fun p => isEnv p.1)
  let prevEnv ← conjActions (envActs.filter (fun p => decide (p.1 ∈ e.previous))) envIds false
  let nextEnv ← conjActions (envActs.filter (fun p => !decide (p.1 ∈ e.previous))) envIds true
  let sysActs := e.label.filter (fun p => isSys p.1)
  let prevSys ← conjActions (sysActs.filter (fun p => decide (p.1 ∈ e.previous))) sysIds false
  let nextSys ← conjActions (sysActs.filter (fun p => !decide (p.1 ∈ e.previous))) sysIds true
  let act := conjAction e.label "actions" (!decide ("actions" ∈ e.previous))
  return conj [c!"X" ++ pstr dst, prevEnv, nextEnv, prevSys, nextSys, act]

/-- The body of the outer loop of `_sys_trans_from_ts`, `synth.py:868-974`. -/
def sysStateTrans (F : FTS) (ids : Dict Elem (List Char)) (sysIds envIds : ActionIds)
    (s : Elem) : Except PyErr (List Char) := do
  let id ← lookupId ids s
  let cur := F.find s
  if cur.isEmpty then return pstr id ++ c!" -> X(False)"
  else do
    let strs ← mapE (sysEdgeText ids sysIds envIds) cur
    return pstr id ++ c!" -> (" ++ disj strs ++ c!")"

/-- `_sys_trans_from_ts`, `synth.py:811-975`. -/
def sysTransFromTs (F : FTS) (ids : Dict Elem (List Char)) (sysIds envIds : ActionIds) :
    Except PyErr (List (List Char)) :=
  mapE (sysStateTrans F ids sysIds envIds) F.states

/-- The transitions of `cur` that carry environment actions contribute a combination,
`synth.py:1018-1034`. -/
def envCombs (envIds : ActionIds) (cur : List Edge) : Except PyErr (List (List Char)) :=
  mapE (fun e => conjActions (e.label.filter (fun p => isEnv p.1)) envIds false)
    (cur.filter (fun e => !(e.label.filter (fun p => isEnv p.1)).isEmpty))

/-- The body of the outer loop of `_env_trans_from_sys_ts`, `synth.py:1004-1041`. The combinations
are collected in a set; `order` is the order in which it is iterated. -/
def envFromSysState (order : List (List Char) → List (List Char)) (F : FTS)
    (ids : Dict Elem (List Char)) (envIds : ActionIds) (s : Elem) :
    Except PyErr (List (List Char)) := do
  let id ← lookupId ids s
  let cur := F.find s
  if cur.isEmpty then return []
  else do
    let combs ← envCombs envIds cur
    let next := disj (order combs)
    if next.isEmpty then return []
    else return [pstr id ++ c!" -> X(" ++ next ++ c!")"]

/-- `_env_trans_from_sys_ts`, `synth.py:978-1042`. -/
def envTransFromSysTs (order : List (List Char) → List (List Char)) (F : FTS)
    (ids : Dict Elem (List Char)) (envIds : ActionIds) : Except PyErr (List (List Char)) :=
  if envIds.isEmpty then .ok []
  else do
    let fs ← mapE (envFromSysState order F ids envIds) F.states
    return fs.flatten

/-- The condition of one transition of an environment, `synth.py:1080-1115`. -/
def envEdgeText (ids : Dict Elem (List Char)) (sysIds envIds : ActionIds) (e : Edge) :
    Except PyErr (List Char) := do
  let dst ← lookupId ids e.dst
  let envActs ← conjActions (e.label.filter (fun p => isEnv p.1)) envIds true
  let sysActs ← conjActions (e.label.filter (fun p => isSys p.1)) sysIds false
  let act := conjAction e.label "actions" true
  return conj [c!"X" ++ pstr dst, envActs, sysActs, act]

/-- The body of the outer loop of `_env_trans_from_env_ts`, `synth.py:1061-1132`. -/
def envStateTrans (F : FTS) (ids : Dict Elem (List Char)) (sysIds envIds : ActionIds)
    (s : Elem) : Except PyErr (List Char) := do
  let id ← lookupId ids s
  let cur := F.find s
  if cur.isEmpty then return pstr id ++ c!" -> X(False)"
  else do
    let strs ← mapE (envEdgeText ids sysIds envIds) cur
    let foundFree := cur.any (fun e => (e.label.filter (fun p => isSys p.1)).isEmpty)
    let strs := if !foundFree && !sysIds.isEmpty
      then strs ++ sysIds.map (fun p => conjNeg (p.2.map (·.2))) else strs
    return pstr (pstr id) ++ c!" -> (" ++ disj strs ++ c!")"

/-- `_env_trans_from_env_ts`, `synth.py:1045-1133`. -/
def envTransFromEnvTs (F : FTS) (ids : Dict Elem (List Char)) (sysIds envIds : ActionIds) :
    Except PyErr (List (List Char)) :=
  mapE (envStateTrans F ids sysIds envIds) F.states

/-- The propositions that hold, `synth.py:1170-1175`. -/
def sprintPos (label : Option (List String)) (aps : List (List Char)) : List Char :=
  match label with
  | some l => conjIntersection aps (l.map String.toList) false
  | none => []

/-- The propositions that do not hold, `synth.py:1176-1183`. -/
def sprintNeg (label : Option (List String)) (aps : List (List Char)) : List Char :=
  match label with
  | some l => conjNegDiff aps (l.map String.toList) false
  | none => conjNeg aps false

/-- `_sprint_aps`, `synth.py:1169-1188`. -/
def sprintAps (label : Option (List String)) (aps : List String) : List Char :=
  let tmp0 := sprintPos label (aps.map String.toList)
  let tmp1 := sprintNeg label (aps.map String.toList)
  if !tmp0.isEmpty && !tmp1.isEmpty then tmp0 ++ c!" && " ++ tmp1 else tmp0 ++ tmp1

/-- `_ap_trans_from_ts`, `synth.py:1136-1166`: initial conditions and transitions. -/
def apTransFromTs (F : FTS) (ids : Dict Elem (List Char)) :
    Except PyErr (List (List Char) × List (List Char)) :=
  if F.aps.isEmpty then .ok ([], [])
  else do
    let parts ← mapE (fun s => do
      let id ← lookupId ids s
      return (id, sprintAps (F.ap s) F.aps)) F.states
    let parts := parts.filter (fun p => !p.2.isEmpty)
    return (parts.map (fun p => c!"!(" ++ pstr p.1 ++ c!") || (" ++ p.2 ++ c!")"),
      parts.map (fun p => c!"X((" ++ p.1 ++ c!") -> (" ++ p.2 ++ c!"))"))

/-- The local variables of `sys_to_spec` and `env_to_spec` that the loop over the action types
updates. -/
structure Acc where
  sysVars : Dict String Dom
  envVars : Dict String Dom
  sysInit : List (List Char) := []
  envInit : List (List Char) := []
  sysTrans : List (List Char) := []
  envTrans : List (List Char) := []
  sysIds : ActionIds := []
  envIds : ActionIds := []

/-- The assertions in the loop over the action types, `synth.py:597-609`, `:715-727`. -/
def clashes (F : FTS) (k : String) (codomain : List Elem) : Bool :=
  codomain.any (fun x => F.aps.any (fun p => decide (x = .str p))) ||
    codomain.any (fun x => decide (x ∈ F.states)) || decide (.str k ∈ F.states) ||
    decide (k ∈ F.aps)

/-- The body of the loop over the action types, `synth.py:596-632`, `:714-744`. -/
def addType (F : FTS) (boolActions : Bool) (a : Acc) (k : String) (codomain : List Elem) :
    Except PyErr Acc :=
  if clashes F k codomain then .error .assertion
  else if isSys k then do
    let r ← iter2var codomain a.sysVars k boolActions F.sysMust
    let (init', trans') := addActions r.constraint a.sysInit a.sysTrans
    return { a with sysVars := r.variables', sysInit := init', sysTrans := trans',
                    sysIds := a.sysIds.set k r.ids }
  else if isEnv k then do
    let r ← iter2var codomain a.envVars k boolActions F.envMust
    let (init', trans') := addActions r.constraint a.envInit a.envTrans
    return { a with envVars := r.variables', envInit := init', envTrans := trans',
                    envIds := a.envIds.set k r.ids }
  else .ok a

/-- The loop over the action types. -/
def addTypes (F : FTS) (boolActions : Bool) : Acc → List (String × List Elem) → Except PyErr Acc
  | a, [] => .ok a
  | a, (k, codomain) :: rest => do
    let a ← addType F boolActions a k codomain
    addTypes F boolActions a rest

/-- `set(aps).intersection(states)` is nonempty, `synth.py:583`, `:701`. -/
def apsClash (F : FTS) : Bool := F.aps.any (fun p => decide (.str p ∈ F.states))

/-- `sys_to_spec`, `synth.py:502-660`. `order` is the iteration order of a set of strings, see
`envFromSysState`. -/
def sysToSpec (order : List (List Char) → List (List Char)) (F : FTS) (ignoreInitial : Bool)
    (statevar : String) (boolStates boolActions : Bool) : Except PyErr GRSpec :=
  if F.owner ≠ .sys then .error .assertion
  else if apsClash F then .error .assertion
  else do
    let a ← addTypes F boolActions
      { sysVars := F.aps.map (fun p => (p, Dom.boolean)), envVars := [] } F.actions
    let r ← iter2var F.states a.sysVars statevar boolStates .xor
    let init ← sysInitFromTs F r.ids ignoreInitial
    let trans ← sysTransFromTs F r.ids a.sysIds a.envIds
    let (apInit, apTrans) ← apTransFromTs F r.ids
    let env ← envTransFromSysTs order F r.ids a.envIds
    GRSpec.make a.envVars r.variables' a.envInit (a.sysInit ++ init ++ apInit)
      (a.envTrans ++ env) (a.sysTrans ++ r.constraint.toList ++ trans ++ apTrans) [] []

/-- `env_to_spec`, `synth.py:663-778`. -/
def envToSpec (F : FTS) (ignoreInitial : Bool) (statevar : String)
    (boolStates boolActions : Bool) : Except PyErr GRSpec :=
  if F.owner ≠ .env then .error .assertion
  else if apsClash F then .error .assertion
  else do
    let a ← addTypes F boolActions
      { envVars := F.aps.map (fun p => (p, Dom.boolean)), sysVars := [] } F.actions
    let r ← iter2var F.states a.envVars statevar boolStates .xor
    let init ← sysInitFromTs F r.ids ignoreInitial
    let trans ← envTransFromEnvTs F r.ids a.sysIds a.envIds
    let (apInit, apTrans) ← apTransFromTs F r.ids
    GRSpec.make r.variables' a.sysVars (a.envInit ++ init ++ apInit) a.sysInit
      (a.envTrans ++ r.constraint.toList ++ trans ++ apTrans) a.sysTrans [] []

end Synth

end Tulip
