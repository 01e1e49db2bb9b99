import Verif.Transys.Compositions
import Verif.Spec.Compose
import Verif.Transys.MathSet

/-!
# Model of `tulip/interfaces/stormpy.py`

Markov chains and Markov decision processes are those of `Verif/Transys/Compositions.lean`; probabilities are
exact rationals, between 0 and 1 as their class demands. A file is its text; what is left of a file when an
exception is raised is not modelled. The package `stormpy` is not modelled: its models are data (`SModel`), and
its functions are parameters.
-/

namespace Tulip
namespace Storm
open Comp

section
variable {σ α : Type} [DecidableEq σ] [DecidableEq α]

/-! ## `to_prism_file` -/

/-- The ten-thousandths of `f'{p:.4f}'`, `stormpy.py:293`: round to nearest, ties to even. -/
def round4 (p : Rat) : Nat :=
  let k := (p * 10000).floor.toNat
  let r := p * 10000 - k
  if r < 1 / 2 then k else if 1 / 2 < r then k + 1 else if k % 2 = 0 then k else k + 1

/-- A digit. -/
def digit (n : Nat) : Char := Char.ofNat (48 + n % 10)

/-- `get_prob_str`, `stormpy.py:292-293`. `None` has no format. -/
def probStr : Option Rat → Except PyErr (List Char)
  | none => .error .typeError
  | some p =>
    let k := round4 p
    .ok (digitsOf (k / 10000) ++ ['.', digit (k / 1000), digit (k / 100), digit (k / 10), digit k])

/-- `get_state_str`, `stormpy.py:298-303`. -/
def stateStr (i : Nat) (prime : Bool) : List Char :=
  c!"s" ++ (if prime then c!"'" else []) ++ c!"=" ++ digitsOf i

/-- `l.index(x)`. -/
def indexOf {β : Type} [DecidableEq β] (l : List β) (x : β) : Except PyErr Nat :=
  if x ∈ l then .ok (l.idxOf x) else .error .valueError

/-- `transition_dict[action].append(...)`, `stormpy.py:285-289`. -/
def addGroup {κ β : Type} [DecidableEq κ] (k : κ) (x : β) : List (κ × List β) → List (κ × List β)
  | [] => [(k, [x])]
  | p :: r => if p.1 = k then (p.1, p.2 ++ [x]) :: r else p :: addGroup k x r

/-- `get_transition_dict`, `stormpy.py:279-290`. The key of transitions without an action is the number 0; here
it is `none`, so that it is no action: an action that is the number 0 is not modelled. -/
def transitionDict (es : List (σ × σ × EAttr α)) : List (Option α × List (Option Rat × σ)) :=
  es.foldl (fun d e => addGroup e.2.2.action (e.2.2.prob, e.2.1) d) []

/-- An item of `str_list`, `stormpy.py:306-313`. -/
def moveStr (m : Mod σ α) (t : Option Rat × σ) : Except PyErr (List Char) := do
  let p ← probStr t.1
  let i ← indexOf m.states t.2
  return p ++ c!" : (" ++ stateStr i true ++ c!")"

/-- `get_transition_str`, `stormpy.py:305-314`. -/
def transitionStr (m : Mod σ α) (ts : List (Option Rat × σ)) : Except PyErr (List Char) := do
  let l ← ts.mapM (moveStr m)
  return joinWith c!" + " l

/-- `action_str`, `stormpy.py:345-347`. The key of transitions without an action is not in the list. -/
def actionStr (m : Mod σ α) (a : Option α) : Except PyErr (List Char) :=
  if m.kind = .mdp then
    match a with
    | none => .error .valueError
    | some a => do
      let i ← indexOf m.actions a
      return c!"act" ++ digitsOf i
  else .ok []

/-- A line of the module, `stormpy.py:344-351`. -/
def commandStr (m : Mod σ α) (idx : Nat) (g : Option α × List (Option Rat × σ)) : Except PyErr (List Char) := do
  let a ← actionStr m g.1
  let t ← transitionStr m g.2
  return c!"    [" ++ a ++ c!"] " ++ stateStr idx false ++ c!" -> " ++ t ++ c!";\n"

/-- The lines for the transitions of a state, `stormpy.py:341-351`. -/
def stateCommands (m : Mod σ α) (s : σ × Nat) : Except PyErr (List Char) := do
  let l ← (transitionDict (m.edges.filter fun e => e.1 = s.1)).mapM (commandStr m s.2)
  return l.flatten

/-- A line for an atomic proposition, `stormpy.py:318-324`, `:354-360`. -/
def labelStr (m : Mod σ α) (p : String) : Except PyErr (List Char) := do
  let l ← (m.states.filter fun s => decide (p ∈ m.ap s)).mapM fun s => do
    let i ← indexOf m.states s
    return c!"(" ++ stateStr i false ++ c!")"
  return c!"label \"" ++ p.toList ++ c!"\" = " ++ joinWith c!"|" l ++ c!";\n"

/-- `to_prism_file`, `stormpy.py:243-360`: the text of the file. -/
def toPrismFile (m : Mod σ α) : Except PyErr (List Char) :=
  if m.kind ≠ .mc ∧ m.kind ≠ .mdp then .error .typeError
  else if m.states.isEmpty then .error .valueError
  else match m.initial with
    | [s0] => do
      let init ← indexOf m.states s0
      let commands ← m.states.zipIdx.mapM (stateCommands m)
      let labels ← m.aps.mapM (labelStr m)
      return (if m.kind = .mdp then c!"mdp" else c!"dtmc") ++ c!"\n\nmodule sys_model\n"
        ++ (c!"    s : [0.." ++ digitsOf (m.states.length - 1) ++ c!"] init " ++ digitsOf init ++ c!";\n")
        ++ c!"\n" ++ commands.flatten ++ c!"\nendmodule\n\n" ++ labels.flatten
    | _ => .error .valueError

/-! ## Models of `stormpy` -/

/-- The type of a model, `stormpy.py:200-207`. -/
inductive SType | dtmc | mdp | other
  deriving DecidableEq

/-- A state of a model: its labels, and its actions, each with `str(action)` and its transitions, which are pairs
of a `column` and a `value()`. -/
structure SState where
  labels : List String
  actions : List (String × List (Nat × Rat))

/-- A model. `str(state)` is the index of the state. -/
structure SModel where
  mtype : SType
  states : List SState
  initial : List Nat

/-! ## `to_tulip_transys` -/

/-- `get_ts_state`, `stormpy.py:196-197`. -/
def tsState (i : Nat) : String := String.ofList ('s' :: digitsOf i)

/-- `ts.transitions.add(...)` for a transition of an action, `stormpy.py:232-239`. -/
def addMove (mdp : Bool) (i : Nat) (name : String) (m : Mod String String) (t : Nat × Rat) :
    Except PyErr (Mod String String) :=
  addTrans m (tsState i, tsState t.1, { prob := some t.2, action := if mdp then some name else none })

/-- The loop over the actions of a state, `stormpy.py:229-239`. -/
def addAction (mdp : Bool) (i : Nat) (m : Mod String String) (a : String × List (Nat × Rat)) :
    Except PyErr (Mod String String) :=
  a.2.foldlM (addMove mdp i a.1) { m with actions := if mdp then uniqueLoop m.actions [a.1] else m.actions }

/-- `state_ap`, `stormpy.py:220-226`. -/
def stateAp (s : SState) : List String := s.labels.filter fun l => l ≠ "init" ∧ l ≠ "deadlock"

/-- The loop over the states, `stormpy.py:223-239`. -/
def addState (mdp : Bool) (m : Mod String String) (s : SState × Nat) : Except PyErr (Mod String String) :=
  s.1.actions.foldlM (addAction mdp s.2)
    { m with
      aps := uniqueLoop m.aps (stateAp s.1)
      ap := fun q => if q = tsState s.2 then stateAp s.1 else m.ap q }

/-- `to_tulip_transys`, `stormpy.py:184-240`, from the model that `stormpy` builds. -/
def toTulipTransys (M : SModel) : Except PyErr (Mod String String) :=
  if M.mtype = .other then .error .valueError
  else
    let states := (List.range M.states.length).map tsState
    let initial := unique (M.initial.map tsState)
    if initial.all fun s => decide (s ∈ states) then
      M.states.zipIdx.foldlM (addState (M.mtype == .mdp))
        { kind := if M.mtype = .mdp then .mdp else .mc, states := states, initial := initial, aps := [],
          ap := fun _ => [], actions := [], edges := [] }
    else .error .valueError

/-! ## `model_checking` -/

/-- `to_tulip_labels`, `stormpy.py:139-154`. -/
def toTulipLabels (m : Mod σ α) (s : SState) : List String := s.labels.filter fun l => decide (l ∈ m.aps)

/-- `set(a) == set(b)`. -/
def sameSet (a b : List String) : Bool := (a.all fun x => decide (x ∈ b)) && b.all fun x => decide (x ∈ a)

/-- `to_tulip_state`, `stormpy.py:157-181`. -/
def toTulipState (m : Mod σ α) (s : SState) : Except PyErr σ :=
  match m.states.filter fun q => sameSet (m.ap q) (toTulipLabels m s) with
  | [q] => .ok q
  | _ => .error .valueError

/-- `FunctionOnLabeledState.add` with one input and one output, see `MathFunc.add`: the table of outputs. -/
def tableAdd {β : Type} (d : Dict σ β) (s : σ) (y : β) : Dict σ β := d.set s y

/-- `_extract_probability`, `stormpy.py:445-461`. `res i` is `stormpy_result.at(state)`. -/
def extractProbability (M : SModel) (m : Mod σ α) (res : Nat → Rat) : Except PyErr (Dict σ Rat) :=
  M.states.zipIdx.foldlM (fun d s => do
    let q ← toTulipState m s.1
    return tableAdd d q (res s.2)) []

/-- `abs(p - v) > prob_tol`, `stormpy.py:490-494`, with `prob_tol=1e-6`. -/
def differs (p v : Rat) : Bool := decide (1 / 1000000 < |p - v|)

/-- The loop over the transitions between two states, `stormpy.py:489-501`. -/
def dropActions (v : Rat) : List α → List (σ × σ × EAttr α) → Except PyErr (List α)
  | possible, [] => .ok possible
  | possible, e :: es => match e.2.2.prob with
    | none => .error .keyError
    | some p =>
      if differs p v then
        match e.2.2.action with
        | none => .error .keyError
        | some a => dropActions v (possible.erase a) es
      else dropActions v possible es

/-- `_update_possible_actions_with_transitions`, `stormpy.py:464-501`. -/
def updatePossible (M : SModel) (m : Mod σ α) (q : σ) (possible : List α) (ts : List (Nat × Rat)) :
    Except PyErr (List α) :=
  ts.foldlM (fun possible t => match M.states[t.1]? with
    | none => .error .indexError
    | some st => do
      let q' ← toTulipState m st
      dropActions t.2 possible (m.edges.filter fun e => e.1 = q ∧ e.2.1 = q')) possible

/-- The loop over the actions of a state in `get_action_map`, `stormpy.py:94-106`. A `MarkovChain` has no
attribute `actions`. -/
def mapAction (M : SModel) (m : Mod σ α) (q : σ) (d : Dict String (List α)) (a : String × List (Nat × Rat)) :
    Except PyErr (Dict String (List α)) :=
  match d.get? a.1 with
  | some l => do
    let l ← updatePossible M m q l a.2
    return d.set a.1 l
  | none =>
    if m.kind ≠ .mdp then .error .attribute
    else do
      let l ← updatePossible M m q m.actions a.2
      return d.set a.1 l

/-- `get_action_map`, `stormpy.py:76-107`. -/
def getActionMap (M : SModel) (m : Mod σ α) : Except PyErr (Dict String (List α)) :=
  M.states.foldlM (fun d s => do
    let q ← toTulipState m s
    s.actions.foldlM (mapAction M m q) d) []

/-- `to_tulip_action`, `stormpy.py:110-136`, with the map of actions. -/
def toTulipAction (d : Dict String (List α)) (name : String) : Except PyErr α :=
  match d.get? name with
  | none => .error .keyError
  | some [] => .error .valueError
  | some (a :: _) => .ok a

/-- `_extract_policy`, `stormpy.py:418-442`, without the labels of the states. `sched i` is `str` of the choice of
the scheduler in a state; there is no scheduler when it is `none`. -/
def extractPolicy (M : SModel) (m : Mod σ α) (sched : Option (Nat → String)) : Except PyErr (Dict σ α) :=
  match sched with
  | none => .error .valueError
  | some sched => do
    let d ← getActionMap M m
    M.states.zipIdx.foldlM (fun pol s => do
      let q ← toTulipState m s.1
      let a ← toTulipAction d (sched s.2)
      return tableAdd pol q a) []

/-- What `stormpy` does, as `model_checking` uses it, `stormpy.py:401-408`. -/
structure Tool where
  /-- `parse_prism_program` and `build_model` -/
  build : List Char → Except PyErr SModel
  /-- `parse_properties` and `model_checking`: the probabilities, and the choices of the scheduler -/
  check : List Char → SModel → List Char → Bool → Except PyErr ((Nat → Rat) × Option (Nat → String))

/-- `model_checking`, `stormpy.py:363-415`: the probabilities, and the policy if it is to be extracted. -/
def modelChecking (T : Tool) (m : Mod σ α) (formula : List Char) (policy : Bool) :
    Except PyErr (Dict σ Rat × Option (Dict σ α)) := do
  let text ← toPrismFile m
  let M ← T.build text
  let r ← T.check text M formula policy
  let prob ← extractProbability M m r.1
  if policy then do
    let pol ← extractPolicy M m r.2
    return (prob, some pol)
  else return (prob, none)

end
end Storm
end Tulip
