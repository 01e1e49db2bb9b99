import Verif.Spec.Prioritized
import Mathlib.Algebra.Order.Ring.Rat

/-!
# Model of `tulip/transys/compositions.py`

Kripke structures, weighted Kripke structures, Markov chains and Markov decision processes, with
states of type `σ` and actions of type `α`. Probabilities and costs are exact rationals (Python floats
round). These classes admit on a transition no other label than the cost, the probability and the
action, so a dictionary of labels is three optional values. The default operations on labels are
modelled (`transition_attr_operations=None`).
-/

namespace Tulip
namespace Comp
open Prio (product)

/-- The classes, `transys.py:68-213`. -/
inductive Kind | ks | wks | mc | mdp
  deriving DecidableEq

/-- The labels of a transition. -/
structure EAttr (α : Type) where
  cost : Option Rat := none
  prob : Option Rat := none
  action : Option α := none
  deriving DecidableEq

/-- A model. `ap s` is `model.states[s]["ap"]`. -/
structure Mod (σ α : Type) where
  kind : Kind
  states : List σ
  initial : List σ
  aps : List String
  ap : σ → List String
  actions : List α
  edges : List (σ × σ × EAttr α)

section
variable {σ α : Type} [DecidableEq σ] [DecidableEq α]

/-- The labels that the class of a model admits, and their values: `transys.py:145-213` and
`cost.py:41-53`. A value outside its set raises `ValueError`, a label that the class does not have
raises `AttributeError` (`labeled_graphs.py:1241-1281`). -/
def attrCheck (kind : Kind) (actions : List α) (a : EAttr α) : Option PyErr :=
  match kind with
  | .ks => if a.cost.isSome || a.prob.isSome || a.action.isSome then some .attribute else none
  | .wks => match a.cost with
    | some c => if c < 0 then some .valueError
      else if a.prob.isSome || a.action.isSome then some .attribute else none
    | none => if a.prob.isSome || a.action.isSome then some .attribute else none
  | .mc => match a.prob with
    | some p => if p < 0 ∨ 1 < p then some .valueError
      else if a.cost.isSome || a.action.isSome then some .attribute else none
    | none => if a.cost.isSome || a.action.isSome then some .attribute else none
  | .mdp => match a.prob, a.action with
    | some p, some x => if p < 0 ∨ 1 < p ∨ x ∉ actions then some .valueError
      else if a.cost.isSome then some .attribute else none
    | some p, none => if p < 0 ∨ 1 < p then some .valueError
      else if a.cost.isSome then some .attribute else none
    | none, some x => if x ∉ actions then some .valueError
      else if a.cost.isSome then some .attribute else none
    | none, none => if a.cost.isSome then some .attribute else none

/-- `ts.transitions.add(u, v, attr)`, `labeled_graphs.py:488-507`, `:1178-1281`: see `LGraph.addEdge`. -/
def addTrans (m : Mod σ α) (e : σ × σ × EAttr α) : Except PyErr (Mod σ α) :=
  if e.1 ∉ m.states ∨ e.2.1 ∉ m.states then .error .valueError
  else if (e.1, e.2.1, ({} : EAttr α)) ∈ m.edges then .error .exception
  else if e ∈ m.edges then .ok m
  else match attrCheck m.kind m.actions e.2.2 with
    | some err => .error err
    | none => .ok { m with edges := m.edges ++ [e] }

/-- Add transitions one by one. -/
def addAll (m : Mod σ α) : List (σ × σ × EAttr α) → Except PyErr (Mod σ α)
  | [] => .ok m
  | e :: es => do addAll (← addTrans m e) es

/-- `_get_composed_model_type`, `compositions.py:290-325`. -/
def composedKind (ms : List (Mod σ α)) : Kind :=
  if ms.any (·.kind == .mdp) then .mdp
  else if ms.any (·.kind == .mc) then .mc
  else if ms.any (·.kind == .wks) then .wks
  else .ks

/-- `None` unless a value is there, then the operation on the values that are,
`compositions.py:48-90` and `:267-287`. -/
def opSome {β γ : Type} (op : List β → γ) (l : List (Option β)) : Option γ :=
  if l.any Option.isSome then some (op (l.filterMap id)) else none

/-- `_get_transition_attr`, `compositions.py:241-280`, with `sum_values`, `mult_values` and
`neglect_none`. A tuple of actions is a list, and the action itself is the list of one entry. -/
def combine (l : List (EAttr α)) : EAttr (List α) where
  cost := opSome List.sum (l.map (·.cost))
  prob := opSome List.prod (l.map (·.prob))
  action := opSome id (l.map (·.action))

/-- The transitions that `synchronous_parallel` adds, `compositions.py:191-200`. -/
def jointMoves (ms : List (Mod σ α)) : List (List σ × List σ × EAttr (List α)) :=
  (product (ms.map (·.states))).flatMap fun s =>
    (product ((ms.zip s).map fun p => p.1.edges.filter fun e => e.1 == p.2)).map fun tr =>
      (s, tr.map (·.2.1), combine (tr.map (·.2.2)))

/-- `synchronous_parallel`, `compositions.py:93-201`. The label of the empty product is a `reduce` of
an empty list. -/
def synchronousParallel (ms : List (Mod σ α)) : Except PyErr (Mod (List σ) (List α)) :=
  if ms.isEmpty then .error .typeError
  else addAll {
    kind := composedKind ms
    states := product (ms.map (·.states))
    initial := product (ms.map (·.initial))
    aps := ms.flatMap (·.aps)
    ap := fun s => (ms.zip s).flatMap fun p => p.1.ap p.2
    actions := if composedKind ms = .mdp then
      product ((ms.filter (·.kind == .mdp)).map (·.actions)) else []
    edges := [] } (jointMoves ms)

/-- The loop over the transitions of one state in `apply_policy`, `compositions.py:229-237`. -/
def policyMoves (act : α) : List (σ × σ × EAttr α) → Except PyErr (List (σ × σ × EAttr α))
  | [] => .ok []
  | e :: es => match e.2.2.action with
    | none => .error .keyError
    | some a => do
      let r ← policyMoves act es
      if a ≠ act then .ok r else .ok ((e.1, e.2.1, { e.2.2 with action := none }) :: r)

/-- All transitions that `apply_policy` adds, in order, `compositions.py:225-237`. `policy s` is
`policy[s]`, `none` for a `KeyError`. The order in which an exception and the additions before it
happen is not modelled: the result is discarded then. -/
def policyAll (m : Mod σ α) (policy : σ → Option α) :
    List σ → Except PyErr (List (σ × σ × EAttr α))
  | [] => .ok []
  | s :: ss => match policy s with
    | none => .error .keyError
    | some a => do
      let r ← policyMoves a (m.edges.filter fun e => e.1 == s)
      let rs ← policyAll m policy ss
      pure (r ++ rs)

/-- `apply_policy`, `compositions.py:204-238` and `:328-345`. -/
def applyPolicy (m : Mod σ α) (policy : σ → Option α) : Except PyErr (Mod σ α) :=
  if m.kind ≠ .mdp then .error .typeError
  else do
    let es ← policyAll m policy m.states
    addAll { m with kind := .mc, actions := [], edges := [] } es

end
end Comp
end Tulip
