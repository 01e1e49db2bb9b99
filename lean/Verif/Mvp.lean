import Verif.Spec.Prioritized
import Verif.Transys.CostProps
import Mathlib.Data.List.Infix

/-!
# Model of `tulip/mvp.py`: minimum-violation planning

States of the automata and of the Kripke structure are strings; sets of propositions are lists.
Costs of transitions are integers. `B` stands for the sets of atomic propositions that are compared.
-/

namespace Tulip
namespace Mvp
open Prio

/-- What the planner reads of a rule's automaton. A transition has a source, a target and a letter. -/
structure Fa (B : Type) where
  states : List String
  initial : List String
  accepting : List String
  trans : List (String × String × List String)
  aps : B

/-- What the planner reads of a Kripke structure: a transition has a source, a target and a cost
(0 when there is none, `mvp.py:176`). -/
structure Ks (B : Type) where
  states : List String
  initial : List String
  ap : String → List String
  edges : List (String × String × Int)
  aps : B

/-- A state of the product: a state of the structure, and one of each automaton. -/
abbrev PState := String × List String

/-- `set == set`. -/
def sameSet (a b : List String) : Bool := a.all (b.contains ·) && b.all (a.contains ·)

/-- `v in w` for two strings: `find` is given a state as the set `to_states`, so that membership is
that of a substring (`mvp.py:84-85`, `labeled_graphs.py:738-742`). -/
def inName (v w : String) : Bool := decide (v.toList <:+: w.toList)

section
variable {B : Type}

/-- `rule.automaton().transitions.find(q, q')`, `mvp.py:84-88`: the letters. -/
def letters (fa : Fa B) (q q' : String) : List (List String) :=
  (fa.trans.filter fun t => t.1 == q && inName t.2.1 q').map (·.2.2)

/-- `_get_rule_violation_cost`, `mvp.py:50-91`. -/
def ruleCost (rules : List (Rule (Fa B))) (levels : Nat) (q q' : List String) (toAp : List String) :
    List Int :=
  rules.zipIdx.foldl (fun cost r =>
    if (letters r.1.fa (q[r.2]?.getD "") (q'[r.2]?.getD "")).any (sameSet toAp) then cost
    else cost.modify r.1.level (· + r.1.priority))
    (List.replicate levels 0)

theorem ruleCost_length (rules : List (Rule (Fa B))) (levels : Nat) (q q' : List String)
    (toAp : List String) : (ruleCost rules levels q q' toAp).length = levels := by
  unfold ruleCost
  have : ∀ (l : List (Rule (Fa B) × Nat)) (c : List Int),
      (l.foldl (fun cost r =>
        if (letters r.1.fa (q[r.2]?.getD "") (q'[r.2]?.getD "")).any (sameSet toAp) then cost
        else cost.modify r.1.level (· + r.1.priority)) c).length = c.length := by
    intro l
    induction l with
    | nil => simp
    | cons r l ih =>
      intro c
      simp only [List.foldl_cons, ih]
      split <;> simp
  rw [this]; simp

/-- `_add_transition_edge`, `mvp.py:128-149`: the edge and its cost. -/
def edgeOf (ks : Ks B) (rules : List (Rule (Fa B))) (levels : Nat) (k : Int) (x y : PState) :
    PState × PState × VCost Int (levels + 1) :=
  (x, y, ⟨ruleCost rules levels x.2 y.2 (ks.ap y.1) ++ [k], by simp [ruleCost_length]⟩)

/-- `_add_transition`, `mvp.py:94-125`. Both arguments may be iterators (`itertools.product`), so the
inner loop finds `tos` exhausted after the first round. -/
def addTransition (ks : Ks B) (rules : List (Rule (Fa B))) (levels : Nat) (k : Int) :
    List PState → List PState → List (PState × PState × VCost Int (levels + 1))
  | [], _ => []
  | x :: xs, tos => tos.map (edgeOf ks rules levels k x) ++ addTransition ks rules levels k xs []

/-- `while null_state in ks.states: null_state += "0"`, `mvp.py:164-166`. -/
def nullLoop (states : List String) : Nat → String → String
  | 0, s => s
  | fuel + 1, s => if s ∈ states then nullLoop states fuel (s ++ "0") else s

/-- The name of the state before the initial states. -/
def nullState (ks : Ks B) : String := nullLoop ks.states (ks.states.length + 1) "null"

/-- The edges of the weighted product automaton, `mvp.py:175-195`. -/
def wpaEdges (ks : Ks B) (spec : PSpec (Fa B) B) :
    List (PState × PState × VCost Int (numLevels spec + 1)) :=
  let rules := getRules spec
  let sts := productOf Fa.states spec
  (ks.edges.flatMap fun e => addTransition ks rules (numLevels spec) e.2.2
    (sts.map fun q => (e.1, q)) (sts.map fun q => (e.2.1, q))) ++
  addTransition ks rules (numLevels spec) 0
    ((productOf Fa.initial spec).map fun q => (nullState ks, q))
    (ks.initial.flatMap fun s => sts.map fun q => (s, q))

/-- The goal states of the product, `mvp.py:229-235`: a `SubSet` of the accepting states, which
raises `ValueError` unless all of them are accepting. -/
def goalStates (ks : Ks B) (goal : String) (spec : PSpec (Fa B) B) : Except PyErr (List PState) :=
  let goals := (ks.states.filter fun s => (ks.ap s).contains goal).flatMap fun s =>
    (productOf Fa.states spec).map fun q => (s, q)
  let accepting := ks.states.flatMap fun s =>
    (productOf Fa.accepting spec).map fun q => (s, q)
  if goals.all (accepting.contains ·) then .ok goals else .error .valueError

/-- `solve`, `mvp.py:199-245`: the result of the search, and `state_path`. `pop` is `heappop`;
`best_cost` of a failed search is infinity. -/
def solve [DecidableEq B] (ks : Ks B) (goal : String) (spec : PSpec (Fa B) B)
    (pop : List (HeapEntry PState (VCost Int (numLevels spec + 1))) →
      Option (HeapEntry PState (VCost Int (numLevels spec + 1)) ×
        List (HeapEntry PState (VCost Int (numLevels spec + 1))))) :
    Except PyErr (Search PState (VCost Int (numLevels spec + 1)) × List String) :=
  if spec.aps ≠ some ks.aps then .error .valueError
  else do
    let goals ← goalStates ks goal spec
    let r := dijkstraMany (wpaEdges ks spec) (goals.contains ·) (fun _ => false) pop
      ((productOf Fa.initial spec).map fun q => (nullState ks, q)) .unreachable
    let path := match r with
      | .found _ p => p
      | _ => []
    pure (r, (path.map (·.1)).filter (· ≠ nullState ks))

end
end Mvp
end Tulip
