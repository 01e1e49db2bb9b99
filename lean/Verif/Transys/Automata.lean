import Verif.Transys.Construct
import Mathlib.Data.Finset.Basic

/-!
# Model of `tulip/transys/automata.py`: accepting states, Rabin pairs, `tuple2ba`

States can be hashed, so that a `SubSet` of them is its `_set`, a list without repetition here. `accepting`
and the sets of the pairs are fresh objects that no one else holds except through `good` and `bad`, whose
calls are modelled as calls on the pair.
-/

namespace Tulip

namespace Aut

open LGraph

variable {ν V : Type} [DecidableEq ν] [DecidableEq V]

/-- `FiniteStateAutomaton`, `automata.py:60-187`. -/
structure Fsa (ν V : Type) where
  graph : LGraph ν V
  accepting : List ν := []

/-- `accepting.add`, `mathset.py:598-623`. -/
def acceptingAdd (a : Fsa ν V) (n : ν) : Fsa ν V × Option PyErr :=
  if a.graph.hasNode n then ({ a with accepting := uniqueLoop a.accepting [n] }, none) else (a, some .valueError)

/-- `accepting.add_from`, `mathset.py:625-653`; also `|=` and `update`. -/
def acceptingAddFrom (a : Fsa ν V) (l : List ν) : Fsa ν V × Option PyErr :=
  if l.all a.graph.hasNode then ({ a with accepting := uniqueLoop a.accepting l }, none) else (a, some .valueError)

/-- `accepting.remove`, `mathset.py:435-470`. -/
def acceptingRemove (a : Fsa ν V) (n : ν) : Fsa ν V × Option PyErr :=
  if n ∈ a.accepting then ({ a with accepting := a.accepting.erase n }, none) else (a, some .valueError)

/-- `remove_node`, `automata.py:179-187`. -/
def removeNode (a : Fsa ν V) (n : ν) : Fsa ν V × Option PyErr :=
  match acceptingRemove a n with
  | (a, some e) => (a, some e)
  | (a, none) => match a.graph.removeNode n with
    | .ok g => ({ a with graph := g }, none)
    | .error e => (a, some e)

/-- `states.remove`, `labeled_graphs.py:205-212`, on an automaton. -/
def removeState (a : Fsa ν V) (n : ν) : Fsa ν V × Option PyErr :=
  removeNode { a with graph := { a.graph with
    initial := if n ∈ a.graph.initial then a.graph.initial.erase n else a.graph.initial } } n

/-- `states.remove_from`, `labeled_graphs.py:214-224`, on an automaton: the first exception ends the loop. -/
def removeStates (a : Fsa ν V) : List ν → Fsa ν V × Option PyErr
  | [] => (a, none)
  | n :: l => match removeState a n with
    | (a, some e) => (a, some e)
    | (a, none) => removeStates a l

/-- The loop of `remove_deadends`, `labeled_graphs.py:1432-1439`, on an automaton; see
`LGraph.removeDeadendsLoop`. -/
def removeDeadendsLoop (order : List ν → List ν) : Nat → Fsa ν V → Fsa ν V × Option PyErr
  | 0, a => (a, none)
  | fuel + 1, a =>
    if a.graph.deadends.isEmpty then (a, none)
    else match removeStates a (order a.graph.deadends) with
      | (a, some e) => (a, some e)
      | (a, none) => removeDeadendsLoop order fuel a

/-- `remove_deadends`, `labeled_graphs.py:1429-1454`, on an automaton. -/
def removeDeadends (order : List ν → List ν) (a : Fsa ν V) : Fsa ν V × Option PyErr :=
  match removeDeadendsLoop order (a.graph.nodes.length + 1) a with
  | (a', some e) => (a', some e)
  | (a', none) =>
    if a.graph.nodes.length == 0 || decide (a'.graph.nodes.length > 0) then (a', none)
    else (a', some .assertion)

/-! ## Rabin pairs -/

/-- `RabinPairs`, `automata.py:381-580`, with the states of the automaton. -/
structure Rabin (ν V : Type) where
  graph : LGraph ν V
  pairs : List (List ν × List ν) := []

/-- `SubSet(states)` and `update`. -/
def subset (g : LGraph ν V) (l : List ν) : Except PyErr (List ν) :=
  if l.all g.hasNode then .ok (unique l) else .error .valueError

/-- `self._set == other._set`. -/
def sameSet (a b : List ν) : Bool := (a.all fun x => decide (x ∈ b)) && b.all fun x => decide (x ∈ a)

/-- `RabinPairs.add`, `automata.py:469-493`. -/
def pairAdd (a : Rabin ν V) (good bad : List ν) : Except PyErr (Rabin ν V) := do
  let good ← subset a.graph good
  let bad ← subset a.graph bad
  return { a with pairs := a.pairs ++ [(good, bad)] }

/-- `list.remove`, for pairs that are compared as sets. -/
def removeFirst (p : List ν × List ν) : List (List ν × List ν) → Except PyErr (List (List ν × List ν))
  | [] => .error .valueError
  | q :: l => if sameSet q.1 p.1 && sameSet q.2 p.2 then .ok l else do return q :: (← removeFirst p l)

/-- `RabinPairs.remove`, `automata.py:495-532`. -/
def pairRemove (a : Rabin ν V) (good bad : List ν) : Except PyErr (Rabin ν V) := do
  let good ← subset a.graph good
  let bad ← subset a.graph bad
  return { a with pairs := ← removeFirst (good, bad) a.pairs }

/-- The position that a Python index means in a list of length `n`. -/
def position (n : Nat) (i : Int) : Option Nat :=
  if 0 ≤ i ∧ i < n then some i.toNat
  else if -(n : Int) ≤ i ∧ i < 0 then some (i + n).toNat
  else none

/-- `RabinPairs.good`, `automata.py:551-561`. -/
def pairGood (a : Rabin ν V) (i : Int) : Except PyErr (List ν) :=
  match (position a.pairs.length i).bind (a.pairs[·]?) with
  | some p => .ok p.1
  | none => .error .indexError

/-- `RabinPairs.bad`, `automata.py:563-573`. -/
def pairBad (a : Rabin ν V) (i : Int) : Except PyErr (List ν) :=
  match (position a.pairs.length i).bind (a.pairs[·]?) with
  | some p => .ok p.2
  | none => .error .indexError

/-- `good(i).add_from`. -/
def goodAddFrom (a : Rabin ν V) (i : Int) (l : List ν) : Except PyErr (Rabin ν V) :=
  match position a.pairs.length i with
  | none => .error .indexError
  | some k =>
    if l.all a.graph.hasNode then .ok { a with pairs := a.pairs.modify k fun p => (uniqueLoop p.1 l, p.2) }
    else .error .valueError

/-- `bad(i).add_from`. -/
def badAddFrom (a : Rabin ν V) (i : Int) (l : List ν) : Except PyErr (Rabin ν V) :=
  match position a.pairs.length i with
  | none => .error .indexError
  | some k =>
    if l.all a.graph.hasNode then .ok { a with pairs := a.pairs.modify k fun p => (p.1, uniqueLoop p.2 l) }
    else .error .valueError

/-- `RabinPairs.add_states`, `automata.py:534-549`: the good states are added even if the bad ones are
rejected. -/
def pairAddStates (a : Rabin ν V) (i : Int) (good bad : List ν) : Rabin ν V × Option PyErr :=
  match goodAddFrom a i good with
  | .error e => (a, some e)
  | .ok a => match badAddFrom a i bad with
    | .error e => (a, some e)
    | .ok a => (a, none)

/-- `good(i).remove`. -/
def goodRemove (a : Rabin ν V) (i : Int) (n : ν) : Except PyErr (Rabin ν V) := do
  let s ← pairGood a i
  if n ∈ s then
    return { a with pairs := a.pairs.modify ((position a.pairs.length i).getD 0) fun p => (p.1.erase n, p.2) }
  else .error .valueError

/-- `bad(i).remove`. -/
def badRemove (a : Rabin ν V) (i : Int) (n : ν) : Except PyErr (Rabin ν V) := do
  let s ← pairBad a i
  if n ∈ s then
    return { a with pairs := a.pairs.modify ((position a.pairs.length i).getD 0) fun p => (p.1, p.2.erase n) }
  else .error .valueError

/-- `states.remove` on a Rabin automaton: `accepting.remove(node)` lacks an argument, `automata.py:186`. -/
def rabinRemoveState (a : Rabin ν V) (n : ν) : Rabin ν V × Option PyErr :=
  ({ a with graph := { a.graph with
    initial := if n ∈ a.graph.initial then a.graph.initial.erase n else a.graph.initial } }, some .typeError)

/-! ## `tuple2ba` -/

/-- A guard: `None`, a string, or a set of atomic propositions. -/
inductive Guard
  | none | str (s : String) | set (l : Finset String)
  deriving DecidableEq

/-- The values of the label type `letter`: a `PowerSet` of the atomic propositions; a string is rejected. -/
def letterContains (aps : List String) : Guard → Bool
  | .set l => decide (∀ p ∈ l, p ∈ aps)
  | _ => false

/-- `BuchiAutomaton()`, with atomic propositions, `automata.py:87-128`, `:245-264`. -/
def newBa (aps : List String) : LGraph Constr.Atom Guard where
  edgeTypes := [("letter", { contains := letterContains aps })]

/-- The loop over the transitions, `automata.py:366-377`. -/
def addGuarded (pre : Option String) (g : LGraph Constr.Atom Guard) :
    List (Constr.Atom × Constr.Atom × Guard) → Except PyErr (LGraph Constr.Atom Guard)
  | [] => .ok g
  | (u, v, l) :: ts => do
    let g ← g.addEdge (Constr.withPrefix pre u) (Constr.withPrefix pre v)
      [("letter", if l = .none then .set ∅ else l)]
    addGuarded pre g ts

/-- `tuple2ba`, `automata.py:267-378`, with a set `AP` of atomic propositions. The atomic propositions are
added after the states; the table of label types refers to their set. -/
def tuple2ba (S S0 Sa : List Constr.Atom) (AP : List String)
    (trans : List (Constr.Atom × Constr.Atom × Guard)) (pre : Option String) :
    Except PyErr (Fsa Constr.Atom Guard × List String) := do
  let g ← match (newBa (unique AP)).addNodesFrom ((Constr.prependWith pre S).map fun s => (s, [])) with
    | (g, none) => .ok g
    | (_, some e) => .error e
  let g ← g.addInitialFrom (Constr.prependWith pre S0)
  let a ← match acceptingAddFrom ⟨g, []⟩ (Constr.prependWith pre Sa) with
    | (a, none) => .ok a
    | (_, some e) => .error e
  let g ← addGuarded pre g trans
  return ({ a with graph := g }, unique AP)

/-- `tuple2ba` with `atomic_proposition_based=False` and a set as alphabet, up to
`ba.alphabet.add(alphabet_or_ap)`, `automata.py:361-362`: a set is not hashable. -/
def tuple2baSigma (S S0 Sa : List Constr.Atom) (pre : Option String) :
    Except PyErr (Fsa Constr.Atom Guard) := do
  let g ← match (newBa []).addNodesFrom ((Constr.prependWith pre S).map fun s => (s, [])) with
    | (g, none) => .ok g
    | (_, some e) => .error e
  let g ← g.addInitialFrom (Constr.prependWith pre S0)
  match acceptingAddFrom ⟨g, []⟩ (Constr.prependWith pre Sa) with
    | (_, none) => .error .typeError
    | (_, some e) => .error e

end Aut

end Tulip
