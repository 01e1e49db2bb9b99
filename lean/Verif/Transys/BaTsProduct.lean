import Verif.Transys.Products

/-!
# Model of the automaton products of `tulip/transys/products.py`

`ba_ts_sync_prod` (`products.py:377-433`) and `OnTheFlyProductAutomaton` (`:52-163`).
-/

namespace Tulip
namespace Prod'

open LGraph Mach

/-! ## `ba_ts_sync_prod` -/

section BaTs

variable {κ V : Type} [DecidableEq κ] [DecidableEq V]

/-- `transition_system.states.find(s)[0][1]`, `labeled_graphs.py:384-418`, for a state `s` that is a
string: the argument is taken as a collection of states, and the test `state not in states` of a
string in a string is the test for a substring. `IndexError` if no state is found. -/
def findLabelOf (g : LGraph String V) (s : String) : Except PyErr (Attr V) :=
  match g.nodes.filter fun p => decide (p.1.toList <:+: s.toList) with
  | p :: _ => .ok p.2
  | [] => .error .indexError

/-- The loop over the edges of the product, `products.py:419-432`. -/
def relabel (x : Args String κ V) (g : LGraph (String × κ) V)
    (e : (String × κ) × (String × κ) × Attr (List κ)) : Except PyErr (LGraph (String × κ) V) := do
  let label ← findLabelOf x.fts e.2.1.1
  match label.get? "ap" with
  | none => .error .keyError
  | some v => g.addEdge e.1 e.2.1 [("letter", v)]

/-- `ba_ts_sync_prod`, `products.py:377-433`, for an automaton based on atomic propositions and a
transition system whose states are strings. The letters of the product are those of the automaton
(`prod_ba.alphabet.math_set.update`). The second component of the result is `accepting`. -/
def baTsSyncProd (x : Args String κ V) (pick : List (String × κ) → String × κ) :
    Except PyErr (LGraph (String × κ) V × List (String × κ)) := do
  let st ← tsBaSyncProd x pick
  let g : LGraph (String × κ) V := { edgeTypes := x.ba.edgeTypes }
  let g ← loopM (fun g n => g.addNode n []) g st.graph.nodes.keys
  let g ← g.addInitialFrom st.graph.initial
  if st.accepting.all g.hasNode then do
    let g ← loopM (relabel x) g st.graph.edges
    return (g, st.accepting)
  else .error .valueError

end BaTs

/-! ## `OnTheFlyProductAutomaton` -/

section OnTheFly

variable {σ κ V : Type} [DecidableEq σ] [DecidableEq κ] [DecidableEq V]

/-- The automaton under construction, and its `accepting`. -/
structure Otf (σ κ V : Type) where
  graph : LGraph (σ × κ) V
  accepting : List (σ × κ)

/-- `OnTheFlyProductAutomaton.__init__` up to `_add_initial`, `products.py:82-110`: `letters` are the
sets of atomic propositions of the transition system. -/
def otfEmpty (letters : V → Bool) : Otf σ κ V where
  graph := { edgeTypes := [("letter", { contains := letters })] }
  accepting := []

/-- One initial state, `products.py:103-109`. -/
def otfAddInit (x : Args σ κ V) (st : Otf σ κ V) (n : σ × κ) : Except PyErr (Otf σ κ V) := do
  let g ← st.graph.addNode n []
  let g ← g.addInitial n
  .ok { graph := g, accepting := if n.2 ∈ x.accepting then insertNew st.accepting n else st.accepting }

/-- `_add_initial`, `products.py:82-109`. -/
def otfInit (x : Args σ κ V) (letters : V → Bool) : Except PyErr (Otf σ κ V) :=
  loopM (fun st s0 => loopM (fun st q0 => do
    let es ← findBaSucc x q0 s0
    loopM (fun st e => otfAddInit x st (s0, e.2.1)) st es) st x.ba.initial) (otfEmpty letters)
    x.fts.initial

/-- The edges for one transition in `find_prod_succ`, for a product that has an `alphabet`,
`products.py:346-366`. -/
def otfEdges (x : Args σ κ V) (g : LGraph (σ × κ) V) (sq n : σ × κ) :
    Except PyErr (LGraph (σ × κ) V) := do
  let es ← x.fts.findEdges (some [sq.1]) (some [n.1]) []
  loopM (fun g _ => do
    let v ← apOf x.fts n.1
    g.addEdge sq n [("letter", v)]) g es

/-- One round of the loop of `find_prod_succ`, `products.py:328-366`, for a product that has an
`alphabet` and no `actions`; the second component collects `next_sqs`. The caller adds the
accepting states afterwards; here they are added at once. -/
def otfStep (x : Args σ κ V) (sq : σ × κ) (st : Otf σ κ V × List (σ × κ)) (n : σ × κ) :
    Except PyErr (Otf σ κ V × List (σ × κ)) := do
  let isNew := !st.1.graph.hasNode n
  let g ← if isNew then st.1.graph.addNode n [] else .ok st.1.graph
  let acc := if n.2 ∈ x.accepting then insertNew st.1.accepting n else st.1.accepting
  let g ← otfEdges x g sq n
  .ok ({ graph := g, accepting := acc }, if isNew then st.2 ++ [n] else st.2)

/-- `find_prod_succ`, `products.py:310-374`. -/
def otfProdSucc (x : Args σ κ V) (sq : σ × κ) (next : σ) (enabled : List (κ × κ × Attr V))
    (st : Otf σ κ V) : Except PyErr (Otf σ κ V × List (σ × κ)) :=
  loopM (fun st e => if e.1 = sq.2 then otfStep x sq st (next, e.2.1) else .error .assertion)
    (st, []) enabled

/-- One round of the loop of `add_successors`, `products.py:131-142`. The second component is the
local variable `new_sqs`, if it has been assigned. -/
def otfRound (x : Args σ κ V) (sq : σ × κ) (st : Otf σ κ V × Option (List (σ × κ))) (next : σ) :
    Except PyErr (Otf σ κ V × Option (List (σ × κ))) := do
  let es ← findBaSucc x sq.2 next
  if es.isEmpty then .ok st
  else do
    let r ← otfProdSucc x sq next es st.1
    return (r.1, some r.2)

/-- `add_successors`, `products.py:112-148`. It returns `new_sqs`, which is what the last round
assigned; reading it raises `UnboundLocalError` if no round did. (The log message that reads it,
`:145`, is an f-string and so is evaluated.) -/
def addSuccessors (x : Args σ κ V) (sq : σ × κ) (st : Otf σ κ V) :
    Except PyErr (Otf σ κ V × List (σ × κ)) := do
  let nexts ← x.fts.post (some [sq.1])
  let r ← loopM (otfRound x sq) (st, none) nexts
  match r.2 with
  | some new => return (r.1, new)
  | none => .error .unboundLocal

/-- The body of the loop of `add_all_states`, `products.py:157-162`. -/
def otfSweep (x : Args σ κ V) (st : Otf σ κ V × List (σ × κ)) (sq : σ × κ) :
    Except PyErr (Otf σ κ V × List (σ × κ)) := do
  let r ← addSuccessors x sq st.1
  return (r.1, uniqueLoop st.2 r.2)

/-- The loop of `add_all_states`, `products.py:154-163`; the first argument bounds the rounds. -/
def otfAll (x : Args σ κ V) : Nat → Otf σ κ V → List (σ × κ) → Except PyErr (Otf σ κ V)
  | 0, _, _ => .error .notImplemented
  | fuel + 1, st, Q =>
    if Q.isEmpty then .ok st
    else do
      let r ← loopM (otfSweep x) (st, []) Q
      otfAll x fuel r.1 r.2

/-- The constructor and `add_all_states`, with a bound on the rounds of the latter. -/
def onTheFly (x : Args σ κ V) (letters : V → Bool) (fuel : Nat) : Except PyErr (Otf σ κ V) := do
  let st ← otfInit x letters
  otfAll x fuel st st.graph.nodes.keys

end OnTheFly

end Prod'
end Tulip
