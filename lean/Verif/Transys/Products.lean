import Verif.Transys.Machines

/-!
# Model of `tulip/transys/products.py`

A finite transition system is a graph whose states have a label `ap`, and a Büchi automaton a graph
whose edges have a label `letter`, with a list of accepting states. Sets of atomic propositions are
values of a type `V` with decidable equality; `trueLetter` is the set `{True}`. The product's own
labels `{q}` are lists of automaton states. Log messages and names are not modelled. The orders in
which sets are enumerated are those of the model's lists, except for `queue.pop()`, whose choice is a
parameter.
-/

namespace Tulip
namespace Prod'

open LGraph Mach

variable {σ κ V : Type} [DecidableEq σ] [DecidableEq κ] [DecidableEq V]

/-- The arguments: transition system, automaton, its accepting states. -/
structure Args (σ κ V : Type) where
  fts : LGraph σ V
  ba : LGraph κ V
  accepting : List κ
  trueLetter : V

/-- `fts.nodes[s]['ap']`. -/
def apOf (fts : LGraph σ V) (s : σ) : Except PyErr V :=
  match fts.nodes.get? s with
  | none => .error .keyError
  | some a => match a.get? "ap" with
    | none => .error .keyError
    | some v => .ok v

/-- `find_ba_succ`, `products.py:278-307`. -/
def findBaSucc (x : Args σ κ V) (q : κ) (s : σ) : Except PyErr (List (κ × κ × Attr V)) := do
  let ap ← apOf x.fts s
  let a ← x.ba.findEdges (some [q]) none [("letter", ap)]
  let b ← x.ba.findEdges (some [q]) none [("letter", x.trueLetter)]
  .ok (a ++ b)

/-- The product under construction: `prodts`, and `accepting_states_preimage`. -/
structure State (σ κ : Type) where
  graph : LGraph (σ × κ) (List κ)
  accepting : List (σ × κ)

/-- The empty product, `products.py:210-215`: its states are labeled with sets of automaton states,
by default the empty set. (The names of the action types of the transition system are added as
actions of the product: they label no edge.) -/
def empty (x : Args σ κ V) : State σ κ where
  graph := {
    nodeTypes := [("ap", { contains := fun l => l.all x.ba.hasNode })]
    nodeDefaults := [("ap", [])] }
  accepting := []

/-- `product.states[n]['ap'] = {q}`. -/
def setAp (g : LGraph (σ × κ) (List κ)) (n : σ × κ) (q : κ) : Except PyErr (LGraph (σ × κ) (List κ)) :=
  match g.nodes.get? n with
  | none => .error .keyError
  | some a => match g.nodeTypes.get? "ap" with
    | none => .error .keyError
    | some t =>
      if t.contains [q] then .ok { g with nodes := g.nodes.set n (a.set "ap" [q]) }
      else .error .valueError

/-- `s.add(x)` for a set. -/
def insertNew {α : Type} [DecidableEq α] (l : List α) (a : α) : List α := if a ∈ l then l else l ++ [a]

/-- One initial state of the product, `products.py:239-246`. -/
def addInit (x : Args σ κ V) (st : State σ κ) (n : σ × κ) : Except PyErr (State σ κ) := do
  let g ← st.graph.addNode n []
  let g ← g.addInitial n
  let g ← setAp g n n.2
  .ok { graph := g, accepting := if n.2 ∈ x.accepting then insertNew st.accepting n else st.accepting }

/-- A loop that may raise. -/
def loopM {α β : Type} (f : β → α → Except PyErr β) : β → List α → Except PyErr β
  | b, [] => .ok b
  | b, a :: as => do
    let b ← f b a
    loopM f b as

/-- The loops over the initial states, `products.py:229-246`. -/
def initLoop (x : Args σ κ V) (st : State σ κ) : Except PyErr (State σ κ) :=
  loopM (fun st s0 => loopM (fun st q0 => do
    let es ← findBaSucc x q0 s0
    loopM (fun st e => addInit x st (s0, e.2.1)) st es) st x.ba.initial) st x.fts.initial

/-- The edges for one product transition, `products.py:351-373`. An edge of the transition system with
labels has no label `actions` (the constructor of `FTS` rejects that name). -/
def addEdges (x : Args σ κ V) (g : LGraph (σ × κ) (List κ)) (sq n : σ × κ) :
    Except PyErr (LGraph (σ × κ) (List κ)) := do
  let es ← x.fts.findEdges (some [sq.1]) (some [n.1]) []
  loopM (fun g e => if e.2.2.isEmpty then g.addEdge sq n [] else .error .keyError) g es

/-- One round of the loop of `find_prod_succ`, `products.py:328-373`; the third component collects
`next_sqs`. -/
def prodStep (x : Args σ κ V) (sq : σ × κ) (st : State σ κ × List (σ × κ)) (n : σ × κ) :
    Except PyErr (State σ κ × List (σ × κ)) := do
  let isNew := !st.1.graph.hasNode n
  let g ← if isNew then st.1.graph.addNode n [] else .ok st.1.graph
  let g ← setAp g n n.2
  let acc := if n.2 ∈ x.accepting then insertNew st.1.accepting n else st.1.accepting
  let g ← addEdges x g sq n
  .ok ({ graph := g, accepting := acc }, if isNew then st.2 ++ [n] else st.2)

/-- `find_prod_succ`, `products.py:310-374`. -/
def findProdSucc (x : Args σ κ V) (sq : σ × κ) (next : σ) (enabled : List (κ × κ × Attr V))
    (st : State σ κ × List (σ × κ)) : Except PyErr (State σ κ × List (σ × κ)) :=
  loopM (fun st e => if e.1 = sq.2 then prodStep x sq st (next, e.2.1) else .error .assertion) st enabled

/-- The successors of one product state, `products.py:257-270`. -/
def expand (x : Args σ κ V) (sq : σ × κ) (st : State σ κ) : Except PyErr (State σ κ × List (σ × κ)) := do
  let nexts ← x.fts.post (some [sq.1])
  loopM (fun st next => do
    let es ← findBaSucc x sq.2 next
    if es.isEmpty then .ok st else findProdSucc x sq next es st) (st, []) nexts

/-- The loop over the queue, `products.py:249-275`; `pick` is the choice of `queue.pop()`, and the
first argument bounds the number of rounds. -/
def explore (x : Args σ κ V) (pick : List (σ × κ) → σ × κ) :
    Nat → State σ κ → List (σ × κ) → List (σ × κ) → Except PyErr (State σ κ)
  | 0, _, _, _ => .error .notImplemented
  | fuel + 1, st, queue, visited =>
    if queue.isEmpty then .ok st
    else do
      let sq := pick queue
      let visited := insertNew visited sq
      let r ← expand x sq st
      let new := r.2.filter fun n => !decide (n ∈ visited)
      explore x pick fuel r.1 (uniqueLoop (queue.filter fun n => !decide (n = sq)) new) visited

/-- `ts_ba_sync_prod`, `products.py:166-275`, for an automaton based on atomic propositions. -/
def tsBaSyncProd (x : Args σ κ V) (pick : List (σ × κ) → σ × κ) : Except PyErr (State σ κ) := do
  let st ← initLoop x (empty x)
  explore x pick (x.fts.nodes.length * x.ba.nodes.length + 1) st st.graph.initial []

end Prod'
end Tulip
