import Verif.Basic

/-!
# Parity games

`contrib/parity_games/solve_parity_game.py`, and the game graph of `tulip/transys/automata.py` and
`tulip/transys/transys.py` that it reads.

Sets of nodes are lists. A game graph is given by what the functions read of it: its nodes, the labels
`player` and `color` of each node, and whether an edge joins two nodes (`predecessors` and `succ` do not
count parallel edges).
-/

namespace Tulip

namespace Parity

variable {α : Type} [DecidableEq α]

/-- A parity game as read by the functions below (`tulip/transys/transys.py:1028-1102`, `GameGraph`, and
`tulip/transys/automata.py:628-695`, `ParityGame`). -/
structure Game (α : Type) where
  nodes : List α
  player : α → Nat
  color : α → Int
  edge : α → α → Bool

/-- `pg.predecessors(node)` of `networkx`. -/
def Game.preds (g : Game α) (v : α) : List α := g.nodes.filter fun u => g.edge u v

/-- The keys of `pg.succ[node]` of `networkx`. -/
def Game.succs (g : Game α) (v : α) : List α := g.nodes.filter fun u => g.edge v u

/-- `GameGraph.player_states` (`tulip/transys/transys.py:1071-1089`). -/
def playerStates (g : Game α) (n : Nat) : List α := g.nodes.filter fun v => n == g.player v

/-- `GameGraph.edge_controlled_by` (`tulip/transys/transys.py:1091-1102`). -/
def edgeControlledBy (g : Game α) (e : α × α) : Nat := g.player e.1

/-- `max(self, key=key, default=-1)`: the first of the nodes with the greatest key. -/
def maxBy (key : α → Int) : List α → Option α
  | [] => none
  | v :: l => some (l.foldl (fun m u => if key u > key m then u else m) v)

/-- `ParityGame.max_color` (`tulip/transys/automata.py:683-695`). The value is a node, or `-1` (here
`none`) in absence of nodes. -/
def maxColor (g : Game α) : Option α := maxBy g.color g.nodes

/-- `has_deadends` (`tulip/transys/labeled_graphs.py:1419-1427`): some node has no outgoing edge. -/
def hasDeadends (g : Game α) : Bool := g.nodes.any fun v => (g.succs v).isEmpty

/-- The test of `ctrl_next` (`contrib/parity_games/solve_parity_game.py:77-87`) on a predecessor: is it
added? -/
def controlled (g : Game α) (player : Nat) (pred : α) : Bool :=
  g.player pred == player || (g.succs pred).length == 1

/-- `ctrl_next` (`contrib/parity_games/solve_parity_game.py:66-88`). -/
def ctrlNext (g : Game α) (player : Nat) (W : List α) : List α :=
  W.flatMap fun v => (g.preds v).filter (controlled g player)

/-- `W != Wold` on sets. -/
def sameSet (a b : List α) : Bool := a.all (fun x => b.contains x) && b.all (fun x => a.contains x)

/-- The loop of `attractor` (`contrib/parity_games/solve_parity_game.py:57-63`) with a bound on the number of
its iterations; `none` means that the loop has not ended by then. -/
def attractorLoop (g : Game α) (player : Nat) : Nat → List α → List α → Option (List α)
  | 0, _, _ => none
  | fuel + 1, W, old =>
    if sameSet W old then some W
    else attractorLoop g player fuel (W ++ ctrlNext g player W) W

/-- `attractor` (`contrib/parity_games/solve_parity_game.py:45-63`). -/
def attractor (g : Game α) (player : Nat) (fuel : Nat) (W : List α) : Option (List α) :=
  attractorLoop g player fuel W []

/-- `p.states.remove_from(a)` (`contrib/parity_games/solve_parity_game.py:33-34,42`): the nodes and their edges go. -/
def Game.without (g : Game α) (a : List α) : Game α :=
  { g with nodes := g.nodes.filter (fun v => !a.contains v)
           edge := fun u v => g.edge u v && !a.contains u && !a.contains v }

/-- The loop of `McNaughton` (`contrib/parity_games/solve_parity_game.py:28-42`) for the number `c` and the player
`sigma`; `W` are the nodes won by the other player so far, `rec` is the recursive call. A value `none` means that the
computation has not ended within the given number of steps. -/
def mcLoop (rec : Game α → Except PyErr (Option (List α × List α))) (c : Int) (sigma : Nat) :
    Nat → Game α → List α → Except PyErr (Option (List α × List α))
  | 0, _, _ => .ok none
  | fuel + 1, p, W =>
    match attractor p sigma fuel (p.nodes.filter fun v => p.color v == c) with
    | none => .ok none
    | some a => do
      match (← rec (p.without a)) with
      | none => .ok none
      | some w =>
        let other := if sigma = 0 then w.2 else w.1
        if other.isEmpty then
          let mine := p.nodes.filter fun v => !W.contains v
          .ok (some (if sigma = 0 then (mine, W) else (W, mine)))
        else match attractor p (1 - sigma) fuel other with
          | none => .ok none
          | some a => mcLoop rec c sigma fuel (p.without a) (W ++ a)

/-- `McNaughton` (`contrib/parity_games/solve_parity_game.py:15-42`). `num` gives the integer that a node is, `none` for a
node without the operation `% 2`, such as a string. The value of `p.max_color` is a node. -/
def mcNaughton (num : α → Option Int) : Nat → Game α → Except PyErr (Option (List α × List α))
  | 0, _ => .ok none
  | fuel + 1, g =>
    if hasDeadends g then .error .exception
    else match maxColor g with
      | none => .ok (some ([], []))
      | some v => match num v with
        | none => .error .typeError
        | some c =>
          if c = 0 then .ok (some (g.nodes, []))
          else mcLoop (mcNaughton num fuel) c (c % 2).toNat fuel g []

end Parity

end Tulip
