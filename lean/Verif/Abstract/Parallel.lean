import Verif.Abstract.Merge

/-!
# Parallel abstraction of switched systems, `tulip/abstract/discretization.py:1748-1864`

`multiproc_discretize_switched` starts a process for each mode; the processes write their results to a
queue, and the parent reads as many results as there are processes. What the processes do in which order
is a schedule: a list of events, over which the theorems quantify.
-/

namespace Tulip

namespace Abs

variable {P M R : Type} [DecidableEq M]

/-- The parent and its workers: the modes whose workers are running, the queue, the dictionary of the
results read so far, and how many results the parent still waits for. -/
structure Pool (M R : Type) where
  running : List M
  queue : List (M × R)
  got : Dict M R
  left : Nat

/-- What can happen next: the worker of a mode comes to its end, or the parent reads from the queue. -/
inductive Event (M : Type) where
  | worker (m : M)
  | parent
deriving DecidableEq

/-- All workers have been started, `discretization.py:1816-1832`, `:1841-1853`. -/
def Pool.start (modes : List M) : Pool M R := ⟨modes, [], [], modes.length⟩

/-- One event. A worker computes its result `f m` and writes the pair of the mode and the result to the
queue, `multiproc_discretize` and `multiproc_get_transitions`, `discretization.py:1748-1789`; if the
computation raises, then the process ends without writing. The parent reads the first pair in the queue,
`discretization.py:1833-1835`, `:1854-1857`; while the queue is empty it waits. `none` if the event
cannot happen. -/
def Pool.step (f : M → Except PyErr R) (s : Pool M R) : Event M → Option (Pool M R)
  | .worker m =>
    if m ∈ s.running then
      match f m with
      | .ok r => some { s with running := s.running.erase m, queue := s.queue ++ [(m, r)] }
      | .error _ => some { s with running := s.running.erase m }
    else none
  | .parent => match s.left, s.queue with
    | k + 1, (m, r) :: q => some { s with queue := q, got := s.got.set m r, left := k }
    | _, _ => none

/-- A schedule. -/
def Pool.run (f : M → Except PyErr R) : Pool M R → List (Event M) → Option (Pool M R)
  | s, [] => some s
  | s, e :: es => match s.step f e with
    | some s' => Pool.run f s' es
    | none => none

/-- The discretization parameters of a mode that `get_transitions` knows, and the names of the others
(such as `min_cell_volume`, which `discretize` accepts), `discretization.py:2042-2055`. -/
structure ModeParams where
  n : Option Nat
  closedLoop : Option Bool
  transLength : Option Nat
  others : List String

/-- `get_transitions(absys, mode, ssys, **params)` in a worker, `discretization.py:1786-1787`. An
unknown parameter raises `TypeError`. `feas m n c` is `is_feasible` in the mode `m` with the horizon `n`
and `closed_loop = c`. -/
def parTrans (feas : M → Nat → Bool → P → P → Nat → P → Except PyErr Bool) (params : M → ModeParams)
    (abs : Dict M (ModeAbs P)) (A : Merged P M) (m : M) : Except PyErr (Nat → Nat → Bool) :=
  if (params m).others.isEmpty then
    match abs.get? m with
    | none => .error .keyError
    | some ab => getTransitions (feas m ((params m).n.getD 10) ((params m).closedLoop.getD true)) A m ab
        ((params m).transLength.getD 1)
  else .error .typeError

/-- What the caller of `multiproc_discretize_switched` sees. -/
inductive Call (R : Type) where
  | waiting
  | raised (e : PyErr)
  | returned (r : R)

/-- The second half of `multiproc_discretize_switched`, after the partitions are merged,
`discretization.py:1841-1864`: `es` is what happens while the transitions are computed. -/
def parSecond (feas : Act × Act → Nat → Bool → P → P → Nat → P → Except PyErr Bool)
    (params : Act × Act → ModeParams) (modes : List (Act × Act)) (nums : Nat × Nat) (aps : List String)
    (abs : Dict (Act × Act) (ModeAbs P)) (A : Merged P (Act × Act)) (es : List (Event (Act × Act))) :
    Option (Call (Merged P (Act × Act) × LGraph Nat Lab)) :=
  match (Pool.start modes).run (parTrans feas params abs A) es with
  | none => none
  | some s =>
    if s.left = 0 then
      if modes.all fun m => s.got.has m then
        match mergeAbstractions A.ppp.regions (fun m => (s.got.get? m).getD fun _ _ => false) aps modes
            nums with
        | (_, some e) => some (.raised e)
        | (g, none) => some (.returned (A, g))
      else some (.raised .keyError)
    else some .waiting

/-- `multiproc_discretize_switched`, `discretization.py:1792-1864`. `disc m` is
`discretize(ppp, cont_dyn, **disc_params[mode])`; `es1` is what happens until the abstractions have
arrived, and `es2` what happens after the partitions are merged. After the results are read, the parent
joins the workers. `order` is the order in which a set of modes is iterated. `aps` are the propositions of
the abstraction of the first mode. `none` if the schedule is impossible. -/
def parSwitched (O : MergeOps P) (disc : Act × Act → Except PyErr (ModeAbs P))
    (feas : Act × Act → Nat → Bool → P → P → Nat → P → Except PyErr Bool)
    (params : Act × Act → ModeParams) (modes : List (Act × Act)) (nums : Nat × Nat) (aps : List String)
    (order : List (Act × Act) → List (Act × Act)) (es1 es2 : List (Event (Act × Act))) :
    Option (Call (Merged P (Act × Act) × LGraph Nat Lab)) :=
  match (Pool.start modes).run disc es1 with
  | none => none
  | some s =>
    if s.left = 0 ∧ s.running = [] then
      match mergePartitions O s.got (order (s.got.keys.drop 1)) with
      | .error e => if es2.isEmpty then some (.raised e) else none
      | .ok none => if es2.isEmpty then some (.raised .typeError) else none
      | .ok (some A) => parSecond feas params modes nums aps s.got A es2
    else if es2.isEmpty then some .waiting else none

/-- `params[key]`. -/
def reqParam {α : Type} : Option α → Except PyErr α
  | some a => .ok a
  | none => .error .keyError

/-- `discretize_switched`, `discretization.py:1867-1937`, with the loop that discretizes the modes
(`:1907-1916`), and with the parameters of the modes (`:1924-1929`): `closed_loop` and the parameters that
`get_transitions` does not know are not passed on. (The parameters are looked up before the loop that
computes the transitions, not in it.) -/
def seqSwitched (O : MergeOps P) (disc : Act × Act → Except PyErr (ModeAbs P))
    (feas : Act × Act → Nat → Bool → P → P → Nat → P → Except PyErr Bool)
    (params : Act × Act → ModeParams) (modes : List (Act × Act)) (nums : Nat × Nat) (aps : List String)
    (order : List (Act × Act) → List (Act × Act)) :
    Except PyErr (Merged P (Act × Act) × LGraph Nat Lab) := do
  let abs ← loopE (fun (d : Dict (Act × Act) (ModeAbs P)) m => do
    let ab ← disc m
    .ok (d.set m ab)) modes []
  let ps ← loopE (fun (d : Dict (Act × Act) (Nat × Nat)) m => do
    let n ← reqParam (params m).n
    let l ← reqParam (params m).transLength
    .ok (d.set m (n, l))) modes []
  abstractSwitched O (fun m => feas m ((ps.get? m).getD (0, 0)).1 true)
    (fun m => ((ps.get? m).getD (0, 0)).2) abs (order (abs.keys.drop 1)) aps nums

end Abs

end Tulip
