import Verif.Abstract.Ts

/-!
# Abstractions of switched systems, `tulip/abstract/discretization.py:1866-2317`

The modes are discretized one by one (`Verif.Abstract.Discretize`), the partitions are merged, the
transitions of each mode are computed again on the merged partition, and a transition system labeled by
modes is built.
-/

namespace Tulip

namespace Abs

open LGraph

variable {P M : Type} [DecidableEq M]

/-- The functions of `polytope` that the merge uses. -/
structure MergeOps (P : Type) where
  inter : P → P → P
  /-- `not (rc < 1e-5)` for the Chebyshev radius `rc`. -/
  keep : P → Bool
  /-- `==` on regions. -/
  eqv : P → P → Bool
  /-- `pc.is_adjacent`. -/
  adjacent : P → P → Bool
  /-- Equality of the matrices `A` and the vectors `b` of two domains. -/
  sameDomain : P → P → Bool
  /-- `region <= domain`. -/
  le : P → P → Bool

/-- What the merge reads of an `AbstractPwa`, `discretization.py:244-340`: the partition `ppp`, the labels
of the states of `ts`, and the maps to the cells and subsystems of the PWA system. -/
structure ModeAbs (P : Type) where
  ppp : Partition P
  adj : Nat → Nat → Bool
  /-- `ts.states[j]['ap']`. -/
  aps : List (List String)
  /-- `_ppp2pwa`. -/
  ppp2pwa : List Nat
  /-- `pwa_ppp`. -/
  pwaPpp : List (Region P)
  /-- `_ppp2sys`; `None` for `LtiSysDyn`. -/
  ppp2sys : Option (List Nat)

/-- Equality of two sets of propositions. -/
def sameProps (a b : List String) : Bool := a.all (· ∈ b) && b.all (· ∈ a)

/-- The variables of the merge: `regions`, `parents` and `ap_labeling`. Dictionaries are partial
functions. -/
structure MState (P M : Type) where
  regions : List (Region P)
  parents : M → Nat → Option Nat
  labels : Nat → Option (List String)

/-- `for mode in prev_modes: parents[mode][idx] = old_parents[mode][i]`,
`discretization.py:2287-2288`. -/
def copyParents (old : M → Nat → Option Nat) (i idx : Nat) :
    List M → (M → Nat → Option Nat) → Except PyErr (M → Nat → Option Nat)
  | [], par => .ok par
  | m :: ms, par => match old m i with
    | none => .error .keyError
    | some p => copyParents old i idx ms fun m' k => if m' = m ∧ k = idx then some p else par m' k

/-- `d[i]` for a dictionary. -/
def getKey {α : Type} (d : Nat → Option α) (i : Nat) : Except PyErr α :=
  match d i with
  | some a => .ok a
  | none => .error .keyError

/-- The body of the two loops, `discretization.py:2268-2316`. `new_list.index(isect)` is the position
of the first region equal to `isect`, and the last position (where it was just appended) if there is no
earlier one. -/
def mergeCell (O : MergeOps P) (old : MState P M) (ab2 : ModeAbs P) (cur : M) (prev : List M)
    (s : MState P M) (ij : Nat × Nat) : Except PyErr (MState P M) := do
  let a ← getIdx old.regions ij.1
  let b ← getIdx ab2.ppp.regions ij.2
  let isect := O.inter a.poly b.poly
  if !O.keep isect then .ok s
  else
    let idx := s.regions.findIdx fun q => O.eqv q.poly isect
    let parents ← copyParents old.parents ij.1 idx prev s.parents
    let label1 ← getKey old.labels ij.1
    let label2 ← getKey (ab2.aps[·]?) ij.2
    if !sameProps label1 label2 then .error .exception
    else .ok {
      regions := s.regions ++ [⟨isect, a.props⟩]
      parents := fun m k => if m = cur ∧ k = idx then some ij.2 else parents m k
      labels := fun k => if k = idx then some label1 else s.labels k }

/-- A loop whose body may raise. -/
def loopE {α σ : Type} (f : σ → α → Except PyErr σ) : List α → σ → Except PyErr σ
  | [], s => .ok s
  | x :: xs, s => do
    let s' ← f s x
    loopE f xs s'

/-- The pairs of indices, row by row. -/
def indexPairs (n m : Nat) : List (Nat × Nat) :=
  (List.range n).flatMap fun i => (List.range m).map fun j => (i, j)

/-- `merge_partition_pair`, `discretization.py:2219-2317`. -/
def mergePair (O : MergeOps P) (old : MState P M) (ab2 : ModeAbs P) (cur : M) (prev : List M) :
    Except PyErr (MState P M) :=
  loopE (mergeCell O old ab2 cur prev) (indexPairs old.regions.length ab2.ppp.regions.length)
    ⟨[], fun _ _ => none, fun _ => none⟩

/-- `for cur_mode in remaining_modes`, `discretization.py:2166-2172`. -/
def mergeLoop (O : MergeOps P) (abs : Dict M (ModeAbs P)) :
    List M → List M → MState P M → Except PyErr (MState P M)
  | [], _, s => .ok s
  | cur :: rest, prev, s => match abs.get? cur with
    | none => .error .keyError
    | some ab2 => do
      let s' ← mergePair O s ab2 cur prev
      mergeLoop O abs rest (prev ++ [cur]) s'

/-- Equality of two dictionaries of regions. -/
def sameRegions (eqv : P → P → Bool) (a b : Dict String P) : Bool :=
  (a.all fun p => match b.get? p.1 with
    | some q => eqv p.2 q
    | none => false) && b.all fun p => a.has p.1

/-- Two regions have parents that are adjacent or equal in some mode, `discretization.py:2184-2192`.
(`KeyError` if a parent is missing; all parents are present.) -/
def touching (abs : Dict M (ModeAbs P)) (parents : M → Nat → Option Nat) (i j : Nat) : Bool :=
  abs.any fun p => match parents p.1 i, parents p.1 j with
    | some pi, some pj => p.2.adj pi pj || pi == pj
    | _, _ => false

/-- The adjacency matrix, `discretization.py:2180-2198`: the loop sets both entries for `j < i`. -/
def mergedAdj (O : MergeOps P) (abs : Dict M (ModeAbs P)) (s : MState P M) (i j : Nat) : Bool :=
  match s.regions[i]?, s.regions[j]? with
  | some a, some b =>
    if i = j then true
    else if j < i then touching abs s.parents i j && O.adjacent a.poly b.poly
    else touching abs s.parents j i && O.adjacent b.poly a.poly
  | _, _ => false

/-- The merged abstraction: `ppp`, its adjacency, `ppp2modes`, and `ap_labeling`. -/
structure Merged (P M : Type) where
  ppp : Partition P
  adj : Nat → Nat → Bool
  parents : M → Nat → Option Nat
  labels : Nat → Option (List String)

/-- `merge_partitions`, `discretization.py:2123-2208`. `order` is the order in which the set of the
remaining modes is iterated. The comparison of the original partitions only writes to the log. For the
first mode `parents` is a list in the code. -/
def mergePartitions (O : MergeOps P) (abs : Dict M (ModeAbs P)) (order : List M) :
    Except PyErr (Option (Merged P M)) :=
  match abs with
  | [] => .ok none
  | (m0, ab0) :: _ =>
    if abs.any fun p => abs.any fun q =>
        !sameRegions O.eqv p.2.ppp.propRegions q.2.ppp.propRegions ||
          !O.sameDomain p.2.ppp.domain q.2.ppp.domain then .error .exception
    else do
      let regions := ab0.ppp.regions
      let s ← mergeLoop O abs order [m0] ⟨regions,
        fun m i => if m = m0 ∧ i < regions.length then some i else none,
        fun i => (regions[i]?).map (·.props)⟩
      let ppp ← Partition.make O.le ab0.ppp.domain s.regions ab0.ppp.propRegions
      .ok (some ⟨ppp, mergedAdj O abs s, s.parents, s.labels⟩)

/-! ## Transitions -/

/-- `AbstractSwitched.ppp2pwa` and `ppp2sys`, `discretization.py:158-200`, `:373-414`: the cell of the
PWA partition around the region `i` and the active subsystem. -/
def modeCell (A : Merged P M) (mode : M) (ab : ModeAbs P) (i : Nat) : Except PyErr (P × Nat) := do
  let p ← getKey (A.parents mode) i
  let j ← getIdx ab.ppp2pwa p
  let c ← getIdx ab.pwaPpp j
  let sys ← (match ab.ppp2sys with
    | none => .ok 0
    | some l => getIdx l p)
  .ok (c.poly, sys)

/-- One check of `get_transitions`, `discretization.py:2079-2096`: `feas` is `is_feasible`. The entry
`(j, i)` of `IJ` asks for the transition from `i` to `j`. -/
def checkTrans (feas : P → P → Nat → P → Except PyErr Bool) (A : Merged P M) (mode : M)
    (ab : ModeAbs P) (t : Nat → Nat → Bool) (ji : Nat × Nat) : Except PyErr (Nat → Nat → Bool) := do
  let si ← getIdx A.ppp.regions ji.2
  let sj ← getIdx A.ppp.regions ji.1
  let c ← modeCell A mode ab ji.2
  let ok ← feas si.poly sj.poly c.2 c.1
  .ok fun a b => if a = ji.2 ∧ b = ji.1 then ok else t a b

/-- `get_transitions`, `discretization.py:2042-2107`. The loop takes the first entry of `IJ` in the order
of `np.nonzero` and clears it, hence visits the entries row by row. -/
def getTransitions (feas : P → P → Nat → P → Except PyErr Bool) (A : Merged P M) (mode : M)
    (ab : ModeAbs P) (transLength : Nat) : Except PyErr (Nat → Nat → Bool) :=
  let n := A.ppp.regions.length
  let todo := entriesOf n (reachableWithin n transLength A.adj A.adj)
  do
    let t ← loopE (checkTrans feas A mode ab) todo fun _ _ => false
    if todo.isEmpty then .error .assertion else .ok t

/-! ## The transition system -/

/-- The names of modes: strings or numbers. -/
inductive Act where
  | str (s : String)
  | num (n : Int)
deriving DecidableEq

/-- `str(·)`. -/
def Act.toStr : Act → Act
  | .str s => .str s
  | .num n => .str (toString n)

/-- The values of labels: sets of propositions for states, actions for transitions. -/
inductive Lab where
  | aps (l : List String)
  | act (a : Act)
deriving DecidableEq

/-- The label types of an `FTS` with the given propositions and actions, `transys/transys.py:513-570`. -/
def swNodeTypes (aps : List String) : Dict String (LabelType Lab) :=
  [("ap", { contains := fun
    | .aps l => l.all (· ∈ aps)
    | .act _ => false })]

def isAct (acts : List Act) : LabelType Lab :=
  { contains := fun
    | .act a => decide (a ∈ acts)
    | .aps _ => false }

def swEdgeTypes (env sys : List Act) : Dict String (LabelType Lab) :=
  [("env_actions", isAct env), ("sys_actions", isAct sys)]

/-- The label of a mode, `discretization.py:2009-2030`; `nums` is `mode_nums`. -/
def modeLabel (nums : Nat × Nat) (m : Act × Act) : Attr Lab :=
  if nums.1 = 0 then [("sys_actions", .act m.2.toStr)]
  else if nums.2 = 0 then [("env_actions", .act m.1.toStr)]
  else [("env_actions", .act m.1.toStr), ("sys_actions", .act m.2.toStr)]

/-- The actions that are declared, `discretization.py:2003-2030`. -/
def modeActions (nums : Nat × Nat) (modes : List (Act × Act)) : List Act × List Act :=
  if nums.1 = 0 then ([], modes.map fun m => m.2.toStr)
  else if nums.2 = 0 then (modes.map fun m => m.1.toStr, [])
  else (modes.map (·.1), modes.map (·.2))

/-- `sys_ts.states[state]['ap'] = props`, `discretization.py:1998-2002`. -/
def labelNode (regions : List (Region P)) (p : Nat × Attr Lab) : Nat × Attr Lab :=
  match regions[p.1]? with
  | some r => (p.1, p.2.set "ap" (.aps r.props))
  | none => p

/-- `merge_abstractions`, `discretization.py:1981-2039`. The labels of the states are assigned
without a check. With an empty list of modes `zip(*modes)` cannot be unpacked (and `modes[0]` does not
exist). -/
def mergeAbstractions (regions : List (Region P)) (trans : Act × Act → Nat → Nat → Bool)
    (aps : List String) (modes : List (Act × Act)) (nums : Nat × Nat) :
    LGraph Nat Lab × Option PyErr :=
  let g0 : LGraph Nat Lab :=
    { nodeTypes := swNodeTypes [], nodeDefaults := [("ap", .aps [])], edgeTypes := swEdgeTypes [] [] }
  if modes.isEmpty then (g0, some .indexError)
  else
    let n := regions.length
    match g0.addNodesFrom ((List.range n).map fun i => (i, [])) with
    | (g, some e) => (g, some e)
    | (g, none) =>
      let acts := modeActions nums modes
      let g : LGraph Nat Lab := { g with
        nodes := g.nodes.map (labelNode regions)
        nodeTypes := swNodeTypes aps
        edgeTypes := swEdgeTypes acts.1 acts.2 }
      modes.foldl (fun (r : LGraph Nat Lab × Option PyErr) m => match r with
        | (g, some e) => (g, some e)
        | (g, none) => g.addAdj n n (entriesOf n (trans m)) (List.range n) (modeLabel nums m)) (g, none)

/-- `discretize_switched`, `discretization.py:1866-1930`, after the modes have been discretized (`abs`,
in the order of `hybrid_sys.modes`): the merged abstraction and its transition system. `feas m` is
`is_feasible` and `lens m` is `trans_length` for the mode `m`. -/
def abstractSwitched (O : MergeOps P) (feas : Act × Act → P → P → Nat → P → Except PyErr Bool)
    (lens : Act × Act → Nat) (abs : Dict (Act × Act) (ModeAbs P)) (order : List (Act × Act))
    (aps : List String) (nums : Nat × Nat) :
    Except PyErr (Merged P (Act × Act) × LGraph Nat Lab) := do
  let r ← mergePartitions O abs order
  match r with
  | none => .error .typeError
  | some A =>
    let trans ← loopE (fun (t : Act × Act → Nat → Nat → Bool) (p : (Act × Act) × ModeAbs P) => do
      let t' ← getTransitions (feas p.1) A p.1 p.2 (lens p.1)
      .ok fun m => if m = p.1 then t' else t m) abs fun _ _ _ => false
    match mergeAbstractions A.ppp.regions trans aps abs.keys nums with
    | (_, some e) => .error e
    | (g, none) => .ok (A, g)

end Abs

end Tulip
