import Verif.Transys.Machines

/-!
# Model of `export_mealy`, `contrib/matlabsim/tomatlab.py:238-346`

The dictionary that is saved for Matlab is a structure. `str` prints a value. The names of states are of
any type, with a distinguished name `sinit`, `'Sinit'`.
-/

namespace Tulip
namespace Matlab

open Mach

variable {ν V T : Type} [DecidableEq ν] [DecidableEq V]

/-- `state_dict`, `tomatlab.py:283-286`; `loc` is absent for discrete systems. -/
structure StateRec (ν V : Type) where
  name : ν
  loc : Option V
deriving DecidableEq

/-- `transition_dict`, `tomatlab.py:314-318`. -/
structure TransRec (ν T : Type) where
  start : ν
  stop : ν
  inputs : Dict String T
  outputs : Dict String T
deriving DecidableEq

/-- `trans_dict`, `tomatlab.py:335-343`. -/
structure InitRec (ν V T : Type) where
  state : ν
  inputs : Dict String T
  outputs : Dict String T
  startLoc : V
deriving DecidableEq

/-- The dictionary returned, `tomatlab.py:288-346`. -/
structure Output (ν V T : Type) where
  states : List (StateRec ν V)
  inputs : List (String × List V)
  outputs : List (String × List V)
  transitions : List (TransRec ν T)
  initTrans : List (InitRec ν V T)
deriving DecidableEq

/-- `d[k]`. -/
def item {κ α : Type} [DecidableEq κ] (d : Dict κ α) (k : κ) : Except PyErr α :=
  match d.get? k with
  | some v => .ok v
  | none => .error .keyError

/-- `node_to_loc`, `tomatlab.py:270-272`. -/
def nodeToLoc : Dict ν V → List (ν × ν × Attr V) → Except PyErr (Dict ν V)
  | d, [] => .ok d
  | d, e :: es => do
    let v ← item e.2.2 "loc"
    nodeToLoc (d.set e.2.1 v) es

/-- The loop over the nodes, `tomatlab.py:278-287`. -/
def stateList (sinit : ν) (continuous : Bool) (locs : Dict ν V) : List ν → Except PyErr (List (StateRec ν V))
  | [] => .ok []
  | u :: us =>
    if u = sinit then stateList sinit continuous locs us
    else do
      let loc ← if continuous then (item locs u).map some else .ok none
      let rest ← stateList sinit continuous locs us
      .ok (⟨u, loc⟩ :: rest)

/-- `export_mealy_io`, `tomatlab.py:238-250`. -/
def exportMealyIo (ports : Ports V) : List (String × List V) := ports.map fun p => (p.1, p.2)

/-- `{var: str(label[var]) for var in vars}`, `tomatlab.py:308-313`; the names of ports are distinct. -/
def values (str : V → T) (label : Attr V) : List String → Except PyErr (Dict String T)
  | [] => .ok []
  | k :: ks => do
    let v ← item label k
    let rest ← values str label ks
    .ok ((k, str v) :: rest)

/-- The loop over the edges, `tomatlab.py:304-319`. -/
def transitionList (sinit : ν) (str : V → T) (m : Machine ν V) :
    List (ν × ν × Attr V) → Except PyErr (List (TransRec ν T))
  | [] => .ok []
  | e :: es =>
    if e.1 = sinit then transitionList sinit str m es
    else if e.2.1 = sinit then .error .assertion
    else do
      let i ← values str e.2.2 m.inputs.keys
      let o ← values str e.2.2 m.outputs.keys
      let rest ← transitionList sinit str m es
      .ok (⟨e.1, e.2.1, i, o⟩ :: rest)

/-- `mealy_machine.successors(SINIT)`, each successor once. -/
def successors (g : LGraph ν V) (s : ν) : List ν := uniqueLoop [] ((out g s).map (·.2.1))

/-- The loop over the edges from the successors, `tomatlab.py:332-344`. -/
def initList (sinit : ν) (str : V → T) (m : Machine ν V) (locs : Dict ν V) :
    List (ν × ν × Attr V) → Except PyErr (List (InitRec ν V T))
  | [] => .ok []
  | e :: es =>
    if e.1 = sinit then .error .assertion
    else if e.2.1 = sinit then .error .assertion
    else do
      let i ← values str e.2.2 m.inputs.keys
      let o ← values str e.2.2 m.outputs.keys
      let l ← item locs e.1
      let rest ← initList sinit str m locs es
      .ok (⟨e.2.1, i, o, l⟩ :: rest)

/-- `export_mealy`, `tomatlab.py:253-346`. The exception of `networkx` for a graph without the node
`SINIT` is `.exception`. The result of `successors` is an iterator, so the assertion about it holds. -/
def exportMealy (sinit : ν) (str : V → T) (m : Machine ν V) (continuous : Bool) :
    Except PyErr (Output ν V T) := do
  let locs ← nodeToLoc [] m.graph.edges
  if locs.length + 1 ≠ m.graph.nodes.length then .error .assertion
  else do
    let states ← stateList sinit continuous locs m.graph.nodes.keys
    let transitions ← transitionList sinit str m m.graph.edges
    if m.graph.hasNode sinit = false then .error .exception
    else do
      let init ← initList sinit str m locs ((successors m.graph sinit).flatMap (out m.graph))
      .ok { states, inputs := exportMealyIo m.inputs, outputs := exportMealyIo m.outputs,
            transitions, initTrans := init }

end Matlab
end Tulip
