import Verif.Transys.Graph

/-!
# Model of `tulip/transys/machines.py`

Transducers whose ports have finite explicit types: a type is the list of its values, in the order in
which Python enumerates it. Edge and state labels are dictionaries from port names to values.
The nodes of a graph and the edges from a node are enumerated in the order of the model's lists.
-/

namespace Tulip
namespace Mach

variable {ν V : Type} [DecidableEq ν] [DecidableEq V]

/-- The ports of a machine: names and values. -/
abbrev Ports (V : Type) := Dict String (List V)

/-- A port type as a label type: `v in port_type`. -/
def typesOf (ports : Ports V) : Dict String (LabelType V) :=
  ports.map fun p => (p.1, { contains := fun v => decide (v ∈ p.2) })

/-- `Transducer`, `machines.py:107-327`. -/
structure Machine (ν V : Type) where
  graph : LGraph ν V
  inputs : Ports V
  outputs : Ports V

/-- `MealyMachine()` followed by `add_inputs` and `add_outputs`, `machines.py:278-314`, `:570-607`:
the ports are label types of the edges. -/
def newMealy (inputs outputs : Ports V) : Machine ν V where
  graph := { edgeTypes := Dict.update (Dict.update [] (typesOf inputs)) (typesOf outputs) }
  inputs := inputs
  outputs := outputs

/-- `MooreMachine()` followed by `add_inputs` and `add_outputs`, `machines.py:278-314`, `:408-428`:
the outputs are label types of the states. -/
def newMoore (inputs outputs : Ports V) : Machine ν V where
  graph := { edgeTypes := Dict.update [] (typesOf inputs), nodeTypes := Dict.update [] (typesOf outputs) }
  inputs := inputs
  outputs := outputs

/-- `project_dict`, `machines.py:1160-1169`. -/
def projectDict (x : Attr V) (y : String → Bool) : Attr V := x.filter fun p => y p.1

/-- `trim_dict`, `machines.py:1172-1181`. -/
def trimDict {α : Type} (x : Dict String α) (y : List String) : Dict String α :=
  x.filter fun p => !decide (p.1 ∈ y)

/-! ## Reactions and runs -/

/-- The edges that `reaction` finds enabled, `machines.py:647-656`. With `lazy` only the ports that
the given inputs mention are compared. -/
def enabled (m : Machine ν V) (s : ν) (ins : Attr V) (lazy : Bool) : List (ν × ν × Attr V) :=
  let restricted := fun k => m.inputs.has k && (!lazy || ins.has k)
  m.graph.edges.filter fun e => decide (e.1 = s) && (projectDict e.2.2 restricted).beqv ins

/-- `MealyMachine.reaction`, `machines.py:609-690`. The three messages of the `ValueError` are not
modelled. -/
def reaction (m : Machine ν V) (s : ν) (ins : Attr V) (lazy : Bool := false) :
    Except PyErr (ν × Attr V) :=
  match enabled m s ins lazy with
  | [e] => .ok (e.2.1, projectDict e.2.2 m.outputs.has)
  | _ => .error .valueError

/-- `v[i]`. -/
def itemAt (l : List V) (i : Nat) : Except PyErr V :=
  match l[i]? with
  | some v => .ok v
  | none => .error .indexError

/-- `{k: v[i] for k, v in seqs.items()}`, `machines.py:793-796`. -/
def inputsAt (seqs : Dict String (List V)) (i : Nat) : Except PyErr (Attr V) :=
  match seqs with
  | [] => .ok []
  | p :: rest => do
    let v ← itemAt p.2 i
    let r ← inputsAt rest i
    .ok ((p.1, v) :: r)

/-- `output_seqs[k].append(outputs[k])` for all ports, `machines.py:799-801`. -/
def appendOutputs (out : Attr V) : Dict String (List V) → Except PyErr (Dict String (List V))
  | [] => .ok []
  | p :: rest => match out.get? p.1 with
    | none => .error .keyError
    | some v => do
      let r ← appendOutputs out rest
      .ok ((p.1, p.2 ++ [v]) :: r)

/-- The loop of `guided_run`, `machines.py:792-801`. -/
def runLoop (m : Machine ν V) (seqs : Dict String (List V)) :
    List Nat → ν → List ν → Dict String (List V) → Except PyErr (List ν × Dict String (List V))
  | [], _, states, outs => .ok (states, outs)
  | i :: is, s, states, outs => do
    let ins ← inputsAt seqs i
    let r ← reaction m s ins
    let outs' ← appendOutputs r.2 outs
    runLoop m seqs is r.1 (states ++ [r.1]) outs'

/-- `guided_run`, `machines.py:731-804`; the values of `input_sequences` are lists. -/
def guidedRun (m : Machine ν V) (fromState : Option ν) (seqs : Dict String (List V)) :
    Except PyErr (List ν × Dict String (List V)) :=
  if m.inputs.any (fun p => !seqs.has p.1) then .error .valueError
  else if seqs.any (fun p => seqs.any fun q => p.2.length != q.2.length) then .error .valueError
  else match fromState.or m.graph.initial.head? with
    | none => .error .stopIteration
    | some s => match seqs with
      | [] => .error .stopIteration
      | p :: _ => runLoop m seqs (List.range p.2.length) s [] (m.outputs.map fun q => (q.1, []))

/-! ## Conversions -/

/-- The edges that leave `s`, `transitions.find(s)`. -/
def out (g : LGraph ν V) (s : ν) : List (ν × ν × Attr V) := g.edges.filter fun e => decide (e.1 = s)

/-- `states.add_from` of the nodes of another machine. -/
def copyNodes (g : LGraph ν V) (ns : List ν) : LGraph ν V × Option PyErr :=
  g.addNodesFrom (ns.map fun n => (n, []))

/-- `d.update(e)` with the label of a node. -/
def nodeAttr (g : LGraph ν V) (s : ν) : Attr V := (g.nodes.get? s).getD []

/-- Turn the pair of `seqM` into an exception. -/
def toExcept {α : Type} : α × Option PyErr → Except PyErr α
  | (g, none) => .ok g
  | (_, some e) => .error e

/-- `moore2mealy`, `machines.py:966-1012`. -/
def moore2mealy (m : Machine ν V) : Except PyErr (Machine ν V) := do
  let new : Machine ν V := newMealy m.inputs m.outputs
  let g ← toExcept (copyNodes new.graph m.graph.nodes.keys)
  let g ← g.addInitialFrom m.graph.initial
  let es := m.graph.nodes.keys.flatMap fun s =>
    (out m.graph s).map fun e =>
      (s, e.2.1, e.2.2.update (projectDict (nodeAttr m.graph s) m.outputs.has))
  let g ← toExcept (LGraph.seqM (fun g e => g.addEdge e.1 e.2.1 e.2.2) g es)
  .ok { new with graph := g }

/-- `strip_ports`, `machines.py:1184-1215`; `names` is a collection of strings. -/
def stripPorts (m : Machine ν V) (names : List String) : Except PyErr (Machine ν V) := do
  let new : Machine ν V := newMealy (trimDict m.inputs names) (trimDict m.outputs names)
  let g ← toExcept (copyNodes new.graph m.graph.nodes.keys)
  let g ← g.addInitialFrom m.graph.initial
  let es := m.graph.edges.map fun e => (e.1, e.2.1, trimDict e.2.2 names)
  let g ← toExcept (LGraph.seqM (fun g e => g.addEdge e.1 e.2.1 e.2.2) g es)
  .ok { new with graph := g }

/-- The state of `mealy2moore`: the machine under construction (its states `'s0'`, `'s1'`, ... are
numbers here), and `moore2mealy_states`. (`mealy2moore_states` is the inverse relation.) -/
structure Conv (ν V : Type) where
  graph : LGraph Nat V
  back : Dict Nat ν

/-- `_create_state_str`, `machines.py:1115-1134`. At most one state is found, so the order in which
the set is enumerated does not matter. -/
def createState (c : Conv ν V) (s : ν) (output : Attr V) : Except PyErr (Nat × Conv ν V) :=
  match c.back.find? (fun p => decide (p.2 = s) && (nodeAttr c.graph p.1).beqv output) with
  | some p => .ok (p.1, c)
  | none => do
    let n := c.graph.nodes.length
    let g ← c.graph.addNode n output
    .ok (n, { graph := g, back := c.back.set n s })

/-- The loop over the transitions of one state, `machines.py:1068-1080`. -/
def convEdges (m : Machine ν V) (q : Nat) :
    List (ν × ν × Attr V) → Conv ν V → List Nat → List Nat →
      Except PyErr (Conv ν V × List Nat × List Nat)
  | [], c, Q, S => .ok (c, Q, S)
  | e :: es, c, Q, S => do
    let (r, c) ← createState c e.2.1 (projectDict e.2.2 m.outputs.has)
    let g ← c.graph.addEdge q r (projectDict e.2.2 m.inputs.has)
    let c := { c with graph := g }
    if r ∈ S then convEdges m q es c Q S else convEdges m q es c (Q ++ [r]) (S ++ [r])

/-- The loop `while Q`, `machines.py:1064-1083`; `pick` is the choice of `Q.pop()`, and the first
argument bounds the number of rounds. -/
def convLoop (m : Machine ν V) (pick : List Nat → Nat) :
    Nat → Conv ν V → List Nat → List Nat → Except PyErr (Conv ν V)
  | 0, _, _, _ => .error .notImplemented
  | fuel + 1, c, Q, S =>
    if Q.isEmpty then .ok c
    else
      let q := pick Q
      match c.back.get? q with
      | none => .error .keyError
      | some s => do
        let (c, Q, S) ← convEdges m q (out m.graph s) c (Q.erase q) S
        convLoop m pick fuel c Q S

/-- `{k: list(v)[0] for k, v in mealy.outputs.items()}`, `machines.py:1047-1050`. -/
def firstValues : Ports V → Except PyErr (Attr V)
  | [] => .ok []
  | p :: ps => match p.2 with
    | [] => .error .indexError
    | v :: _ => do
      let r ← firstValues ps
      .ok ((p.1, v) :: r)

/-- `mealy2moore`, `machines.py:1015-1084`, with the map from its states to those of the Mealy
machine. -/
def mealy2moore (m : Machine ν V) (pick : List Nat → Nat) :
    Except PyErr (Machine Nat V × Dict Nat ν) := do
  let new : Machine Nat V := newMoore m.inputs m.outputs
  let output ← firstValues m.outputs
  match m.graph.initial.head? with
  | none => .error .indexError
  | some s0 =>
    let (q0, c) ← createState { graph := new.graph, back := [] } s0 output
    let g ← c.graph.addNode q0 output
    let g ← g.addInitial q0
    let c ← convLoop m pick (m.graph.edges.length + 2) { c with graph := g } [q0] [q0]
    .ok ({ new with graph := c.graph }, c.back)

end Mach
end Tulip
