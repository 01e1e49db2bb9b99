import Verif.Synth.Formulas
import Verif.Transys.Machines
import Verif.Spec.GRSpec

/-!
# Model of the extraction of Mealy machines from strategies

`tulip/synth.py:1498-1530`, `:1658-2020`. Values of variables are integers and strings (`Elem`).
-/

namespace Tulip

namespace Synth

open Mach

variable {ν : Type} [DecidableEq ν]

/-- What `strategy2mealy` reads of the graph `A` returned by a solver: nodes with their attribute
`'state'`, edges (a `networkx.DiGraph` has no parallel edges) and the attribute `initial_nodes`, if
there is one. -/
structure Strategy (ν : Type) where
  nodes : Dict ν (Attr Elem)
  edges : List (ν × ν)
  initialNodes : Option (List ν)

/-- A loop that may raise. -/
def foldE {σ α : Type} (f : σ → α → Except PyErr σ) : σ → List α → Except PyErr σ
  | s, [] => .ok s
  | s, x :: xs => do
    let s ← f s x
    foldE f s xs

/-- `d[k]`. -/
def getE {κ α : Type} [DecidableEq κ] (d : Dict κ α) (k : κ) : Except PyErr α :=
  match d.get? k with
  | some v => .ok v
  | none => .error .keyError

/-- `l[n]`: negative indices count from the end. -/
def pyIndex {α : Type} (l : List α) (n : Int) : Except PyErr α :=
  match l[(if n < 0 then n + l.length else n).toNat]? with
  | some x => if n + l.length < 0 then .error .indexError else .ok x
  | none => .error .indexError

/-- The domain of a port, `create_machine_ports`, `machines.py:92-103`. -/
def domValues : Dom → List Elem
  | .boolean => [.int 0, .int 1]
  | .range lo hi => (List.range (hi + 1 - lo).toNat).map fun (n : Nat) => .int (lo + n)
  | .strs l => l.map .str

/-- `create_machine_ports`, `machines.py:78-104`. -/
def machinePorts (vars : Dict String Dom) : Ports Elem := vars.map fun p => (p.1, domValues p.2)

/-- The items of `str_vars`, `synth.py:1690-1699`. -/
def strItem (p : String × Dom) : Option (String × List String) :=
  match p.2 with
  | .strs l => some (p.1, l)
  | _ => none

/-- The variables with string values, `synth.py:1690-1699`. -/
def strVars (envVars sysVars : Dict String Dom) : Dict String (List String) :=
  Dict.update (envVars.filterMap strItem) (sysVars.filterMap strItem)

/-- The value of one entry in `_int2str`, `synth.py:1866-1874`. Simplification: `int(v)` raises
`ValueError` for every string `v` (strings of digits are not modelled). -/
def decodeValue (sv : Dict String (List String)) (k : String) (v : Elem) : Except PyErr Elem :=
  match sv.get? k with
  | none => .ok v
  | some l => match v with
    | .int n => (pyIndex l n).map .str
    | .str _ => .error .valueError

/-- `_int2str`, `synth.py:1850-1874`. -/
def int2str (sv : Dict String (List String)) : Attr Elem → Except PyErr (Attr Elem)
  | [] => .ok []
  | p :: d => do
    let v ← decodeValue sv p.1 p.2
    let r ← int2str sv d
    .ok ((p.1, v) :: r)

/-- The label of the edges to a node with the given state, `synth.py:1709-1716`. -/
def edgeLabel (vars : Dict String Dom) (sv : Dict String (List String)) (state : Attr Elem) :
    Except PyErr (Attr Elem) :=
  int2str sv (state.filter fun p => vars.has p.1)

/-- `tuple(d[k] for k in keys)`. -/
def valuesOf {V : Type} (keys : List String) (d : Attr V) : Except PyErr (List V) :=
  match keys with
  | [] => .ok []
  | k :: ks => do
    let v ← getE d k
    let r ← valuesOf ks d
    .ok (v :: r)

/-- The body of the loop over the edges, `synth.py:1706-1723`. -/
def addStrategyEdge (A : Strategy ν) (vars : Dict String Dom) (sv : Dict String (List String))
    (g : LGraph ν Elem) (e : ν × ν) : Except PyErr (LGraph ν Elem) := do
  let st ← getE A.nodes e.2
  let d ← edgeLabel vars sv st
  g.addEdge e.1 e.2 d false

/-- The body of the loop of `_init_edges_using_initial_nodes`, `synth.py:1771-1788`; the first
component is `init_valuations`. -/
def initEdge (A : Strategy ν) (vars : Dict String Dom) (sv : Dict String (List String)) (sinit : ν)
    (s : List (List Elem) × LGraph ν Elem) (u : ν) :
    Except PyErr (List (List Elem) × LGraph ν Elem) := do
  let st ← getE A.nodes u
  let vals ← valuesOf vars.keys st
  if vals ∈ s.1 then .ok s
  else
    let d ← edgeLabel vars sv st
    let g ← s.2.addEdge sinit u d
    .ok (vals :: s.1, g)

/-- The variables of the loop of `_init_edges_using_compile_init`, `synth.py:1806-1812`. -/
structure InitLoop (ν : Type) where
  seen : List (List Elem)
  tmp : Attr Elem
  graph : LGraph ν Elem

/-- The body of the loop of `_init_edges_using_compile_init`, `synth.py:1812-1847`. `isInit` is the
evaluation of the expression returned by `GRSpec.compile_init`. -/
def initEdgeEval (vars : Dict String Dom) (sv : Dict String (List String))
    (isInit : Attr Elem → Except PyErr Bool) (sinit : ν) (s : InitLoop ν) (p : ν × Attr Elem) :
    Except PyErr (InitLoop ν) := do
  let vals ← valuesOf vars.keys p.2
  if vals ∈ s.seen then .ok s
  else
    let tmp := s.tmp.update p.2
    let b ← isInit tmp
    if b then
      let d ← edgeLabel vars sv p.2
      let g ← s.graph.addEdge sinit p.1 d false
      .ok ⟨vals :: s.seen, tmp, g⟩
    else .ok { s with tmp := tmp }

/-- The initial edges, `synth.py:1725-1738`, `:1757-1847`. -/
def addInitEdges (A : Strategy ν) (vars : Dict String Dom) (sv : Dict String (List String))
    (isInit : Attr Elem → Except PyErr Bool) (sinit : ν) (g : LGraph ν Elem) :
    Except PyErr (LGraph ν Elem) :=
  match A.initialNodes with
  | some l => do
    if l.isEmpty then .error .assertion
    else
      let r ← foldE (initEdge A vars sv sinit) ([], g) l
      .ok r.2
  | none => do
    let r ← foldE (initEdgeEval vars sv isInit sinit) ⟨[], [], g⟩ A.nodes
    .ok r.graph

/-- The edges of the strategy in the order of the loops, `synth.py:1706-1707`. -/
def strategyEdges (A : Strategy ν) : List (ν × ν) :=
  A.nodes.flatMap fun p => A.edges.filter fun e => decide (e.1 = p.1)

/-- `strategy2mealy`, `synth.py:1658-1754`. `sinit` is the name `'Sinit'`. The last test of the
function is not modelled: `mach.successors` returns an iterator, which is always true. -/
def strategy2mealy (A : Strategy ν) (envVars sysVars : Dict String Dom)
    (isInit : Attr Elem → Except PyErr Bool) (sinit : ν) : Except PyErr (Machine ν Elem) :=
  match A.nodes with
  | [] => .error .assertion
  | first :: _ => do
    let m : Machine ν Elem := newMealy (machinePorts envVars) (machinePorts sysVars)
    let sv := strVars envVars sysVars
    let g ← toExcept (m.graph.addNodesFrom (A.nodes.map fun p => (p.1, [])))
    let vars := Dict.update envVars sysVars
    if !vars.keys.all (fun k => first.2.has k) then .error .assertion
    else
      let g ← foldE (addStrategyEdge A vars sv) g (strategyEdges A)
      let g ← g.addNode sinit []
      let g ← g.addInitial sinit
      let g ← addInitEdges A vars sv isInit sinit g
      if g.nodes.length ≠ A.nodes.length + 1 then .error .assertion
      else .ok { m with graph := g }

/-- `_trim_strategy`, `synth.py:1498-1530`. `order` is the enumeration of sets of states. -/
def trimStrategy (order : List ν → List ν) (A : Option (Strategy ν))
    (envVars sysVars : Dict String Dom) (isInit : Attr Elem → Except PyErr Bool) (sinit : ν)
    (rmDeadends : Bool) : Except PyErr (Option (Machine ν Elem)) :=
  match A with
  | none => .ok none
  | some A => do
    let m ← strategy2mealy A envVars sysVars isInit sinit
    if rmDeadends then
      let g ← toExcept (m.graph.removeDeadends order)
      .ok (some { m with graph := g })
    else .ok (some m)

/-! ## Determinization of the initial reactions -/

variable {V : Type} [DecidableEq V]

/-- The loop `for k in given_ports` of `determinize_machine_init`, `synth.py:1985-1989`: `True` if
the edge is kept. -/
def agrees (wanted : Attr V) (d : Attr V) : List String → Except PyErr Bool
  | [] => .ok true
  | k :: ks => do
    let x ← getE d k
    let y ← getE wanted k
    if x ≠ y then .ok false else agrees wanted d ks

/-- The edges kept by the first loop, `synth.py:1980-1990`: those that do not leave `sinit` and
those with the given outputs. -/
def keepGiven (ports : List String) (wanted : Attr V) (sinit : ν) :
    List (ν × ν × Attr V) → Except PyErr (List (ν × ν × Attr V))
  | [] => .ok []
  | e :: es =>
    if e.1 = sinit then do
      let b ← agrees wanted e.2.2 ports
      let r ← keepGiven ports wanted sinit es
      .ok (if b then e :: r else r)
    else do
      let r ← keepGiven ports wanted sinit es
      .ok (e :: r)

/-- The edges kept by the second loop, `synth.py:1998-2019`: the first one for each input. -/
def keepFirst (inputs : List String) (sinit : ν) :
    List (List V) → List (ν × ν × Attr V) → Except PyErr (List (ν × ν × Attr V))
  | _, [] => .ok []
  | seen, e :: es =>
    if e.1 = sinit then do
      let vals ← valuesOf inputs e.2.2
      if vals ∈ seen then keepFirst inputs sinit seen es
      else
        let r ← keepFirst inputs sinit (vals :: seen) es
        .ok (e :: r)
    else do
      let r ← keepFirst inputs sinit seen es
      .ok (e :: r)

/-- `determinize_machine_init`, `synth.py:1891-2020`. -/
def determinizeInit (m : Machine ν V) (sinit : ν) (wanted : Attr V) :
    Except PyErr (Machine ν V) := do
  let ports := m.outputs.keys.filter wanted.has
  let es ← keepGiven ports wanted sinit m.graph.edges
  let es ← keepFirst m.inputs.keys sinit [] es
  .ok { m with graph := { m.graph with edges := es } }

/-! ## Masking outputs -/

/-- The body of the outer loop of `mask_outputs`, `synth.py:1882-1888`: a dictionary whose size
changes during iteration raises `RuntimeError` at the next step. -/
def maskEdge (outputs : List String) (d : Attr Elem) : Attr Elem × Option PyErr :=
  match d.find? fun p => decide (p.1 ∈ outputs) && decide (p.2 = .int 0) with
  | none => (d, none)
  | some p => (d.filter fun q => !decide (q.1 = p.1), some .runtime)

/-- `mask_outputs`, `synth.py:1877-1888`: the edges when it ends, and the exception. -/
def maskOutputs (outputs : List String) :
    List (ν × ν × Attr Elem) → List (ν × ν × Attr Elem) × Option PyErr
  | [] => ([], none)
  | e :: es => match maskEdge outputs e.2.2 with
    | (d, some err) => ((e.1, e.2.1, d) :: es, some err)
    | (d, none) =>
      let r := maskOutputs outputs es
      ((e.1, e.2.1, d) :: r.1, r.2)

end Synth

end Tulip
