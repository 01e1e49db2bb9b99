import Verif.Interfaces.Gr1c
import Verif.Interfaces.Slugs
import Verif.Interfaces.Omega
import Verif.Spec.Translate
import Verif.Synth.Synthesize

/-!
# Model of the calls of the solvers

The functions `synthesize` and `check_realizable` of `tulip/interfaces/gr1c.py`, `gr1py.py`, `slugs.py` and
`omega.py`: what they pass to the solver and what they make of its answer. The solvers themselves are
parameters. The specification is given with empty caches (C84: the caches do not matter).
-/

namespace Tulip

namespace Iface

open Synth Cache Trans

variable {ν δ : Type} [DecidableEq ν]

/-! ## `gr1c` -/

/-- The executable `gr1c`: the return code and the output of the call with the options `-n`, an initial
option, `-t`, `json` and the given file on the standard input, and the return code of the call with
`-n`, an initial option, `-r`. -/
structure Gr1cExe (ν δ : Type) where
  solve : InitOption → List Char → Int × AutJson ν δ Synth.Elem
  check : InitOption → List Char → Int

/-- `gr1c.synthesize`, `gr1c.py:520-582`. `none` for the executable: it is not found or too old,
`_assert_gr1c`, `gr1c.py:94-105`. The log is not modelled. -/
def gr1cSynthesize (order : List Part) (exe : Option (Gr1cExe ν δ)) : Solve ν := fun g =>
  match exe with
  | none => .error .exception
  | some E => do
    let o ← selectOptions g
    let s ← (translateGr1c order (new g)).2
    let r := E.solve o s
    if r.1 = 0 then
      let a ← loadAutJson r.2
      .ok (some a.strategy)
    else .ok none

/-- `gr1c.check_realizable`, `gr1c.py:482-517`. -/
def gr1cCheck (order : List Part) (exe : Option (Gr1cExe ν δ)) : GRSpec → Except PyErr Bool := fun g =>
  match exe with
  | none => .error .exception
  | some E => do
    let o ← selectOptions g
    let s ← (translateGr1c order (new g)).2
    .ok (decide (E.check o s = 0))

/-! ## `gr1py` -/

/-- The package `gr1py`: the strategy found for an initial option and an input text, as JSON, or none, and
the answer about realizability. -/
structure Gr1pyLib (ν δ : Type) where
  solve : InitOption → List Char → Option (AutJson ν δ Synth.Elem)
  check : InitOption → List Char → Bool

/-- `_spec_to_gr1py`, `gr1py.py:93-106`, after the choice of the initial option. -/
def gr1pyInput (order : List Part) (lib : Option (Gr1pyLib ν δ)) (g : GRSpec) :
    Except PyErr (Gr1pyLib ν δ × InitOption × List Char) := do
  let o ← selectOptions g
  match lib with
  | none => .error .valueError
  | some L => do
    let s ← (translateGr1c order (new g)).2
    .ok (L, o, s)

/-- `gr1py.synthesize`, `gr1py.py:74-90`. -/
def gr1pySynthesize (order : List Part) (lib : Option (Gr1pyLib ν δ)) : Solve ν := fun g => do
  let p ← gr1pyInput order lib g
  match p.1.solve p.2.1 p.2.2 with
  | none => .ok none
  | some j => do
    let a ← loadAutJson j
    .ok (some a.strategy)

/-- `gr1py.check_realizable`, `gr1py.py:54-71`. -/
def gr1pyCheck (order : List Part) (lib : Option (Gr1pyLib ν δ)) : GRSpec → Except PyErr Bool := fun g => do
  let p ← gr1pyInput order lib g
  .ok (p.1.check p.2.1 p.2.2)

/-! ## `slugs` -/

/-- What `slugs` prints: the return code, the standard error, and the strategy on the standard output: the
names of the bits, and the nodes. -/
structure SlugsOutput where
  code : Int
  err : List Char
  names : List (List Char)
  nodes : Dict Int SlugsNode

/-- The executable `slugs`, with its compiler, on an input file in the structured format: `true` for a call
that asks for a strategy. -/
abbrev SlugsExe := Bool → List Char → SlugsOutput

/-- `_call_slugs`, `slugs.py:167-259`. `none`: the executable or the compiler is not found. -/
def callSlugs (exe : Option SlugsExe) (synth : Bool) (file : List Char) : Except PyErr (Bool × SlugsOutput) :=
  match exe with
  | none => .error .exception
  | some E =>
    let r := E synth file
    if r.code ≠ 0 then .error .exception
    else if isIn (c!"Specification is " ++ c!"realizable") r.err then .ok (true, r)
    else if isIn (c!"Specification is " ++ c!"unrealizable") r.err then .ok (false, r)
    else .error .assertion

/-- The domains that `_bitfields_to_ints` sees. -/
def sdom : Dom → SDom
  | .boolean => .boolean
  | .range lo hi => .range lo hi
  | .strs l => .strs l.length

/-- The tables of variables with names as lists of characters. -/
def slugsVarsOf (d : Dict String Dom) : Dict (List Char) SDom := d.map fun p => (p.1.toList, sdom p.2)

/-- The strategy that `strategy2mealy` reads from the graph that `slugs.synthesize` returns: it has no
attribute `initial_nodes`. -/
def slugsStrategy (h : DiG Int (Dict (List Char) Int)) : Strategy Int :=
  { nodes := h.nodes.filterMap fun p => p.2.map fun st =>
      (p.1, st.map fun x => (String.ofList x.1, Synth.Elem.int x.2))
    edges := h.edges
    initialNodes := none }

/-- The input file, `slugs.py:73-75`, `:95-97`. -/
def slugsInput (order : List Part) (g : GRSpec) : Except PyErr (List Char) :=
  if g.moore then .error .assertion
  else if g.plusOne then .error .assertion
  else (translateSlugs order (new g)).2

/-- `slugs.synthesize`, `slugs.py:84-134`, with `symbolic` not set. -/
def slugsSynthesize (order : List Part) (exe : Option SlugsExe) : Solve Int := fun g => do
  let s ← slugsInput order g
  let r ← callSlugs exe true s
  if !r.1 then .ok none
  else
    let h ← slugsGraph (slugsVarsOf g.sysVars) (slugsVarsOf g.envVars) r.2.names r.2.nodes
    .ok (some (slugsStrategy h))

/-- `slugs.check_realizable`, `slugs.py:60-81`, for an object that is a `GRSpec`. -/
def slugsCheck (order : List Part) (exe : Option SlugsExe) : GRSpec → Except PyErr Bool := fun g => do
  let s ← slugsInput order g
  let r ← callSlugs exe false s
  .ok r.1

/-! ## `omega` -/

/-- The package `omega`: whether the action of the system is unsatisfiable, whether a game is realizable,
and the enumerated strategy. -/
structure OmegaLib (ν : Type) where
  sysFalse : Omega.Game → Bool
  realizable : Omega.Game → Bool
  strategy : Omega.Game → Omega.Enumerated ν Synth.Elem

/-- The strategy that `strategy2mealy` reads from the graph that the interface to omega returns. -/
def annotatedStrategy (h : Omega.Annotated ν Synth.Elem) : Strategy ν :=
  { nodes := h.nodes, edges := h.edges, initialNodes := some h.initial }

/-- `omega.synthesize_enumerated_streett`, `omega.py:48-77`. `none`: the package is not installed,
`omega.py:137-139`. Time and messages are not modelled. -/
def omegaSynthesize (order : List Part) (lib : Option (OmegaLib ν)) : Solve ν := fun g =>
  match lib with
  | none => .error .exception
  | some L => do
    let G ← (Omega.toAutomaton order (new g)).2
    if L.sysFalse G then .error .assertion
    else if !L.realizable G then .ok none
    else .ok (some (annotatedStrategy (Omega.toStateAnnotated (L.strategy G) G.vars)))

/-- `omega.is_realizable`, `omega.py:33-45`. -/
def omegaCheck (order : List Part) (lib : Option (OmegaLib ν)) : GRSpec → Except PyErr Bool := fun g =>
  match lib with
  | none => .error .exception
  | some L => do
    let G ← (Omega.toAutomaton order (new g)).2
    .ok (L.realizable G)

end Iface

end Tulip
