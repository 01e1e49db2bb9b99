import Verif.Transys.Machines

/-!
# Model of `tulip/dumpsmach.py`: the Python class that `python_case` emits

The emitted text is modelled as the program that it is: an initial state, and for each state a chain
of `if`/`elif` with guards, assignments and a fallback. That the text of a value (`{v}`, or `'{v}'` for
a string) reads back as that value, and the layout of the text, are not modelled.
-/

namespace Tulip
namespace Mach

variable {ν V : Type} [DecidableEq ν] [DecidableEq V]

/-- A branch `if guard: self.state = target; output[k] = v; ...`. The guard `True` is `none`, and a
conjunction of equalities is the list of its conjuncts. -/
structure Branch (V : Type) where
  guard : Option (Attr V)
  target : Nat
  outputs : Attr V

/-- What follows the branches of a state: `else: self._error(...)`, nothing, or (instead of branches)
`raise RuntimeError`. -/
inductive Fallback
  | error | nothing | deadend

/-- `if self.state == id:` and its body. -/
structure Case (V : Type) where
  id : Nat
  branches : List (Branch V)
  fallback : Fallback

/-- The emitted class. -/
structure Prog (V : Type) where
  init : Nat
  inputs : List String
  cases : List (Case V)

/-- `node_to_int[s]`: the position of the state in the enumeration of the machine's states. -/
def nodeId (m : Machine ν V) (s : ν) : Nat := m.graph.nodes.keys.idxOf s

/-- The branch for an edge, `dumpsmach.py:128-147`. -/
def branchOf (m : Machine ν V) (e : ν × ν × Attr V) : Branch V where
  guard := if m.inputs.isEmpty then none else some (projectDict e.2.2 m.inputs.has)
  target := nodeId m e.2.1
  outputs := projectDict e.2.2 m.outputs.has

/-- `dumpsmach.py:149-156`. -/
def fallbackOf (m : Machine ν V) (branches : List (Branch V)) : Fallback :=
  if branches.isEmpty then .deadend else if m.inputs.isEmpty then .nothing else .error

/-- The statements for a state, `dumpsmach.py:126-165`. -/
def caseOf (m : Machine ν V) (s : ν) : Case V :=
  let branches := (out m.graph s).map (branchOf m)
  { id := nodeId m s, branches := branches, fallback := fallbackOf m branches }

/-- `python_case`, `dumpsmach.py:64-184`. -/
def pythonCase (m : Machine ν V) (start : ν) : Except PyErr (Prog V) :=
  if m.graph.hasNode start then
    .ok { init := nodeId m start, inputs := m.inputs.keys, cases := m.graph.nodes.keys.map (caseOf m) }
  else .error .keyError

/-! ## Python's semantics of the emitted class -/

/-- Compiling the text: `if :`, with an empty guard, is not Python. -/
def Prog.compiles (p : Prog V) : Bool :=
  p.cases.all fun c => c.branches.all fun b => !decide (b.guard = some [])

/-- A guard with the values of the arguments. -/
def guardHolds (args : Attr V) : Option (Attr V) → Bool
  | none => true
  | some g => g.all fun kv => decide (args.get? kv.1 = some kv.2)

/-- The body of a state. -/
def Case.exec (c : Case V) (args : Attr V) : Except PyErr (Nat × Attr V) :=
  match c.branches.find? fun b => guardHolds args b.guard with
  | some b => .ok (b.target, Dict.update [] b.outputs)
  | none => match c.fallback with
    | .error => .error .valueError
    | .nothing => .ok (c.id, [])
    | .deadend => .error .runtime

/-- `self.move(**args)` in a state: the new state and the returned dictionary. -/
def Prog.move (p : Prog V) (state : Nat) (args : Attr V) : Except PyErr (Nat × Attr V) :=
  if p.inputs.all args.has && args.all (fun kv => decide (kv.1 ∈ p.inputs)) then
    match p.cases.find? fun c => decide (c.id = state) with
    | some c => c.exec args
    | none => .error .assertion
  else .error .typeError

/-- Successive calls of `move`: the states and the returned dictionaries. -/
def Prog.moves (p : Prog V) : Nat → List (Attr V) → Except PyErr (List Nat × List (Attr V))
  | _, [] => .ok ([], [])
  | s, a :: as => do
    let r ← p.move s a
    let rs ← p.moves r.1 as
    .ok (r.1 :: rs.1, r.2 :: rs.2)

end Mach
end Tulip
