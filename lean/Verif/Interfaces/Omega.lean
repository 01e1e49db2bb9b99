import Verif.Spec.Cache

/-!
# Model of `tulip/interfaces/omega.py`

The package `omega` is not modelled: what is modelled is what is handed to it, and what is done with the
graph it returns. `_int_bounds` is not called anywhere, and the solver's functions are external.
-/

namespace Tulip
namespace Omega

open Cache

/-- Domains that `omega` understands. -/
inductive OmDom
  | bool
  | range (lo hi : Int)
  deriving DecidableEq, Repr

/-- The attributes of `omega.symbolic.temporal.Automaton` that are set. The formulas of `win` are turned
into decision diagrams by the package; here they are the texts. -/
structure Game where
  vars : Dict String OmDom
  envVars : List String
  sysVars : List String
  initEnv : List Char
  initSys : List Char
  actionEnv : List Char
  actionSys : List Char
  persistence : List (List Char)   -- `win['<>[]']`
  recurrence : List (List Char)    -- `win['[]<>']`
  moore : Bool
  plusOne : Bool
  qinit : List Char
  deriving DecidableEq, Repr

/-- The conversion of domains, `omega.py:144-154`. (The model's domains are those that the branches
accept.) -/
def convert : Dom → OmDom
  | .boolean => .bool
  | .strs l => .range 0 ((l.length : Int) - 1)
  | .range lo hi => .range lo hi

/-- `_conj`, `omega.py:183-191`, on the texts of the clauses. -/
def conj (texts : List (List Char)) : List Char :=
  if texts.isEmpty then c!"TRUE" else joinWith c!" & " texts

/-- `_grspec_to_automaton`, `omega.py:132-180`. The specification's caches are filled. -/
def toAutomaton (order : List Part) (st : Obj) : Obj × Except PyErr Game :=
  match strToInt order st with
  | (st, .error e) => (st, .error e)
  | (st, .ok ()) => (st, do
    let envInit ← intTexts st .envInit
    let sysInit ← intTexts st .sysInit
    let envSafety ← intTexts st .envSafety
    let sysSafety ← intTexts st .sysSafety
    let envProg ← intTexts st .envProg
    let sysProg ← intTexts st .sysProg
    return {
      vars := (allVars st.spec).map fun p => (p.1, convert p.2)
      envVars := st.spec.envVars.keys
      sysVars := st.spec.sysVars.keys
      initEnv := conj envInit
      initSys := conj sysInit
      actionEnv := conj envSafety
      actionSys := conj sysSafety
      persistence :=
        if st.spec.envProg.isEmpty then [c!"FALSE"]
        else envProg.map fun s => c!"!(" ++ s ++ c!")"
      recurrence := if st.spec.sysProg.isEmpty then [c!"TRUE"] else sysProg
      moore := st.spec.moore
      plusOne := st.spec.plusOne
      qinit := st.spec.qinit })

/-- The graph that the package enumerates: nodes with their annotation, edges, initial nodes. -/
structure Enumerated (N V : Type) where
  nodes : Dict N (Dict String V)
  edges : List (N × N)
  initial : List N

/-- The graph that is returned: the annotation is in the attribute `state`. -/
structure Annotated (N V : Type) where
  nodes : Dict N (Dict String V)
  edges : List (N × N)
  initial : List N

/-- `_strategy_to_state_annotated`, `omega.py:112-129`. `add_edge` adds missing nodes without
attributes; the edges of a graph join its nodes. -/
def toStateAnnotated {N V : Type} [DecidableEq N] (g : Enumerated N V) (vars : Dict String OmDom) :
    Annotated N V where
  nodes := g.nodes.foldl (fun h p => h.set p.1 (p.2.filter fun k => vars.has k.1)) []
  edges := g.edges.foldl (fun h e => if e ∈ h then h else h ++ [e]) []
  initial := g.initial

end Omega
end Tulip
