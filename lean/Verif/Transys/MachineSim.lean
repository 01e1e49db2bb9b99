import Verif.Transys.Machines

/-!
# Random and interactive runs of Mealy machines

`random_run` and `interactive_run` of `tulip/transys/machines.py`. The choices of `random.choice` and the lines that
the user types are parameters.
-/

namespace Tulip
namespace Mach

variable {ν V : Type} [DecidableEq ν] [DecidableEq V]

/-- What `random_run` prints for a move: the state that is left, the inputs, the state that is entered, the outputs
(`machines.py:862-867`). -/
structure Move (ν V : Type) where
  source : ν
  ins : Attr V
  target : ν
  outs : Attr V

/-- `random.choice(l)`, where `i` is the index that is drawn: `IndexError` if the list is empty. -/
def choiceOf {α : Type} (l : List α) (i : Nat) : Except PyErr α :=
  match l[i]? with
  | some a => .ok a
  | none => .error .indexError

/-- The loop of `random_run` (`machines.py:844-867`), with `t` the number of moves so far; `choose t n` is the index
below `n` that is drawn at move `t`. -/
def randomLoop (m : Machine ν V) (choose : Nat → Nat → Nat) :
    Nat → Nat → ν → List ν → Dict String (List V) → List (Move ν V) →
      Except PyErr ((List ν × Dict String (List V)) × List (Move ν V))
  | 0, _, _, states, outs, printed => .ok ((states, outs), printed)
  | n + 1, t, s, states, outs, printed => do
    let trans := out m.graph s
    let e ← choiceOf trans (choose t trans.length)
    let o := projectDict e.2.2 m.outputs.has
    let outs' ← appendOutputs o outs
    randomLoop m choose n (t + 1) e.2.1 (states ++ [e.2.1]) outs'
      (printed ++ [⟨s, projectDict e.2.2 m.inputs.has, e.2.1, o⟩])

/-- `random_run` (`machines.py:810-870`): the result, and what it prints. -/
def randomRun (m : Machine ν V) (choose : Nat → Nat → Nat) (fromState : Option ν) (n : Nat) :
    Except PyErr ((List ν × Dict String (List V)) × List (Move ν V)) :=
  match fromState.or m.graph.initial.head? with
  | none => .error .stopIteration
  | some s => randomLoop m choose n 0 s [] (m.outputs.map fun q => (q.1, [])) []

/-- What an interactive run has done after a number of rounds. -/
inductive Session where
  | waiting
  | ended
  | raised (e : PyErr)
deriving DecidableEq

/-- `_select_transition` (`machines.py:935-963`): the line that the user types is an index. `none` is that the user
stops. `parse` is `int`, which raises `ValueError`. -/
def selectTransition (parse : List Char → Option Nat) (trans : List (ν × ν × Attr V)) (line : List Char) :
    Except PyErr (Option (ν × ν × Attr V)) :=
  if line = [] then .ok none
  else match parse line with
    | none => .error .valueError
    | some i => match trans[i]? with
      | none => .error .indexError
      | some e => .ok (some e)

/-- The loop `while True` of `_interactive_run_step` (`machines.py:913-919`), which assigns the selected transition,
or prints that the selection is not recognized, and reads the next line. `sel` is the last selection, which the loop
only overwrites: no statement leaves the loop. -/
def selectLoop (parse : List Char → Option Nat) (trans : List (ν × ν × Attr V)) (lines : Nat → List Char) :
    Nat → Nat → Option (Option (ν × ν × Attr V)) → Session
  | 0, _, _ => .waiting
  | fuel + 1, t, sel =>
    match selectTransition parse trans (lines t) with
    | .ok r => selectLoop parse trans lines fuel (t + 1) (some r)
    | .error _ => selectLoop parse trans lines fuel (t + 1) sel

/-- `interactive_run` (`machines.py:873-892`, `:895-932`). The statements that follow the loop of
`_interactive_run_step` are never executed. -/
def interactiveRun (m : Machine ν V) (parse : List Char → Option Nat) (lines : Nat → List Char)
    (fromState : Option ν) (fuel : Nat) : Session :=
  match fromState.or m.graph.initial.head? with
  | none => .raised .stopIteration
  | some s =>
    let trans := out m.graph s
    if trans = [] then .ended else selectLoop parse trans lines fuel 0 none

end Mach
end Tulip
