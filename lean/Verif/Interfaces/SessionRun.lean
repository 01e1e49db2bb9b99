import Verif.Interfaces.Gr1c

/-!
# Model of `GR1CSession` as an object with a history

`tulip/interfaces/gr1c.py:657-929`: the session, the running solver, the text that the solver has printed
and the session has not read yet, and the methods as state transformers. A method returns, raises an
exception, or waits for ever (`hang`) for a line that the solver does not print.
-/

namespace Tulip

namespace Iface

open Synth

/-- The solver `gr1c -i file`: what it prints when it starts, and what it prints after a command. -/
structure Solver where
  banner : List Char → List Char
  respond : List Char → List Char → List Char

/-- A running solver: the file it was started with, and its output that was not read yet. -/
structure Proc where
  file : List Char
  unread : List Char
deriving DecidableEq

/-- A session, `gr1c.py:680-707`. -/
structure Session where
  file : Option (List Char)
  sys : List String
  env : List String
  prompt : List Char
  proc : Option Proc
deriving DecidableEq

/-- What a call of a method does. -/
inductive Out (β : Type) where
  | ret (s : Session) (a : β)
  | raise (s : Session) (e : PyErr)
  | hang

/-- Methods. -/
abbrev Act (β : Type) := Session → Out β

/-- First `a`, then `k` with its result. -/
def Act.andThen {β γ : Type} (a : Act β) (k : β → Act γ) : Act γ := fun s =>
  match a s with
  | .ret s' x => k x s'
  | .raise s' e => .raise s' e
  | .hang => .hang

instance : Monad Act where
  pure x := fun s => .ret s x
  bind := Act.andThen

/-- A computation without effect on the session. -/
def Act.lift {β : Type} : Except PyErr β → Act β
  | .ok x => fun s => .ret s x
  | .error e => fun s => .raise s e

/-- The attributes of the session. -/
def Act.self : Act Session := fun s => .ret s s

/-- `self.p.stdin.write(cmd)`, for example `gr1c.py:725-728`: the solver answers. `AttributeError` if
`self.p is None`. -/
def Act.write (S : Solver) (cmd : List Char) : Act Unit := fun s =>
  match s.proc with
  | none => .raise s .attribute
  | some p => .ret { s with proc := some { p with unread := p.unread ++ S.respond p.file cmd } } ()

/-- The first line of a text, with its newline, and the rest; `none` if there is no newline. -/
def takeLine : List Char → Option (List Char × List Char)
  | [] => none
  | c :: t => if c = '\n' then some (['\n'], t) else (takeLine t).map fun p => (c :: p.1, p.2)

/-- `self.p.stdout.readline()`, for example `gr1c.py:729`: waits until a line is complete. -/
def Act.readline : Act (List Char) := fun s =>
  match s.proc with
  | none => .raise s .attribute
  | some p => match takeLine p.unread with
    | none => .hang
    | some (line, rest) => .ret { s with proc := some { p with unread := rest } } line

/-- The loop that reads moves, `gr1c.py:775-787`, `:816-828`, `:853-865`. Every line takes away a
character of the text not read, so that `fuel` beyond its length changes nothing. -/
def Act.movesLoop (names : List String) : Nat → Act (List (Attr Int))
  | 0 => fun _ => .hang
  | fuel + 1 => do
    let line ← Act.readline
    if isIn c!"---\n" line then pure []
    else do
      let s ← Act.self
      let m ← Act.lift (readMove s.prompt names line)
      let r ← Act.movesLoop names fuel
      pure (m :: r)

/-- The loop that reads moves, with enough fuel for the text not read. -/
def Act.moves (names : List String) : Act (List (Attr Int)) := fun s =>
  match s.proc with
  | none => .raise s .attribute
  | some p => Act.movesLoop names (p.unread.length + 1) s

/-- `subprocess.Popen([…, '-i', file], …)`, `gr1c.py:697-705` and `:910-918`. -/
def startProc (S : Solver) (file : List Char) : Proc := ⟨file, S.banner file⟩

/-- `GR1CSession(spec_filename, sys_vars, env_vars, prompt)`, `gr1c.py:680-707`. -/
def Session.new (S : Solver) (file : Option (List Char)) (sys : List String)
    (env : Option (List String)) (prompt : List Char) : Session :=
  { file, sys, env := env.getD [], prompt, proc := file.map (startProc S) }

/-- `iswinning`, `gr1c.py:709-732`. -/
def Act.isWinning (S : Solver) (state : Attr Int) : Act Bool := do
  let s ← Act.self
  let cmd ← Act.lift (winningCommand s.env s.sys state)
  Act.write S cmd
  let line ← Act.readline
  pure (isIn c!"True\n" line)

/-- `numgoals`, `gr1c.py:880-887`. -/
def Act.numGoals (S : Solver) : Act Int := do
  Act.write S c!"numgoals\n"
  let line ← Act.readline
  let s ← Act.self
  match Gw.pyInt (dropPrompt s.prompt line).dropLast with
  | some n => pure n
  | none => Act.lift (.error .valueError)

/-- The command that `getindex` sends, `gr1c.py:744-752`. -/
def getIndexCommand (env sys : List String) (state : Attr Int) (goal : Int) : Except PyErr (List Char) := do
  let v ← stateVector env sys state
  .ok (c!"getindex " ++ joinAsStr v ++ c!" " ++ intChars goal ++ c!"\n")

/-- `getindex`, `gr1c.py:734-758`. -/
def Act.getIndex (S : Solver) (state : Attr Int) (goal : Int) : Act Int := do
  if goal < 0 then Act.lift (.error .valueError)
  else do
    let goals ← Act.numGoals S
    if goal > goals - 1 then Act.lift (.error .valueError)
    else do
      let s ← Act.self
      let cmd ← Act.lift (getIndexCommand s.env s.sys state goal)
      Act.write S cmd
      let line ← Act.readline
      match Gw.pyInt (dropPrompt s.prompt line).dropLast with
      | some n => pure n
      | none => Act.lift (.error .valueError)

/-- `env_next`, `gr1c.py:760-787`. -/
def Act.envNext (S : Solver) (state : Attr Int) : Act (List (Attr Int)) := do
  let s ← Act.self
  let cmd ← Act.lift (envNextCommand s.env s.sys state)
  Act.write S cmd
  Act.moves s.env

/-- `sys_nextfeas`, `gr1c.py:789-828`. -/
def Act.sysNextfeas (S : Solver) (state move : Attr Int) (goal : Int) : Act (List (Attr Int)) := do
  if goal < 0 then Act.lift (.error .valueError)
  else do
    let goals ← Act.numGoals S
    let s ← Act.self
    let cmd ← Act.lift (sysNextfeasCommand s.env s.sys goals state move goal)
    Act.write S cmd
    Act.moves s.sys

/-- `sys_nexta`, `gr1c.py:830-865`. -/
def Act.sysNexta (S : Solver) (state move : Attr Int) : Act (List (Attr Int)) := do
  let s ← Act.self
  let cmd ← Act.lift (sysNextaCommand s.env s.sys state move)
  Act.write S cmd
  Act.moves s.sys

/-- `getvars`, `gr1c.py:867-878`. -/
def Act.getVars (S : Solver) : Act (List Char) := do
  Act.write S c!"var\n"
  let line ← Act.readline
  let s ← Act.self
  pure (dropPrompt s.prompt line).dropLast

/-- The part of `reset` after the old solver ended, `gr1c.py:906-920`. -/
def Act.restart (S : Solver) (name : Option (List Char)) : Act Bool := fun s =>
  let file := match name with
    | some f => some f
    | none => s.file
  .ret { s with file := file, proc := file.map (startProc S) } true

/-- `reset`, `gr1c.py:889-920`; `code` is the exit code of the solver that is stopped. -/
def Act.reset (S : Solver) (name : Option (List Char)) (code : Int) : Act Bool := fun s =>
  match s.proc with
  | some _ =>
    if code ≠ 0 then .ret { s with proc := none, file := none } false
    else Act.restart S name { s with proc := none }
  | none => Act.restart S name s

/-- `close`, `gr1c.py:922-929`; `code` is the exit code of the solver. -/
def Act.close (code : Int) : Act Bool := fun s =>
  match s.proc with
  | none => .raise s .attribute
  | some _ => .ret { s with proc := none } (code = 0)

/-- A call of a method. -/
inductive Call where
  | isWinning (state : Attr Int)
  | getIndex (state : Attr Int) (goal : Int)
  | envNext (state : Attr Int)
  | sysNextfeas (state move : Attr Int) (goal : Int)
  | sysNexta (state move : Attr Int)
  | getVars
  | numGoals
  | reset (name : Option (List Char)) (code : Int)
  | close (code : Int)

/-- What a method returns. -/
inductive Val where
  | bool (b : Bool)
  | int (n : Int)
  | text (t : List Char)
  | moves (l : List (Attr Int))
deriving DecidableEq

/-- A call with its arguments, `gr1c.py:709-929`. -/
def Act.call (S : Solver) : Call → Act Val
  | .isWinning st => do let b ← Act.isWinning S st; pure (.bool b)
  | .getIndex st g => do let n ← Act.getIndex S st g; pure (.int n)
  | .envNext st => do let l ← Act.envNext S st; pure (.moves l)
  | .sysNextfeas st mv g => do let l ← Act.sysNextfeas S st mv g; pure (.moves l)
  | .sysNexta st mv => do let l ← Act.sysNexta S st mv; pure (.moves l)
  | .getVars => do let t ← Act.getVars S; pure (.text t)
  | .numGoals => do let n ← Act.numGoals S; pure (.int n)
  | .reset name code => do let b ← Act.reset S name code; pure (.bool b)
  | .close code => do let b ← Act.close code; pure (.bool b)

/-- A client that makes calls one after another, `gr1c.py:709-929`, and goes on after exceptions. The
results; `none` if some call never returns. -/
def runCalls (S : Solver) : Session → List Call → Option (List (Except PyErr Val))
  | _, [] => some []
  | s, c :: cs => match Act.call S c s with
    | .ret s' v => (runCalls S s' cs).map (Except.ok v :: ·)
    | .raise s' e => (runCalls S s' cs).map (Except.error e :: ·)
    | .hang => none

end Iface

end Tulip
