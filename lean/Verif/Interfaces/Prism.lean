import Verif.Spec.Parser
import Verif.Spec.Compose
import Mathlib.Algebra.Order.Ring.Rat
import Mathlib.Algebra.BigOperators.Group.List.Basic

/-!
# Spec: how PRISM reads a file

A reader of the part of the PRISM language with one module and one variable, in which every command has a guard
`x=i`, its updates have decimal probabilities, and the labels are disjunctions of `(x=i)`. This is a specification
of the format (the manual of PRISM, "The PRISM Language"), not a model of code in the repository.
-/

namespace Tulip
namespace Prism

/-- Tokens. -/
inductive Tok
  | word (w : List Char) | num (n : Nat) | dec (q : Rat) | str (s : List Char) | sym (c : Char)
  deriving DecidableEq

/-- What has been read of a token. -/
inductive LS
  | start | word (a : List Char) | num (a : List Char) | dot (a : List Char) | dec (a f : List Char)
  | str (a : List Char)

/-- The value of `a.f`. -/
def value (a f : List Char) : Rat := natOf a + natOf f / 10 ^ f.length

/-- Letters and `_`. -/
def letter (c : Char) : Bool :=
  (65 ≤ c.toNat && c.toNat ≤ 90) || (97 ≤ c.toNat && c.toNat ≤ 122) || c == '_'

/-- The first character of a token. -/
def begin_ (c : Char) : List Tok × LS :=
  if c = ' ' ∨ c = '\n' ∨ c = '\t' then ([], .start)
  else if isDig c then ([], .num [c])
  else if letter c then ([], .word [c])
  else if c = '"' then ([], .str [])
  else ([.sym c], .start)

/-- A character. -/
def step : LS → Char → List Tok × LS
  | .start, c => begin_ c
  | .word a, c =>
    if letter c || isDig c then ([], .word (a ++ [c])) else (.word a :: (begin_ c).1, (begin_ c).2)
  | .num a, c =>
    if isDig c then ([], .num (a ++ [c])) else if c = '.' then ([], .dot a)
    else (.num (natOf a) :: (begin_ c).1, (begin_ c).2)
  | .dot a, c =>
    if isDig c then ([], .dec a [c]) else (.num (natOf a) :: .sym '.' :: (begin_ c).1, (begin_ c).2)
  | .dec a f, c =>
    if isDig c then ([], .dec a (f ++ [c])) else (.dec (value a f) :: (begin_ c).1, (begin_ c).2)
  | .str a, c => if c = '"' then ([.str a], .start) else ([], .str (a ++ [c]))

/-- The end of the text. -/
def flush : LS → List Tok
  | .start => []
  | .word a => [.word a]
  | .num a => [.num (natOf a)]
  | .dot a => [.num (natOf a), .sym '.']
  | .dec a f => [.dec (value a f)]
  | .str _ => [.sym '"']

/-- The tokens of a text, and what is left. -/
def run : LS → List Char → List Tok × LS
  | s, [] => ([], s)
  | s, c :: r => ((step s c).1 ++ (run (step s c).2 r).1, (run (step s c).2 r).2)

/-- The tokens of a text. -/
def tokens (s : List Char) : List Tok := (run .start s).1 ++ flush (run .start s).2

/-- A command `[action] x=guard -> p1 : (x'=n1) + ...;`. -/
structure Command where
  action : List Char
  guard : Nat
  updates : List (Rat × Nat)

/-- A program. -/
structure Program where
  mdp : Bool
  lo : Nat
  hi : Nat
  init : Nat
  commands : List Command
  labels : List (List Char × List Nat)

/-- The given tokens. -/
def expects : List Tok → List Tok → Option (List Tok)
  | [], r => some r
  | t :: ts, u :: r => if t = u then expects ts r else none
  | _ :: _, [] => none

/-- A number. -/
def number : List Tok → Option (Nat × List Tok)
  | .num n :: r => some (n, r)
  | _ => none

/-- `p : (x'=n)`. -/
def update (x : List Char) : List Tok → Option ((Rat × Nat) × List Tok)
  | .dec q :: r => do
    let r ← expects [.sym ':', .sym '(', .word x, .sym '\'', .sym '='] r
    let (n, r) ← number r
    let r ← expects [.sym ')'] r
    return ((q, n), r)
  | _ => none

/-- `(x=n)`. -/
def atState (x : List Char) (ts : List Tok) : Option (Nat × List Tok) := do
  let r ← expects [.sym '(', .word x, .sym '='] ts
  let (n, r) ← number r
  let r ← expects [.sym ')'] r
  return (n, r)

/-- One or more items, with separators between them and a stop after them. -/
def sepList {β : Type} (item : List Tok → Option (β × List Tok)) (sep stop : Tok) :
    Nat → List Tok → Option (List β × List Tok)
  | 0, _ => none
  | k + 1, ts => do
    let (x, r) ← item ts
    match r with
    | [] => none
    | t :: r =>
      if t = stop then some ([x], r)
      else if t = sep then do
        let (xs, r) ← sepList item sep stop k r
        return (x :: xs, r)
      else none

/-- The name of an action, which may be missing. -/
def actionName : List Tok → List Char × List Tok
  | .word w :: r => (w, r)
  | r => ([], r)

/-- A command. -/
def command (x : List Char) (ts : List Tok) : Option (Command × List Tok) := do
  let r ← expects [.sym '['] ts
  let (a, r) := actionName r
  let r ← expects [.sym ']', .word x, .sym '='] r
  let (g, r) ← number r
  let r ← expects [.sym '-', .sym '>'] r
  let (us, r) ← sepList (update x) (.sym '+') (.sym ';') r.length r
  return (⟨a, g, us⟩, r)

/-- Commands up to the end of the module. -/
def commands (x : List Char) : Nat → List Tok → Option (List Command × List Tok)
  | 0, _ => none
  | k + 1, ts =>
    if ts.head? = some (.word c!"endmodule") then some ([], ts.tail)
    else do
      let (c, r) ← command x ts
      let (cs, r) ← commands x k r
      return (c :: cs, r)

/-- A label `label "name" = (x=n1)|(x=n2);`. -/
def label (x : List Char) : List Tok → Option ((List Char × List Nat) × List Tok)
  | .word w :: .str p :: r =>
    if w = c!"label" then do
      let r ← expects [.sym '='] r
      let (l, r) ← sepList (atState x) (.sym '|') (.sym ';') r.length r
      return ((p, l), r)
    else none
  | _ => none

/-- Labels up to the end of the text. -/
def labels (x : List Char) : Nat → List Tok → Option (List (List Char × List Nat))
  | _, [] => some []
  | 0, _ :: _ => none
  | k + 1, ts => do
    let (l, r) ← label x ts
    let ls ← labels x k r
    return l :: ls

/-- The type of a model. -/
def modelType : List Tok → Option (Bool × List Tok)
  | .word w :: r => if w = c!"mdp" then some (true, r) else if w = c!"dtmc" then some (false, r) else none
  | _ => none

/-- A word. -/
def name : List Tok → Option (List Char × List Tok)
  | .word w :: r => some (w, r)
  | _ => none

/-- A program. -/
def program (ts : List Tok) : Option Program := do
  let (mdp, r) ← modelType ts
  let r ← expects [.word c!"module"] r
  let (_, r) ← name r
  let (x, r) ← name r
  let r ← expects [.sym ':', .sym '['] r
  let (lo, r) ← number r
  let r ← expects [.sym '.', .sym '.'] r
  let (hi, r) ← number r
  let r ← expects [.sym ']', .word c!"init"] r
  let (init, r) ← number r
  let r ← expects [.sym ';'] r
  let (cs, r) ← commands x r.length r
  let ls ← labels x r.length r
  return ⟨mdp, lo, hi, init, cs, ls⟩

/-- Read a text. -/
def read (s : List Char) : Option Program := program (tokens s)

/-- The probability to go from value `i` to value `j` of the variable with the given action. -/
def Program.prob (p : Program) (a : List Char) (i j : Nat) : Rat :=
  (((p.commands.filter fun c => decide (c.action = a ∧ c.guard = i)).flatMap (·.updates)).filter
    fun u => decide (u.2 = j)).map (·.1) |>.sum

/-- A text with two states. -/
def sample : List Char :=
  c!"mdp\nmodule m\n x : [0..1] init 0;\n" ++ c!" [go] x=0 -> 0.2500 : (x'=0) + 0.7500 : (x'=1);\n" ++
    c!" [] x=1 -> 1.0 : (x'=1);\nendmodule\n" ++ c!"label \"p\" = (x=1)|(x=0);"

/-- The reader reads it. -/
example : ((read sample).any fun p => p.mdp && p.hi == 1 && p.prob c!"go" 0 1 == 3 / 4 && p.prob [] 1 1 == 1 &&
    p.labels == [(c!"p", [1, 0])]) = true := by
  decide +kernel

end Prism
end Tulip
