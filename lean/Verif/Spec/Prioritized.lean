import Verif.Basic

/-!
# Model of `tulip/spec/prioritized_safety.py`

Type checks of `fa` and `level` are left out: the model's arguments have the types that the
signatures announce.
-/

namespace Tulip
namespace Prio

/-- A priority: a Python `int`, or a `float`, of which only the sign matters here. -/
inductive Priority where
  | int (n : Int)
  | float (positive : Bool)
  deriving DecidableEq

/-- `FAWithPriority`, `prioritized_safety.py:44-79`: an automaton of type `A`, its priority and
level. -/
structure Rule (A : Type) where
  fa : A
  priority : Int
  level : Nat
  deriving DecidableEq

/-- `PrioritizedSpecification`, `prioritized_safety.py:82-87`, with the counters of its iteration
(`__iter__` returns `self`). `aps` is `none` for the empty list. -/
structure PSpec (A B : Type) where
  psi : List (List (Rule A)) := []
  aps : Option B := none
  iter : Nat × Nat := (0, 0)

section
variable {A B : Type} [DecidableEq B]

/-- `priority <= 0`. -/
def Priority.nonpos : Priority → Bool
  | .int n => decide (n ≤ 0)
  | .float p => !p

/-- The part of `add_rule` that adds, `prioritized_safety.py:163-166`: levels up to `level` are
created. -/
def insert (psi : List (List (Rule A))) (r : Rule A) : List (List (Rule A)) :=
  (psi ++ List.replicate (r.level + 1 - psi.length) []).modify r.level (· ++ [r])

/-- `PrioritizedSpecification.add_rule`, `prioritized_safety.py:125-166`; the exception raised, if
any, and the object afterwards. `ap fa` is `fa.atomic_propositions`. `FAWithPriority` rejects a
`float` priority (`:62-63`), after the propositions were stored. -/
def addRule (ap : A → B) (s : PSpec A B) (fa : A) (priority : Priority) (level : Int) :
    Option PyErr × PSpec A B :=
  if priority.nonpos then (some .valueError, s)
  else if level < 0 then (some .valueError, s)
  else
    let (ok, s) : Bool × PSpec A B :=
      if s.psi.isEmpty then (true, { s with aps := some (ap fa) })
      else (decide (s.aps = some (ap fa)), s)
    if !ok then (some .assertion, s)
    else match priority with
      | .float _ => (some .typeError, s)
      | .int n => (none, { s with psi := insert s.psi ⟨fa, n, level.toNat⟩ })

/-- The loop of `__getitem__`, `prioritized_safety.py:90-98`. -/
def itemLoop : List (List (Rule A)) → Nat → Except PyErr (Rule A)
  | [], _ => .error .indexError
  | l :: psi, k => if k ≥ l.length then itemLoop psi (k - l.length) else
    match l[k]? with
    | some r => .ok r
    | none => .error .indexError

/-- `__getitem__`, `prioritized_safety.py:88-98`. -/
def getItem (s : PSpec A B) (key : Int) : Except PyErr (Rule A) :=
  if key < 0 then .error .assertion else itemLoop s.psi key.toNat

/-- The `while` loop of `__next__`, `prioritized_safety.py:106-110`. -/
def skip (psi : List (List (Rule A))) : Nat → Nat × Nat → Nat × Nat
  | 0, p => p
  | fuel + 1, (l, i) => match psi[l]? with
    | some rs => if i ≥ rs.length then skip psi fuel (l + 1, 0) else (l, i)
    | none => (l, i)

/-- `__iter__`, `prioritized_safety.py:100-103`. -/
def iterStart (s : PSpec A B) : PSpec A B := { s with iter := (0, 0) }

/-- `__next__`, `prioritized_safety.py:105-117`; `none` is `StopIteration`. -/
def next (s : PSpec A B) : Option (Rule A) × PSpec A B :=
  let p := skip s.psi (s.psi.length + 1) s.iter
  match s.psi[p.1]? with
  | none => (none, { s with iter := p })
  | some rs => match rs[p.2]? with
    | none => (none, { s with iter := p })
    | some r => (some r, { s with iter := (p.1, p.2 + 1) })

/-- The values that at most `fuel` calls of `next` yield before `StopIteration`, and the object
afterwards. -/
def collect : Nat → PSpec A B → List (Rule A) × PSpec A B
  | 0, s => ([], s)
  | fuel + 1, s => match next s with
    | (none, s) => ([], s)
    | (some r, s) => let (rs, s) := collect fuel s; (r :: rs, s)

/-- `[r for r in spec]`. -/
def iterate (fuel : Nat) (s : PSpec A B) : List (Rule A) := (collect fuel (iterStart s)).1

/-- `[(a, b) for a in spec for b in spec]`: the loop over `b` resets the counters that the loop over
`a` uses. -/
def pairsLoop : Nat → Nat → PSpec A B → List (Rule A × Rule A)
  | 0, _, _ => []
  | fuel + 1, inner, s => match next s with
    | (none, _) => []
    | (some a, s) =>
      let (bs, s) := collect inner (iterStart s)
      bs.map (fun b => (a, b)) ++ pairsLoop fuel inner s

/-- `__len__`, `prioritized_safety.py:122-123`. -/
def len (s : PSpec A B) : Nat := (s.psi.map List.length).sum

/-- `get_rules_at`, `prioritized_safety.py:168-176` (for `level >= 0`). -/
def getRulesAt (s : PSpec A B) (level : Nat) : List (Rule A) :=
  if level ≥ s.psi.length then [] else s.psi[level]?.getD []

/-- `get_rules`, `prioritized_safety.py:178-184`. -/
def getRules (s : PSpec A B) : List (Rule A) := s.psi.flatMap id

/-- `get_num_levels`, `prioritized_safety.py:204-206`. -/
def numLevels (s : PSpec A B) : Nat := s.psi.length

/-- `itertools.product(*ls)`. -/
def product {σ : Type} : List (List σ) → List (List σ)
  | [] => [[]]
  | l :: ls => l.flatMap fun x => (product ls).map (x :: ·)

/-- `get_states`, `get_initial_states`, `get_accepting_states`, `prioritized_safety.py:186-202`:
the product of what `f` lists for each automaton, in the order of iteration. -/
def productOf {σ : Type} (f : A → List σ) (s : PSpec A B) : List (List σ) :=
  product ((iterate (len s + 1) s).map fun r => f r.fa)

/-- A call of `add_rule` in a program. -/
structure Call (A : Type) where
  fa : A
  priority : Priority
  level : Int

/-- A program's calls, each of which may raise. -/
def run (ap : A → B) (calls : List (Call A)) : PSpec A B :=
  calls.foldl (fun s c => (addRule ap s c.fa c.priority c.level).2) {}

end
end Prio
end Tulip
