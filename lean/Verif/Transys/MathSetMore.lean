import Verif.Transys.MathSet

/-!
# Model of the rest of `tulip/transys/mathset.py`

Popping, repetitions, `CartesianProduct`, and the arithmetic of `PowerSet`.
-/

namespace Tulip

namespace MSet

/-- Python's `set.pop`: removes and returns an arbitrary element. Which one is not specified; `pick`
stands for the choice. `none` for the empty set (`KeyError`). -/
def pySetPop {α} (s : List α) (pick : Nat) : Option (α × List α) :=
  match s[pick % s.length]? with
  | some x => some (x, s.eraseIdx (pick % s.length))
  | none => none

/-- Python's `list.pop`: removes and returns the last element. `none` for the empty list. -/
def pyListPop {α} (l : List α) : Option (α × List α) :=
  match l.getLast? with
  | some x => some (x, l.dropLast)
  | none => none

/-- `pop`, `mathset.py:472-492`; `coin` is `random.randint(0, 1)`, used when both stores have
elements, and `pick` is the choice of `set.pop`. -/
def pop {α} (m : MSet α) (coin : Bool) (pick : Nat) : Except PyErr (α × MSet α) :=
  if m.len = 0 then .error .keyError
  else if !m.set.isEmpty && !m.list.isEmpty then
    if coin then fromSet m pick else fromList m
  else if !m.set.isEmpty && m.list.isEmpty then fromSet m pick
  else if !m.list.isEmpty && m.set.isEmpty then fromList m
  else .error .exception
where
  /-- `return self._set.pop()`. -/
  fromSet (m : MSet α) (pick : Nat) : Except PyErr (α × MSet α) :=
    match pySetPop m.set pick with
    | some (x, s) => .ok (x, { m with set := s })
    | none => .error .keyError
  /-- `return self._list.pop()`. -/
  fromList (m : MSet α) : Except PyErr (α × MSet α) :=
    match pyListPop m.list with
    | some (x, l) => .ok (x, { m with list := l })
    | none => .error .indexError

/-- A client that calls `pop` (`mathset.py:472-492`) repeatedly: the elements returned, the set that
is left, and the exception that ended the run, if any. -/
def pops {α} (m : MSet α) : List (Bool × Nat) → List α × MSet α × Option PyErr
  | [] => ([], m, none)
  | (coin, pick) :: rest => match m.pop coin pick with
    | .ok (x, m') => let (xs, e) := m'.pops rest; (x :: xs, e)
    | .error e => ([], m, some e)

/-- `update`, `mathset.py:226-231`. -/
def update {α} [Elem α] (m : MSet α) (a : Arg α) : MSet α := m.addFrom a

/-- `__ior__`, `mathset.py:233-260`: the object is changed in place and returned. -/
def ior {α} [Elem α] (m : MSet α) (a : Arg α) : MSet α := m.addFrom a

end MSet

/-- `pop` on a `SubSet` is inherited from `MathSet`, `mathset.py:472-492`. -/
def SSet.pop {α} (s : SSet α) (coin : Bool) (pick : Nat) : Except PyErr (α × SSet α) :=
  match s.elems.pop coin pick with
  | .ok (x, m) => .ok (x, { s with elems := m })
  | .error e => .error e

/-- `contains_multiple`, `mathset.py:737-742`. -/
def containsMultiple {α} [DecidableEq α] (l : List α) : Bool := l.length != (unique l).length

/-! ## Cartesian products -/

/-- A `CartesianProduct`, `mathset.py:656-660`: the list of factors. -/
structure CProd (α : Type) where
  mathsets : List (MSet α)

namespace CProd

/-- What is tested for membership: an iterable with the given elements, or another object. -/
inductive Elt (α : Type) where
  | iterable (l : List α)
  | other

/-- `operator.contains` called with one argument, a pair: it needs two. -/
def opContains {α} (_ : MSet α × α) : Except PyErr Bool := .error .typeError

/-- `__contains__`, `mathset.py:662-675`: `map(operator.contains, pairs)` gives each pair to
`operator.contains` as a single argument. -/
def contains {α} (p : CProd α) : Elt α → Except PyErr Bool
  | .other => .error .typeError
  | .iterable e => allM opContains (p.mathsets.zip e)

/-- `add`, `mathset.py:677-681`. -/
def add {α} (p : CProd α) (m : MSet α) : CProd α := ⟨p.mathsets ++ [m]⟩

/-- `add_from`, `mathset.py:683-688`. -/
def addFrom {α} (p : CProd α) (l : List (MSet α)) : CProd α := ⟨p.mathsets ++ l⟩

/-- `remove`, `mathset.py:690-694`: `list.remove` deletes the first factor equal to the argument. -/
def remove {α} [Elem α] (p : CProd α) (m : MSet α) : Except PyErr (CProd α) :=
  if p.mathsets.any (·.beq m) then .ok ⟨p.mathsets.eraseP (·.beq m)⟩ else .error .valueError

/-- `remove_from`, `mathset.py:696-701`: `any(map(self.remove, mathsets))` goes through all the
arguments, because `remove` returns `None`. The final state and the exception, if any. -/
def removeFrom {α} [Elem α] (p : CProd α) : List (MSet α) → CProd α × Option PyErr
  | [] => (p, none)
  | m :: rest => match p.remove m with
    | .ok p' => p'.removeFrom rest
    | .error e => (p, some e)

end CProd

/-! ## Power sets -/

namespace PowerSet

/-- Objects that can be tested for membership in a power set. -/
inductive Item (α : Type) where
  | iterable (l : List α)
  | str (s : List Char)
  | other

/-- `PowerSet.__contains__`, `mathset.py:871-877`, for every object; `is_subset` refuses to compare
a string with a set (`mathset.py:768-776`). -/
def containsItem {α} [Elem α] (base : MSet α) : Item α → Except PyErr Bool
  | .iterable l => PowerSet.contains base l
  | .str _ => .error .typeError
  | .other => .error .exception

/-- Objects of Python that a power set meets: another power set (given by its base set), a `MathSet`,
or any other object, for instance a list. -/
inductive Obj (α : Type) where
  | powerset (base : MSet α)
  | mathset (m : MSet α)
  | list (l : List α)
  | other

/-- `PowerSet(iterable)`, `mathset.py:845-861`. -/
def new {α} [Elem α] (a : MSet.Arg α) : MSet α := MSet.empty.addFrom a

/-- `__add__`, `mathset.py:885-893`. -/
def add {α} [Elem α] (base : MSet α) : Obj α → Except PyErr (MSet α)
  | .powerset o => .ok (new (.mathset (base.or (.mathset o))))
  | _ => .error .typeError

/-- `__eq__`, `mathset.py:895-899`. -/
def eq {α} [Elem α] (base : MSet α) : Obj α → Except PyErr Bool
  | .powerset o => .ok (o.beq base)
  | _ => .error .typeError

/-- `p.math_set = value`: `__setattr__`, `mathset.py:901-911`. -/
def setMathSet {α} (_base : MSet α) : Obj α → Except PyErr (MSet α)
  | .mathset m => .ok m
  | _ => .error .typeError

end PowerSet

end Tulip
