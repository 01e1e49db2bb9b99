import Verif.Basic

/-!
# Model of `tulip/transys/mathset.py`

Elements have a decidable equality (`==`) and fall in three classes: values that can be hashed,
values whose type has `__hash__` but whose content cannot be hashed (a tuple that contains a list),
and values whose type has no `__hash__`. Equal elements are assumed to be of the same class: Python's
`frozenset({1}) == {1}` is outside the model. A Python `set` is a list without repetitions; the
order in which Python enumerates a set is not modelled and the theorems do not mention order.
-/

namespace Tulip

/-- The class of an element: `isinstance(x, Hashable)` and whether `hash(x)` succeeds. -/
inductive HashClass where
  | good | tricky | none
deriving DecidableEq, Repr

/-- Elements of a `MathSet`. -/
class Elem (α : Type) where
  decEq : DecidableEq α
  hashClass : α → HashClass

instance {α} [Elem α] : DecidableEq α := Elem.decEq

/-- `isinstance(x, collections.abc.Hashable)`. -/
def isHashable {α} [Elem α] (x : α) : Bool := Elem.hashClass x != .none

/-- `hash(x)` returns. -/
def hashOk {α} [Elem α] (x : α) : Bool := Elem.hashClass x == .good

/-- `compare_lists`, `mathset.py:53-88` (both arguments are lists). -/
def compareLists {α} [DecidableEq α] (list1 : List α) : List α → Bool
  | [] => list1.isEmpty
  | item :: rest => if item ∈ list1 then compareLists (list1.erase item) rest else false

/-- The loop of `unique`, `mathset.py:730-734`. -/
def uniqueLoop {α} [DecidableEq α] (acc : List α) : List α → List α
  | [] => acc
  | x :: xs => if x ∈ acc then uniqueLoop acc xs else uniqueLoop (acc ++ [x]) xs

/-- `list(unique(iterable))`, `mathset.py:704-734`. When every item can be hashed Python returns
`set(iterable)`, whose order is not modelled. -/
def unique {α} [DecidableEq α] (l : List α) : List α := uniqueLoop [] l

/-- A `MathSet`, `mathset.py:91-`: `_set` and `_list`. -/
structure MSet (α : Type) where
  set : List α
  list : List α
deriving Repr

namespace MSet

/-- `MathSet()`, `_delete_all`, `mathset.py:341-343`. -/
def empty {α} : MSet α := ⟨[], []⟩

/-- `__contains__`, `mathset.py:302-312`: the lookup in `_set` raises `TypeError` if the item cannot
be hashed, and then `_list` is searched. -/
def contains {α} [Elem α] (m : MSet α) (x : α) : Bool :=
  if isHashable x && hashOk x then decide (x ∈ m.set) else decide (x ∈ m.list)

/-- `__iter__`, `mathset.py:314-315`. -/
def iter {α} (m : MSet α) : List α := m.list ++ m.set

/-- `__len__`, `mathset.py:317-319`. -/
def len {α} (m : MSet α) : Nat := m.set.length + m.list.length

/-- Python's `set.add` / `set |= …` on the list of elements. -/
def setUnion {α} [DecidableEq α] (s : List α) (l : List α) : List α := uniqueLoop s l

/-- `add`, `mathset.py:345-380`. -/
def add {α} [Elem α] (m : MSet α) (x : α) : MSet α :=
  if isHashable x && hashOk x then { m with set := setUnion m.set [x] }
  else if x ∈ m.list then m else { m with list := m.list ++ [x] }

/-- Arguments of `add_from`: another `MathSet`, a Python `set`, an iterable that can be traversed
repeatedly (a list or tuple), or an iterator. -/
inductive Arg (α : Type) where
  | mathset (m : MSet α)
  | pyset (l : List α)
  | items (l : List α)
  | iterator (l : List α)

/-- The items not yet consumed when building the set of hashable ones raises: those after the first
one that cannot be hashed. -/
def afterTricky {α} [Elem α] : List α → List α
  | [] => []
  | x :: xs => if isHashable x && !hashOk x then xs else afterTricky xs

/-- `add_from`, `mathset.py:382-433`. An iterator is exhausted by the first `filter`, so that the
second one, and `list(iterable)` in the handler, see only what is left. -/
def addFrom {α} [Elem α] (m : MSet α) : Arg α → MSet α
  | .mathset o => ⟨setUnion m.set o.set, unique (m.list ++ o.list)⟩
  | .pyset l => { m with set := setUnion m.set l }
  | .items l =>
    if (l.filter isHashable).all hashOk then
      ⟨setUnion m.set (l.filter isHashable), unique (m.list ++ l.filter fun x => !isHashable x)⟩
    else { m with list := unique (m.list ++ l) }
  | .iterator l =>
    if (l.filter isHashable).all hashOk then
      ⟨setUnion m.set (l.filter isHashable), unique m.list⟩
    else { m with list := unique (m.list ++ afterTricky l) }

/-- `MathSet(iterable)`, `mathset.py:133-154`. -/
def ofList {α} [Elem α] (l : List α) : MSet α := empty.addFrom (.items l)

/-- `remove`, `mathset.py:435-470`: `set.remove` raises `KeyError` (absent) or `TypeError`; then
`list.remove` raises `ValueError` if the item is absent there as well. -/
def remove {α} [Elem α] (m : MSet α) (x : α) : Except PyErr (MSet α) :=
  if isHashable x && hashOk x && decide (x ∈ m.set) then .ok { m with set := m.set.erase x }
  else if x ∈ m.list then .ok { m with list := m.list.erase x }
  else .error .valueError

/-- `__or__`, `mathset.py:166-184`. -/
def or {α} [Elem α] (m : MSet α) (o : Arg α) : MSet α :=
  (empty.addFrom (.mathset m)).addFrom o

/-- `__isub__`, `mathset.py:276-285` (the `remove` calls cannot raise, since membership is tested
first). -/
def isub {α} [Elem α] (m : MSet α) : List α → Except PyErr (MSet α)
  | [] => .ok m
  | x :: xs => if m.contains x then do let m' ← m.remove x; m'.isub xs else m.isub xs

/-- `__sub__`, `mathset.py:262-274`. -/
def sub {α} [Elem α] (m : MSet α) (l : List α) : Except PyErr (MSet α) :=
  (empty.addFrom (.mathset m)).isub l

/-- `__eq__`, `mathset.py:287-300`, of two `MathSet`s: `_set`s are compared as sets. -/
def beq {α} [Elem α] (m o : MSet α) : Bool :=
  (m.set.all (· ∈ o.set) && o.set.all (· ∈ m.set)) && compareLists m.list o.list

/-- `intersection`, `mathset.py:494-510`. -/
def intersection {α} [Elem α] (m : MSet α) (l : List α) : MSet α :=
  l.foldl (fun s x => if m.contains x then s.add x else s) empty

/-- `intersects`, `mathset.py:512-535`. -/
def intersects {α} [Elem α] (m : MSet α) (l : List α) : Bool := l.any m.contains

end MSet

/-- Pairs are Python tuples: their type has `__hash__`, and they can be hashed if the components
can. -/
instance {α β} [Elem α] [Elem β] : Elem (α × β) where
  decEq := inferInstance
  hashClass p := if hashOk p.1 && hashOk p.2 then .good else .tricky

/-- `__mul__`, `mathset.py:186-224`. -/
def MSet.mul {α β} [Elem α] [Elem β] (m : MSet α) (o : MSet β) : MSet (α × β) :=
  .ofList (m.iter.flatMap fun x => o.iter.map fun y => (x, y))

/-! ## Subsets -/

/-- What can be given as superset: a `MathSet` (or `States`, whose `in` is total), a list, a
Python `set`. -/
inductive Superset (α : Type) where
  | mathset (m : MSet α)
  | list (l : List α)
  | pyset (l : List α)

/-- `x in superset`. -/
def Superset.contains {α} [Elem α] : Superset α → α → Except PyErr Bool
  | .mathset m, x => .ok (m.contains x)
  | .list l, x => .ok (decide (x ∈ l))
  | .pyset l, x => if hashOk x then .ok (decide (x ∈ l)) else .error .typeError

/-- `all(map(f, l))` where `f` may raise. -/
def allM {α} (f : α → Except PyErr Bool) : List α → Except PyErr Bool
  | [] => .ok true
  | x :: xs => do if ← f x then allM f xs else .ok false

/-- `is_subset`, `mathset.py:745-784`, for arguments that are not strings: a list is turned into a
`set` if all its elements can be hashed. -/
def isSubset {α} [Elem α] (small : List α) : Superset α → Except PyErr Bool
  | .list l => if l.all hashOk then allM (Superset.contains (.pyset l)) small
      else allM (Superset.contains (.list l)) small
  | s => allM s.contains small

/-- A `SubSet`, `mathset.py:538-653`. -/
structure SSet (α : Type) where
  superset : Superset α
  elems : MSet α

/-- `SubSet.add`, `mathset.py:598-623`. -/
def SSet.add {α} [Elem α] (s : SSet α) (x : α) : Except PyErr (SSet α) := do
  if ← s.superset.contains x then .ok { s with elems := s.elems.add x } else .error .valueError

/-- `SubSet.add_from`, `mathset.py:625-653`; also `|=` and `update`. -/
def SSet.addFrom {α} [Elem α] (s : SSet α) (l : List α) : Except PyErr (SSet α) := do
  if ← isSubset l s.superset then .ok { s with elems := s.elems.addFrom (.items l) }
  else .error .valueError

/-- `MathSet.remove` on a `SubSet`. -/
def SSet.remove {α} [Elem α] (s : SSet α) (x : α) : Except PyErr (SSet α) := do
  .ok { s with elems := ← s.elems.remove x }

/-- `SubSet(superset, iterable)`, `mathset.py:563-582`. -/
def SSet.new {α} [Elem α] (sup : Superset α) (l : List α) : Except PyErr (SSet α) :=
  SSet.addFrom ⟨sup, .empty⟩ l

/-! ## Power sets -/

/-- `itertools.combinations(s, r)`. -/
def combinations {α} : List α → Nat → List (List α)
  | _, 0 => [[]]
  | [], _ + 1 => []
  | x :: xs, r + 1 => (combinations xs r).map (x :: ·) ++ combinations xs (r + 1)

/-- `powerset`, `mathset.py:787-799`. -/
def powerset {α} (s : List α) : List (List α) :=
  (List.range (s.length + 1)).flatMap (combinations s)

/-- `PowerSet.__contains__`, `mathset.py:871-877`, for an iterable that is not a string. -/
def PowerSet.contains {α} [Elem α] (base : MSet α) (item : List α) : Except PyErr Bool :=
  isSubset item (.mathset base)

/-- `PowerSet.__iter__`, `mathset.py:879-880`. -/
def PowerSet.iter {α} (base : MSet α) : List (List α) := powerset base.iter

/-- `PowerSet.__len__`, `mathset.py:882-883`. -/
def PowerSet.len {α} (base : MSet α) : Nat := 2 ^ base.len

/-! ## Typed dictionaries -/

/-- A `TypedDict`, `mathset.py:914-`: the items and `allowed_values`. An allowed set is `None` (any
value) or a container; `y in container` may raise. -/
structure TDict (κ ν : Type) where
  items : Dict κ ν
  allowed : Dict κ (Option (ν → Except PyErr Bool))

namespace TDict

/-- `__setitem__`, `mathset.py:944-967`. -/
def setItem {κ ν} [DecidableEq κ] (d : TDict κ ν) (k : κ) (y : ν) : Except PyErr (TDict κ ν) :=
  let valid := match d.allowed.get? k with
    | some (some c) => match c y with | .ok b => b | .error _ => false
    | _ => true
  if valid then .ok { d with items := d.items.set k y } else .error .valueError

/-- `update`, `mathset.py:972-987`: the items are assigned one by one, so that those before a
rejected one stay. Returns the final state and the exception, if any. -/
def update {κ ν} [DecidableEq κ] (d : TDict κ ν) : List (κ × ν) → TDict κ ν × Option PyErr
  | [] => (d, none)
  | (k, y) :: rest => match d.setItem k y with
    | .ok d' => d'.update rest
    | .error e => (d, some e)

/-- `setdefault`, `mathset.py:988-994`. -/
def setDefault {κ ν} [DecidableEq κ] (d : TDict κ ν) (k : κ) (y : ν) :
    Except PyErr (TDict κ ν × ν) :=
  match d.items.get? k with
  | some v => .ok (d, v)
  | none => do .ok (← d.setItem k y, y)

/-- `set_types`, `mathset.py:996-1014`. -/
def setTypes {κ ν} (d : TDict κ ν) (a : Dict κ (Option (ν → Except PyErr Bool))) : TDict κ ν :=
  { d with allowed := a }

/-- `is_consistent`, `mathset.py:1016-1026`, with string keys: `for k, v in self` unpacks each *key*
into two characters, so that it raises `ValueError` for a key that has not exactly two; otherwise
the first character is looked up among the typed keys and the second tested as value. -/
def isConsistent (d : TDict String String) : Except PyErr Bool :=
  go d.items
where
  go : List (String × String) → Except PyErr Bool
  | [] => .ok true
  | (key, _) :: rest => match key.toList with
    | [k, v] => match d.allowed.get? (String.ofList [k]) with
      | some (some c) => do if ← c (String.ofList [v]) then go rest else .ok false
      | some none => .error .typeError
      | none => go rest
    | _ => .error .valueError

end TDict

end Tulip
