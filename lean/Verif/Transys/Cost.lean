import Verif.Basic
import Mathlib.Order.Defs.LinearOrder
import Mathlib.Algebra.Order.Monoid.Defs

/-!
# Model of `tulip/transys/cost.py`

Entries of a vector are added and compared exactly (Python floats round, and `nan` is not ordered).
-/

namespace Tulip

/-- The right operand of `+` and of a comparison: a number or a `VectorCost`. -/
inductive CostArg (α : Type) where
  | num (x : α)
  | vec (l : List α)

namespace VectorCost
variable {α : Type}

/-- `VectorCost._convert`, `cost.py:85-98`. A number is repeated, then the lengths are compared. -/
def convert (a : List α) : CostArg α → Except PyErr (List α)
  | .num x => .ok (List.replicate a.length x)
  | .vec b => if a.length = b.length then .ok b else .error .valueError

/-- `VectorCost.__add__` and `__radd__`, `cost.py:100-123`. -/
def add [Add α] (a : List α) (b : CostArg α) : Except PyErr (List α) := do
  let b ← convert a b
  pure (List.zipWith (· + ·) a b)

/-- The loop of `__eq__`, `cost.py:127-129`. -/
def eqLoop [DecidableEq α] : List α → List α → Bool
  | x :: a, y :: b => decide (x = y) && eqLoop a b
  | _, _ => true

/-- The loop of `__gt__`, `cost.py:133-137`; the loop that ends returns `True`. -/
def gtLoop [LT α] [DecidableEq α] [DecidableLT α] : List α → List α → Bool
  | x :: a, y :: b => if x = y then gtLoop a b else decide (x > y)
  | _, _ => true

section
variable [LT α] [DecidableEq α] [DecidableLT α]

/-- `VectorCost.__eq__`, `cost.py:125-129`. -/
def eq (a : List α) (b : CostArg α) : Except PyErr Bool := do
  let b ← convert a b
  pure (eqLoop a b)

/-- `VectorCost.__gt__`, `cost.py:131-137`. -/
def gt (a : List α) (b : CostArg α) : Except PyErr Bool := do
  let b ← convert a b
  pure (gtLoop a b)

/-- `<` as `functools.total_ordering` (`cost.py:54`) derives it from `__gt__` and `__eq__`:
`not (self > other) and self != other`. -/
def lt (a : List α) (b : CostArg α) : Except PyErr Bool := do
  if ← gt a b then pure false else return !(← eq a b)

/-- `>=` as `functools.total_ordering` derives it: `self > other or self == other`. -/
def ge (a : List α) (b : CostArg α) : Except PyErr Bool := do
  if ← gt a b then pure true else eq a b

/-- `<=` as `functools.total_ordering` derives it: `not self > other`. -/
def le (a : List α) (b : CostArg α) : Except PyErr Bool := do
  return !(← gt a b)

/-- `ValidTransitionCost.__contains__` of a vector, `cost.py:43-51`: `other + 0 >= 0` and
`other + 0 == other`. -/
def validCost [Add α] [Zero α] (a : List α) : Except PyErr Bool := do
  let s ← add a (.num 0)
  if ← ge s (.num 0) then eq s (.vec a) else pure false

end
end VectorCost

/-- Cost vectors of `n` entries. -/
@[ext] structure VCost (α : Type) (n : Nat) where
  val : List α
  len : val.length = n
  deriving DecidableEq

end Tulip
