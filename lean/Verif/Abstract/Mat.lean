import Mathlib.Algebra.BigOperators.Intervals
import Mathlib.Algebra.BigOperators.Ring.Finset
import Mathlib.Algebra.Order.Field.Basic
import Mathlib.Algebra.Order.BigOperators.Ring.Finset

/-!
# Arrays of two dimensions

The arrays of `numpy` that `tulip/abstract/feasible.py` and `tulip/abstract/find_controller.py` compute
with. An array is its shape and a function from indices to entries; an entry is meaningful only within
the shape. The floating-point numbers are elements of an ordered field (the rationals, the reals):
rounding is not modelled.
-/

namespace Tulip

namespace Abs

open Finset

/-- An array with `shape = (rows, cols)`. -/
structure Mat (R : Type) where
  rows : Nat
  cols : Nat
  get : Nat → Nat → R

set_option linter.unusedSectionVars false

namespace Mat

variable {R : Type} [Field R] [LinearOrder R] [IsStrictOrderedRing R]

/-- `np.zeros([r, c])`. -/
def zeros (r c : Nat) : Mat R := ⟨r, c, fun _ _ => 0⟩

/-- `np.eye(n)`. -/
def eye (n : Nat) : Mat R := ⟨n, n, fun i j => if i = j then 1 else 0⟩

/-- `np.ones((r, c))`. -/
def ones (r c : Nat) : Mat R := ⟨r, c, fun _ _ => 1⟩

/-- `A.dot(B)`, for `A.cols = B.rows`. -/
def dot (A B : Mat R) : Mat R :=
  ⟨A.rows, B.cols, fun i j => ∑ k ∈ range A.cols, A.get i k * B.get k j⟩

/-- `A - B`, for equal shapes. -/
def sub (A B : Mat R) : Mat R := ⟨A.rows, A.cols, fun i j => A.get i j - B.get i j⟩

/-- `A + B`, for equal shapes. -/
def add (A B : Mat R) : Mat R := ⟨A.rows, A.cols, fun i j => A.get i j + B.get i j⟩

/-- `- A`. -/
def neg (A : Mat R) : Mat R := ⟨A.rows, A.cols, fun i j => - A.get i j⟩

/-- `A.T`. -/
def T (A : Mat R) : Mat R := ⟨A.cols, A.rows, fun i j => A.get j i⟩

/-- `c * A`. -/
def smul (c : R) (A : Mat R) : Mat R := ⟨A.rows, A.cols, fun i j => c * A.get i j⟩

/-- `A[r0:r0 + B.rows, c0:c0 + B.cols] = B`. -/
def setBlock (A : Mat R) (r0 c0 : Nat) (B : Mat R) : Mat R :=
  ⟨A.rows, A.cols, fun i j =>
    if r0 ≤ i ∧ i < r0 + B.rows ∧ c0 ≤ j ∧ j < c0 + B.cols then B.get (i - r0) (j - c0)
    else A.get i j⟩

/-- `np.vstack([A, B])`, for equal numbers of columns. -/
def vstack (A B : Mat R) : Mat R :=
  ⟨A.rows + B.rows, A.cols, fun i j => if i < A.rows then A.get i j else B.get (i - A.rows) j⟩

/-- `np.hstack([A, B])`, for equal numbers of rows. -/
def hstack (A B : Mat R) : Mat R :=
  ⟨A.rows, A.cols + B.cols, fun i j => if j < A.cols then A.get i j else B.get i (j - A.cols)⟩

/-- `np.tile(A, (N, 1))`. -/
def tile (A : Mat R) (N : Nat) : Mat R := ⟨N * A.rows, A.cols, fun i j => A.get (i % A.rows) j⟩

/-- `A[lo:hi, :]`, as `A[range(lo, hi), :]`. -/
def rowsFrom (A : Mat R) (lo hi : Nat) : Mat R := ⟨hi - lo, A.cols, fun i j => A.get (lo + i) j⟩

/-- `A[:, lo:hi]`, as `A[:, range(lo, hi)]`. -/
def colsFrom (A : Mat R) (lo hi : Nat) : Mat R := ⟨A.rows, hi - lo, fun i j => A.get i (lo + j)⟩

/-- `_block_diag2` (`tulip/abstract/feasible.py:750-781`), for arrays of two dimensions. -/
def blockDiag2 (A B : Mat R) : Mat R :=
  ((zeros (A.rows + B.rows) (A.cols + B.cols)).setBlock 0 0 A).setBlock A.rows A.cols B

/-- `np.all(A == 0)`. -/
def allZero (A : Mat R) : Bool :=
  (List.range A.rows).all fun i => (List.range A.cols).all fun j => decide (A.get i j = 0)

/-- The product of an array and a vector. -/
def app (A : Mat R) (x : Nat → R) (i : Nat) : R := ∑ k ∈ range A.cols, A.get i k * x k

/-! ## Lemmas -/

theorem setBlock_in (A B : Mat R) {r0 c0 i j : Nat} (hi : r0 ≤ i) (hi' : i < r0 + B.rows) (hj : c0 ≤ j)
    (hj' : j < c0 + B.cols) : (A.setBlock r0 c0 B).get i j = B.get (i - r0) (j - c0) :=
  if_pos ⟨hi, hi', hj, hj'⟩

theorem setBlock_row (A B : Mat R) {r0 r c : Nat} (hr : r < B.rows) (hc : c < B.cols) :
    (A.setBlock r0 0 B).get (r0 + r) c = B.get r c := by
  rw [setBlock_in _ _ (by omega) (by omega) (by omega) (by omega), Nat.add_sub_cancel_left, Nat.sub_zero]

theorem setBlock_out (A B : Mat R) {r0 c0 i j : Nat}
    (h : ¬ (r0 ≤ i ∧ i < r0 + B.rows ∧ c0 ≤ j ∧ j < c0 + B.cols)) :
    (A.setBlock r0 c0 B).get i j = A.get i j := if_neg h

theorem app_congr (A : Mat R) {x y : Nat → R} (h : ∀ k < A.cols, x k = y k) (i : Nat) :
    A.app x i = A.app y i :=
  sum_congr rfl fun k hk => by rw [h k (mem_range.1 hk)]

theorem app_add (A : Mat R) (x y : Nat → R) (i : Nat) :
    A.app (fun k => x k + y k) i = A.app x i + A.app y i := by
  simp only [app, mul_add, sum_add_distrib]

theorem app_zero (A : Mat R) (i : Nat) : A.app (fun _ => 0) i = 0 := by simp [app]

theorem app_dot (A B : Mat R) (x : Nat → R) (i : Nat) : (A.dot B).app x i = A.app (B.app x) i := by
  simp only [app, dot, sum_mul, mul_sum]
  rw [sum_comm]
  exact sum_congr rfl fun k _ => sum_congr rfl fun j _ => by ring

theorem dot_get (A B : Mat R) (i j : Nat) : (A.dot B).get i j = A.app (fun k => B.get k j) i := rfl

theorem app_hstack (A B : Mat R) (x : Nat → R) (i : Nat) :
    (A.hstack B).app x i = A.app x i + B.app (fun k => x (A.cols + k)) i := by
  simp only [app, hstack]
  rw [sum_range_add]
  congr 1
  · exact sum_congr rfl fun k hk => by rw [if_pos (mem_range.1 hk)]
  · exact sum_congr rfl fun k _ => by
      rw [if_neg (by omega)]
      congr 2
      omega

theorem app_vstack_lt (A B : Mat R) (x : Nat → R) {i : Nat} (h : i < A.rows) :
    (A.vstack B).app x i = A.app x i := by
  simp only [app, vstack, if_pos h]

theorem app_vstack_ge (A B : Mat R) (h : A.cols = B.cols) (x : Nat → R) (i : Nat) :
    (A.vstack B).app x (A.rows + i) = B.app x i := by
  simp only [app, vstack, h]
  exact sum_congr rfl fun k _ => by
    rw [if_neg (by omega)]
    congr 2
    omega

theorem app_eye {n : Nat} (x : Nat → R) {i : Nat} (h : i < n) : (eye n : Mat R).app x i = x i := by
  simp only [app, eye]
  rw [sum_eq_single i]
  · simp
  · intro j _ hj
    rw [if_neg (fun h => hj h.symm), zero_mul]
  · intro hi
    exact absurd (mem_range.2 h) hi

theorem app_zeros (r c : Nat) (x : Nat → R) (i : Nat) : (zeros r c : Mat R).app x i = 0 := by
  simp [app, zeros]

/-- A sum of products with the entries of a block `np.eye(k)` at column `o`. -/
theorem sum_block {T o k r : Nat} (w : Nat → R) (hr : r < k) (hT : o + k ≤ T) :
    ∑ c ∈ range T, (if o ≤ c ∧ c < o + k then (if r = c - o then (1 : R) else 0) else 0) * w c
      = w (o + r) := by
  rw [sum_eq_single (o + r)]
  · rw [if_pos ⟨by omega, by omega⟩, if_pos (by omega), one_mul]
  · intro c _ hc
    split
    · rw [if_neg (by omega), zero_mul]
    · rw [zero_mul]
  · intro h
    exact absurd (mem_range.2 (by omega)) h

theorem blockDiag2_get (A B : Mat R) (i j : Nat) : (A.blockDiag2 B).get i j =
    if A.rows ≤ i ∧ i < A.rows + B.rows ∧ A.cols ≤ j ∧ j < A.cols + B.cols then
      B.get (i - A.rows) (j - A.cols)
    else if i < A.rows ∧ j < A.cols then A.get i j else 0 := by
  simp [blockDiag2, setBlock, zeros]

theorem app_blockDiag2_lt (A B : Mat R) (x : Nat → R) {i : Nat} (h : i < A.rows) :
    (A.blockDiag2 B).app x i = A.app x i := by
  have hc : (A.blockDiag2 B).cols = A.cols + B.cols := rfl
  simp only [app, hc, sum_range_add, blockDiag2_get]
  rw [add_eq_left.2]
  · exact sum_congr rfl fun k hk => by
      rw [if_neg (by omega), if_pos ⟨h, mem_range.1 hk⟩]
  · exact sum_eq_zero fun k _ => by
      rw [if_neg (by omega), if_neg (by omega), zero_mul]

theorem app_blockDiag2_ge (A B : Mat R) (x : Nat → R) {i : Nat} (h : i < B.rows) :
    (A.blockDiag2 B).app x (A.rows + i) = B.app (fun k => x (A.cols + k)) i := by
  have hc : (A.blockDiag2 B).cols = A.cols + B.cols := rfl
  simp only [app, hc, sum_range_add, blockDiag2_get]
  rw [add_eq_right.2]
  · exact sum_congr rfl fun k hk => by
      rw [if_pos (by have := mem_range.1 hk; omega)]
      congr 2 <;> omega
  · exact sum_eq_zero fun k hk => by
      have := mem_range.1 hk
      rw [if_neg (by omega), if_neg (by omega), zero_mul]

theorem allZero_iff (A : Mat R) :
    A.allZero = true ↔ ∀ i < A.rows, ∀ j < A.cols, A.get i j = 0 := by
  simp [allZero, List.all_eq_true]

end Mat

end Abs

end Tulip
