import Verif.Abstract.CreateLMProps

/-!
# Linear programs have solutions

The contract that `GetInputProps` assumes of a solver of linear programs can be met: a linear program that is
feasible and bounded has an optimal solution, over every ordered field (Fourier-Motzkin elimination).
-/

namespace Tulip

namespace Abs

open Finset

set_option linter.unusedSectionVars false

variable {R : Type} [Field R] [LinearOrder R] [IsStrictOrderedRing R]

/-- The inequality `sum over c < n of a c * x c <= b`. -/
structure Ineq (R : Type) where
  a : Nat → R
  b : R

/-- The point `x` satisfies the inequality on the first `n` coordinates. -/
def Ineq.Ok (n : Nat) (x : Nat → R) (q : Ineq R) : Prop := ∑ c ∈ range n, q.a c * x c ≤ q.b

/-- The combination of two inequalities that cancels coordinate `n`. -/
def Ineq.comb (n : Nat) (p q : Ineq R) : Ineq R :=
  ⟨fun c => p.a n * q.a c - q.a n * p.a c, p.a n * q.b - q.a n * p.b⟩

/-- The inequalities after the elimination of coordinate `n`. -/
def elimLast (n : Nat) (l : List (Ineq R)) : List (Ineq R) :=
  l.filter (fun q => decide (q.a n = 0)) ++
    (l.filter fun p => decide (0 < p.a n)).flatMap fun p =>
      (l.filter fun q => decide (q.a n < 0)).map fun q => p.comb n q

/-- Lower bounds that are all below upper bounds leave room for a number. -/
theorem exists_between_lists (lo hi : List R) (h : ∀ a ∈ lo, ∀ b ∈ hi, a ≤ b) :
    ∃ y, (∀ a ∈ lo, a ≤ y) ∧ ∀ b ∈ hi, y ≤ b := by
  induction lo with
  | nil =>
    induction hi with
    | nil => exact ⟨0, by simp, by simp⟩
    | cons b l ih =>
      obtain ⟨y, _, hy⟩ := ih (by simp)
      exact ⟨min y b, by simp, fun c hc => by
        rcases List.mem_cons.1 hc with rfl | hc
        · exact min_le_right _ _
        · exact le_trans (min_le_left _ _) (hy c hc)⟩
  | cons a l ih =>
    obtain ⟨y, hy, hy'⟩ := ih fun c hc => h c (List.mem_cons_of_mem _ hc)
    refine ⟨max y a, fun c hc => ?_, fun b hb => max_le (hy' b hb) (h a (List.mem_cons_self ..) b hb)⟩
    rcases List.mem_cons.1 hc with rfl | hc
    · exact le_max_right _ _
    · exact le_trans (hy c hc) (le_max_left _ _)

/-- The point `x` with `y` at coordinate `n`. -/
def setAt (x : Nat → R) (n : Nat) (y : R) (c : Nat) : R := if c = n then y else x c

theorem ok_setAt (n : Nat) (x : Nat → R) (y : R) (q : Ineq R) :
    q.Ok (n + 1) (setAt x n y) ↔ ∑ c ∈ range n, q.a c * x c + q.a n * y ≤ q.b := by
  unfold Ineq.Ok
  rw [sum_range_succ]
  have : ∑ c ∈ range n, q.a c * setAt x n y c = ∑ c ∈ range n, q.a c * x c :=
    sum_congr rfl fun c hc => by
      rw [setAt, if_neg (by have := mem_range.1 hc; omega)]
  rw [this, setAt, if_pos rfl]

theorem elimLast_ok (n : Nat) (l : List (Ineq R)) (x : Nat → R) :
    (∀ q ∈ elimLast n l, q.Ok n x) ↔ ∃ y, ∀ q ∈ l, q.Ok (n + 1) (setAt x n y) := by
  constructor
  · intro h
    have hz : ∀ q ∈ l, q.a n = 0 → ∑ c ∈ range n, q.a c * x c ≤ q.b := fun q hq hq0 =>
      h q (List.mem_append_left _ (List.mem_filter.2 ⟨hq, by simpa using hq0⟩))
    have hc : ∀ p ∈ l, 0 < p.a n → ∀ q ∈ l, q.a n < 0 →
        p.a n * ∑ c ∈ range n, q.a c * x c - q.a n * ∑ c ∈ range n, p.a c * x c ≤
          p.a n * q.b - q.a n * p.b := by
      intro p hp hp0 q hq hq0
      have := h (p.comb n q) (List.mem_append_right _ (List.mem_flatMap.2
        ⟨p, List.mem_filter.2 ⟨hp, by simpa using hp0⟩,
          List.mem_map.2 ⟨q, List.mem_filter.2 ⟨hq, by simpa using hq0⟩, rfl⟩⟩))
      unfold Ineq.Ok Ineq.comb at this
      simp only at this
      rw [mul_sum, mul_sum, ← sum_sub_distrib]
      refine le_trans (le_of_eq (sum_congr rfl fun c _ => ?_)) this
      ring
    obtain ⟨y, hlo, hhi⟩ := exists_between_lists
      ((l.filter fun q => decide (q.a n < 0)).map fun q => (q.b - ∑ c ∈ range n, q.a c * x c) / q.a n)
      ((l.filter fun q => decide (0 < q.a n)).map fun q => (q.b - ∑ c ∈ range n, q.a c * x c) / q.a n) (by
        intro a ha b hb
        obtain ⟨q, hq, rfl⟩ := List.mem_map.1 ha
        obtain ⟨p, hp, rfl⟩ := List.mem_map.1 hb
        obtain ⟨hq, hq0⟩ := List.mem_filter.1 hq
        obtain ⟨hp, hp0⟩ := List.mem_filter.1 hp
        have hq0 : q.a n < 0 := by simpa using hq0
        have hp0 : 0 < p.a n := by simpa using hp0
        have := hc p hp hp0 q hq hq0
        rw [le_div_iff₀ hp0, div_mul_eq_mul_div, div_le_iff_of_neg hq0]
        nlinarith)
    refine ⟨y, fun q hq => (ok_setAt n x y q).2 ?_⟩
    rcases lt_trichotomy (q.a n) 0 with hneg | hzero | hpos
    · have := hlo _ (List.mem_map.2 ⟨q, List.mem_filter.2 ⟨hq, by simpa using hneg⟩, rfl⟩)
      rw [div_le_iff_of_neg hneg] at this
      linarith [mul_comm y (q.a n)]
    · rw [hzero, zero_mul, add_zero]
      exact hz q hq hzero
    · have := hhi _ (List.mem_map.2 ⟨q, List.mem_filter.2 ⟨hq, by simpa using hpos⟩, rfl⟩)
      rw [le_div_iff₀ hpos] at this
      linarith [mul_comm y (q.a n)]
  · rintro ⟨y, h⟩ q hq
    rcases List.mem_append.1 hq with hq | hq
    · obtain ⟨hq, hq0⟩ := List.mem_filter.1 hq
      have hq0 : q.a n = 0 := by simpa using hq0
      have := (ok_setAt n x y q).1 (h q hq)
      rw [hq0, zero_mul, add_zero] at this
      exact this
    · obtain ⟨p, hp, hq⟩ := List.mem_flatMap.1 hq
      obtain ⟨q, hq', rfl⟩ := List.mem_map.1 hq
      obtain ⟨hq, hq0⟩ := List.mem_filter.1 hq'
      obtain ⟨hp, hp0⟩ := List.mem_filter.1 hp
      have hq0 : q.a n < 0 := by simpa using hq0
      have hp0 : 0 < p.a n := by simpa using hp0
      have h1 := (ok_setAt n x y p).1 (h p hp)
      have h2 := (ok_setAt n x y q).1 (h q hq)
      unfold Ineq.Ok Ineq.comb
      simp only
      have e : ∑ c ∈ range n, (p.a n * q.a c - q.a n * p.a c) * x c =
          p.a n * ∑ c ∈ range n, q.a c * x c - q.a n * ∑ c ∈ range n, p.a c * x c := by
        rw [mul_sum, mul_sum, ← sum_sub_distrib]
        exact sum_congr rfl fun c _ => by ring
      rw [e]
      nlinarith [mul_le_mul_of_nonneg_left h2 hp0.le, mul_le_mul_of_nonneg_left h1 (neg_nonneg.2 hq0.le)]

theorem ok_congr (n : Nat) (x y : Nat → R) (h : ∀ c < n, x c = y c) (q : Ineq R) : q.Ok n x ↔ q.Ok n y := by
  unfold Ineq.Ok
  rw [sum_congr rfl fun c hc => by rw [h c (mem_range.1 hc)]]

/-- The elimination of the coordinates from `n` up to `n + k`. -/
def elimMany (n : Nat) : Nat → List (Ineq R) → List (Ineq R)
  | 0, l => l
  | k + 1, l => elimMany n k (elimLast (n + k) l)

theorem elimMany_ok (n k : Nat) (l : List (Ineq R)) (x : Nat → R) :
    (∀ q ∈ elimMany n k l, q.Ok n x) ↔ ∃ y, (∀ c < n, y c = x c) ∧ ∀ q ∈ l, q.Ok (n + k) y := by
  induction k generalizing l with
  | zero =>
    refine ⟨fun h => ⟨x, fun _ _ => rfl, h⟩, ?_⟩
    rintro ⟨y, hy, h⟩ q hq
    exact (ok_congr n x y (fun c hc => (hy c hc).symm) q).2 (h q hq)
  | succ k ih =>
    show (∀ q ∈ elimMany n k (elimLast (n + k) l), q.Ok n x) ↔ _
    rw [ih]
    constructor
    · rintro ⟨y, hy, h⟩
      obtain ⟨t, ht⟩ := (elimLast_ok (n + k) l y).1 h
      exact ⟨setAt y (n + k) t, fun c hc => by rw [setAt, if_neg (by omega)]; exact hy c hc, ht⟩
    · rintro ⟨y, hy, h⟩
      refine ⟨y, hy, (elimLast_ok (n + k) l y).2 ⟨y (n + k), fun q hq => ?_⟩⟩
      refine (ok_congr _ _ y (fun c _ => ?_) q).2 (h q hq)
      rw [setAt]
      split
      · rename_i hc; rw [hc]
      · rfl

/-- Finitely many inequalities on a number, satisfiable and not all satisfied by small numbers, have a least
solution. -/
theorem least_of_ineqs (l : List (R × R)) (t0 b : R) (h0 : ∀ q ∈ l, q.1 * t0 ≤ q.2)
    (hb : ∀ t, (∀ q ∈ l, q.1 * t ≤ q.2) → b ≤ t) :
    ∃ t, (∀ q ∈ l, q.1 * t ≤ q.2) ∧ ∀ t', (∀ q ∈ l, q.1 * t' ≤ q.2) → t ≤ t' := by
  -- the lower bounds
  have hlow : ∀ l' : List (R × R), (∀ q ∈ l', q ∈ l) → (∃ q ∈ l', q.1 < 0) → ∃ q ∈ l', q.1 < 0 ∧
      ∀ q' ∈ l', q'.1 < 0 → q'.2 / q'.1 ≤ q.2 / q.1 := by
    intro l' _ hne
    induction l' with
    | nil => obtain ⟨q, hq, _⟩ := hne; simp at hq
    | cons p l' ih =>
      by_cases hex : ∃ q ∈ l', q.1 < 0
      · obtain ⟨q, hq, hq0, hmax⟩ := ih (fun q hq => by rename_i h; exact h q (List.mem_cons_of_mem _ hq)) hex
        by_cases hp : p.1 < 0 ∧ q.2 / q.1 ≤ p.2 / p.1
        · refine ⟨p, List.mem_cons_self .., hp.1, fun q' hq' hq'0 => ?_⟩
          rcases List.mem_cons.1 hq' with rfl | hq'
          · exact le_refl _
          · exact le_trans (hmax q' hq' hq'0) hp.2
        · refine ⟨q, List.mem_cons_of_mem _ hq, hq0, fun q' hq' hq'0 => ?_⟩
          rcases List.mem_cons.1 hq' with rfl | hq'
          · exact le_of_lt (not_le.1 fun h => hp ⟨hq'0, h⟩)
          · exact hmax q' hq' hq'0
      · obtain ⟨q, hq, hq0⟩ := hne
        rcases List.mem_cons.1 hq with rfl | hq
        · refine ⟨q, List.mem_cons_self .., hq0, fun q' hq' hq'0 => ?_⟩
          rcases List.mem_cons.1 hq' with rfl | hq'
          · exact le_refl _
          · exact absurd ⟨q', hq', hq'0⟩ hex
        · exact absurd ⟨q, hq, hq0⟩ hex
  by_cases hex : ∃ q ∈ l, q.1 < 0
  · obtain ⟨q, hq, hq0, hmax⟩ := hlow l (fun _ h => h) hex
    have hle : ∀ t', (∀ q ∈ l, q.1 * t' ≤ q.2) → q.2 / q.1 ≤ t' := fun t' ht' => by
      rw [div_le_iff_of_neg hq0]
      linarith [ht' q hq, mul_comm t' q.1]
    refine ⟨q.2 / q.1, fun p hp => ?_, hle⟩
    rcases lt_or_ge p.1 0 with hp0 | hp0
    · have := hmax p hp hp0
      rw [div_le_iff_of_neg hp0] at this
      linarith [mul_comm (q.2 / q.1) p.1]
    · exact le_trans (mul_le_mul_of_nonneg_left (hle t0 h0) hp0) (h0 p hp)
  · -- no lower bound: smaller numbers are solutions
    exfalso
    have h1 : ∀ t ≤ t0, ∀ q ∈ l, q.1 * t ≤ q.2 := fun t ht q hq =>
      le_trans (mul_le_mul_of_nonneg_left ht (not_lt.1 fun h => hex ⟨q, hq, h⟩)) (h0 q hq)
    have h2 := hb (min t0 (b - 1)) (h1 _ (min_le_left _ _))
    have h3 := min_le_right t0 (b - 1)
    linarith

/-- A linear program that is feasible and bounded has an optimal solution. -/
theorem lp_attains (c : Nat → R) (G h : Mat R) (hf : ∃ v, Sat G h v)
    (hb : ∃ b, ∀ v, Sat G h v → b ≤ ∑ k ∈ range G.cols, c k * v k) :
    ∃ v, Sat G h v ∧ ∀ v', Sat G h v' →
      ∑ k ∈ range G.cols, c k * v k ≤ ∑ k ∈ range G.cols, c k * v' k := by
  -- coordinate 0 is the cost
  let rows : List (Ineq R) := (List.range G.rows).map fun r =>
    ⟨fun k => match k with | 0 => 0 | k + 1 => G.get r k, h.get r 0⟩
  let l : List (Ineq R) :=
    ⟨fun k => match k with | 0 => -1 | k + 1 => c k, 0⟩ ::
      ⟨fun k => match k with | 0 => 1 | k + 1 => - c k, 0⟩ :: rows
  have hl : ∀ y : Nat → R, (∀ q ∈ l, q.Ok (1 + G.cols) y) ↔
      Sat G h (fun k => y (k + 1)) ∧ y 0 = ∑ k ∈ range G.cols, c k * y (k + 1) := by
    intro y
    have hs : ∀ f : Nat → R, ∑ k ∈ range (1 + G.cols), f k = ∑ k ∈ range G.cols, f (k + 1) + f 0 := by
      intro f
      rw [Nat.add_comm 1, sum_range_succ']
    simp only [l, rows, List.forall_mem_cons, List.forall_mem_map, Ineq.Ok, hs]
    constructor
    · rintro ⟨h1, h2, h3⟩
      refine ⟨fun r hr => ?_, ?_⟩
      · have := h3 r (List.mem_range.2 hr)
        simpa using this
      · simp only [neg_mul, sum_neg_distrib] at h2
        apply le_antisymm <;> linarith
    · rintro ⟨h1, h2⟩
      refine ⟨?_, ?_, fun r hr => ?_⟩
      · rw [h2]; linarith
      · simp only [neg_mul, sum_neg_distrib]; rw [h2]; linarith
      · have := h1 r (List.mem_range.1 hr)
        simpa using this
  -- the possible costs
  let l1 : List (R × R) := (elimMany 1 G.cols l).map fun q => (q.a 0, q.b)
  have hcost : ∀ t, (∀ q ∈ l1, q.1 * t ≤ q.2) ↔
      ∃ v, Sat G h v ∧ t = ∑ k ∈ range G.cols, c k * v k := by
    intro t
    have := elimMany_ok 1 G.cols l (fun _ => t)
    simp only [l1, List.forall_mem_map]
    have e : (∀ q ∈ elimMany 1 G.cols l, q.a 0 * t ≤ q.b) ↔
        ∀ q ∈ elimMany 1 G.cols l, q.Ok 1 (fun _ => t) := by
      refine forall_congr' fun q => forall_congr' fun _ => ?_
      simp [Ineq.Ok]
    rw [e, this]
    constructor
    · rintro ⟨y, hy, h⟩
      obtain ⟨h1, h2⟩ := (hl y).1 h
      exact ⟨_, h1, by rw [← h2, hy 0 (by omega)]⟩
    · rintro ⟨v, hv, ht⟩
      refine ⟨fun k => match k with | 0 => t | k + 1 => v k, fun k hk => ?_, (hl _).2 ⟨hv, ht⟩⟩
      obtain rfl : k = 0 := by omega
      rfl
  obtain ⟨v0, hv0⟩ := hf
  obtain ⟨b, hb⟩ := hb
  obtain ⟨t, ht, hmin⟩ := least_of_ineqs l1 _ b ((hcost _).2 ⟨v0, hv0, rfl⟩) (fun t ht => by
    obtain ⟨v, hv, rfl⟩ := (hcost t).1 ht
    exact hb v hv)
  obtain ⟨v, hv, rfl⟩ := (hcost t).1 ht
  exact ⟨v, hv, fun v' hv' => hmin _ ((hcost _).2 ⟨v', hv', rfl⟩)⟩

end Abs

end Tulip
