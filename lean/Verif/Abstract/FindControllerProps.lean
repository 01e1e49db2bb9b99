import Verif.Abstract.FindController
import Verif.Abstract.FeasibleProps

/-!
# Properties of locating a discrete state (C62) and testing an input sequence
-/

namespace Tulip

namespace Abs

variable {P X U : Type}

theorem findFrom_spec (inside : P → X → Bool) (x : X) (i : Nat) (part : List P) :
    (∀ k, findFrom inside x i part = some k ↔
      ∃ j : Nat, k = i + j ∧ (∃ r, part[j]? = some r ∧ inside r x = true) ∧
        ∀ j' < j, ∀ r, part[j']? = some r → inside r x = false) ∧
    (findFrom inside x i part = none ↔ ∀ r ∈ part, inside r x = false) := by
  induction part generalizing i with
  | nil => simp [findFrom]
  | cons r part ih =>
    unfold findFrom
    cases hr : inside r x with
    | true =>
      simp only [if_true, Option.some.injEq, reduceCtorEq, List.mem_cons, forall_eq_or_imp, hr,
        Bool.true_eq_false, false_and, and_true]
      intro k
      constructor
      · rintro rfl
        exact ⟨0, rfl, ⟨r, rfl, hr⟩, by omega⟩
      · rintro ⟨j, rfl, _, hmin⟩
        cases j with
        | zero => rfl
        | succ j => exact absurd (hmin 0 (by omega) r rfl) (by simp [hr])
    | false =>
      simp only [Bool.false_eq_true, if_false, List.mem_cons, forall_eq_or_imp, hr, true_and]
      refine ⟨?_, (ih (i + 1)).2⟩
      intro k
      rw [(ih (i + 1)).1]
      constructor
      · rintro ⟨j, rfl, ⟨r', h1, h2⟩, hmin⟩
        refine ⟨j + 1, by omega, ⟨r', by simpa using h1, h2⟩, ?_⟩
        intro j' hj' r'' hr''
        cases j' with
        | zero =>
          simp only [List.getElem?_cons_zero, Option.some.injEq] at hr''
          exact hr'' ▸ hr
        | succ j' => exact hmin j' (by omega) r'' (by simpa using hr'')
      · rintro ⟨j, rfl, ⟨r', h1, h2⟩, hmin⟩
        cases j with
        | zero =>
          simp only [List.getElem?_cons_zero, Option.some.injEq] at h1
          rw [← h1, hr] at h2; cases h2
        | succ j =>
          refine ⟨j, by omega, ⟨r', by simpa using h1, h2⟩, ?_⟩
          intro j' hj' r'' hr''
          exact hmin (j' + 1) (by omega) r'' (by simpa using hr'')

/-- **C62.** `find_discrete_state` returns `k` if and only if `k` is the least index of a region that contains
the point, and `None` if and only if no region does. -/
theorem findDiscreteState_spec (inside : P → X → Bool) (x : X) (part : List P) :
    (∀ k : Nat, findDiscreteState inside x part = some k ↔
      (∃ r, part[k]? = some r ∧ inside r x = true) ∧
        ∀ j < k, ∀ r, part[j]? = some r → inside r x = false) ∧
    (findDiscreteState inside x part = none ↔ ∀ r ∈ part, inside r x = false) := by
  obtain ⟨h1, h2⟩ := findFrom_spec inside x 0 part
  refine ⟨?_, h2⟩
  intro k
  unfold findDiscreteState
  rw [h1]
  constructor
  · rintro ⟨j, rfl, h, h'⟩
    rw [Nat.zero_add]
    exact ⟨h, h'⟩
  · rintro ⟨h, h'⟩
    exact ⟨k, by omega, h, h'⟩

/-- **C62.** In a partition whose regions are disjoint, the index is the only one of a region that contains
the point; and if the regions cover a domain, then every point of the domain has an index. -/
theorem findDiscreteState_partition (inside : P → X → Bool) (part : List P) (dom : Set X)
    (hcover : ∀ x ∈ dom, ∃ r ∈ part, inside r x = true)
    (hdis : ∀ (i j : Nat) (r r' : P) (x : X), part[i]? = some r → part[j]? = some r' →
      inside r x = true → inside r' x = true → i = j) (x : X) (hx : x ∈ dom) :
    ∃ k, findDiscreteState inside x part = some k ∧
      ∀ (j : Nat) (r : P), part[j]? = some r → (inside r x = true ↔ j = k) := by
  obtain ⟨h1, h2⟩ := findDiscreteState_spec inside x part
  cases hf : findDiscreteState inside x part with
  | none =>
    obtain ⟨r, hr, hin⟩ := hcover x hx
    rw [h2.1 hf r hr] at hin
    cases hin
  | some k =>
    obtain ⟨⟨r, hr, hin⟩, _⟩ := (h1 k).1 hf
    refine ⟨k, rfl, ?_⟩
    intro j r' hr'
    constructor
    · intro hin'
      exact hdis j k r' r x hr' hr hin' hin
    · rintro rfl
      rw [hr] at hr'
      cases hr'
      exact hin

/-- The state after the first `k` inputs of a sequence. -/
def stateAt (step : X → U → X) (x0 : X) (us : List U) (k : Nat) : X := (us.take k).foldl step x0

theorem seqLoop_spec (inside : P → X → Bool) (step : X → U → X) (P0 : P) (us : List U) (x : X)
    (ok : Bool) :
    (seqLoop inside step P0 us (x, ok)).1 = us.foldl step x ∧
    ((seqLoop inside step P0 us (x, ok)).2 = true ↔
      ok = true ∧ ∀ k, 1 ≤ k → k ≤ us.length → inside P0 (stateAt step x us k) = true) := by
  induction us generalizing x ok with
  | nil =>
    refine ⟨rfl, ?_⟩
    simp only [seqLoop, List.length_nil]
    exact ⟨fun h => ⟨h, fun k h1 h2 => by omega⟩, fun h => h.1⟩
  | cons u us ih =>
    simp only [seqLoop, List.foldl_cons]
    obtain ⟨h1, h2⟩ := ih (step x u) (if inside P0 (step x u) then ok else false)
    refine ⟨h1, ?_⟩
    rw [h2]
    have hk : ∀ k, stateAt step x (u :: us) (k + 1) = stateAt step (step x u) us k := by
      intro k; simp [stateAt]
    constructor
    · rintro ⟨h, h'⟩
      have hin : inside P0 (step x u) = true ∧ ok = true := by
        cases hb : inside P0 (step x u) <;> simp_all
      refine ⟨hin.2, ?_⟩
      intro k hk1 hk2
      obtain ⟨k, rfl⟩ : ∃ j, k = j + 1 := ⟨k - 1, by omega⟩
      rw [hk]
      cases k with
      | zero => simpa [stateAt] using hin.1
      | succ k => exact h' (k + 1) (by omega) (by simpa using hk2)
    · rintro ⟨h, h'⟩
      refine ⟨?_, ?_⟩
      · have := h' 1 (by omega) (by simp)
        rw [show (1 : Nat) = 0 + 1 from rfl, hk] at this
        have : inside P0 (step x u) = true := by simpa [stateAt] using this
        simp [this, h]
      · intro k hk1 hk2
        rw [← hk]
        exact h' (k + 1) (by omega) (by simp; omega)

/-- `is_seq_inside` with `N ≥ 1` inputs returns `True` if and only if the states at times `1, …, N - 1` are in
`P0` and the state at time `N` is in `P1`; with no inputs it raises `IndexError`. -/
theorem isSeqInside_spec (inside : P → X → Bool) (step : X → U → X) (x0 : X) (us : List U)
    (P0 P1 : P) :
    (us = [] → isSeqInside inside step x0 us P0 P1 = .error .indexError) ∧
    (us ≠ [] → ∃ b, isSeqInside inside step x0 us P0 P1 = .ok b ∧
      (b = true ↔
        (∀ k, 1 ≤ k → k < us.length → inside P0 (stateAt step x0 us k) = true) ∧
        inside P1 (stateAt step x0 us us.length) = true)) := by
  constructor
  · rintro rfl; rfl
  · intro hne
    obtain ⟨h1, h2⟩ := seqLoop_spec inside step P0 us.dropLast x0 true
    unfold isSeqInside
    rw [List.getLast?_eq_some_getLast hne]
    refine ⟨_, rfl, ?_⟩
    have hlast : stateAt step x0 us us.length =
        step (us.dropLast.foldl step x0) (us.getLast hne) := by
      unfold stateAt
      rw [List.take_length]
      conv_lhs => rw [← List.dropLast_concat_getLast hne]
      rw [List.foldl_append]; rfl
    have hmid : ∀ k, k < us.length → stateAt step x0 us.dropLast k = stateAt step x0 us k := by
      intro k hk
      unfold stateAt
      congr 1
      rw [List.dropLast_eq_take, List.take_take]
      congr 1
      omega
    show (if inside P1 (step (seqLoop inside step P0 us.dropLast (x0, true)).1 (us.getLast hne)) = true
      then (seqLoop inside step P0 us.dropLast (x0, true)).2 else false) = true ↔ _
    rw [hlast, ← h1]
    cases hb : inside P1 (step (seqLoop inside step P0 us.dropLast (x0, true)).1 (us.getLast hne)) with
    | false => simp
    | true =>
      simp only [if_true, and_true]
      rw [h2]
      simp only [true_and, List.length_dropLast]
      constructor
      · intro h k hk1 hk2
        rw [← hmid k hk2]
        exact h k hk1 (by omega)
      · intro h k hk1 hk2
        rw [hmid k (by omega)]
        exact h k hk1 (by omega)

/-! ### Examples -/

/-- Intervals of integers as regions. -/
def intIn (r : Int × Int) (x : Int) : Bool := r.1 ≤ x && x < r.2

/-- The hypotheses of `findDiscreteState_partition` are met by three intervals. -/
example : (∀ x ∈ {x : Int | 0 ≤ x ∧ x < 9}, ∃ r ∈ [((0 : Int), (3 : Int)), (3, 6), (6, 9)],
      intIn r x = true) ∧
    findDiscreteState intIn 4 [(0, 3), (3, 6), (6, 9)] = some 1 ∧
    findDiscreteState intIn 9 [(0, 3), (3, 6), (6, 9)] = none := by
  refine ⟨?_, by decide +kernel, by decide +kernel⟩
  intro x hx
  have h0 : 0 ≤ x := hx.1
  have h9 : x < 9 := hx.2
  simp only [List.mem_cons, List.not_mem_nil, or_false, exists_eq_or_imp, exists_eq_left, intIn,
    Bool.and_eq_true, decide_eq_true_eq]
  omega

/-- The state at time 0 is not tested, and a violation at an intermediate time is not forgotten. -/
example :
    (isSeqInside intIn (fun x u => x + u) 100 [-99, 1, 5] (0, 3) (6, 9)).toOption = some true ∧
    (isSeqInside intIn (fun x u => x + u) 1 [4, -3, 5] (0, 3) (6, 9)).toOption = some false := by
  decide +kernel

end Abs

end Tulip
