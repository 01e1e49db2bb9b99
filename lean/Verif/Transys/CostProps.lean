import Verif.Transys.Cost
import Verif.Transys.ShortestPathProps

/-!
# C14: cost vectors are ordered lexicographically

`LexLt a b` is the specification: at the first entry where the two differ, `a` is less.
-/

namespace Tulip
namespace VectorCost
variable {α : Type}

/-- `a` precedes `b` lexicographically: they agree before some position, where `a` is less. -/
def LexLt [LT α] (a b : List α) : Prop :=
  ∃ i : Nat, (∀ j < i, a[j]? = b[j]?) ∧ ∃ x y, a[i]? = some x ∧ b[i]? = some y ∧ x < y

variable [LinearOrder α]

theorem lexLt_cons (x y : α) (a b : List α) :
    LexLt (x :: a) (y :: b) ↔ x < y ∨ (x = y ∧ LexLt a b) := by
  constructor
  · rintro ⟨i, h1, u, v, h2, h3, h4⟩
    cases i with
    | zero => simp at h2 h3; subst h2; subst h3; exact .inl h4
    | succ i =>
      have := h1 0 (by omega)
      simp at this
      refine .inr ⟨this, i, fun j hj => ?_, u, v, by simpa using h2, by simpa using h3, h4⟩
      simpa using h1 (j + 1) (by omega)
  · rintro (h | ⟨rfl, i, h1, u, v, h2, h3, h4⟩)
    · exact ⟨0, by simp, x, y, by simp, by simp, h⟩
    · refine ⟨i + 1, fun j hj => ?_, u, v, by simpa using h2, by simpa using h3, h4⟩
      cases j with
      | zero => simp
      | succ j => simpa using h1 j (by omega)

theorem not_lexLt_nil (b : List α) : ¬ LexLt [] b := by
  rintro ⟨i, _, u, v, h, _⟩
  simp at h

theorem eqLoop_iff (a b : List α) (h : a.length = b.length) : eqLoop a b = true ↔ a = b := by
  induction a generalizing b with
  | nil => cases b with
    | nil => simp [eqLoop]
    | cons => simp at h
  | cons x a ih => cases b with
    | nil => simp at h
    | cons y b => simp [eqLoop, ih b (by simpa using h)]

theorem gtLoop_iff (a b : List α) (h : a.length = b.length) :
    gtLoop a b = true ↔ ¬ LexLt a b := by
  induction a generalizing b with
  | nil => simp [gtLoop, not_lexLt_nil]
  | cons x a ih => cases b with
    | nil => simp at h
    | cons y b =>
      rw [gtLoop, lexLt_cons]
      by_cases hxy : x = y
      · simp [hxy, ih b (by simpa using h)]
      · simp [hxy, lt_iff_le_and_ne, Ne.symm hxy]

theorem lexLt_irrefl (a : List α) : ¬ LexLt a a := by
  rintro ⟨i, _, x, y, h1, h2, h3⟩
  rw [h1] at h2
  cases h2
  exact lt_irrefl _ h3

theorem lexLt_trans {a b c : List α} (h1 : LexLt a b) (h2 : LexLt b c) : LexLt a c := by
  obtain ⟨i, hi, x, y, hx, hy, hxy⟩ := h1
  obtain ⟨j, hj, u, v, hu, hv, huv⟩ := h2
  rcases Nat.lt_trichotomy i j with hij | hij | hij
  · exact ⟨i, fun k hk => (hi k hk).trans (hj k (by omega)), x, y, hx, by rw [← hj i hij, hy], hxy⟩
  · subst hij
    rw [hy] at hu; cases hu
    exact ⟨i, fun k hk => (hi k hk).trans (hj k hk), x, v, hx, hv, hxy.trans huv⟩
  · exact ⟨j, fun k hk => (hi k (by omega)).trans (hj k hk), u, v, by rw [hi j hij, hu], hv, huv⟩

theorem lexLt_total (a b : List α) (h : a.length = b.length) : LexLt a b ∨ a = b ∨ LexLt b a := by
  induction a generalizing b with
  | nil => cases b with
    | nil => simp
    | cons => simp at h
  | cons x a ih => cases b with
    | nil => simp at h
    | cons y b =>
      rw [lexLt_cons, lexLt_cons]
      rcases lt_trichotomy x y with hxy | hxy | hxy
      · exact .inl (.inl hxy)
      · subst hxy
        rcases ih b (by simpa using h) with h | h | h
        · exact .inl (.inr ⟨rfl, h⟩)
        · exact .inr (.inl (by rw [h]))
        · exact .inr (.inr (.inr ⟨rfl, h⟩))
      · exact .inr (.inr (.inl hxy))

/-- The vector that an operand stands for: a number is repeated. -/
def operand (n : Nat) : CostArg α → List α
  | .num x => List.replicate n x
  | .vec b => b

omit [LinearOrder α] in
theorem convert_ok (a : List α) (b : CostArg α) (h : (operand a.length b).length = a.length) :
    convert a b = .ok (operand a.length b) := by
  cases b with
  | num x => rfl
  | vec b => simp only [operand] at h; simp [convert, operand, h]

/-- **C14.** On vectors of equal length, and on a vector and a number (which stands for the vector
of that number), `<` is the lexicographic order, `>=` its complement and `==` is equality. -/
theorem comparison_correct (a : List α) (b : CostArg α)
    (h : (operand a.length b).length = a.length) :
    (∃ r, lt a b = .ok r ∧ (r = true ↔ LexLt a (operand a.length b))) ∧
    (∃ r, ge a b = .ok r ∧ (r = true ↔ ¬ LexLt a (operand a.length b))) ∧
    (∃ r, eq a b = .ok r ∧ (r = true ↔ a = operand a.length b)) := by
  have hc := convert_ok a b h
  generalize hb : operand a.length b = v at *
  have h1 := gtLoop_iff a v h.symm
  have h2 := eqLoop_iff a v h.symm
  refine ⟨⟨!(gtLoop a v) && !(eqLoop a v), ?_, ?_⟩, ⟨gtLoop a v || eqLoop a v, ?_, ?_⟩,
    ⟨eqLoop a v, by simp [eq, hc], h2⟩⟩
  · simp only [lt, gt, eq, hc, ok_bind, pure_eq_ok]
    cases gtLoop a v <;> simp
  · simp only [Bool.and_eq_true, Bool.not_eq_true', ← Bool.not_eq_true, h1, h2, not_not]
    constructor
    · exact fun h => h.1
    · exact fun h => ⟨h, fun e => lexLt_irrefl a (e ▸ h)⟩
  · simp only [ge, gt, eq, hc, ok_bind, pure_eq_ok]
    cases gtLoop a v <;> simp
  · simp only [Bool.or_eq_true, h1, h2]
    constructor
    · rintro (h | h)
      · exact h
      · exact h ▸ lexLt_irrefl a
    · exact .inl

/-- **C14.** `>` and `<=` as they are: `>` also holds between equal vectors, so it coincides with
`>=`, and `<=` coincides with `<`. -/
theorem comparison_equal (a : List α) (b : CostArg α)
    (h : (operand a.length b).length = a.length) :
    (∃ r, gt a b = .ok r ∧ (r = true ↔ LexLt (operand a.length b) a ∨ a = operand a.length b)) ∧
    (∃ r, le a b = .ok r ∧ (r = true ↔ LexLt a (operand a.length b))) := by
  have hc := convert_ok a b h
  generalize hb : operand a.length b = v at *
  have h1 := gtLoop_iff a v h.symm
  refine ⟨⟨gtLoop a v, by simp [gt, hc], ?_⟩, ⟨!gtLoop a v, by simp [le, gt, hc], ?_⟩⟩
  · rw [h1]
    constructor
    · intro hn
      rcases lexLt_total a v h.symm with h | h | h
      · exact absurd h hn
      · exact .inr h
      · exact .inl h
    · rintro (h | h) h'
      · exact lexLt_irrefl _ (lexLt_trans h h')
      · exact lexLt_irrefl a (h ▸ h')
  · simp [← Bool.not_eq_true, h1]

/-- **C14.** Vectors of different lengths are not compared or added: every operation raises
`ValueError`. -/
theorem length_mismatch [Add α] (a b : List α) (h : a.length ≠ b.length) :
    lt a (.vec b) = .error .valueError ∧ ge a (.vec b) = .error .valueError ∧
    gt a (.vec b) = .error .valueError ∧ le a (.vec b) = .error .valueError ∧
    eq a (.vec b) = .error .valueError ∧ add a (.vec b) = .error .valueError := by
  simp [lt, ge, gt, le, eq, add, convert, h]

omit [LinearOrder α] in
/-- **C14.** Addition is entry by entry, and keeps the length. -/
theorem add_correct [Add α] (a : List α) (b : CostArg α)
    (h : (operand a.length b).length = a.length) :
    ∃ r, add a b = .ok r ∧ r.length = a.length ∧
      ∀ (i : Nat) (x y : α), a[i]? = some x → (operand a.length b)[i]? = some y → r[i]? = some (x + y) := by
  have hc : convert a b = .ok (operand a.length b) := by
    cases b with
    | num x => rfl
    | vec b => simp only [operand] at h; simp [convert, operand, h]
  refine ⟨List.zipWith (· + ·) a (operand a.length b), by simp [add, hc], by simp [h], ?_⟩
  intro i x y hx hy
  simp [List.getElem?_zipWith, hx, hy]

/-- **C14.** `<` is irreflexive, transitive and total on vectors of equal length. -/
theorem lt_linear (n : Nat) (a b c : List α) (ha : a.length = n) (hb : b.length = n)
    (hc : c.length = n) :
    lt a (.vec a) = .ok false ∧
    (lt a (.vec b) = .ok true → lt b (.vec c) = .ok true → lt a (.vec c) = .ok true) ∧
    (lt a (.vec b) = .ok true ∨ eq a (.vec b) = .ok true ∨ lt b (.vec a) = .ok true) := by
  have key : ∀ u v : List α, u.length = n → v.length = n →
      (lt u (.vec v) = .ok true ↔ LexLt u v) := by
    intro u v hu hv
    obtain ⟨⟨r, h1, h2⟩, _⟩ := comparison_correct u (.vec v) (by simp [operand, hu, hv])
    rw [h1, ← show operand u.length (.vec v) = v from rfl, ← h2]
    simp
  refine ⟨?_, ?_, ?_⟩
  · obtain ⟨⟨r, h1, h2⟩, _⟩ := comparison_correct a (.vec a) rfl
    rw [h1]
    have : r ≠ true := fun hr => lexLt_irrefl a (h2.1 hr)
    simp [this]
  · rw [key a b ha hb, key b c hb hc, key a c ha hc]
    exact lexLt_trans
  · rw [key a b ha hb, key b a hb ha]
    obtain ⟨_, _, ⟨r, h1, h2⟩⟩ := comparison_correct a (.vec b) (by simp [operand, ha, hb])
    rcases lexLt_total a b (by omega) with h | h | h
    · exact .inl h
    · exact .inr (.inl (by rw [h1]; simp [h2.2 h]))
    · exact .inr (.inr h)

end VectorCost

/-! ### Vectors are costs for the search of C13 -/

section
variable {α : Type} {n : Nat}

open VectorCost

instance [LinearOrder α] : LT (VCost α n) := ⟨fun a b => lt a.1 (.vec b.1) = .ok true⟩

theorem vcost_lt_iff [LinearOrder α] (a b : VCost α n) : a < b ↔ LexLt a.1 b.1 := by
  obtain ⟨⟨r, h1, h2⟩, _⟩ := comparison_correct a.1 (.vec b.1) (by simp [operand, a.2, b.2])
  change lt a.1 (.vec b.1) = .ok true ↔ _
  rw [h1, ← show operand a.1.length (.vec b.1) = b.1 from rfl, ← h2]
  simp

theorem vcost_lt_iff_loop [LinearOrder α] (a b : VCost α n) : a < b ↔ gtLoop a.1 b.1 = false := by
  rw [vcost_lt_iff, ← Bool.not_eq_true, gtLoop_iff a.1 b.1 (by rw [a.2, b.2]), not_not]

instance [LinearOrder α] : DecidableLT (VCost α n) :=
  fun a b => decidable_of_iff _ (vcost_lt_iff_loop a b).symm

instance [LinearOrder α] : LinearOrder (VCost α n) where
  le a b := ¬ b < a
  lt a b := a < b
  le_refl a := by rw [vcost_lt_iff]; exact lexLt_irrefl a.1
  le_trans a b c := by
    rw [vcost_lt_iff, vcost_lt_iff, vcost_lt_iff]
    intro h1 h2 h3
    rcases lexLt_total b.1 c.1 (by rw [b.2, c.2]) with h | h | h
    · exact h1 (lexLt_trans h h3)
    · exact h1 (h ▸ h3)
    · exact h2 h
  lt_iff_le_not_ge a b := by
    rw [not_not, vcost_lt_iff, vcost_lt_iff]
    exact ⟨fun h => ⟨fun h' => lexLt_irrefl _ (lexLt_trans h h'), h⟩, fun h => h.2⟩
  le_antisymm a b := by
    rw [vcost_lt_iff, vcost_lt_iff]
    intro h1 h2
    rcases lexLt_total a.1 b.1 (by rw [a.2, b.2]) with h | h | h
    · exact absurd h h2
    · exact VCost.ext h
    · exact absurd h h1
  le_total a b := by
    rw [vcost_lt_iff, vcost_lt_iff]
    by_cases h : LexLt b.1 a.1
    · exact .inr fun h' => lexLt_irrefl _ (lexLt_trans h h')
    · exact .inl h
  toDecidableLE := fun _ _ => inferInstanceAs (Decidable (¬ _))
  toDecidableLT := inferInstance
  toDecidableEq := inferInstance
  compare a b := compareOfLessAndEq a b
  compare_eq_compareOfLessAndEq _ _ := rfl

/-- `+` of vectors of the same length, by `VectorCost.add`. -/
instance [Add α] : Add (VCost α n) := ⟨fun a b => ⟨List.zipWith (· + ·) a.1 b.1, by simp [a.2, b.2]⟩⟩
/-- `0`, the cost the search starts with, acts on vectors as the vector of zeros. -/
instance [Zero α] : Zero (VCost α n) := ⟨⟨List.replicate n 0, by simp⟩⟩

theorem vcost_add [Add α] (a b : VCost α n) : add a.1 (.vec b.1) = .ok (a + b).1 := by
  simp only [add, convert, a.2, b.2, if_true, ok_bind, pure_eq_ok]
  rfl

theorem vcost_add_zero [Add α] [Zero α] (a : VCost α n) : add a.1 (.num 0) = .ok (a + 0).1 := by
  simp only [add, convert, a.2, ok_bind, pure_eq_ok]
  rfl

instance [AddCommMonoid α] : AddCommMonoid (VCost α n) where
  add_assoc a b c := by
    apply VCost.ext
    change List.zipWith _ (List.zipWith _ a.1 b.1) c.1 = List.zipWith _ a.1 (List.zipWith _ b.1 c.1)
    apply List.ext_getElem <;> simp [add_assoc, Nat.min_assoc]
  zero_add a := by
    apply VCost.ext
    change List.zipWith _ (List.replicate n 0) a.1 = a.1
    apply List.ext_getElem <;> simp [a.2]
  add_zero a := by
    apply VCost.ext
    change List.zipWith _ a.1 (List.replicate n 0) = a.1
    apply List.ext_getElem <;> simp [a.2]
  add_comm a b := by
    apply VCost.ext
    change List.zipWith _ a.1 b.1 = List.zipWith _ b.1 a.1
    apply List.ext_getElem <;> simp [add_comm, Nat.min_comm]
  nsmul := nsmulRec

theorem lexLt_add [AddCommMonoid α] [LinearOrder α] [IsOrderedCancelAddMonoid α] {a b : List α}
    (c : List α) (hc : a.length = c.length) (hb : a.length = b.length)
    (h : LexLt (List.zipWith (· + ·) a c) (List.zipWith (· + ·) b c)) : LexLt a b := by
  induction a generalizing b c with
  | nil => simp only [List.zipWith_nil_left] at h; exact absurd h (not_lexLt_nil _)
  | cons x a ih => cases b with
    | nil => simp at hb
    | cons y b => cases c with
      | nil => simp at hc
      | cons z c =>
        simp only [List.zipWith_cons_cons, lexLt_cons] at h ⊢
        rcases h with h | ⟨h1, h2⟩
        · exact .inl (lt_of_add_lt_add_right h)
        · exact .inr ⟨add_right_cancel h1, ih c (by simpa using hc) (by simpa using hb) h2⟩

instance [AddCommMonoid α] [LinearOrder α] [IsOrderedCancelAddMonoid α] :
    IsOrderedAddMonoid (VCost α n) where
  add_le_add_left a b h c := by
    change ¬ (b + c < a + c)
    have h : ¬ b < a := h
    rw [vcost_lt_iff] at h ⊢
    exact fun h' => h (lexLt_add c.1 (by rw [b.2, c.2]) (by rw [b.2, a.2]) h')

/-- **C14.** `ValidTransitionCost` accepts exactly the vectors that are not less than zero in the lexicographic order. -/
theorem validCost_iff [AddMonoid α] [LinearOrder α] (a : List α) :
    ∃ r, validCost a = .ok r ∧ (r = true ↔ ¬ LexLt a (List.replicate a.length 0)) := by
  have h0 : add a (.num 0) = .ok a := by
    simp only [add, convert, ok_bind, pure_eq_ok]
    congr 1
    apply List.ext_getElem <;> simp
  obtain ⟨_, ⟨r, h1, h2⟩, _⟩ := comparison_correct a (.num 0) (by simp [operand])
  obtain ⟨_, _, ⟨q, h3, h4⟩⟩ := comparison_correct a (.vec a) (by simp [operand])
  simp only [operand] at h2 h4
  unfold validCost
  rw [h0, ok_bind, h1, ok_bind]
  cases r with
  | false => exact ⟨false, rfl, by simpa using h2⟩
  | true => exact ⟨q, by simpa using h3, by simpa [h4] using h2⟩

/-- **C14.** With vectors of one length for costs, the shortest-path search of C13 returns a path
that is least in the lexicographic order, when every cost is one that `ValidTransitionCost`
accepts. -/
theorem dijkstra_vector [AddCommMonoid α] [LinearOrder α] [IsOrderedCancelAddMonoid α]
    {ν : Type} [DecidableEq ν] (edges : List (ν × ν × VCost α n)) (sources : List ν)
    (targets : ν → Bool) (falsy : VCost α n → Bool)
    (pop : List (HeapEntry ν (VCost α n)) →
      Option (HeapEntry ν (VCost α n) × List (HeapEntry ν (VCost α n))))
    (hpop : HeapPop pop) (hnn : ∀ e ∈ edges, validCost e.2.2.1 = .ok true) :
    SearchManyOk edges (· ∈ sources) targets
      (dijkstraMany edges targets falsy pop sources .unreachable) := by
  refine dijkstraMany_correct edges sources targets falsy pop hpop fun e he => ?_
  have h := hnn e he
  simp only [validCost, vcost_add_zero, add_zero, ok_bind] at h
  obtain ⟨_, ⟨r, h1, h2⟩, _⟩ := comparison_correct e.2.2.1 (.num 0) (by simp [operand])
  rw [h1] at h
  cases r with
  | false => simp at h
  | true =>
    change ¬ (e.2.2 < 0)
    rw [vcost_lt_iff]
    have := h2.1 rfl
    simp only [operand, e.2.2.2] at this
    exact this

end

/-- Two vectors that differ first in their second entry; a number; two equal vectors. -/
example : VectorCost.lt [1, 2, 9] (.vec [1, 3, 0]) = .ok true ∧
    VectorCost.lt [1, 3, 0] (.vec [1, 2, 9]) = .ok false ∧
    VectorCost.lt [0, 5] (.num 1) = .ok true ∧
    VectorCost.gt [1, 2] (.vec [1, 2]) = .ok true ∧
    VectorCost.le [1, 2] (.vec [1, 2]) = .ok false ∧
    VectorCost.add [1, 2] (.vec [3, 4]) = .ok [4, 6] ∧
    VectorCost.validCost [0, -1] = .ok false ∧ VectorCost.validCost [1, -1] = .ok true :=
  ⟨rfl, rfl, rfl, rfl, rfl, rfl, rfl, rfl⟩

end Tulip
