import Verif.Transys.MathSet
import Mathlib.Data.Set.Basic
import Mathlib.Data.List.Nodup
import Mathlib.Data.List.Perm.Basic
import Mathlib.Data.List.Sublists

/-!
# Properties of mathematical sets, subsets, power sets and typed dictionaries (C01–C05)
-/

namespace Tulip

/-! ## C02 -/

/-- **C02.** `compare_lists` returns `True` exactly if each element occurs as often in one list as
in the other. -/
theorem compareLists_iff {α} [DecidableEq α] (a b : List α) :
    compareLists a b = true ↔ ∀ x, a.count x = b.count x := by
  rw [← List.perm_iff_count]
  induction b generalizing a with
  | nil => simp [compareLists]
  | cons y b ih =>
    simp only [compareLists]
    split
    · rename_i h
      rw [ih]
      constructor
      · intro hp; exact (List.perm_cons_erase h).trans (hp.cons y)
      · intro hp
        exact (List.perm_cons y).1 ((List.perm_cons_erase h).symm.trans hp)
    · rename_i h
      simp only [Bool.false_eq_true, false_iff]
      intro hp; exact h (hp.mem_iff.2 (by simp))

example : compareLists [1, 2, 1] [1, 1, 2] = true ∧ compareLists [1, 2] [1, 1, 2] = false := by
  decide

/-! ## C01 -/

theorem mem_uniqueLoop {α} [DecidableEq α] (acc l : List α) (x : α) :
    x ∈ uniqueLoop acc l ↔ x ∈ acc ∨ x ∈ l := by
  induction l generalizing acc with
  | nil => simp [uniqueLoop]
  | cons y l ih =>
    simp only [uniqueLoop]
    split
    · rename_i h; rw [ih]; simp only [List.mem_cons]
      constructor
      · rintro (h1 | h1) <;> simp [h1]
      · rintro (h1 | rfl | h1) <;> simp [*]
    · rw [ih]; simp only [List.mem_append, List.mem_cons, List.not_mem_nil, or_false, or_assoc]

theorem nodup_uniqueLoop {α} [DecidableEq α] (acc l : List α) (h : acc.Nodup) :
    (uniqueLoop acc l).Nodup := by
  induction l generalizing acc with
  | nil => exact h
  | cons y l ih =>
    simp only [uniqueLoop]
    split
    · exact ih acc h
    · rename_i hy
      refine ih _ ?_
      rw [List.nodup_append]
      refine ⟨h, by simp, ?_⟩
      rintro a ha b hb rfl
      simp only [List.mem_singleton] at hb
      exact hy (hb ▸ ha)

theorem mem_unique {α} [DecidableEq α] (l : List α) (x : α) : x ∈ unique l ↔ x ∈ l := by
  simp [unique, mem_uniqueLoop]

theorem nodup_unique {α} [DecidableEq α] (l : List α) : (unique l).Nodup :=
  nodup_uniqueLoop _ _ List.nodup_nil

theorem isHashable_of_hashOk {α} [Elem α] {x : α} (h : hashOk x = true) : isHashable x = true := by
  simp only [hashOk, beq_iff_eq] at h
  simp [isHashable, h]

variable {α : Type} [Elem α]

/-- Items that may be added together without harm: not both an item that can be hashed and one with
a hashable type that cannot. -/
def Homogeneous (l : List α) : Prop :=
  (∀ x ∈ l, isHashable x = true → hashOk x = true) ∨ ∀ x ∈ l, hashOk x = false

/-- `History m S`: the mathematical set `m` can be built by calls of the interface, and the same
calls on (mathematical) sets give `{x | S x}`. -/
inductive History : MSet α → (α → Prop) → Prop
  | empty : History .empty fun _ => False
  | add {m S} (x) : History m S → History (m.add x) fun y => y = x ∨ S y
  | addFrom {m S l} : Homogeneous l → History m S →
      History (m.addFrom (.items l)) fun y => S y ∨ y ∈ l
  | addSet {m S l} : (∀ x ∈ l, hashOk x = true) → History m S →
      History (m.addFrom (.pyset l)) fun y => S y ∨ y ∈ l
  | addIterator {m S l} : (∀ x ∈ l, hashOk x = true) → History m S →
      History (m.addFrom (.iterator l)) fun y => S y ∨ y ∈ l
  | addMathSet {m S o T} : History m S → History o T →
      History (m.addFrom (.mathset o)) fun y => S y ∨ T y
  | remove {m S x m'} : m.remove x = .ok m' → History m S → History m' fun y => S y ∧ y ≠ x
  | or {m S o T} : History m S → History o T → History (m.or (.mathset o)) fun y => S y ∨ T y
  | isub {m S l m'} : m.isub l = .ok m' → History m S → History m' fun y => S y ∧ y ∉ l
  | sub {m S l m'} : m.sub l = .ok m' → History m S → History m' fun y => S y ∧ y ∉ l
  | intersection {m S} (l) : History m S → History (m.intersection l) fun y => S y ∧ y ∈ l

/-- The representation invariant: hashable values in `_set`, the others in `_list`, no
repetitions. -/
structure MSet.Ok (m : MSet α) : Prop where
  setNodup : m.set.Nodup
  listNodup : m.list.Nodup
  setHash : ∀ x ∈ m.set, hashOk x = true
  listHash : ∀ x ∈ m.list, hashOk x = false

theorem MSet.Ok.contains {m : MSet α} (h : m.Ok) (x : α) : m.contains x = true ↔ x ∈ m.iter := by
  simp only [MSet.contains, MSet.iter, List.mem_append]
  cases hx : hashOk x with
  | true =>
    simp only [isHashable_of_hashOk hx, Bool.and_self, ↓reduceIte, decide_eq_true_eq]
    constructor
    · exact Or.inr
    · rintro (h1 | h1)
      · rw [h.listHash x h1] at hx; cases hx
      · exact h1
  | false =>
    simp only [Bool.and_false, Bool.false_eq_true, ↓reduceIte, decide_eq_true_eq]
    constructor
    · exact Or.inl
    · rintro (h1 | h1)
      · exact h1
      · rw [h.setHash x h1] at hx; cases hx

theorem MSet.Ok.nodup {m : MSet α} (h : m.Ok) : m.iter.Nodup := by
  rw [MSet.iter, List.nodup_append]
  refine ⟨h.listNodup, h.setNodup, ?_⟩
  rintro a ha b hb rfl
  have h1 := h.listHash a ha
  rw [h.setHash a hb] at h1; cases h1

/-- `Rep m S`: the invariant holds and the elements are those with `S`. -/
def Rep (m : MSet α) (S : α → Prop) : Prop := m.Ok ∧ ∀ x, x ∈ m.iter ↔ S x

theorem Rep.congr {m : MSet α} {S T : α → Prop} (h : Rep m S) (hc : ∀ x, S x ↔ T x) : Rep m T :=
  ⟨h.1, fun x => (h.2 x).trans (hc x)⟩

theorem mem_iter {m : MSet α} {x : α} : x ∈ m.iter ↔ x ∈ m.list ∨ x ∈ m.set := by
  simp [MSet.iter]

theorem rep_empty : Rep (.empty : MSet α) fun _ => False :=
  ⟨⟨by simp [MSet.empty], by simp [MSet.empty], by simp [MSet.empty], by simp [MSet.empty]⟩,
    by simp [MSet.empty, MSet.iter]⟩

theorem rep_add {m : MSet α} {S : α → Prop} (h : Rep m S) (x : α) :
    Rep (m.add x) fun y => y = x ∨ S y := by
  obtain ⟨ho, hm⟩ := h
  simp only [mem_iter] at hm
  cases hx : hashOk x with
  | true =>
    have e : m.add x = { m with set := MSet.setUnion m.set [x] } := by
      simp [MSet.add, hx, isHashable_of_hashOk hx]
    rw [e]
    refine ⟨⟨nodup_uniqueLoop _ _ ho.setNodup, ho.listNodup, ?_, ho.listHash⟩, fun y => ?_⟩
    · intro y hy
      simp only [MSet.setUnion, mem_uniqueLoop, List.mem_singleton] at hy
      rcases hy with hy | rfl
      · exact ho.setHash y hy
      · exact hx
    · simp only [mem_iter, MSet.setUnion, mem_uniqueLoop, List.mem_singleton, ← hm]
      constructor
      · rintro (h1 | h1 | h1) <;> simp [h1]
      · rintro (h1 | h1 | h1) <;> simp [h1]
  | false =>
    by_cases hl : x ∈ m.list
    · have e : m.add x = m := by simp [MSet.add, hx, hl]
      rw [e]
      refine ⟨ho, fun y => ?_⟩
      rw [mem_iter, hm]
      constructor
      · exact Or.inr
      · rintro (rfl | h1)
        · exact (hm _).1 (Or.inl hl)
        · exact h1
    · have e : m.add x = { m with list := m.list ++ [x] } := by simp [MSet.add, hx, hl]
      rw [e]
      refine ⟨⟨ho.setNodup, ?_, ho.setHash, ?_⟩, fun y => ?_⟩
      · rw [List.nodup_append]
        refine ⟨ho.listNodup, by simp, ?_⟩
        rintro a ha b hb rfl
        simp only [List.mem_singleton] at hb
        exact hl (hb ▸ ha)
      · intro y hy
        simp only [List.mem_append, List.mem_singleton] at hy
        rcases hy with hy | rfl
        · exact ho.listHash y hy
        · exact hx
      · simp only [mem_iter, List.mem_append, List.mem_singleton, ← hm]
        constructor
        · rintro ((h1 | h1) | h1) <;> simp [h1]
        · rintro (h1 | h1 | h1) <;> simp [h1]

/-- Adding values that can be hashed to `_set` and others to `_list`. -/
theorem rep_union {m : MSet α} {S : α → Prop} (h : Rep m S) {a b : List α}
    (ha : ∀ x ∈ a, hashOk x = true) (hb : ∀ x ∈ b, hashOk x = false) :
    Rep ⟨MSet.setUnion m.set a, unique (m.list ++ b)⟩ fun x => S x ∨ x ∈ a ∨ x ∈ b := by
  obtain ⟨ho, hm⟩ := h
  simp only [mem_iter] at hm
  refine ⟨⟨nodup_uniqueLoop _ _ ho.setNodup, nodup_unique _, ?_, ?_⟩, fun y => ?_⟩
  · intro y hy
    simp only [MSet.setUnion, mem_uniqueLoop] at hy
    rcases hy with hy | hy
    · exact ho.setHash y hy
    · exact ha y hy
  · intro y hy
    simp only [mem_unique, List.mem_append] at hy
    rcases hy with hy | hy
    · exact ho.listHash y hy
    · exact hb y hy
  · simp only [mem_iter, MSet.setUnion, mem_uniqueLoop, mem_unique, List.mem_append, ← hm]
    constructor
    · rintro ((h1 | h1) | h1 | h1) <;> simp [h1]
    · rintro ((h1 | h1) | h1 | h1) <;> simp [h1]

theorem setUnion_nil {s : List α} : MSet.setUnion s [] = s := rfl

theorem unique_of_nodup {l : List α} (h : l.Nodup) : unique l = l := by
  have : ∀ (l acc : List α), (acc ++ l).Nodup → uniqueLoop acc l = acc ++ l := by
    intro l
    induction l with
    | nil => simp [uniqueLoop]
    | cons x l ih =>
      intro acc hn
      have hx : x ∉ acc := by
        rw [List.nodup_append] at hn
        intro h; exact hn.2.2 x h x (by simp) rfl
      simp only [uniqueLoop, hx, ↓reduceIte]
      rw [ih _ (by simpa using hn)]; simp
  simpa [unique] using this l [] (by simpa using h)

theorem rep_addFrom {m : MSet α} {S : α → Prop} (h : Rep m S) {l : List α} (hl : Homogeneous l) :
    Rep (m.addFrom (.items l)) fun y => S y ∨ y ∈ l := by
  simp only [MSet.addFrom]
  split
  · rename_i hall
    rw [List.all_eq_true] at hall
    have := rep_union h (a := l.filter isHashable) (b := l.filter fun x => !isHashable x) hall
      (by
        intro x hx
        simp only [List.mem_filter, Bool.not_eq_true'] at hx
        cases hh : hashOk x with
        | false => rfl
        | true => rw [isHashable_of_hashOk hh] at hx; simp at hx)
    refine this.congr fun x => ?_
    simp only [List.mem_filter, Bool.not_eq_true']
    cases isHashable x <;> simp
  · rename_i hall
    rcases hl with hl | hl
    · refine absurd (List.all_eq_true.2 ?_) hall
      intro x hx
      rw [List.mem_filter] at hx
      exact hl x hx.1 hx.2
    · have := rep_union h (a := []) (b := l) (by simp) hl
      simpa [setUnion_nil] using this

theorem rep_addSet {m : MSet α} {S : α → Prop} (h : Rep m S) {l : List α}
    (hl : ∀ x ∈ l, hashOk x = true) : Rep (m.addFrom (.pyset l)) fun y => S y ∨ y ∈ l := by
  have := rep_union h (a := l) (b := []) hl (by simp)
  simpa [MSet.addFrom, unique_of_nodup h.1.listNodup] using this

theorem rep_addIterator {m : MSet α} {S : α → Prop} (h : Rep m S) {l : List α}
    (hl : ∀ x ∈ l, hashOk x = true) : Rep (m.addFrom (.iterator l)) fun y => S y ∨ y ∈ l := by
  have h1 : (l.filter isHashable).all hashOk = true :=
    List.all_eq_true.2 fun x hx => hl x (List.mem_of_mem_filter hx)
  have h2 : l.filter isHashable = l :=
    List.filter_eq_self.2 fun x hx => isHashable_of_hashOk (hl x hx)
  have := rep_union h (a := l) (b := []) hl (by simp)
  have e : m.addFrom (.iterator l) = ⟨MSet.setUnion m.set l, unique m.list⟩ := by
    rw [MSet.addFrom, if_pos h1, h2]
  rw [e]
  simpa using this

theorem rep_addMathSet {m o : MSet α} {S T : α → Prop} (h : Rep m S) (h' : Rep o T) :
    Rep (m.addFrom (.mathset o)) fun y => S y ∨ T y := by
  have := rep_union h (a := o.set) (b := o.list) h'.1.setHash h'.1.listHash
  refine this.congr fun x => ?_
  rw [← h'.2, mem_iter, or_comm (a := x ∈ o.set)]

theorem remove_ok {m : MSet α} {S : α → Prop} (h : Rep m S) {x : α} (hx : S x) :
    ∃ m', m.remove x = .ok m' ∧ Rep m' fun y => S y ∧ y ≠ x := by
  obtain ⟨ho, hm⟩ := h
  rw [← hm, mem_iter] at hx
  simp only [mem_iter] at hm
  cases hh : hashOk x with
  | true =>
    have hs : x ∈ m.set := by
      rcases hx with h1 | h1
      · rw [ho.listHash x h1] at hh; cases hh
      · exact h1
    refine ⟨_, by simp only [MSet.remove, hh, isHashable_of_hashOk hh, hs]; rfl, ?_⟩
    refine ⟨⟨ho.setNodup.erase x, ho.listNodup, fun y hy => ho.setHash y (List.mem_of_mem_erase hy),
      ho.listHash⟩, fun y => ?_⟩
    simp only [mem_iter, ho.setNodup.mem_erase_iff, ← hm]
    constructor
    · rintro (h1 | ⟨h1, h2⟩)
      · refine ⟨Or.inl h1, ?_⟩
        rintro rfl; rw [ho.listHash _ h1] at hh; cases hh
      · exact ⟨Or.inr h2, h1⟩
    · rintro ⟨h1 | h1, h2⟩
      · exact Or.inl h1
      · exact Or.inr ⟨h2, h1⟩
  | false =>
    have hs : x ∈ m.list := by
      rcases hx with h1 | h1
      · exact h1
      · rw [ho.setHash x h1] at hh; cases hh
    refine ⟨_, by simp only [MSet.remove, hh, hs]; simp; rfl, ?_⟩
    refine ⟨⟨ho.setNodup, ho.listNodup.erase x, ho.setHash,
      fun y hy => ho.listHash y (List.mem_of_mem_erase hy)⟩, fun y => ?_⟩
    simp only [mem_iter, ho.listNodup.mem_erase_iff, ← hm]
    constructor
    · rintro (⟨h1, h2⟩ | h1)
      · exact ⟨Or.inl h2, h1⟩
      · refine ⟨Or.inr h1, ?_⟩
        rintro rfl; rw [ho.setHash _ h1] at hh; cases hh
    · rintro ⟨h1 | h1, h2⟩
      · exact Or.inl ⟨h2, h1⟩
      · exact Or.inr h1

theorem remove_error {m : MSet α} {S : α → Prop} (h : Rep m S) {x : α} (hx : ¬ S x) :
    m.remove x = .error .valueError := by
  rw [← h.2, mem_iter, not_or] at hx
  simp [MSet.remove, hx.1, hx.2]

theorem isub_ok {l : List α} {m : MSet α} {S : α → Prop} (h : Rep m S) :
    ∃ m', m.isub l = .ok m' ∧ Rep m' fun y => S y ∧ y ∉ l := by
  induction l generalizing m S with
  | nil => exact ⟨m, rfl, h.congr (by simp)⟩
  | cons x l ih =>
    by_cases hx : S x
    · have hc : m.contains x = true := (h.1.contains x).2 ((h.2 x).2 hx)
      obtain ⟨m', h1, h2⟩ := remove_ok h hx
      obtain ⟨m'', h3, h4⟩ := ih h2
      exact ⟨m'', by simp [MSet.isub, hc, h1, h3], h4.congr fun y => by simp [and_assoc]⟩
    · have hc : m.contains x = false := by
        rw [Bool.eq_false_iff, ne_eq, h.1.contains, h.2]; exact hx
      obtain ⟨m'', h3, h4⟩ := ih h
      refine ⟨m'', by simp [MSet.isub, hc, h3], h4.congr fun y => ?_⟩
      simp only [List.mem_cons, not_or]
      constructor
      · rintro ⟨h5, h6⟩; exact ⟨h5, fun e => hx (e ▸ h5), h6⟩
      · rintro ⟨h5, h6⟩; exact ⟨h5, h6.2⟩

theorem rep_copy {m : MSet α} {S : α → Prop} (h : Rep m S) :
    Rep ((MSet.empty : MSet α).addFrom (.mathset m)) S :=
  (rep_addMathSet rep_empty h).congr (by simp)

theorem rep_intersection {m : MSet α} {S : α → Prop} (h : Rep m S) (l : List α) :
    Rep (m.intersection l) fun y => S y ∧ y ∈ l := by
  have key : ∀ (l : List α) (s : MSet α) (U : α → Prop), Rep s U →
      Rep (l.foldl (fun s x => if m.contains x then s.add x else s) s)
        fun y => U y ∨ S y ∧ y ∈ l := by
    intro l
    induction l with
    | nil => intro s U hs; exact hs.congr (by simp)
    | cons x l ih =>
      intro s U hs
      simp only [List.foldl_cons]
      by_cases hx : S x
      · have hc : m.contains x = true := (h.1.contains x).2 ((h.2 x).2 hx)
        simp only [hc, ↓reduceIte]
        refine (ih _ _ (rep_add hs x)).congr fun y => ?_
        simp only [List.mem_cons]
        constructor
        · rintro ((rfl | h1) | ⟨h1, h2⟩) <;> simp [*]
        · rintro (h1 | ⟨h1, rfl | h2⟩) <;> simp [*]
      · have hc : m.contains x = false := by
          rw [Bool.eq_false_iff, ne_eq, h.1.contains, h.2]; exact hx
        simp only [hc, Bool.false_eq_true, ↓reduceIte]
        refine (ih _ _ hs).congr fun y => ?_
        simp only [List.mem_cons]
        constructor
        · rintro (h1 | ⟨h1, h2⟩) <;> simp [*]
        · rintro (h1 | ⟨h1, rfl | h2⟩)
          · exact Or.inl h1
          · exact absurd h1 hx
          · exact Or.inr ⟨h1, h2⟩
  exact (key l _ _ rep_empty).congr (by simp)

theorem History.rep {m : MSet α} {S : α → Prop} (h : History m S) : Rep m S := by
  induction h with
  | empty => exact rep_empty
  | add x _ ih => exact rep_add ih x
  | addFrom hl _ ih => exact rep_addFrom ih hl
  | addSet hl _ ih => exact rep_addSet ih hl
  | addIterator hl _ ih => exact rep_addIterator ih hl
  | addMathSet _ _ ih1 ih2 => exact rep_addMathSet ih1 ih2
  | @remove m S x m' hr _ ih =>
    by_cases hx : S x
    · obtain ⟨m'', h1, h2⟩ := remove_ok ih hx
      rw [hr] at h1; cases h1; exact h2
    · rw [remove_error ih hx] at hr; cases hr
  | or _ _ ih1 ih2 => exact rep_addMathSet (rep_copy ih1) ih2
  | isub hr _ ih =>
    obtain ⟨m'', h1, h2⟩ := isub_ok ih
    rw [hr] at h1; cases h1; exact h2
  | sub hr _ ih =>
    obtain ⟨m'', h1, h2⟩ := isub_ok (rep_copy ih)
    rw [MSet.sub] at hr
    rw [hr] at h1; cases h1; exact h2
  | intersection l _ ih => exact rep_intersection ih l

/-- **C01.** After any history of calls, membership, iteration and length agree with the finite set
obtained by the same calls, and no element is listed twice. -/
theorem mathSet_correct {m : MSet α} {S : α → Prop} (h : History m S) :
    (∀ x, m.contains x = true ↔ S x) ∧ (∀ x, x ∈ m.iter ↔ S x) ∧ m.iter.Nodup ∧
      m.len = m.iter.length ∧ (m.len = 0 ↔ ∀ x, ¬ S x) := by
  have hr := h.rep
  have hl : m.len = m.iter.length := by simp [MSet.len, MSet.iter, Nat.add_comm]
  refine ⟨fun x => (hr.1.contains x).trans (hr.2 x), hr.2, hr.1.nodup, hl, ?_⟩
  rw [hl, List.length_eq_zero_iff, List.eq_nil_iff_forall_not_mem]
  exact forall_congr' fun x => not_congr (hr.2 x)

/-- **C01.** Removal succeeds exactly for elements; otherwise it raises `ValueError` (and the set is
unchanged, since the model returns no new set). Removal of several elements never raises. -/
theorem mathSet_remove {m : MSet α} {S : α → Prop} (h : History m S) (x : α) (l : List α) :
    (S x → ∃ m', m.remove x = .ok m') ∧ (¬ S x → m.remove x = .error .valueError) ∧
      (∃ m', m.isub l = .ok m') ∧ ∃ m', m.sub l = .ok m' := by
  refine ⟨fun hx => ?_, fun hx => remove_error h.rep hx, ?_, ?_⟩
  · obtain ⟨m', h1, _⟩ := remove_ok h.rep hx; exact ⟨m', h1⟩
  · obtain ⟨m', h1, _⟩ := isub_ok (l := l) h.rep; exact ⟨m', h1⟩
  · obtain ⟨m', h1, _⟩ := isub_ok (l := l) (rep_copy h.rep); exact ⟨m', h1⟩

/-- **C01.** Two mathematical sets compare equal exactly if they have the same elements. -/
theorem mathSet_eq {m o : MSet α} {S T : α → Prop} (h : History m S) (h' : History o T) :
    m.beq o = true ↔ ∀ x, S x ↔ T x := by
  have r := h.rep
  have r' := h'.rep
  have key : m.beq o = true ↔ (∀ x, x ∈ m.set ↔ x ∈ o.set) ∧ ∀ x, x ∈ m.list ↔ x ∈ o.list := by
    simp only [MSet.beq, Bool.and_eq_true, List.all_eq_true, decide_eq_true_eq, compareLists_iff,
      ← List.perm_iff_count, List.perm_ext_iff_of_nodup r.1.listNodup r'.1.listNodup]
    constructor
    · rintro ⟨⟨h1, h2⟩, h3⟩; exact ⟨fun x => ⟨h1 x, h2 x⟩, h3⟩
    · rintro ⟨h1, h2⟩; exact ⟨⟨fun x => (h1 x).1, fun x => (h1 x).2⟩, h2⟩
  rw [key]
  simp only [← r.2, ← r'.2, mem_iter]
  constructor
  · rintro ⟨h1, h2⟩ x; rw [h1, h2]
  · intro hx
    refine ⟨fun x => ?_, fun x => ?_⟩
    · constructor
      · intro h1
        rcases (hx x).1 (Or.inr h1) with h2 | h2
        · have := r.1.setHash x h1; rw [r'.1.listHash x h2] at this; cases this
        · exact h2
      · intro h1
        rcases (hx x).2 (Or.inr h1) with h2 | h2
        · have := r'.1.setHash x h1; rw [r.1.listHash x h2] at this; cases this
        · exact h2
    · constructor
      · intro h1
        rcases (hx x).1 (Or.inl h1) with h2 | h2
        · exact h2
        · have := r'.1.setHash x h2; rw [r.1.listHash x h1] at this; cases this
      · intro h1
        rcases (hx x).2 (Or.inl h1) with h2 | h2
        · exact h2
        · have := r.1.setHash x h2; rw [r'.1.listHash x h1] at this; cases this

/-- **C01.** `intersects`. -/
theorem mathSet_intersects {m : MSet α} {S : α → Prop} (h : History m S) (l : List α) :
    m.intersects l = true ↔ ∃ x ∈ l, S x := by
  simp only [MSet.intersects, List.any_eq_true, (mathSet_correct h).1]

/-- A sample of Python values: integers, lists of integers and tuples that contain a list. -/
inductive PySample where
  | int (n : Int) | list (l : List Int) | tuple (l : List Int)
deriving DecidableEq

instance : Elem PySample where
  decEq := inferInstance
  hashClass
    | .int _ => .good
    | .list _ => .none
    | .tuple _ => .tricky

/-- Non-vacuity: a history with hashable and unhashable values. -/
example : ∃ (m : MSet PySample) (S : PySample → Prop), History m S ∧ S (.int 2) ∧
    S (.list [1, 2]) ∧ ¬ S (.int 1) := by
  have h1 : Homogeneous [PySample.int 1, .int 2, .list [1, 2], .int 1] := Or.inl (by decide)
  have h2 := History.remove (x := PySample.int 1) (m' := ⟨[.int 2], [.list [1, 2]]⟩) rfl
    (History.addFrom h1 .empty)
  exact ⟨_, _, h2, by simp, by simp, by simp⟩

/-- A tuple that contains a list makes `add_from` store *all* the items of that call in `_list`:
the integer `1` is listed, but membership is denied. -/
theorem mathSet_mixed_counterexample :
    (MSet.ofList [PySample.int 1, .tuple [2]]).contains (.int 1) = false ∧
      PySample.int 1 ∈ (MSet.ofList [PySample.int 1, .tuple [2]]).iter ∧
      ((MSet.ofList [PySample.int 1, .tuple [2]]).add (.int 1)).iter.count (.int 1) = 2 := by
  decide

/-- So does the Cartesian product of sets with mixed elements. -/
theorem mathSet_mul_counterexample :
    ((MSet.ofList [PySample.int 1, .list [2]]).mul (MSet.ofList [PySample.int 3])).contains
      (.int 1, .int 3) = false := by
  decide

/-- Unhashable items taken from an iterator are lost. -/
theorem mathSet_iterator_counterexample :
    (MSet.empty.addFrom (.iterator [PySample.int 1, .list [2]])).contains (.list [2]) = false := by
  decide

/-- **C01.** The Cartesian product of two sets of hashable elements. -/
theorem mathSet_mul {β : Type} [Elem β] {m : MSet α} {o : MSet β} {S : α → Prop} {T : β → Prop}
    (h : History m S) (h' : History o T) (hS : ∀ x, S x → hashOk x = true)
    (hT : ∀ x, T x → hashOk x = true) :
    ∃ U, History (m.mul o) U ∧ ∀ x y, U (x, y) ↔ S x ∧ T y := by
  have r := h.rep
  have r' := h'.rep
  have hh : Homogeneous (m.iter.flatMap fun x => o.iter.map fun y => (x, y)) := by
    refine Or.inl fun p hp _ => ?_
    simp only [List.mem_flatMap, List.mem_map] at hp
    obtain ⟨x, hx, y, hy, rfl⟩ := hp
    have h1 := hS x ((r.2 x).1 hx)
    have h2 := hT y ((r'.2 y).1 hy)
    simp only [hashOk, Elem.hashClass, beq_iff_eq] at h1 h2 ⊢
    simp [hashOk, h1, h2]
  refine ⟨_, History.addFrom hh .empty, fun x y => ?_⟩
  simp only [false_or, List.mem_flatMap, List.mem_map, Prod.mk.injEq, ← r.2, ← r'.2]
  constructor
  · rintro ⟨_, h1, _, h2, rfl, rfl⟩; exact ⟨h1, h2⟩
  · rintro ⟨h1, h2⟩; exact ⟨x, h1, y, h2, rfl, rfl⟩

/-! ## C03 -/

/-- What is in the superset. -/
def Superset.Mem (s : Superset α) (x : α) : Prop := s.contains x = .ok true

/-- One call on a subset: `add`, `add_from` (also `|=`, `update`) or `remove`. -/
inductive SubOp (α : Type) where
  | add (x : α) | addFrom (l : List α) | remove (x : α)

/-- The effect of a call. -/
def SSet.call (s : SSet α) : SubOp α → Except PyErr (SSet α)
  | .add x => s.add x
  | .addFrom l => s.addFrom l
  | .remove x => s.remove x

/-- The state after a history of calls: a call that raises leaves the subset as it was. -/
def SSet.run (s : SSet α) : List (SubOp α) → SSet α
  | [] => s
  | op :: ops => match s.call op with
    | .ok s' => s'.run ops
    | .error _ => s.run ops

/-- Everything stored is in the superset. -/
def SSet.Inside (s : SSet α) : Prop := ∀ x ∈ s.elems.iter, s.superset.Mem x

theorem allM_true {f : α → Except PyErr Bool} {l : List α} (h : allM f l = .ok true) :
    ∀ x ∈ l, f x = .ok true := by
  induction l with
  | nil => simp
  | cons x l ih =>
    simp only [allM] at h
    cases hx : f x with
    | error e => simp [hx] at h
    | ok b =>
      cases b with
      | false => simp [hx] at h
      | true =>
        simp only [hx, ok_bind, ↓reduceIte] at h
        intro y hy
        rcases List.mem_cons.1 hy with rfl | hy
        · exact hx
        · exact ih h y hy

theorem isSubset_mem {sup : Superset α} {l : List α} (h : isSubset l sup = .ok true) :
    ∀ x ∈ l, sup.Mem x := by
  intro x hx
  cases sup with
  | mathset m => exact allM_true h x hx
  | pyset m => exact allM_true h x hx
  | list m =>
    simp only [isSubset] at h
    split at h
    · have := allM_true h x hx
      simp only [Superset.contains] at this
      split at this
      · simp only [Superset.Mem, Superset.contains]; exact this
      · cases this
    · exact allM_true h x hx

theorem mem_iter_add {m : MSet α} {x y : α} (h : y ∈ (m.add x).iter) : y = x ∨ y ∈ m.iter := by
  simp only [MSet.add] at h
  split at h
  · simp only [mem_iter, MSet.setUnion, mem_uniqueLoop, List.mem_singleton] at h ⊢
    rcases h with h | h | h <;> simp [h]
  · split at h
    · exact Or.inr h
    · simp only [mem_iter, List.mem_append, List.mem_singleton] at h ⊢
      rcases h with (h | h) | h <;> simp [h]

theorem mem_iter_addFrom {m : MSet α} {l : List α} {y : α} (h : y ∈ (m.addFrom (.items l)).iter) :
    y ∈ l ∨ y ∈ m.iter := by
  simp only [MSet.addFrom] at h
  split at h <;>
  · simp only [mem_iter, MSet.setUnion, mem_uniqueLoop, mem_unique, List.mem_append,
      List.mem_filter] at h ⊢
    rcases h with (h | h) | h <;> simp_all
    try rcases h with h | h <;> simp [h]

theorem mem_iter_remove {m m' : MSet α} {x y : α} (hr : m.remove x = .ok m') (h : y ∈ m'.iter) :
    y ∈ m.iter := by
  simp only [MSet.remove] at hr
  split at hr
  · cases hr
    simp only [mem_iter] at h ⊢
    exact h.imp id List.mem_of_mem_erase
  · split at hr
    · cases hr
      simp only [mem_iter] at h ⊢
      exact h.imp List.mem_of_mem_erase id
    · cases hr

theorem SSet.call_inside {s s' : SSet α} {op : SubOp α} (h : s.Inside) (hc : s.call op = .ok s') :
    s'.superset = s.superset ∧ s'.Inside := by
  cases op with
  | add x =>
    simp only [call, SSet.add] at hc
    cases hx : s.superset.contains x with
    | error e => simp [hx] at hc
    | ok b =>
      cases b with
      | false => simp [hx] at hc
      | true =>
        simp only [hx, ok_bind, ↓reduceIte, Except.ok.injEq] at hc
        subst hc
        refine ⟨rfl, fun y hy => ?_⟩
        rcases mem_iter_add hy with rfl | hy
        · exact hx
        · exact h y hy
  | addFrom l =>
    simp only [call, SSet.addFrom] at hc
    cases hx : isSubset l s.superset with
    | error e => simp [hx] at hc
    | ok b =>
      cases b with
      | false => simp [hx] at hc
      | true =>
        simp only [hx, ok_bind, ↓reduceIte, Except.ok.injEq] at hc
        subst hc
        refine ⟨rfl, fun y hy => ?_⟩
        rcases mem_iter_addFrom hy with hy | hy
        · exact isSubset_mem hx y hy
        · exact h y hy
  | remove x =>
    simp only [call, SSet.remove] at hc
    cases hx : s.elems.remove x with
    | error e => simp [hx] at hc
    | ok m =>
      simp only [hx, ok_bind, Except.ok.injEq] at hc
      subst hc
      exact ⟨rfl, fun y hy => h y (mem_iter_remove hx hy)⟩

/-- **C03.** Whatever calls are made on a subset after its construction, accepted or rejected, all
of its elements are in the superset given at construction. -/
theorem subSet_inside {sup : Superset α} {l : List α} {s : SSet α} (h : SSet.new sup l = .ok s)
    (ops : List (SubOp α)) :
    (s.run ops).superset = sup ∧ ∀ x ∈ (s.run ops).elems.iter, sup.Mem x := by
  have h0 : s.superset = sup ∧ s.Inside := by
    have := SSet.call_inside (s := ⟨sup, .empty⟩) (op := .addFrom l)
      (by intro x hx; simp [MSet.empty, MSet.iter] at hx) h
    exact this
  clear h
  have key : ∀ (ops : List (SubOp α)) (s : SSet α), s.superset = sup → s.Inside →
      (s.run ops).superset = sup ∧ (s.run ops).Inside := by
    intro ops
    induction ops with
    | nil => intro s h1 h2; exact ⟨h1, h2⟩
    | cons op ops ih =>
      intro s h1 h2
      simp only [SSet.run]
      split
      · rename_i s' hs
        have := SSet.call_inside h2 hs
        exact ih s' (this.1.trans h1) this.2
      · exact ih s h1 h2
  obtain ⟨h1, h2⟩ := key ops s h0.1 h0.2
  exact ⟨h1, fun x hx => h1 ▸ h2 x hx⟩

/-- **C03.** `add` accepts exactly the members of the superset (`ValueError` otherwise), and with a
`MathSet` as superset `add_from` accepts exactly the lists of members. -/
theorem subSet_accepts (m : MSet α) (e : MSet α) (x : α) (l : List α) :
    ((∃ s, SSet.add ⟨.mathset m, e⟩ x = .ok s) ↔ m.contains x = true) ∧
    ((∃ s, SSet.addFrom ⟨.mathset m, e⟩ l = .ok s) ↔ ∀ y ∈ l, m.contains y = true) ∧
    (m.contains x = false → SSet.add ⟨.mathset m, e⟩ x = .error .valueError) ∧
    ((∃ y ∈ l, m.contains y = false) → SSet.addFrom ⟨.mathset m, e⟩ l = .error .valueError) := by
  have key : ∀ l : List α, allM (Superset.contains (.mathset m)) l = .ok (l.all m.contains) := by
    intro l
    induction l with
    | nil => rfl
    | cons y l ih =>
      simp only [allM, Superset.contains, ok_bind, List.all_cons]
      cases m.contains y <;> simp [ih]
  have h2 : SSet.addFrom ⟨.mathset m, e⟩ l = if l.all m.contains then
      .ok ⟨.mathset m, e.addFrom (.items l)⟩ else .error .valueError := by
    simp only [SSet.addFrom, isSubset, key, ok_bind]
  have h1 : SSet.add ⟨.mathset m, e⟩ x = if m.contains x then
      .ok ⟨.mathset m, e.add x⟩ else .error .valueError := by
    simp only [SSet.add, Superset.contains, ok_bind]
  rw [h1, h2]
  refine ⟨?_, ?_, ?_, ?_⟩
  · cases m.contains x <;> simp
  · rw [← List.all_eq_true]
    cases l.all m.contains <;> simp
  · intro h; simp [h]
  · rintro ⟨y, hy, hc⟩
    have : l.all m.contains = false := by
      rw [List.all_eq_false]; exact ⟨y, hy, by simp [hc]⟩
    simp [this]

/-- **C03.** `SubSet(superset, iterable)` accepts exactly the iterables of members of a `MathSet` (`ValueError` otherwise). -/
theorem subSet_new_accepts (m : MSet α) (l : List α) :
    ((∃ s, SSet.new (.mathset m) l = .ok s) ↔ ∀ y ∈ l, m.contains y = true) ∧
    ((∃ y ∈ l, m.contains y = false) → SSet.new (.mathset m) l = .error .valueError) := by
  cases l with
  | nil => exact ⟨⟨fun _ => by simp, fun _ => ⟨_, rfl⟩⟩, by simp⟩
  | cons x l =>
    obtain ⟨_, h2, _, h4⟩ := subSet_accepts m .empty x (x :: l)
    exact ⟨h2, h4⟩

example : ∃ s, SSet.new (.mathset (MSet.ofList [PySample.int 1, .int 2, .list [3]]))
    [.int 1, .list [3]] = .ok s ∧ s.elems.len = 2 := by
  exact ⟨_, rfl, by decide⟩

/-! ## C04 -/

theorem mem_combinations {β : Type} (s : List β) (r : Nat) (l : List β) :
    l ∈ combinations s r ↔ l.Sublist s ∧ l.length = r := by
  induction s generalizing r l with
  | nil =>
    cases r with
    | zero => simp only [combinations, List.mem_singleton, List.sublist_nil]
              constructor
              · rintro rfl; simp
              · exact fun h => h.1
    | succ r =>
      simp only [combinations, List.not_mem_nil, List.sublist_nil, false_iff]
      rintro ⟨rfl, h⟩; simp at h
  | cons x s ih =>
    cases r with
    | zero =>
      simp only [combinations, List.mem_singleton, List.length_eq_zero_iff]
      constructor
      · rintro rfl; simp
      · exact fun h => h.2
    | succ r =>
      simp only [combinations, List.mem_append, List.mem_map, ih]
      constructor
      · rintro (⟨u, ⟨h1, h2⟩, rfl⟩ | ⟨h1, h2⟩)
        · exact ⟨h1.cons_cons x, by simp [h2]⟩
        · exact ⟨h1.cons x, h2⟩
      · rintro ⟨h1, h2⟩
        cases h1 with
        | cons _ h1 => exact Or.inr ⟨h1, h2⟩
        | cons_cons _ h1 =>
          rename_i u
          exact Or.inl ⟨u, ⟨h1, by simpa using h2⟩, rfl⟩

theorem nodup_combinations {β : Type} {s : List β} (hs : s.Nodup) (r : Nat) :
    (combinations s r).Nodup := by
  induction s generalizing r with
  | nil => cases r <;> simp [combinations]
  | cons x s ih =>
    cases r with
    | zero => simp [combinations]
    | succ r =>
      rw [List.nodup_cons] at hs
      simp only [combinations]
      rw [List.nodup_append]
      refine ⟨(ih hs.2 r).map (fun a b h => by simpa using h), ih hs.2 _, ?_⟩
      rintro a ha b hb rfl
      simp only [List.mem_map] at ha
      obtain ⟨u, hu, rfl⟩ := ha
      rw [mem_combinations] at hb
      exact hs.1 (hb.1.subset (by simp))

/-- **C04.** `powerset(iterable)` yields exactly the sublists, and each once if the elements are
distinct. -/
theorem powerset_spec {β : Type} (s : List β) :
    (∀ l, l ∈ powerset s ↔ l.Sublist s) ∧ (s.Nodup → (powerset s).Nodup) := by
  constructor
  · intro l
    simp only [powerset, List.mem_flatMap, List.mem_range, mem_combinations]
    constructor
    · rintro ⟨_, _, h, _⟩; exact h
    · intro h; exact ⟨l.length, by have := h.length_le; omega, h, rfl⟩
  · intro hs
    simp only [powerset]
    rw [List.nodup_flatMap]
    refine ⟨fun r _ => nodup_combinations hs r, ?_⟩
    refine List.nodup_range.imp ?_
    intro a b hab
    simp only [Function.onFun, List.disjoint_left, mem_combinations, not_and]
    rintro l ⟨_, h1⟩ _ h2
    exact hab (h1.symm.trans h2)

theorem length_combinations_sum {β : Type} (s : List β) (k : Nat) (hk : s.length ≤ k) :
    ((List.range (k + 1)).map fun r => (combinations s r).length).sum = 2 ^ s.length := by
  induction s generalizing k with
  | nil =>
    have : ∀ n, ((List.range (n + 1)).map fun r => (combinations ([] : List β) r).length).sum = 1 := by
      intro n
      induction n with
      | zero => simp [combinations]
      | succ n ih => rw [List.range_succ, List.map_append, List.sum_append, ih]; simp [combinations]
    simpa using this k
  | cons x s ih =>
    obtain ⟨k, rfl⟩ : ∃ j, k = j + 1 := ⟨k - 1, by simp at hk; omega⟩
    have hk' : s.length ≤ k := by simpa using hk
    rw [List.range_succ_eq_map]
    simp only [List.map_cons, List.map_map, List.sum_cons, Function.comp_def]
    have e : ∀ r, (combinations (x :: s) (r + 1)).length =
        (combinations s r).length + (combinations s (r + 1)).length := by
      intro r; simp [combinations]
    simp only [e]
    have hs : ∀ (l : List Nat) (f g : Nat → Nat), (l.map fun r => f r + g r).sum =
        (l.map f).sum + (l.map g).sum := by
      intro l f g
      induction l with
      | nil => rfl
      | cons a l ihl => simp only [List.map_cons, List.sum_cons, ihl]; omega
    rw [hs, ih k hk']
    have h0 : (combinations (x :: s) 0).length = (combinations s 0).length := by simp [combinations]
    have h1 := ih (k + 1) (by omega)
    rw [List.range_succ_eq_map] at h1
    simp only [List.map_cons, List.map_map, List.sum_cons, Function.comp_def] at h1
    simp only [Nat.succ_eq_add_one] at h1 ⊢
    rw [h0, List.length_cons, Nat.pow_succ]
    omega

/-- **C04.** `len` of a power set is the number of sets it yields. -/
theorem powerset_length {β : Type} (s : List β) : (powerset s).length = 2 ^ s.length := by
  simp only [powerset, List.length_flatMap]
  exact length_combinations_sum s s.length (Nat.le_refl _)

/-- **C04.** A power set over a mathematical set: membership is inclusion; iteration yields each
subset exactly once (as a list without repetitions); `len` is the number of subsets. -/
theorem powerSet_correct {base : MSet α} {S : α → Prop} (h : History base S) :
    (∀ l, PowerSet.contains base l = .ok true ↔ ∀ x ∈ l, S x) ∧
    (∀ l, ∃ b, PowerSet.contains base l = .ok b) ∧
    (∀ T : α → Prop, (∀ x, T x → S x) →
      ∃ l ∈ PowerSet.iter base, (∀ x, x ∈ l ↔ T x) ∧
        ∀ l' ∈ PowerSet.iter base, (∀ x, x ∈ l' ↔ T x) → l' = l) ∧
    (∀ l ∈ PowerSet.iter base, l.Nodup ∧ ∀ x ∈ l, S x) ∧
    (PowerSet.iter base).Nodup ∧ PowerSet.len base = (PowerSet.iter base).length := by
  obtain ⟨hc, hi, hn, hl, _⟩ := mathSet_correct h
  have key : ∀ l : List α, PowerSet.contains base l = .ok (l.all base.contains) := by
    intro l
    simp only [PowerSet.contains, isSubset]
    induction l with
    | nil => rfl
    | cons y l ih =>
      simp only [allM, Superset.contains, ok_bind, List.all_cons]
      cases base.contains y <;> simp [ih]
  refine ⟨fun l => ?_, fun l => ⟨_, key l⟩, fun T hT => ?_, fun l hl => ?_, ?_, ?_⟩
  · rw [key]; simp [List.all_eq_true, hc]
  · classical
    refine ⟨base.iter.filter fun x => decide (T x), ?_, fun x => ?_, fun l' h1 h2 => ?_⟩
    · rw [PowerSet.iter, (powerset_spec _).1]; exact List.filter_sublist
    · simp only [List.mem_filter, hi, decide_eq_true_eq]
      exact ⟨fun h => h.2, fun h => ⟨hT x h, h⟩⟩
    · rw [PowerSet.iter, (powerset_spec _).1] at h1
      -- two sublists of a list without repetitions with the same elements are equal
      have key2 : ∀ {s l : List α}, s.Nodup → l.Sublist s → (∀ x, x ∈ l ↔ T x ∧ x ∈ s) →
          l = s.filter fun x => decide (T x) := by
        intro s l hs hsub
        induction hsub with
        | slnil => simp
        | @cons l s x hsub ih =>
          rw [List.nodup_cons] at hs
          intro hx
          have hxl : x ∉ l := fun h => hs.1 (hsub.subset h)
          have hT' : ¬ T x := fun h => hxl ((hx x).2 ⟨h, by simp⟩)
          rw [List.filter_cons_of_neg (by simpa using hT')]
          refine ih hs.2 fun y => ?_
          rw [hx y, List.mem_cons]
          constructor
          · rintro ⟨h3, rfl | h4⟩
            · exact absurd h3 hT'
            · exact ⟨h3, h4⟩
          · rintro ⟨h3, h4⟩; exact ⟨h3, Or.inr h4⟩
        | @cons_cons l s x hsub ih =>
          rw [List.nodup_cons] at hs
          intro hx
          have hT' : T x := ((hx x).1 (by simp)).1
          rw [List.filter_cons_of_pos (by simpa using hT')]
          congr 1
          refine ih hs.2 fun y => ?_
          have := hx y
          simp only [List.mem_cons] at this
          constructor
          · intro h3
            have h4 := this.1 (Or.inr h3)
            exact ⟨h4.1, hsub.subset h3⟩
          · rintro ⟨h3, h4⟩
            rcases this.2 ⟨h3, Or.inr h4⟩ with rfl | h5
            · exact absurd h4 hs.1
            · exact h5
      exact key2 hn h1 fun x => by
        rw [h2, hi]; exact ⟨fun h => ⟨h, hT x h⟩, fun h => h.1⟩
  · rw [PowerSet.iter, (powerset_spec _).1] at hl
    exact ⟨hl.nodup hn, fun x hx => (hi x).1 (hl.subset hx)⟩
  · exact (powerset_spec _).2 hn
  · rw [PowerSet.iter, powerset_length, PowerSet.len, hl]

/-! ## C05 -/

/-- A value is admissible for a key: the key is untyped, or its type is `None`, or a container with
that value. -/
def Admissible {κ ν : Type} [DecidableEq κ] (allowed : Dict κ (Option (ν → Except PyErr Bool)))
    (k : κ) (v : ν) : Prop :=
  ∀ c, allowed.get? k = some (some c) → c v = .ok true

/-- Calls that change a typed dictionary. -/
inductive DictOp (κ ν : Type) where
  | setItem (k : κ) (v : ν) | update (l : List (κ × ν)) | setDefault (k : κ) (v : ν)

/-- The state after a call, also if it raises. -/
def TDict.call {κ ν : Type} [DecidableEq κ] (d : TDict κ ν) : DictOp κ ν → TDict κ ν
  | .setItem k v => match d.setItem k v with | .ok d' => d' | .error _ => d
  | .update l => (d.update l).1
  | .setDefault k v => match d.setDefault k v with | .ok r => r.1 | .error _ => d

/-- All stored values are admissible. -/
def TDict.Consistent {κ ν : Type} [DecidableEq κ] (d : TDict κ ν) : Prop :=
  ∀ k v, d.items.get? k = some v → Admissible d.allowed k v

/-- **C05.** Assignment succeeds exactly for admissible values, and then changes that key only;
otherwise it raises `ValueError`. -/
theorem setItem_spec {κ ν : Type} [DecidableEq κ] (d : TDict κ ν) (k : κ) (v : ν) :
    (Admissible d.allowed k v → ∃ d', d.setItem k v = .ok d' ∧ d'.allowed = d.allowed ∧
      d'.items.get? k = some v ∧ ∀ k', k' ≠ k → d'.items.get? k' = d.items.get? k') ∧
    (¬ Admissible d.allowed k v → d.setItem k v = .error .valueError) := by
  have hset : ∀ d' : TDict κ ν, d' = { d with items := d.items.set k v } →
      d'.allowed = d.allowed ∧ d'.items.get? k = some v ∧
        ∀ k', k' ≠ k → d'.items.get? k' = d.items.get? k' := by
    rintro _ rfl
    refine ⟨rfl, by simp [Dict.get?_set], fun k' hk => ?_⟩
    simp only [Dict.get?_set]
    simp [hk, Ne.symm hk]
  cases ha : d.allowed.get? k with
  | none =>
    refine ⟨fun _ => ⟨_, by simp only [TDict.setItem, ha]; rfl, hset _ rfl⟩, fun h => ?_⟩
    exact absurd (fun c hc => by rw [ha] at hc; cases hc) h
  | some o =>
    cases o with
    | none =>
      refine ⟨fun _ => ⟨_, by simp only [TDict.setItem, ha]; rfl, hset _ rfl⟩, fun h => ?_⟩
      exact absurd (fun c hc => by rw [ha] at hc; cases hc) h
    | some c =>
      constructor
      · intro h
        have hc := h c ha
        exact ⟨_, by simp only [TDict.setItem, ha, hc]; rfl, hset _ rfl⟩
      · intro h
        simp only [TDict.setItem, ha]
        cases hc : c v with
        | error e => simp
        | ok b =>
          cases b with
          | false => simp
          | true =>
            refine absurd (fun c' hc' => ?_) h
            rw [ha] at hc'; cases hc'; exact hc

theorem setItem_consistent {κ ν : Type} [DecidableEq κ] {d d' : TDict κ ν} {k : κ} {v : ν}
    (h : d.Consistent) (hs : d.setItem k v = .ok d') :
    d'.allowed = d.allowed ∧ d'.Consistent := by
  by_cases ha : Admissible d.allowed k v
  · obtain ⟨d'', h1, h2, h3, h4⟩ := (setItem_spec d k v).1 ha
    rw [hs] at h1; cases h1
    refine ⟨h2, fun k' v' hk => ?_⟩
    rw [h2]
    by_cases he : k' = k
    · subst he; rw [h3] at hk; cases hk; exact ha
    · rw [h4 k' he] at hk; exact h k' v' hk
  · rw [(setItem_spec d k v).2 ha] at hs; cases hs

theorem update_consistent {κ ν : Type} [DecidableEq κ] (l : List (κ × ν)) {d : TDict κ ν}
    (h : d.Consistent) : (d.update l).1.allowed = d.allowed ∧ (d.update l).1.Consistent := by
  induction l generalizing d with
  | nil => exact ⟨rfl, h⟩
  | cons p l ih =>
    obtain ⟨k, v⟩ := p
    simp only [TDict.update]
    split
    · rename_i d' hs
      have := setItem_consistent h hs
      have h2 := ih this.2
      exact ⟨h2.1.trans this.1, h2.2⟩
    · exact ⟨rfl, h⟩

/-- **C05.** After `set_types` on a dictionary whose items are admissible (for instance an empty
one), and then any history of assignments, updates and `setdefault` calls, accepted or rejected,
every item is admissible. -/
theorem typedDict_consistent {κ ν : Type} [DecidableEq κ]
    (allowed : Dict κ (Option (ν → Except PyErr Bool))) (ops : List (DictOp κ ν)) :
    let d := ops.foldl TDict.call ⟨[], allowed⟩
    d.allowed = allowed ∧ ∀ k v, d.items.get? k = some v → Admissible allowed k v := by
  have key : ∀ (ops : List (DictOp κ ν)) (d : TDict κ ν), d.Consistent →
      (ops.foldl TDict.call d).allowed = d.allowed ∧ (ops.foldl TDict.call d).Consistent := by
    intro ops
    induction ops with
    | nil => intro d h; exact ⟨rfl, h⟩
    | cons op ops ih =>
      intro d h
      have step : (d.call op).allowed = d.allowed ∧ (d.call op).Consistent := by
        cases op with
        | setItem k v =>
          simp only [TDict.call]
          split
          · rename_i d' hs; exact setItem_consistent h hs
          · exact ⟨rfl, h⟩
        | update l => exact update_consistent l h
        | setDefault k v =>
          simp only [TDict.call, TDict.setDefault]
          cases hg : d.items.get? k with
          | some w => exact ⟨rfl, h⟩
          | none =>
            cases hs : d.setItem k v with
            | ok d' => exact setItem_consistent h hs
            | error e => exact ⟨rfl, h⟩
      have := ih _ step.2
      exact ⟨this.1.trans step.1, this.2⟩
  obtain ⟨h1, h2⟩ := key ops ⟨[], allowed⟩ (by intro k v h; simp at h)
  exact ⟨h1, fun k v hk => by have := h2 k v hk; rw [h1] at this; exact this⟩

/-- **C05.** `set_types` at any moment keeps the items. After it, and any history of further calls,
every item is admissible for the new types, or is one that was there before and was not assigned
since: `set_types` does not check the items that are there. -/
theorem setTypes_spec {κ ν : Type} [DecidableEq κ] (d : TDict κ ν)
    (allowed : Dict κ (Option (ν → Except PyErr Bool))) (ops : List (DictOp κ ν)) :
    (d.setTypes allowed).items = d.items ∧
    (ops.foldl TDict.call (d.setTypes allowed)).allowed = allowed ∧
    ∀ k v, (ops.foldl TDict.call (d.setTypes allowed)).items.get? k = some v →
      Admissible allowed k v ∨ d.items.get? k = some v := by
  refine ⟨rfl, ?_⟩
  have hset : ∀ (e e' : TDict κ ν) (k : κ) (v : ν), e.setItem k v = .ok e' →
      e'.allowed = e.allowed ∧ ∀ k' v', e'.items.get? k' = some v' →
        Admissible e.allowed k' v' ∨ e.items.get? k' = some v' := by
    intro e e' k v hs
    by_cases ha : Admissible e.allowed k v
    · obtain ⟨d'', h1, h2, h3, h4⟩ := (setItem_spec e k v).1 ha
      rw [hs] at h1; cases h1
      refine ⟨h2, fun k' v' hk => ?_⟩
      by_cases he : k' = k
      · subst he; rw [h3] at hk; cases hk; exact .inl ha
      · rw [h4 k' he] at hk; exact .inr hk
    · rw [(setItem_spec e k v).2 ha] at hs; cases hs
  have hupd : ∀ (l : List (κ × ν)) (e : TDict κ ν), (e.update l).1.allowed = e.allowed ∧
      ∀ k' v', (e.update l).1.items.get? k' = some v' →
        Admissible e.allowed k' v' ∨ e.items.get? k' = some v' := by
    intro l
    induction l with
    | nil => intro e; exact ⟨rfl, fun k v h => .inr h⟩
    | cons p l ih =>
      intro e
      obtain ⟨k, v⟩ := p
      simp only [TDict.update]
      split
      · rename_i e' hs
        obtain ⟨h1, h2⟩ := hset e e' k v hs
        obtain ⟨h3, h4⟩ := ih e'
        refine ⟨h3.trans h1, fun k' v' hk => ?_⟩
        rcases h4 k' v' hk with h | h
        · exact .inl (h1 ▸ h)
        · exact h2 k' v' h
      · exact ⟨rfl, fun k v h => .inr h⟩
  have key : ∀ (ops : List (DictOp κ ν)) (e : TDict κ ν),
      (ops.foldl TDict.call e).allowed = e.allowed ∧
      ∀ k v, (ops.foldl TDict.call e).items.get? k = some v →
        Admissible e.allowed k v ∨ e.items.get? k = some v := by
    intro ops
    induction ops with
    | nil => intro e; exact ⟨rfl, fun k v h => .inr h⟩
    | cons op ops ih =>
      intro e
      have step : (e.call op).allowed = e.allowed ∧ ∀ k v, (e.call op).items.get? k = some v →
          Admissible e.allowed k v ∨ e.items.get? k = some v := by
        cases op with
        | setItem k v =>
          simp only [TDict.call]
          split
          · rename_i d' hs; exact hset _ _ _ _ hs
          · exact ⟨rfl, fun k v h => .inr h⟩
        | update l => exact hupd l e
        | setDefault k v =>
          simp only [TDict.call, TDict.setDefault]
          cases hg : e.items.get? k with
          | some w => exact ⟨rfl, fun k v h => .inr h⟩
          | none =>
            cases hs : e.setItem k v with
            | ok d' => exact hset _ _ _ _ hs
            | error _ => exact ⟨rfl, fun k v h => .inr h⟩
      obtain ⟨h1, h2⟩ := ih (e.call op)
      refine ⟨h1.trans step.1, fun k v hk => ?_⟩
      rcases h2 k v hk with h | h
      · exact .inl (step.1 ▸ h)
      · exact step.2 k v h
  exact key ops (d.setTypes allowed)

/-- An item from before `set_types` may be inadmissible afterwards. -/
theorem setTypes_counterexample :
    (TDict.setTypes (⟨[("b", "2")], []⟩ : TDict String String)
      [("b", some fun y => .ok (y == "1"))]).items.get? "b" = some "2" := by
  decide +kernel

/-- An update that is rejected keeps the items before the rejected one. -/
theorem update_midway_counterexample :
    let d : TDict String String := ⟨[], [("b", some fun y => .ok (y == "1"))]⟩
    (d.update [("a", "0"), ("b", "2")]).2 = some .valueError ∧
      (d.update [("a", "0"), ("b", "2")]).1.items.get? "a" = some "0" := by
  decide +kernel

/-- `is_consistent` unpacks keys: it raises on a consistent dictionary with a key that does not have
two characters, and misses an inconsistent item. -/
theorem isConsistent_counterexample :
    (TDict.isConsistent ⟨[("name", "Maria")], []⟩).toOption = none ∧
      (TDict.isConsistent ⟨[("ab", "x")], [("ab", some fun _ => .ok false)]⟩).toOption = some true := by
  decide +kernel

end Tulip
