import Verif.Transys.MathSetMore
import Verif.Transys.MathSetProps

/-!
# C121: popping, Cartesian products and the arithmetic of power sets
-/

namespace Tulip

variable {α : Type} [Elem α]

theorem eraseIdx_nodup {l : List α} (h : l.Nodup) {i : Nat} {x : α} (hx : l[i]? = some x) :
    l.eraseIdx i = l.erase x := by
  induction l generalizing i with
  | nil => simp at hx
  | cons a l ih =>
    rw [List.nodup_cons] at h
    cases i with
    | zero => simp at hx; subst hx; simp
    | succ i =>
      simp only [List.getElem?_cons_succ] at hx
      have hm : x ∈ l := List.mem_of_getElem? hx
      have hne : a ≠ x := fun e => h.1 (e ▸ hm)
      rw [List.eraseIdx_cons_succ, ih h.2 hx, List.erase_cons_tail (by simpa using hne)]

theorem dropLast_nodup {l : List α} (h : l.Nodup) {x : α} (hx : l.getLast? = some x) :
    l.dropLast = l.erase x := by
  have hl : l ≠ [] := by rintro rfl; simp at hx
  have h1 : l[l.length - 1]? = some x := by rw [← List.getLast?_eq_getElem?]; exact hx
  rw [← eraseIdx_nodup h h1, List.dropLast_eq_eraseIdx]
  have := List.length_pos_iff.2 hl
  omega

theorem fromSet_spec {m : MSet α} (ho : m.Ok) (hs : m.set ≠ []) (pick : Nat) :
    ∃ x m', MSet.pop.fromSet m pick = .ok (x, m') ∧ x ∈ m.iter ∧ m.remove x = .ok m' := by
  have hl : 0 < m.set.length := List.length_pos_iff.2 hs
  obtain ⟨x, hx⟩ : ∃ x, m.set[pick % m.set.length]? = some x :=
    ⟨_, List.getElem?_eq_getElem (Nat.mod_lt _ hl)⟩
  have hm : x ∈ m.set := List.mem_of_getElem? hx
  have hh := ho.setHash x hm
  refine ⟨x, { m with set := m.set.eraseIdx (pick % m.set.length) },
    by simp only [MSet.pop.fromSet, MSet.pySetPop, hx], mem_iter.2 (Or.inr hm), ?_⟩
  simp [MSet.remove, hh, isHashable_of_hashOk hh, hm, eraseIdx_nodup ho.setNodup hx]

theorem fromList_spec {m : MSet α} (ho : m.Ok) (hs : m.list ≠ []) :
    ∃ x m', MSet.pop.fromList m = .ok (x, m') ∧ x ∈ m.iter ∧ m.remove x = .ok m' := by
  obtain ⟨x, hx⟩ : ∃ x, m.list.getLast? = some x := ⟨_, List.getLast?_eq_some_getLast hs⟩
  have hm : x ∈ m.list := List.mem_of_getLast? hx
  have hh := ho.listHash x hm
  refine ⟨x, { m with list := m.list.dropLast },
    by simp only [MSet.pop.fromList, MSet.pyListPop, hx], mem_iter.2 (Or.inl hm), ?_⟩
  simp [MSet.remove, hh, hm, dropLast_nodup ho.listNodup hx]

theorem pop_cases {m : MSet α} (ho : m.Ok) (coin : Bool) (pick : Nat) :
    (m.iter = [] ∧ m.pop coin pick = .error .keyError) ∨
      ∃ x m', m.pop coin pick = .ok (x, m') ∧ x ∈ m.iter ∧ m.remove x = .ok m' := by
  obtain ⟨s, l⟩ := m
  cases s with
  | nil =>
    cases l with
    | nil => exact Or.inl ⟨rfl, rfl⟩
    | cons b l =>
      obtain ⟨x, m', h1, h2⟩ := fromList_spec ho (by simp)
      exact Or.inr ⟨x, m', by simpa [MSet.pop, MSet.len] using h1, h2⟩
  | cons a s =>
    cases l with
    | nil =>
      obtain ⟨x, m', h1, h2⟩ := fromSet_spec ho (by simp) pick
      exact Or.inr ⟨x, m', by simpa [MSet.pop, MSet.len] using h1, h2⟩
    | cons b l =>
      cases coin with
      | true =>
        obtain ⟨x, m', h1, h2⟩ := fromSet_spec ho (by simp) pick
        exact Or.inr ⟨x, m', by simpa [MSet.pop, MSet.len] using h1, h2⟩
      | false =>
        obtain ⟨x, m', h1, h2⟩ := fromList_spec ho (by simp)
        exact Or.inr ⟨x, m', by simpa [MSet.pop, MSet.len] using h1, h2⟩

/-- **C121.** `pop` on a set with elements returns an element and removes it and nothing else,
whatever the random choices; on an empty set it raises `KeyError`. -/
theorem mathSet_pop {m : MSet α} {S : α → Prop} (h : History m S) (coin : Bool) (pick : Nat) :
    ((∃ x, S x) → ∃ x m', m.pop coin pick = .ok (x, m') ∧ S x ∧ m'.len + 1 = m.len ∧
      History m' fun y => S y ∧ y ≠ x) ∧
    ((∀ x, ¬ S x) → m.pop coin pick = .error .keyError) := by
  have r := h.rep
  rcases pop_cases r.1 coin pick with ⟨h1, h2⟩ | ⟨x, m', h1, h2, h3⟩
  · refine ⟨?_, fun _ => h2⟩
    rintro ⟨x, hx⟩
    rw [← r.2, h1] at hx; simp at hx
  · refine ⟨fun _ => ⟨x, m', h1, (r.2 x).1 h2, ?_, .remove h3 h⟩, fun hn => absurd ((r.2 x).1 h2) (hn x)⟩
    have h4 := History.remove h3 h
    have e1 := (mathSet_correct h).2.2.2.1
    have e2 := (mathSet_correct h4).2.2.2.1
    have hp : m.iter.Perm (x :: m'.iter) := by
      rw [List.perm_ext_iff_of_nodup r.1.nodup]
      · intro y
        rw [List.mem_cons, r.2, h4.rep.2]
        constructor
        · intro hy
          by_cases e : y = x
          · exact Or.inl e
          · exact Or.inr ⟨hy, e⟩
        · rintro (rfl | hy)
          · exact (r.2 _).1 h2
          · exact hy.1
      · rw [List.nodup_cons]
        refine ⟨fun hx => ?_, h4.rep.1.nodup⟩
        rw [h4.rep.2] at hx; exact hx.2 rfl
    rw [e1, e2, hp.length_eq, List.length_cons]

/-- **C121.** Popping repeatedly, with any random choices: no element is returned twice, the elements
returned and those left are the elements of the set, and the run ends with `KeyError` exactly if
there are more calls than elements. As many calls as there are elements return them all. -/
theorem mathSet_pops {m : MSet α} {S : α → Prop} (h : History m S) (choices : List (Bool × Nat)) :
    ∃ xs m' e, m.pops choices = (xs, m', e) ∧ xs.Nodup ∧
      (∃ T, History m' T ∧ (∀ y, T y ↔ S y ∧ y ∉ xs)) ∧ (∀ x ∈ xs, S x) ∧
      xs.length = min choices.length m.len ∧
      (e = none ∨ e = some .keyError) ∧ (e = none ↔ choices.length ≤ m.len) := by
  induction choices generalizing m S with
  | nil => exact ⟨[], m, none, rfl, List.nodup_nil, ⟨S, h, by simp⟩, by simp, by simp, by simp, by simp⟩
  | cons c rest ih =>
    obtain ⟨coin, pick⟩ := c
    obtain ⟨p1, p2⟩ := mathSet_pop h coin pick
    by_cases hS : ∃ x, S x
    · obtain ⟨x, m1, q1, q2, q3, q4⟩ := p1 hS
      obtain ⟨xs, m', e, r1, r2, ⟨T, r3, r4⟩, r5, r6, r7, r8⟩ := ih q4
      refine ⟨x :: xs, m', e, by simp [MSet.pops, q1, r1], ?_, ⟨T, r3, fun y => ?_⟩, ?_, ?_, r7, ?_⟩
      · rw [List.nodup_cons]; exact ⟨fun hx => (r5 x hx).2 rfl, r2⟩
      · rw [r4]; simp only [List.mem_cons, not_or, and_assoc]
      · intro y hy
        rcases List.mem_cons.1 hy with rfl | hy
        · exact q2
        · exact (r5 y hy).1
      · rw [List.length_cons, List.length_cons, r6]; omega
      · rw [r8, List.length_cons]; omega
    · have hn : ∀ x, ¬ S x := fun x hx => hS ⟨x, hx⟩
      have hl : m.len = 0 := (mathSet_correct h).2.2.2.2.2 hn
      refine ⟨[], m, some .keyError, by simp [MSet.pops, p2 hn], List.nodup_nil, ⟨S, h, by simp⟩,
        by simp, by simp [hl], by simp, by simp [hl]⟩

omit [Elem α] in
theorem fromSet_mem {m m' : MSet α} {x : α} {pick : Nat}
    (h : MSet.pop.fromSet m pick = .ok (x, m')) : x ∈ m.iter ∧ ∀ y ∈ m'.iter, y ∈ m.iter := by
  simp only [MSet.pop.fromSet, MSet.pySetPop] at h
  cases hx : m.set[pick % m.set.length]? with
  | none => simp [hx] at h
  | some z =>
    simp only [hx, Except.ok.injEq, Prod.mk.injEq] at h
    obtain ⟨rfl, rfl⟩ := h
    refine ⟨by simp [MSet.iter, List.mem_of_getElem? hx], fun y hy => ?_⟩
    simp only [MSet.iter, List.mem_append] at hy ⊢
    exact hy.imp_right fun h => (List.eraseIdx_sublist _ _).subset h

omit [Elem α] in
theorem fromList_mem {m m' : MSet α} {x : α}
    (h : MSet.pop.fromList m = .ok (x, m')) : x ∈ m.iter ∧ ∀ y ∈ m'.iter, y ∈ m.iter := by
  simp only [MSet.pop.fromList, MSet.pyListPop] at h
  cases hx : m.list.getLast? with
  | none => simp [hx] at h
  | some z =>
    simp only [hx, Except.ok.injEq, Prod.mk.injEq] at h
    obtain ⟨rfl, rfl⟩ := h
    refine ⟨by simp [MSet.iter, List.mem_of_getLast? hx], fun y hy => ?_⟩
    simp only [MSet.iter, List.mem_append] at hy ⊢
    exact hy.imp_left fun h => (List.dropLast_sublist _).subset h

omit [Elem α] in
theorem pop_mem {m m' : MSet α} {x : α} {coin : Bool} {pick : Nat}
    (h : m.pop coin pick = .ok (x, m')) : x ∈ m.iter ∧ ∀ y ∈ m'.iter, y ∈ m.iter := by
  simp only [MSet.pop] at h
  split at h
  · cases h
  · split at h
    · split at h
      · exact fromSet_mem h
      · exact fromList_mem h
    · split at h
      · exact fromSet_mem h
      · split at h
        · exact fromList_mem h
        · cases h

/-- **C121.** `pop` on a subset keeps the superset and stays inside it. -/
theorem subSet_pop {s s' : SSet α} {x : α} {coin : Bool} {pick : Nat} (h : s.Inside)
    (hp : s.pop coin pick = .ok (x, s')) :
    s'.superset = s.superset ∧ s'.Inside ∧ s.superset.Mem x := by
  rw [SSet.pop] at hp
  cases h1 : s.elems.pop coin pick with
  | error e => rw [h1] at hp; cases hp
  | ok q =>
    obtain ⟨y, m'⟩ := q
    rw [h1] at hp
    cases hp
    obtain ⟨h2, h3⟩ := pop_mem h1
    exact ⟨rfl, fun z hz => h z (h3 z hz), h _ h2⟩

/-- **C121.** `pop` on a subset returns whenever the subset is not empty, and raises `KeyError` when it is. -/
theorem subSet_pop_returns (s : SSet α) (coin : Bool) (pick : Nat) :
    ((∃ r, s.pop coin pick = .ok r) ↔ s.elems.iter ≠ []) ∧
    (s.elems.iter = [] → s.pop coin pick = .error .keyError) := by
  obtain ⟨sup, ⟨st, l⟩⟩ := s
  cases st with
  | nil =>
    cases l using List.reverseRecOn with
    | nil => simp [SSet.pop, MSet.pop, MSet.iter, MSet.len]
    | append_singleton l y =>
      simp [SSet.pop, MSet.pop, MSet.iter, MSet.len, MSet.pop.fromList, MSet.pyListPop]
  | cons x st =>
    have hs : (pick % (st.length + 1)) < (x :: st).length := Nat.mod_lt _ (by simp)
    cases l using List.reverseRecOn with
    | nil =>
      simp [SSet.pop, MSet.pop, MSet.iter, MSet.len, MSet.pop.fromSet, MSet.pySetPop, List.getElem?_eq_getElem hs]
    | append_singleton l y =>
      cases coin <;>
      simp [SSet.pop, MSet.pop, MSet.iter, MSet.len, MSet.pop.fromList, MSet.pyListPop, MSet.pop.fromSet, MSet.pySetPop,
        List.getElem?_eq_getElem hs]

/-- **C121.** `update` and `|=` add the elements of another mathematical set, or of a list. -/
theorem mathSet_update {m o : MSet α} {S T : α → Prop} (h : History m S) (h' : History o T)
    {l : List α} (hl : Homogeneous l) :
    History (m.update (.mathset o)) (fun y => S y ∨ T y) ∧
      History (m.ior (.mathset o)) (fun y => S y ∨ T y) ∧
      History (m.update (.items l)) (fun y => S y ∨ y ∈ l) ∧
      History (m.ior (.items l)) (fun y => S y ∨ y ∈ l) :=
  ⟨.addMathSet h h', .addMathSet h h', .addFrom hl h, .addFrom hl h⟩

theorem uniqueLoop_length_le (acc l : List α) :
    (uniqueLoop acc l).length ≤ acc.length + l.length := by
  induction l generalizing acc with
  | nil => simp [uniqueLoop]
  | cons x l ih =>
    simp only [uniqueLoop]
    split
    · have := ih acc; simp; omega
    · have := ih (acc ++ [x]); simp at this ⊢; omega

theorem uniqueLoop_length_eq (acc l : List α) (h : acc.Nodup) :
    (uniqueLoop acc l).length = acc.length + l.length ↔ (acc ++ l).Nodup := by
  induction l generalizing acc with
  | nil => simpa [uniqueLoop] using h
  | cons x l ih =>
    simp only [uniqueLoop]
    split
    · rename_i hx
      have := uniqueLoop_length_le acc l
      constructor
      · intro e; simp at e; omega
      · intro hn
        rw [List.nodup_append] at hn
        exact absurd rfl (hn.2.2 x hx x (by simp))
    · rename_i hx
      have hn : (acc ++ [x]).Nodup := by
        rw [List.nodup_append]
        refine ⟨h, by simp, ?_⟩
        rintro a ha b hb rfl
        simp at hb; subst hb; exact hx ha
      have := ih (acc ++ [x]) hn
      rw [List.append_assoc] at this
      simp only [List.length_append, List.length_cons, List.length_nil, List.singleton_append] at this ⊢
      rw [← this]; omega

/-- **C121.** `contains_multiple` says whether some item occurs at two places. -/
theorem containsMultiple_spec (l : List α) :
    containsMultiple l = true ↔ ∃ x, 2 ≤ l.count x := by
  have h := uniqueLoop_length_eq ([] : List α) l List.nodup_nil
  simp only [List.length_nil, Nat.zero_add, List.nil_append] at h
  have : containsMultiple l = true ↔ ¬ l.Nodup := by
    simp only [containsMultiple, unique, bne_iff_ne, ne_eq, ← h]
    exact not_congr eq_comm
  rw [this, List.nodup_iff_count_le_one]
  simp only [not_forall]
  exact exists_congr fun x => by omega

/-! ## Cartesian products -/

omit [Elem α] in
/-- **C121.** `add` and `add_from` append factors, after those that are there. -/
theorem cprod_add (p : CProd α) (m : MSet α) (l : List (MSet α)) :
    (p.add m).mathsets = p.mathsets ++ [m] ∧ (p.addFrom l).mathsets = p.mathsets ++ l :=
  ⟨rfl, rfl⟩

omit [Elem α] in
/-- **C121.** Membership in a Cartesian product never gives a correct answer about a non-empty
element: the test raises `TypeError`, unless there is no factor or no component, where it says
`True`. It never says `False`. -/
theorem cprod_contains (p : CProd α) (e : CProd.Elt α) :
    p.contains e = match e with
      | .other => .error .typeError
      | .iterable l => if p.mathsets = [] ∨ l = [] then .ok true else .error .typeError := by
  cases e with
  | other => rfl
  | iterable l =>
    obtain ⟨ms⟩ := p
    cases ms with
    | nil => simp [CProd.contains, allM]
    | cons m ms => cases l <;> simp [CProd.contains, allM, CProd.opContains]

/-- The intended meaning is missed: a pair in the product is refused with an exception, and the
empty tuple is said to be in a product of two sets. -/
theorem cprod_contains_counterexample :
    CProd.contains (α := PySample) ⟨[MSet.ofList [.int 1], MSet.ofList [.int 2]]⟩
        (.iterable [.int 1, .int 2]) = .error .typeError ∧
      CProd.contains (α := PySample) ⟨[MSet.ofList [.int 1], MSet.ofList [.int 2]]⟩
        (.iterable []) = .ok true :=
  ⟨rfl, rfl⟩

/-- Every factor has a history of calls. -/
def CProd.Good (l : List (MSet α)) : Prop := ∀ m ∈ l, ∃ S, History m S

theorem beq_iff {m o : MSet α} (h : ∃ S, History m S) (h' : ∃ S, History o S) :
    m.beq o = true ↔ ∀ x, m.contains x = o.contains x := by
  obtain ⟨S, h⟩ := h
  obtain ⟨T, h'⟩ := h'
  rw [mathSet_eq h h']
  refine forall_congr' fun x => ?_
  have e1 := (mathSet_correct h).1 x
  have e2 := (mathSet_correct h').1 x
  rw [Bool.eq_iff_iff, e1, e2]

theorem countP_eraseP {β : Type} (p q : β → Bool) (l : List β) {a : β} (hl : l.find? p = some a) :
    l.countP q = (l.eraseP p).countP q + if q a then 1 else 0 := by
  induction l with
  | nil => simp at hl
  | cons b l ih =>
    rw [List.find?_cons] at hl
    cases hb : p b with
    | true =>
      simp only [hb, Option.some.injEq] at hl
      subst hl
      rw [List.eraseP_cons_of_pos hb, List.countP_cons]
    | false =>
      simp only [hb] at hl
      rw [List.eraseP_cons_of_neg (by simp [hb]), List.countP_cons, List.countP_cons, ih hl]
      omega

theorem any_find {β : Type} {p : β → Bool} {l : List β} (h : l.any p = true) :
    ∃ a, l.find? p = some a ∧ a ∈ l ∧ p a = true := by
  rw [List.any_eq_true] at h
  cases hf : l.find? p with
  | some a => exact ⟨a, rfl, List.mem_of_find?_eq_some hf, List.find?_some hf⟩
  | none =>
    obtain ⟨x, hx, hp⟩ := h
    rw [List.find?_eq_none] at hf
    exact absurd hp (hf x hx)

/-- **C121.** Adding factors appends them. Removing a factor fails with `ValueError` if no factor
has the same elements, and otherwise takes away one of those that have. Removing several takes
away, for every set of elements, as many factors with these elements as there are arguments with
them, and if it raises, then some argument had too few. -/
theorem cprod_remove {p : CProd α} {m : MSet α} (hp : CProd.Good p.mathsets) (hm : ∃ S, History m S) :
    ((∀ o ∈ p.mathsets, ∃ x, o.contains x ≠ m.contains x) → p.remove m = .error .valueError) ∧
    ((∃ o ∈ p.mathsets, ∀ x, o.contains x = m.contains x) →
      ∃ p', p.remove m = .ok p' ∧ p'.mathsets.Sublist p.mathsets ∧
        ∀ o, (∃ S, History o S) →
          p.mathsets.countP (·.beq o) = p'.mathsets.countP (·.beq o) + if m.beq o then 1 else 0) := by
  have key : p.mathsets.any (·.beq m) = true ↔ ∃ o ∈ p.mathsets, ∀ x, o.contains x = m.contains x := by
    rw [List.any_eq_true]
    constructor
    · rintro ⟨o, h1, h2⟩; exact ⟨o, h1, (beq_iff (hp o h1) hm).1 h2⟩
    · rintro ⟨o, h1, h2⟩; exact ⟨o, h1, (beq_iff (hp o h1) hm).2 h2⟩
  constructor
  · intro h
    have : p.mathsets.any (·.beq m) = false := by
      rw [Bool.eq_false_iff]
      intro ha
      obtain ⟨o, h1, h2⟩ := key.1 ha
      obtain ⟨x, hx⟩ := h o h1
      exact hx (h2 x)
    simp [CProd.remove, this]
  · intro h
    have ha := key.2 h
    obtain ⟨a, f1, f2, f3⟩ := any_find ha
    refine ⟨⟨p.mathsets.eraseP (·.beq m)⟩, by simp only [CProd.remove, ha, if_true], List.eraseP_sublist, fun o ho => ?_⟩
    rw [countP_eraseP _ (fun x => x.beq o) _ f1]
    congr 1
    have e1 := (beq_iff (hp a f2) hm).1 f3
    have e2 : a.beq o = m.beq o := by
      rw [Bool.eq_iff_iff, beq_iff (hp a f2) ho, beq_iff hm ho]
      simp only [e1]
    simp only [e2]

theorem cprod_removeFrom {l : List (MSet α)} {p : CProd α} (hp : CProd.Good p.mathsets)
    (hl : CProd.Good l) :
    ((p.removeFrom l).2 = none ↔
      ∀ o ∈ l, l.countP (·.beq o) ≤ p.mathsets.countP (·.beq o)) ∧
    ((p.removeFrom l).2 = none → ∀ o, (∃ S, History o S) →
      p.mathsets.countP (·.beq o) = (p.removeFrom l).1.mathsets.countP (·.beq o) +
        l.countP (·.beq o)) ∧
    ((p.removeFrom l).2 = none ∨ (p.removeFrom l).2 = some .valueError) ∧
    (p.removeFrom l).1.mathsets.Sublist p.mathsets := by
  induction l generalizing p with
  | nil => simp [CProd.removeFrom]
  | cons m l ih =>
    have hm := hl m (by simp)
    have hl' : CProd.Good l := fun o ho => hl o (List.mem_cons_of_mem _ ho)
    have hmm : m.beq m = true := (beq_iff hm hm).2 fun _ => rfl
    obtain ⟨r1, r2⟩ := cprod_remove hp hm
    by_cases h : ∃ o ∈ p.mathsets, ∀ x, o.contains x = m.contains x
    · obtain ⟨p', q1, q2, q3⟩ := r2 h
      have e : p.removeFrom (m :: l) = p'.removeFrom l := by simp only [CProd.removeFrom, q1]
      have hp' : CProd.Good p'.mathsets := fun o ho => hp o (q2.subset ho)
      obtain ⟨i1, i2, i3, i4⟩ := ih hp' hl'
      rw [e]
      refine ⟨?_, ?_, i3, i4.trans q2⟩
      · constructor
        · intro hn o ho
          have := i2 hn o (hl o ho)
          have := q3 o (hl o ho)
          rw [List.countP_cons]
          omega
        · intro hc
          refine i1.2 fun o ho => ?_
          have h1 := hc o (List.mem_cons_of_mem _ ho)
          have h2 := q3 o (hl' o ho)
          rw [List.countP_cons] at h1
          omega
      · intro hn o ho
        have h1 := i2 hn o ho
        have h2 := q3 o ho
        rw [List.countP_cons]
        omega
    · have hno : ∀ o ∈ p.mathsets, ∃ x, o.contains x ≠ m.contains x := by
        intro o ho
        by_contra hc
        exact h ⟨o, ho, fun x => by_contra fun hx => hc ⟨x, hx⟩⟩
      have e : p.removeFrom (m :: l) = (p, some .valueError) := by
        simp only [CProd.removeFrom, r1 hno]
      rw [e]
      refine ⟨?_, by simp, by simp, List.Sublist.refl _⟩
      constructor
      · intro hn; cases hn
      · intro hc
        have h1 := hc m (by simp)
        rw [List.countP_cons, if_pos hmm] at h1
        have h2 : 0 < p.mathsets.countP (·.beq m) := by omega
        rw [List.countP_pos_iff] at h2
        obtain ⟨o, ho, hb⟩ := h2
        exact absurd ⟨o, ho, (beq_iff (hp o ho) hm).1 hb⟩ h

/-! ## Power sets -/

/-- **C121.** The sum of two power sets is the power set of the union; two power sets are equal
exactly if the same sets are their elements; anything else raises `TypeError`. -/
theorem powerSet_arith {m o : MSet α} {S T : α → Prop} (h : History m S) (h' : History o T) :
    (∃ u, PowerSet.add m (.powerset o) = .ok u ∧
      ∀ l, PowerSet.contains u l = .ok true ↔ ∀ x ∈ l, S x ∨ T x) ∧
    (∃ b, PowerSet.eq m (.powerset o) = .ok b ∧
      (b = true ↔ ∀ l, PowerSet.contains m l = PowerSet.contains o l)) ∧
    (∀ a, (∀ b, a ≠ .powerset b) →
      PowerSet.add m a = .error .typeError ∧ PowerSet.eq m a = .error .typeError) := by
  refine ⟨⟨_, rfl, ?_⟩, ⟨_, rfl, ?_⟩, ?_⟩
  · have h1 : History (PowerSet.new (.mathset (m.or (.mathset o)))) fun y => False ∨ (S y ∨ T y) :=
      History.addMathSet .empty (History.or h h')
    intro l
    rw [(powerSet_correct h1).1 l]
    simp only [false_or]
  · rw [mathSet_eq h' h]
    have c1 := powerSet_correct h
    have c2 := powerSet_correct h'
    constructor
    · intro hx l
      obtain ⟨b1, e1⟩ := c1.2.1 l
      obtain ⟨b2, e2⟩ := c2.2.1 l
      have h1 := c1.1 l
      have h2 := c2.1 l
      have h3 : (∀ x ∈ l, S x) ↔ ∀ x ∈ l, T x :=
        forall_congr' fun x => imp_congr_right fun _ => (hx x).symm
      rw [h3, ← h2, e1, e2] at h1
      rw [e1, e2]
      cases b1 <;> cases b2 <;> simp_all
    · intro hl x
      have h1 := c1.1 [x]
      have h2 := c2.1 [x]
      rw [hl [x], h2] at h1
      simpa using h1
  · intro a ha
    cases a with
    | powerset b => exact absurd rfl (ha b)
    | mathset _ => exact ⟨rfl, rfl⟩
    | list _ => exact ⟨rfl, rfl⟩
    | other => exact ⟨rfl, rfl⟩

/-- **C121.** The base set of a power set can be replaced by a `MathSet` only; membership can be
asked of iterables that are not strings only. -/
theorem powerSet_objects (base : MSet α) (a : PowerSet.Obj α) (i : PowerSet.Item α) :
    ((∃ m, PowerSet.setMathSet base a = .ok m) ↔ ∃ m, a = .mathset m) ∧
    ((∀ m, a ≠ .mathset m) → PowerSet.setMathSet base a = .error .typeError) ∧
    (∀ m, PowerSet.setMathSet base (.mathset m) = .ok m) ∧
    ((∃ b, PowerSet.containsItem base i = .ok b) → ∃ l, i = .iterable l) ∧
    (∀ s, PowerSet.containsItem base (.str s) = .error .typeError) ∧
    PowerSet.containsItem base .other = .error .exception := by
  refine ⟨?_, ?_, fun _ => rfl, ?_, fun _ => rfl, rfl⟩
  · cases a <;> simp [PowerSet.setMathSet]
  · cases a <;> simp [PowerSet.setMathSet]
  · cases i <;> simp [PowerSet.containsItem]

/-- The assignment shown in the documentation of `PowerSet`, `q.math_set = S` with a list `S`,
raises `TypeError`. -/
theorem powerSet_setMathSet_counterexample (l : List α) :
    PowerSet.setMathSet (PowerSet.new (.items [])) (.list l) = .error .typeError := rfl

/-- Non-vacuity: a set with elements in both stores; two pops, from either store. -/
example : ∃ (m : MSet PySample) (S : PySample → Prop), History m S ∧ S (.int 2) ∧ S (.list [7]) ∧
    m.pop true 1 = .ok (.int 2, ⟨[.int 1], [.list [7]]⟩) ∧
    m.pop false 0 = .ok (.list [7], ⟨[.int 1, .int 2], []⟩) ∧
    (m.pops [(true, 0), (false, 0), (true, 5), (true, 1)]).2.2 = some .keyError := by
  have h1 : Homogeneous [PySample.int 1, .int 2, .list [7]] := Or.inl (by decide)
  exact ⟨_, _, History.addFrom h1 .empty, by simp, by simp, rfl, rfl, rfl⟩

/-- Non-vacuity: a product with two equal factors, built in different orders. -/
example : ∃ p : CProd PySample, CProd.Good p.mathsets ∧ p.mathsets.length = 3 ∧
    (p.removeFrom [MSet.ofList [.int 2, .int 1], MSet.ofList [.int 1, .int 2]]).2 = none ∧
    (p.removeFrom [MSet.ofList [.int 1], MSet.ofList [.int 5]]).2 = some .valueError := by
  refine ⟨⟨[MSet.ofList [.int 1, .int 2], MSet.ofList [.int 5], MSet.ofList [.int 2, .int 1]]⟩,
    ?_, rfl, by decide, by decide⟩
  intro m hm
  simp only [List.mem_cons, List.not_mem_nil, or_false] at hm
  rcases hm with rfl | rfl | rfl
  · exact ⟨_, History.addFrom (Or.inl (by decide)) .empty⟩
  · exact ⟨_, History.addFrom (Or.inl (by decide)) .empty⟩
  · exact ⟨_, History.addFrom (Or.inl (by decide)) .empty⟩

example : containsMultiple [PySample.int 1, .list [2], .int 1] = true ∧
    containsMultiple [PySample.int 1, .list [2]] = false := by decide

end Tulip
