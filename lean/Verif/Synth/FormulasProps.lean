import Verif.Synth.Formulas

/-!
# Mutual exclusion and the encoding of finite domains (C27, C28)
-/

namespace Tulip

namespace Synth

/-! ## Specification -/

/-- The string `s` is a formula that holds at position `i` of the trace. -/
def Holds (σ : Trace) (i : Nat) (s : List Char) : Prop := ∃ t, parse s = some t ∧ Sat σ i t

/-- `s` is a formula that the parser accepts, and contains no comment. -/
def IsFormula (s : List Char) : Prop := '#' ∉ s ∧ (parse s).isSome = true

/-- At most one of the (distinct) formulas holds. -/
def AtMostOne (σ : Trace) (i : Nat) (xs : List (List Char)) : Prop :=
  ∀ x ∈ xs, ∀ y ∈ xs, Holds σ i x → Holds σ i y → x = y

/-- Exactly one of the (distinct) formulas holds. -/
def ExactlyOne (σ : Trace) (i : Nat) (xs : List (List Char)) : Prop :=
  ∃ x ∈ xs, Holds σ i x ∧ ∀ y ∈ xs, Holds σ i y → y = x

/-! ## Strings -/

/-- `s` is an operand of the connectives, and holds in the positions given by `P`. -/
structure UnitFor (s : List Char) (P : Trace → Nat → Prop) : Prop where
  ex : ∃ t, UnitStr s t ∧ ∀ σ i, Sat σ i t ↔ P σ i

/-- `s` is a formula, and holds in the positions given by `P`. -/
structure FormFor (s : List Char) (P : Trace → Nat → Prop) : Prop where
  ex : '#' ∉ s ∧ ∃ t, parse s = some t ∧ ∀ σ i, Sat σ i t ↔ P σ i

theorem FormFor.holds {s : List Char} {P : Trace → Nat → Prop} (h : FormFor s P) (σ : Trace)
    (i : Nat) : Holds σ i s ↔ P σ i := by
  obtain ⟨_, t, h1, h2⟩ := h.ex
  constructor
  · rintro ⟨t', h3, h4⟩
    rw [h1] at h3; cases h3
    exact (h2 σ i).1 h4
  · exact fun hp => ⟨t, h1, (h2 σ i).2 hp⟩

theorem FormFor.isFormula {s : List Char} {P : Trace → Nat → Prop} (h : FormFor s P) :
    IsFormula s := by
  obtain ⟨hc, t, h1, _⟩ := h.ex
  exact ⟨hc, by simp [h1]⟩

theorem IsFormula.formFor {s : List Char} (h : IsFormula s) :
    FormFor s (fun σ i => Holds σ i s) := by
  obtain ⟨hc, hp⟩ := h
  obtain ⟨t, ht⟩ := Option.isSome_iff_exists.1 hp
  exact ⟨hc, t, ht, fun σ i => ⟨fun h => ⟨t, ht, h⟩, fun ⟨t', h1, h2⟩ => by
    rw [ht] at h1; cases h1; exact h2⟩⟩

theorem FormFor.congr {s : List Char} {P Q : Trace → Nat → Prop} (h : FormFor s P)
    (hPQ : ∀ σ i, P σ i ↔ Q σ i) : FormFor s Q := by
  obtain ⟨hc, t, h1, h2⟩ := h.ex
  exact ⟨hc, t, h1, fun σ i => (h2 σ i).trans (hPQ σ i)⟩

theorem UnitFor.congr {s : List Char} {P Q : Trace → Nat → Prop} (h : UnitFor s P)
    (hPQ : ∀ σ i, P σ i ↔ Q σ i) : UnitFor s Q := by
  obtain ⟨t, h1, h2⟩ := h.ex
  exact ⟨t, h1, fun σ i => (h2 σ i).trans (hPQ σ i)⟩

theorem UnitFor.form {s : List Char} {P : Trace → Nat → Prop} (h : UnitFor s P) :
    FormFor s P := by
  obtain ⟨t, h1, h2⟩ := h.ex
  exact ⟨h1.clean, t, h1.parse, h2⟩

theorem FormFor.paren {s : List Char} {P : Trace → Nat → Prop} (h : FormFor s P) :
    UnitFor (pstr s) P := by
  obtain ⟨hc, t, h1, h2⟩ := h.ex
  exact ⟨t, unit_paren hc h1, h2⟩

theorem FormFor.not_paren {s : List Char} {P : Trace → Nat → Prop} (h : FormFor s P) :
    UnitFor (c!"!" ++ pstr s) (fun σ i => ¬ P σ i) := by
  obtain ⟨hc, t, h1, h2⟩ := h.ex
  have := unit_not (s := s ++ c!")") (by simpa using unit_paren hc h1)
  exact ⟨_, by simpa [pstr] using this, fun σ i => by simp [h2]⟩

theorem unit_next_paren {s : List Char} {t : Ast} (h : UnitStr (c!"(" ++ s) t) :
    UnitStr (c!"X(" ++ s) (.un .next t) := by
  refine ⟨by simpa using h.clean, ?_⟩
  have : lex (c!"X(" ++ s) = .un .next :: lex (c!"(" ++ s) := by
    have := lex_word (c := 'X') (w := []) (rest := '(' :: s) (by decide) (by decide)
      (by simp [isNameChar])
    simpa [nameTok] using this
  rw [this]; exact h.reads.un _

theorem FormFor.next_paren {s : List Char} {P : Trace → Nat → Prop} (h : FormFor s P) :
    UnitFor (c!"X" ++ pstr s) (fun σ i => P σ (i + 1)) := by
  obtain ⟨hc, t, h1, h2⟩ := h.ex
  have := unit_next_paren (s := s ++ c!")") (by simpa using unit_paren hc h1)
  exact ⟨_, by simpa [pstr] using this, fun σ i => by simp [h2]⟩

theorem FormFor.next_space_paren {s : List Char} {P : Trace → Nat → Prop} (h : FormFor s P) :
    UnitFor (c!"X " ++ pstr s) (fun σ i => P σ (i + 1)) := by
  obtain ⟨hc, t, h1, h2⟩ := h.ex
  exact ⟨_, unit_next (unit_paren hc h1), fun σ i => by simp [h2]⟩

theorem FormFor.space {s : List Char} {P : Trace → Nat → Prop} (h : FormFor s P) :
    FormFor (c!" " ++ s) P := by
  obtain ⟨hc, t, h1, h2⟩ := h.ex
  refine ⟨by simp [hc], t, ?_, h2⟩
  simpa [parse] using h1

theorem unit_not_ident {x : String} (h : IsIdent x) (hr : ¬ IsReserved x) :
    UnitStr (c!"!" ++ x.toList) (.un .not (.var x)) := by
  have hu := unit_ident h hr
  refine ⟨by simpa using hu.clean, ?_⟩
  have : lex (c!"!" ++ x.toList) = .un .not :: lex x.toList := by
    obtain ⟨c, cs, e, h1, _⟩ := isWord_of_isIdent h
    rw [e]
    have : c ≠ '=' := by rintro rfl; revert h1; decide
    rw [List.cons_append, lex_cons]
    simp [lexStep, this]
  rw [this]; exact hu.reads.un _

theorem UnitFor.ident {x : String} (h : IsIdent x) (hr : ¬ IsReserved x) :
    UnitFor x.toList (fun σ i => σ i x = .bool true) :=
  ⟨_, unit_ident h hr, fun σ i => by simp⟩

theorem UnitFor.not_ident {x : String} (h : IsIdent x) (hr : ¬ IsReserved x) :
    UnitFor (c!"!" ++ x.toList) (fun σ i => σ i x ≠ .bool true) :=
  ⟨_, unit_not_ident h hr, fun σ i => by simp⟩

theorem form_true : FormFor c!"True" (fun _ _ => True) :=
  ⟨by decide, .bool true, by decide +kernel, fun σ i => by simp⟩

theorem form_false : FormFor c!"False" (fun _ _ => False) :=
  ⟨by decide, .bool false, by decide +kernel, fun σ i => by simp⟩

/-- A nonempty conjunction. -/
theorem form_join_and {α : Type _} {f : α → List Char} {P : α → Trace → Nat → Prop} {xs : List α}
    (hne : xs ≠ []) (h : ∀ x ∈ xs, UnitFor (f x) (P x)) :
    FormFor (joinWith c!" && " (xs.map f)) (fun σ i => ∀ x ∈ xs, P x σ i) := by
  obtain ⟨x, xs, rfl⟩ := List.exists_cons_of_ne_nil hne
  obtain ⟨t, ht, hs⟩ := (h x (by simp)).ex
  have hex : ∃ ts, List.Forall₂ UnitStr (xs.map f) ts ∧
      ∀ σ i, (∀ u ∈ ts, Sat σ i u) ↔ ∀ x ∈ xs, P x σ i := by
    clear hne ht hs
    induction xs with
    | nil => exact ⟨[], by simp, by simp⟩
    | cons y ys ih =>
      obtain ⟨ts, h1, h2⟩ := ih (fun z hz => h z (by simp only [List.mem_cons] at hz ⊢; tauto))
      obtain ⟨t, h3, h4⟩ := (h y (by simp)).ex
      exact ⟨t :: ts, by simp [h1, h3], fun σ i => by simp [h2, h4]⟩
  obtain ⟨ts, h1, h2⟩ := hex
  have hc := chain_join connective_and2 ht h1
  exact ⟨hc.clean, _, hc.parse, fun σ i => by simp [sat_foldBin_and, h2, hs]⟩

/-- A nonempty disjunction. -/
theorem form_join_or {α : Type _} {f : α → List Char} {P : α → Trace → Nat → Prop} {xs : List α}
    (hne : xs ≠ []) (h : ∀ x ∈ xs, UnitFor (f x) (P x)) :
    FormFor (joinWith c!" || " (xs.map f)) (fun σ i => ∃ x ∈ xs, P x σ i) := by
  obtain ⟨x, xs, rfl⟩ := List.exists_cons_of_ne_nil hne
  obtain ⟨t, ht, hs⟩ := (h x (by simp)).ex
  have hex : ∃ ts, List.Forall₂ UnitStr (xs.map f) ts ∧
      ∀ σ i, (∃ u ∈ ts, Sat σ i u) ↔ ∃ x ∈ xs, P x σ i := by
    clear hne ht hs
    induction xs with
    | nil => exact ⟨[], by simp, by simp⟩
    | cons y ys ih =>
      obtain ⟨ts, h1, h2⟩ := ih (fun z hz => h z (by simp only [List.mem_cons] at hz ⊢; tauto))
      obtain ⟨t, h3, h4⟩ := (h y (by simp)).ex
      exact ⟨t :: ts, by simp [h1, h3], fun σ i => by simp [h2, h4]⟩
  obtain ⟨ts, h1, h2⟩ := hex
  have hc := chain_join connective_or2 ht h1
  exact ⟨hc.clean, _, hc.parse, fun σ i => by simp [sat_foldBin_or, h2, hs]⟩

theorem UnitFor.imp {s u : List Char} {P Q : Trace → Nat → Prop} (hs : UnitFor s P)
    (hu : UnitFor u Q) : FormFor (s ++ c!" -> " ++ u) (fun σ i => P σ i → Q σ i) := by
  obtain ⟨t, h1, h2⟩ := hs.ex
  obtain ⟨t', h3, h4⟩ := hu.ex
  have := chain_bin connective_imp h1 h3
  exact ⟨by simpa using this.clean, _, by simpa using this.parse, fun σ i => by simp [h2, h4]⟩

theorem UnitFor.or {s u : List Char} {P Q : Trace → Nat → Prop} (hs : UnitFor s P)
    (hu : UnitFor u Q) : FormFor (s ++ c!" || " ++ u) (fun σ i => P σ i ∨ Q σ i) := by
  obtain ⟨t, h1, h2⟩ := hs.ex
  obtain ⟨t', h3, h4⟩ := hu.ex
  have := chain_bin connective_or2 h1 h3
  exact ⟨by simpa using this.clean, _, by simpa using this.parse, fun σ i => by simp [h2, h4]⟩

theorem form_disj {α : Type _} {f : α → List Char} {P : α → Trace → Nat → Prop} {xs : List α}
    (hne : xs ≠ []) (h : ∀ x ∈ xs, FormFor (f x) (P x)) :
    FormFor (disj (xs.map f)) (fun σ i => ∃ x ∈ xs, P x σ i) := by
  have := form_join_or (f := fun x => pstr (f x)) hne (fun x hx => (h x hx).paren)
  simpa [disj, Function.comp_def] using this

theorem IsFormula.ne_nil {s : List Char} (h : IsFormula s) : s ≠ [] := by
  rintro rfl
  have h2 : parse [] = none := by decide +kernel
  rw [IsFormula, h2] at h
  simp at h

theorem form_conj {α : Type _} {f : α → List Char} {P : α → Trace → Nat → Prop} {xs : List α}
    (hne : xs ≠ []) (h : ∀ x ∈ xs, FormFor (f x) (P x)) :
    FormFor (conj (xs.map f)) (fun σ i => ∀ x ∈ xs, P x σ i) := by
  have := form_join_and (f := fun x => pstr (f x)) hne (fun x hx => (h x hx).paren)
  have hf : (xs.map f).filter (fun x => !x.isEmpty) = xs.map f := by
    rw [List.filter_eq_self]
    intro s hs
    obtain ⟨x, hx, rfl⟩ := List.mem_map.1 hs
    have := (h x hx).isFormula.ne_nil
    simp [this]
  simpa [conj, hf, Function.comp_def] using this

theorem joinWith_cons_ne (sep x : List Char) {xs : List (List Char)} (h : xs ≠ []) :
    joinWith sep (x :: xs) = x ++ sep ++ joinWith sep xs := by
  obtain ⟨y, ys, rfl⟩ := List.exists_cons_of_ne_nil h
  rfl

/-! ## C27 -/

theorem conjNegDiff_eq (xs : List (List Char)) (x : List Char) :
    conjNegDiff xs [x] =
      joinWith c!" && " ((xs.filter (fun y => !decide (y = x))).map (fun y => c!"!" ++ pstr y)) := by
  simp [conjNegDiff, Function.comp_def]

theorem others_ne_nil {xs : List (List Char)} (hn : xs.Nodup) (hl : ¬ xs.length ≤ 1)
    (x : List Char) : xs.filter (fun y => !decide (y = x)) ≠ [] := by
  intro h
  have h1 : ∀ y ∈ xs, y = x := by
    intro y hy
    have := List.filter_eq_nil_iff.1 h y hy
    simpa using this
  match xs, hn, hl with
  | [], _, hl => simp at hl
  | [_], _, hl => simp at hl
  | a :: b :: r, hn, _ =>
    have ha := h1 a (by simp)
    have hb := h1 b (by simp)
    simp [ha, hb] at hn

theorem mutex_form {xs : List (List Char)} (hf : ∀ x ∈ xs, IsFormula x) (hn : xs.Nodup)
    (hl : ¬ xs.length ≤ 1) :
    ∃ f, mutex xs = [f] ∧ FormFor f (fun σ i => AtMostOne σ i xs) := by
  have hfilter : xs.filter (fun x => !x.isEmpty) = xs := by
    rw [List.filter_eq_self]
    intro x hx
    simp [(hf x hx).ne_nil]
  simp only [mutex, hfilter, hl, if_false]
  refine ⟨_, rfl, ?_⟩
  have hne : xs ≠ [] := by rintro rfl; simp at hl
  have key : ∀ x ∈ xs, FormFor (c!"!(" ++ x ++ c!") || (" ++ conjNegDiff xs [x] ++ c!")")
      (fun σ i => ¬ Holds σ i x ∨ ∀ y ∈ xs.filter (fun y => !decide (y = x)), ¬ Holds σ i y) := by
    intro x hx
    have h2 := form_join_and (f := fun y => c!"!" ++ pstr y)
      (P := fun y σ i => ¬ Holds σ i y) (others_ne_nil hn hl x)
      (fun y hy => ((hf y (List.mem_filter.1 hy).1).formFor).not_paren)
    rw [← conjNegDiff_eq] at h2
    have := ((hf x hx).formFor.not_paren).or h2.paren
    simpa [pstr] using this
  refine (form_conj hne key).congr (fun σ i => ?_)
  simp only [AtMostOne, List.mem_filter, Bool.not_eq_true', decide_eq_false_iff_not]
  constructor
  · intro h x hx y hy h1 h2
    by_contra hxy
    rcases h x hx with h3 | h3
    · exact h3 h1
    · exact h3 y ⟨hy, fun e => hxy e.symm⟩ h2
  · intro h x hx
    by_cases h1 : Holds σ i x
    · exact Or.inr fun y hy h2 => hy.2 (h x hx y hy.1 h1 h2).symm
    · exact Or.inl h1

theorem exactlyOne_form {xs : List (List Char)} (hf : ∀ x ∈ xs, IsFormula x) (hn : xs.Nodup)
    (hne : xs ≠ []) :
    ∃ f, exactlyOne xs = [f] ∧ FormFor f (fun σ i => ExactlyOne σ i xs) := by
  by_cases hl : xs.length ≤ 1
  · obtain ⟨x, r, rfl⟩ := List.exists_cons_of_ne_nil hne
    have hr : r = [] := by
      cases r with
      | nil => rfl
      | cons => simp at hl
    subst hr
    refine ⟨_, rfl, (hf x (by simp)).formFor.paren.form.congr fun σ i => ?_⟩
    simp [ExactlyOne]
  · simp only [exactlyOne, hl, if_false]
    refine ⟨_, rfl, ?_⟩
    have key : ∀ x ∈ xs, FormFor (c!"(" ++ x ++ c!") && " ++ conjNegDiff xs [x])
        (fun σ i => Holds σ i x ∧ ∀ y ∈ xs.filter (fun y => !decide (y = x)), ¬ Holds σ i y) := by
      intro x hx
      have hne2 : (xs.filter (fun y => !decide (y = x))).map (fun y => (y, true)) ≠ [] := by
        simpa using others_ne_nil hn hl x
      have h2 := form_join_and (α := List Char × Bool)
        (f := fun p => if p.2 then c!"!" ++ pstr p.1 else pstr p.1)
        (P := fun p σ i => if p.2 then ¬ Holds σ i p.1 else Holds σ i p.1)
        (xs := (x, false) :: (xs.filter (fun y => !decide (y = x))).map (fun y => (y, true)))
        (by simp) (by
          intro p hp
          simp only [List.mem_cons, List.mem_map, List.mem_filter] at hp
          rcases hp with rfl | ⟨y, hy, rfl⟩
          · simpa using (hf x hx).formFor.paren
          · simpa using (hf y hy.1).formFor.not_paren)
      rw [List.map_cons, joinWith_cons_ne _ _ (by simpa using hne2)] at h2
      rw [conjNegDiff_eq]
      refine FormFor.congr (P := _) (by simpa [pstr, Function.comp_def] using h2) (fun σ i => ?_)
      simp
      intro _
      constructor
      · intro h y hy h1
        exact h y y hy h1 rfl
      · rintro h a y hy h1 rfl
        exact h y hy h1
    have := (form_disj hne key).paren.form
    refine this.congr (fun σ i => ?_)
    simp only [ExactlyOne, List.mem_filter, Bool.not_eq_true', decide_eq_false_iff_not]
    constructor
    · rintro ⟨x, hx, h1, h2⟩
      exact ⟨x, hx, h1, fun y hy h3 => by
        by_contra hxy
        exact h2 y ⟨hy, hxy⟩ h3⟩
    · rintro ⟨x, hx, h1, h2⟩
      exact ⟨x, hx, h1, fun y hy h3 => hy.2 (h2 y hy.1 h3)⟩

/-- **C27.** For pairwise distinct formulas, the list returned by `mutex` consists of formulas,
and they all hold at a position of a trace iff at most one of the given formulas holds there. -/
theorem mutex_spec {xs : List (List Char)} (hf : ∀ x ∈ xs, IsFormula x) (hn : xs.Nodup) :
    (∀ f ∈ mutex xs, IsFormula f) ∧
      ∀ σ i, (∀ f ∈ mutex xs, Holds σ i f) ↔ AtMostOne σ i xs := by
  by_cases hl : xs.length ≤ 1
  · have hm : mutex xs = [] := by
      have : (xs.filter (fun x => !x.isEmpty)).length ≤ 1 :=
        Nat.le_trans (List.length_filter_le _ _) hl
      simp [mutex, this]
    rw [hm]
    refine ⟨by simp, fun σ i => ⟨fun _ x hx y hy _ _ => ?_, by simp⟩⟩
    match xs, hl with
    | [], _ => simp at hx
    | [a], _ => simp at hx hy; rw [hx, hy]
    | a :: b :: r, hl => simp at hl
  · obtain ⟨f, h1, h2⟩ := mutex_form hf hn hl
    rw [h1]
    exact ⟨by simpa using h2.isFormula, fun σ i => by simpa using h2.holds σ i⟩

/-- **C27.** For a nonempty list of pairwise distinct formulas, `exactly_one` returns one formula,
and it holds at a position of a trace iff exactly one of the given formulas holds there. -/
theorem exactlyOne_spec {xs : List (List Char)} (hf : ∀ x ∈ xs, IsFormula x) (hn : xs.Nodup)
    (hne : xs ≠ []) :
    (∃ f, exactlyOne xs = [f] ∧ IsFormula f) ∧
      ∀ σ i, (∀ f ∈ exactlyOne xs, Holds σ i f) ↔ ExactlyOne σ i xs := by
  obtain ⟨f, h1, h2⟩ := exactlyOne_form hf hn hne
  rw [h1]
  exact ⟨⟨f, rfl, h2.isFormula⟩, fun σ i => by simpa using h2.holds σ i⟩

/-- `exactly_one` of nothing is no constraint, although no formula of an empty list holds. -/
theorem exactlyOne_empty_counterexample (σ : Trace) (i : Nat) :
    (∀ f ∈ exactlyOne [], Holds σ i f) ∧ ¬ ExactlyOne σ i [] := by
  simp [exactlyOne, ExactlyOne]

/-- A repeated entry makes both functions return a string that is not a formula. -/
theorem mutex_repeated_counterexample :
    (∀ f ∈ mutex [c!"a", c!"a"], ¬ IsFormula f) ∧
      ∀ f ∈ exactlyOne [c!"a", c!"a"], ¬ IsFormula f := by
  have h1 : mutex [c!"a", c!"a"] = [c!"(!(a) || ()) && (!(a) || ())"] := by decide +kernel
  have h2 : exactlyOne [c!"a", c!"a"] = [c!"(((a) && ) || ((a) && ))"] := by decide +kernel
  rw [h1, h2]
  constructor <;> intro f hf <;> simp only [List.mem_singleton] at hf <;> subst hf
  · intro h
    have h2 := h.2
    revert h2
    decide +kernel
  · intro h
    have h2 := h.2
    revert h2
    decide +kernel

example : mutex [c!"a", c!"b = 1", c!"! c"] =
    [c!"(!(a) || (!(b = 1) && !(! c))) && (!(b = 1) || (!(a) && !(! c))) && (!(! c) || (!(a) && !(b = 1)))"] := by
  decide +kernel

/-- The hypotheses of `mutex_spec` and `exactlyOne_spec` are met by formulas of several kinds. -/
example : (∀ x ∈ [c!"a", c!"b = 1", c!"! c"], IsFormula x) ∧ [c!"a", c!"b = 1", c!"! c"].Nodup := by
  constructor
  · intro x hx
    simp only [List.mem_cons, List.not_mem_nil, or_false] at hx
    rcases hx with rfl | rfl | rfl <;> exact ⟨by decide, by decide +kernel⟩
  · decide

end Synth

end Tulip
