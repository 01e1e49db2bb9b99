import Verif.Spec.Gr1FragmentProps

/-!
# Properties of `split_gr1` and `str_to_grspec` (C42)
-/

namespace Tulip

/-! ## Specification -/

/-- No temporal operator; `X` is allowed if `x` holds. -/
def NoTemporal (x : Bool) : Ast → Prop
  | .var _ | .bool _ | .num _ | .str _ => True
  | .un .always _ | .un .eventually _ => False
  | .un .next a => x = true ∧ NoTemporal x a
  | .un .not a | .un .tilde a => NoTemporal x a
  | .bin .strongUntil _ _ | .bin .release _ _ | .bin .weakUntil _ _ => False
  | .bin _ a b | .cmp _ a b | .ar _ a b => NoTemporal x a ∧ NoTemporal x b
  | .trunc a _ => NoTemporal x a
  | .ite c a b => NoTemporal x c ∧ NoTemporal x a ∧ NoTemporal x b

/-- The fragment of the docstring of `split_gr1`: conjunctions of `B`, `[] C`, `[]<> B`, where `B`
has no temporal operator and `C` has no temporal operator but `X`. -/
inductive InFragment : Ast → Prop
  | conj {f g} : InFragment f → InFragment g → InFragment (.bin .and f g)
  | init {f} : NoTemporal false f → InFragment f
  | safe {f} : NoTemporal true f → InFragment (.un .always f)
  | live {f} : NoTemporal false f → InFragment (.un .always (.un .eventually f))

/-- No weak until. -/
def NoWeakUntil : Ast → Prop
  | .var _ | .bool _ | .num _ | .str _ => True
  | .un _ a => NoWeakUntil a
  | .bin .weakUntil _ _ => False
  | .bin _ a b | .cmp _ a b | .ar _ a b => NoWeakUntil a ∧ NoWeakUntil b
  | .trunc a _ => NoWeakUntil a
  | .ite c a b => NoWeakUntil c ∧ NoWeakUntil a ∧ NoWeakUntil b

/-- A part of the result: `split_gr1` returns the empty string for an empty conjunction. -/
def PartHolds (σ : Trace) (i : Nat) (s : List Char) : Prop := s = [] ∨ Holds σ i s

/-! ## Helpers -/

/-- Conjuncts from right to left. -/
def conjunctsRev : Ast → List Ast
  | .bin .and x y => conjunctsRev y ++ conjunctsRev x
  | u => [u]

theorem boundaryLoop_eq (n : Nat) (Q b : List Ast) (h : (Q.map Ast.size).sum ≤ n) :
    boundaryLoop n Q b = b ++ Q.flatMap conjunctsRev := by
  induction n generalizing Q b with
  | zero =>
    cases Q with
    | nil => simp [boundaryLoop]
    | cons u Q =>
      have : 0 < u.size := by cases u <;> simp [Ast.size]
      simp at h; omega
  | succ n ih =>
    cases Q with
    | nil => simp [boundaryLoop]
    | cons u Q =>
      have hpos : 0 < u.size := by cases u <;> simp [Ast.size]
      by_cases hu : ∃ x y, u = .bin .and x y
      · obtain ⟨x, y, rfl⟩ := hu
        rw [boundaryLoop, ih]
        · simp [conjunctsRev]
        · simp [Ast.size] at h ⊢; omega
      · have hu' : ∀ x y, u = .bin .and x y → False := fun x y e => hu ⟨x, y, e⟩
        rw [boundaryLoop.eq_4 _ _ _ _ hu', ih]
        · have : conjunctsRev u = [u] := by
            rw [conjunctsRev]; exact hu'
          simp [this]
        · simp at h ⊢; omega

/-- The fuel of `boundary` suffices. -/
theorem boundary_eq (f : Ast) : boundary f = conjunctsRev f := by
  rw [boundary, boundaryLoop_eq _ _ _ (by simp)]; simp

theorem sat_conjunctsRev (σ : Trace) (i : Nat) (f : Ast) :
    (∀ u ∈ conjunctsRev f, Sat σ i u) ↔ Sat σ i f := by
  fun_induction conjunctsRev f with
  | case1 x y ihy ihx =>
    simp only [List.mem_append, or_imp, forall_and, ihx, ihy, sat_and]
    exact and_comm
  | case2 u h => simp

theorem sat_classify (σ : Trace) (b : List Ast) :
    (∀ u ∈ b, Sat σ 0 u) ↔ (∀ u ∈ (classify b).init, Sat σ 0 u) ∧
      (∀ u ∈ (classify b).safe, ∀ i, Sat σ i u) ∧
      ∀ u ∈ (classify b).live, ∀ i, ∃ j, i ≤ j ∧ Sat σ j u := by
  fun_induction classify b with
  | case1 => simp
  | case2 b w r ih =>
    simp only [List.forall_mem_cons, ih, sat_always, sat_eventually, Nat.zero_le, true_implies]
    tauto
  | case3 v b hv r ih =>
    simp only [List.forall_mem_cons, ih, sat_always, Nat.zero_le, true_implies]
    tauto
  | case4 u b h1 h2 r ih =>
    simp only [List.forall_mem_cons, ih]
    tauto

/-- Members of the classes come from the list. -/
theorem classify_mem (b : List Ast) :
    (∀ u ∈ (classify b).init, u ∈ b) ∧ (∀ u ∈ (classify b).safe, .un .always u ∈ b) ∧
      ∀ u ∈ (classify b).live, .un .always (.un .eventually u) ∈ b := by
  fun_induction classify b with
  | case1 => simp
  | case2 b w r ih =>
    obtain ⟨h1, h2, h3⟩ := ih
    refine ⟨fun u hu => List.mem_cons_of_mem _ (h1 u hu),
      fun u hu => List.mem_cons_of_mem _ (h2 u hu), fun u hu => ?_⟩
    simp only [List.mem_cons] at hu ⊢
    rcases hu with rfl | hu
    · exact Or.inl rfl
    · exact Or.inr (h3 u hu)
  | case3 v b hv r ih =>
    obtain ⟨h1, h2, h3⟩ := ih
    refine ⟨fun u hu => List.mem_cons_of_mem _ (h1 u hu), fun u hu => ?_,
      fun u hu => List.mem_cons_of_mem _ (h3 u hu)⟩
    simp only [List.mem_cons] at hu ⊢
    rcases hu with rfl | hu
    · exact Or.inl rfl
    · exact Or.inr (h2 u hu)
  | case4 u b h1 h2 r ih =>
    obtain ⟨g1, g2, g3⟩ := ih
    refine ⟨fun u hu => ?_, fun u hu => List.mem_cons_of_mem _ (g2 u hu),
      fun u hu => List.mem_cons_of_mem _ (g3 u hu)⟩
    simp only [List.mem_cons] at hu ⊢
    rcases hu with rfl | hu
    · exact Or.inl rfl
    · exact Or.inr (g1 u hu)

theorem conjunctsRev_printable {f : Ast} (h : Printable f) : ∀ u ∈ conjunctsRev f, Printable u := by
  fun_induction conjunctsRev f with
  | case1 x y ihy ihx =>
    intro u hu
    rcases List.mem_append.1 hu with hu | hu
    · exact ihy h.2.2.2 u hu
    · exact ihx h.2.2.1 u hu
  | case2 u hu =>
    intro v hv
    rw [List.mem_singleton.1 hv]; exact h

theorem digitsOf_clean (n : Nat) : '#' ∉ digitsOf n := by
  fun_induction digitsOf n with
  | case1 n h =>
    simp only [List.mem_singleton]
    intro e
    have := toNat_ofNat_dig h
    rw [← e] at this
    have h35 : ('#' : Char).toNat = 35 := rfl
    omega
  | case2 n h ih =>
    simp only [List.mem_append, List.mem_singleton, not_or]
    refine ⟨ih, fun e => ?_⟩
    have := toNat_ofNat_dig (n := n % 10) (by omega)
    rw [← e] at this
    have h35 : ('#' : Char).toNat = 35 := rfl
    omega

theorem intChars_clean (n : Int) : '#' ∉ intChars n := by
  cases n <;> simp [intChars, digitsOf_clean]

theorem flatten_clean {t : Ast} {s : List Char} (hp : Printable t) (h : flatten t = some s) :
    '#' ∉ s := by
  induction t generalizing s with
  | var x =>
    simp only [flatten, Option.some.injEq] at h
    subst h
    exact (unit_ident hp.1 hp.2).clean
  | bool b => cases b <;> simp only [flatten, Option.some.injEq] at h <;> subst h <;> decide
  | num n => simp only [flatten, Option.some.injEq] at h; subst h; exact intChars_clean n
  | str => exact hp.elim
  | un op x ih =>
    simp only [flatten, Option.bind_eq_bind, Option.bind_eq_some_iff, pure, Option.some.injEq] at h
    obtain ⟨o, ho, a, ha, rfl⟩ := h
    have h1 := ih hp.2 ha
    have h2 : '#' ∉ o := by
      cases op <;> simp only [unText, Option.some.injEq, reduceCtorEq] at ho <;> subst ho <;> decide
    simp [h1, h2]
  | bin op x y ihx ihy =>
    simp only [flatten, Option.bind_eq_bind, Option.bind_eq_some_iff, pure, Option.some.injEq] at h
    obtain ⟨o, ho, a, ha, b, hb, rfl⟩ := h
    have h1 := ihx hp.2.2.1 ha
    have h3 := ihy hp.2.2.2 hb
    have h2 : '#' ∉ o := by
      cases op <;> simp only [binText, Option.some.injEq, reduceCtorEq] at ho <;> subst ho <;>
        decide
    simp [infixText, h1, h2, h3]
  | cmp op x y ihx ihy =>
    simp only [flatten, Option.bind_eq_bind, Option.bind_eq_some_iff, pure, Option.some.injEq] at h
    obtain ⟨o, ho, a, ha, b, hb, rfl⟩ := h
    have h1 := ihx hp.2.2.1 ha
    have h3 := ihy hp.2.2.2 hb
    have h2 : '#' ∉ o := by
      cases op <;> simp only [cmpText, Option.some.injEq, reduceCtorEq] at ho <;> subst ho <;>
        decide
    simp [infixText, h1, h2, h3]
  | ar op x y ihx ihy =>
    simp only [flatten, Option.bind_eq_bind, Option.bind_eq_some_iff, pure, Option.some.injEq] at h
    obtain ⟨o, ho, a, ha, b, hb, rfl⟩ := h
    have h1 := ihx hp.1 ha
    have h3 := ihy hp.2 hb
    have h2 : '#' ∉ o := by
      cases op <;> simp only [arText, Option.some.injEq] at ho <;> subst ho <;>
        decide
    simp [infixText, h1, h2, h3]
  | trunc x n ih =>
    simp only [flatten, Option.bind_eq_bind, Option.bind_eq_some_iff, pure, Option.some.injEq] at h
    obtain ⟨a, ha, rfl⟩ := h
    simp [infixText, ih hp.1 ha, intChars_clean]
  | ite c x y ihc ihx ihy =>
    simp only [flatten, Option.bind_eq_bind, Option.bind_eq_some_iff, pure, Option.some.injEq] at h
    obtain ⟨a, ha, b, hb, d, hd, rfl⟩ := h
    simp [ihc hp.1 ha, ihx hp.2.1 hb, ihy hp.2.2 hd]

/-- A printed formula is a unit. -/
theorem unit_flatten {t : Ast} {s : List Char} (hp : Printable t) (h : flatten t = some s) :
    UnitStr s t :=
  ⟨flatten_clean hp h, by rw [lex_printed_end hp h]; exact (reads_toks hp).low⟩

theorem flattenAll_units {ts : List Ast} {ss : List (List Char)} (hp : ∀ t ∈ ts, Printable t)
    (h : flattenAll ts = some ss) : List.Forall₂ UnitStr ss ts := by
  induction ts generalizing ss with
  | nil => simp only [flattenAll, Option.some.injEq] at h; subst h; exact .nil
  | cons t ts ih =>
    simp only [flattenAll, Option.bind_eq_bind, Option.bind_eq_some_iff, pure,
      Option.some.injEq] at h
    obtain ⟨s, hs, r, hr, rfl⟩ := h
    exact .cons (unit_flatten (hp t (by simp)) hs) (ih (fun u hu => hp u (by simp [hu])) hr)

theorem flattenAll_some {ts : List Ast} (hp : ∀ t ∈ ts, Printable t) :
    ∃ ss, flattenAll ts = some ss := by
  induction ts with
  | nil => exact ⟨_, rfl⟩
  | cons t ts ih =>
    obtain ⟨s, hs⟩ := (hp t (by simp)).flatten_some
    obtain ⟨r, hr⟩ := ih (fun u hu => hp u (by simp [hu]))
    exact ⟨s :: r, by simp [flattenAll, hs, hr]⟩

theorem flatten_ne_nil {t : Ast} {s : List Char} (hu : UnitStr s t) : s ≠ [] := by
  rintro rfl
  have := hu.parse
  simp [parse, parseToks, prun, pfinish] at this

/-- The joined conjuncts mean the conjunction. -/
theorem joined_holds {ts : List Ast} {ss : List (List Char)} (h : List.Forall₂ UnitStr ss ts)
    (σ : Trace) (i : Nat) :
    PartHolds σ i (joinWith c!" & " ss) ↔ ∀ t ∈ ts, Sat σ i t := by
  cases h with
  | nil => simp [joinWith, PartHolds]
  | @cons s t ss ts hx hxs =>
    have hc := chain_join connective_and hx hxs
    have hne : joinWith c!" & " (s :: ss) ≠ [] := by
      rw [joinWith_cons_eq]
      intro e
      exact flatten_ne_nil hx (List.append_eq_nil_iff.1 e).1
    have hp : parse (joinWith c!" & " (s :: ss)) = some (foldBin .and t ts) := hc.parse
    simp [PartHolds, hne, holds_iff hp, sat_foldBin_and]

theorem any_reverse_mem {l : List Ast} {P : Ast → Prop} :
    (∀ t ∈ l.reverse, P t) ↔ ∀ t ∈ l, P t := by simp

/-- The parts of the split, as formulas. -/
theorem splitGr1_parts {f : Ast} {d : Split} (hp : Printable f) (h : splitGr1 f = .ok d) :
    ∃ i s, d.init = [joinWith c!" & " i] ∧ d.safe = [joinWith c!" & " s] ∧
      List.Forall₂ UnitStr i (classify (conjunctsRev f)).init.reverse ∧
      List.Forall₂ UnitStr s (classify (conjunctsRev f)).safe.reverse ∧
      List.Forall₂ UnitStr d.live (classify (conjunctsRev f)).live := by
  have hpr := conjunctsRev_printable hp
  obtain ⟨m1, m2, m3⟩ := classify_mem (conjunctsRev f)
  simp only [splitGr1, boundary_eq] at h
  split at h; · cases h
  split at h; · cases h
  split at h; · cases h
  split at h
  · rename_i i s l hi hs hl
    cases h
    refine ⟨i, s, rfl, rfl, flattenAll_units ?_ hi, flattenAll_units ?_ hs, flattenAll_units ?_ hl⟩
    · intro t ht; exact hpr t (m1 t (List.mem_reverse.1 ht))
    · intro t ht; exact (hpr _ (m2 t (List.mem_reverse.1 ht))).2
    · intro t ht; exact (hpr _ (m3 t ht)).2.2
  · cases h

/-! ## Theorems -/

/-- **C42.** The parts returned by `split_gr1` hold on exactly the traces of the formula, where the
empty string stands for an empty conjunction. -/
theorem splitGr1_meaning {f : Ast} {d : Split} (hp : Printable f) (h : splitGr1 f = .ok d)
    (σ : Trace) :
    Sat σ 0 f ↔ (∀ c ∈ d.init, PartHolds σ 0 c) ∧ (∀ c ∈ d.safe, ∀ i, PartHolds σ i c) ∧
      ∀ c ∈ d.live, ∀ i, ∃ j, i ≤ j ∧ Holds σ j c := by
  obtain ⟨i, s, hi, hs, h1, h2, h3⟩ := splitGr1_parts hp h
  have hl : (∀ c ∈ d.live, ∀ i, ∃ j, i ≤ j ∧ Holds σ j c) ↔
      ∀ t ∈ (classify (conjunctsRev f)).live, ∀ i, ∃ j, i ≤ j ∧ Sat σ j t := by
    generalize d.live = ss at h3
    generalize (classify (conjunctsRev f)).live = ts at h3
    induction h3 with
    | nil => simp
    | cons hx _ ih => simp only [List.forall_mem_cons, ih, holds_iff hx.parse]
  rw [← sat_conjunctsRev, sat_classify, hl, hi, hs]
  simp only [List.mem_singleton, forall_eq, joined_holds h1, joined_holds h2, List.mem_reverse]
  constructor
  · rintro ⟨a, b, c⟩; exact ⟨a, fun i t ht => b t ht i, c⟩
  · rintro ⟨a, b, c⟩; exact ⟨a, fun t ht i => b i t ht, c⟩

/-- Accepted formulas: no temporal operators where they are inadmissible. -/
theorem hasTemporal_false {x : Bool} {t : Ast} (hw : NoWeakUntil t) :
    hasTemporal x t = false ↔ NoTemporal (!x) t := by
  induction t with
  | var | bool | num | str => simp [hasTemporal, NoTemporal]
  | un op a ih =>
    have := ih hw
    cases op <;> simp [hasTemporal, NoTemporal, this]
  | bin op a b iha ihb =>
    cases op <;> simp only [NoWeakUntil] at hw <;>
      simp only [hasTemporal, NoTemporal, Bool.or_eq_false_iff, reduceCtorEq, iff_self]
    all_goals rw [iha hw.1, ihb hw.2]
  | cmp op a b iha ihb =>
    simp only [hasTemporal, NoTemporal, Bool.or_eq_false_iff, iha hw.1, ihb hw.2]
  | ar op a b iha ihb =>
    simp only [hasTemporal, NoTemporal, Bool.or_eq_false_iff, iha hw.1, ihb hw.2]
  | trunc a n ih => simp only [hasTemporal, NoTemporal, ih hw]
  | ite c a b ihc iha ihb =>
    simp only [hasTemporal, NoTemporal, Bool.or_eq_false_iff, ihc hw.1, iha hw.2.1, ihb hw.2.2,
      and_assoc]

theorem noWeakUntil_conjuncts {f : Ast} (h : NoWeakUntil f) :
    ∀ u ∈ conjunctsRev f, NoWeakUntil u := by
  fun_induction conjunctsRev f with
  | case1 x y ihy ihx =>
    intro u hu
    rcases List.mem_append.1 hu with hu | hu
    · exact ihy h.2 u hu
    · exact ihx h.1 u hu
  | case2 u hu => intro v hv; rw [List.mem_singleton.1 hv]; exact h

theorem inFragment_of_conjuncts {f : Ast} (h : ∀ u ∈ conjunctsRev f, InFragment u) :
    InFragment f := by
  fun_induction conjunctsRev f with
  | case1 x y ihy ihx =>
    exact .conj (ihx fun u hu => h u (List.mem_append.2 (Or.inr hu)))
      (ihy fun u hu => h u (List.mem_append.2 (Or.inl hu)))
  | case2 u hu => exact h u (by simp)

theorem inFragment_of_classes {b : List Ast} (hw : ∀ u ∈ b, NoWeakUntil u)
    (h1 : (classify b).init.any (hasTemporal true) = false)
    (h2 : (classify b).safe.any (hasTemporal false) = false)
    (h3 : (classify b).live.any (hasTemporal true) = false) : ∀ u ∈ b, InFragment u := by
  fun_induction classify b with
  | case1 => simp
  | case2 b w r ih =>
    simp only [List.any_cons, Bool.or_eq_false_iff] at h3
    have := ih (fun u hu => hw u (by simp [hu])) h1 h2 h3.2
    intro u hu
    rcases List.mem_cons.1 hu with rfl | hu
    · exact .live ((hasTemporal_false (t := b) (x := true)
        (show NoWeakUntil (.un .always (.un .eventually b)) from hw _ (by simp))).1 h3.1)
    · exact this u hu
  | case3 v b hv r ih =>
    simp only [List.any_cons, Bool.or_eq_false_iff] at h2
    have := ih (fun u hu => hw u (by simp [hu])) h1 h2.2 h3
    intro u hu
    rcases List.mem_cons.1 hu with rfl | hu
    · exact .safe ((hasTemporal_false (t := v) (x := false)
        (show NoWeakUntil (.un .always v) from hw _ (by simp))).1 h2.1)
    · exact this u hu
  | case4 w b hn1 hn2 r ih =>
    simp only [List.any_cons, Bool.or_eq_false_iff] at h1
    have := ih (fun u hu => hw u (by simp [hu])) h1.2 h2 h3
    intro u hu
    rcases List.mem_cons.1 hu with rfl | hu
    · exact .init ((hasTemporal_false (x := true) (hw _ (by simp))).1 h1.1)
    · exact this u hu

theorem noTemporal_conjuncts {x : Bool} {f : Ast} (h : NoTemporal x f) :
    ∀ u ∈ conjunctsRev f, NoTemporal x u := by
  fun_induction conjunctsRev f with
  | case1 a b ihb iha =>
    intro u hu
    rcases List.mem_append.1 hu with hu | hu
    · exact ihb h.2 u hu
    · exact iha h.1 u hu
  | case2 u hu => intro v hv; rw [List.mem_singleton.1 hv]; exact h

/-- Conjuncts of a formula of the fragment. -/
theorem conjuncts_of_inFragment {f : Ast} (h : InFragment f) : ∀ u ∈ conjunctsRev f,
    NoTemporal false u ∨ (∃ v, u = .un .always v ∧ NoTemporal true v) ∨
      ∃ w, u = .un .always (.un .eventually w) ∧ NoTemporal false w := by
  induction h with
  | conj _ _ ihf ihg =>
    intro u hu
    rcases List.mem_append.1 hu with hu | hu
    · exact ihg u hu
    · exact ihf u hu
  | init h => intro u hu; exact Or.inl (noTemporal_conjuncts h u hu)
  | @safe f h =>
    intro u hu
    rw [List.mem_singleton.1 (show u ∈ [Ast.un .always f] from hu)]
    exact Or.inr (Or.inl ⟨f, rfl, h⟩)
  | @live f h =>
    intro u hu
    rw [List.mem_singleton.1 (show u ∈ [Ast.un .always (.un .eventually f)] from hu)]
    exact Or.inr (Or.inr ⟨f, rfl, h⟩)

theorem noTemporal_hasTemporal {x : Bool} {t : Ast} (h : NoTemporal (!x) t) :
    hasTemporal x t = false := by
  induction t with
  | var | bool | num | str => rfl
  | un op a ih =>
    cases op <;> simp only [NoTemporal] at h <;> simp only [hasTemporal]
    · exact ih h
    · exact ih h
    · simp only [Bool.not_eq_true'] at h
      rw [ih h.2, h.1]; rfl
  | bin op a b iha ihb =>
    cases op <;> simp only [NoTemporal] at h <;> simp [hasTemporal, iha h.1, ihb h.2]
  | cmp op a b iha ihb => simp [hasTemporal, iha h.1, ihb h.2]
  | ar op a b iha ihb => simp [hasTemporal, iha h.1, ihb h.2]
  | trunc a n ih => exact ih h
  | ite c a b ihc iha ihb => simp [hasTemporal, ihc h.1, iha h.2.1, ihb h.2.2]

/-- The class of a conjunct decides which check applies to it. -/
theorem classes_of_conjuncts {b : List Ast}
    (h : ∀ u ∈ b, NoTemporal false u ∨ (∃ v, u = .un .always v ∧ NoTemporal true v) ∨
      ∃ w, u = .un .always (.un .eventually w) ∧ NoTemporal false w) :
    (classify b).init.any (hasTemporal true) = false ∧
    (classify b).safe.any (hasTemporal false) = false ∧
    (classify b).live.any (hasTemporal true) = false := by
  fun_induction classify b with
  | case1 => simp
  | case2 b w r ih =>
    obtain ⟨a1, a2, a3⟩ := ih (fun u hu => h u (by simp [hu]))
    refine ⟨a1, a2, ?_⟩
    rcases h _ (List.mem_cons_self ..) with h | ⟨v, e, h⟩ | ⟨w', e, h⟩
    · exact h.elim
    · cases e; exact h.elim
    · cases e
      simp only [List.any_cons, a3, Bool.or_false]
      exact noTemporal_hasTemporal (x := true) h
  | case3 v b hv r ih =>
    obtain ⟨a1, a2, a3⟩ := ih (fun u hu => h u (by simp [hu]))
    refine ⟨a1, ?_, a3⟩
    rcases h _ (List.mem_cons_self ..) with h | ⟨v, e, h⟩ | ⟨w', e, h⟩
    · exact h.elim
    · cases e
      simp only [List.any_cons, a2, Bool.or_false]
      exact noTemporal_hasTemporal (x := false) h
    · cases e; exact absurd rfl (hv w')
  | case4 u b hn1 hn2 r ih =>
    obtain ⟨a1, a2, a3⟩ := ih (fun u hu => h u (by simp [hu]))
    refine ⟨?_, a2, a3⟩
    rcases h _ (List.mem_cons_self ..) with h | ⟨v, e, h⟩ | ⟨w', e, h⟩
    · simp only [List.any_cons, a1, Bool.or_false]
      exact noTemporal_hasTemporal (x := true) h
    · exact absurd e (hn2 v)
    · exact absurd e (hn1 w')

/-- **C42 (acceptance).** Every printable formula of the fragment is accepted. -/
theorem splitGr1_accepts {f : Ast} (hp : Printable f) (h : InFragment f) :
    ∃ d, splitGr1 f = .ok d := by
  obtain ⟨a1, a2, a3⟩ := classes_of_conjuncts (conjuncts_of_inFragment h)
  have hpr := conjunctsRev_printable hp
  obtain ⟨m1, m2, m3⟩ := classify_mem (conjunctsRev f)
  obtain ⟨i, hi⟩ := flattenAll_some (ts := (classify (conjunctsRev f)).init.reverse)
    (fun t ht => hpr t (m1 t (List.mem_reverse.1 ht)))
  obtain ⟨s, hs⟩ := flattenAll_some (ts := (classify (conjunctsRev f)).safe.reverse)
    (fun t ht => (hpr _ (m2 t (List.mem_reverse.1 ht))).2)
  obtain ⟨l, hl⟩ := flattenAll_some (ts := (classify (conjunctsRev f)).live)
    (fun t ht => (hpr _ (m3 t ht)).2.2)
  simp only [splitGr1, boundary_eq, a1, a2, a3, hi, hs, hl, Bool.false_eq_true, if_false]
  exact ⟨_, rfl⟩

/-- **C42 (rejection):** an accepted formula is in the fragment, if it does not contain
weak until. Missing: the code does not reject weak until, see
`splitGr1_weak_until_counterexample`. -/
theorem splitGr1_rejects {f : Ast} {d : Split} (hw : NoWeakUntil f)
    (h : splitGr1 f = .ok d) : InFragment f := by
  simp only [splitGr1, boundary_eq] at h
  split at h; · cases h
  rename_i h1
  split at h; · cases h
  rename_i h2
  split at h; · cases h
  rename_i h3
  simp only [Bool.not_eq_true] at h1 h2 h3
  exact inFragment_of_conjuncts (inFragment_of_classes (noWeakUntil_conjuncts hw) h1 h2 h3)

/-- Weak until is accepted as an initial condition. -/
theorem splitGr1_weak_until_counterexample :
    ∃ f d, parse "p W q".toList = some f ∧ splitGr1 f = .ok d ∧ ¬ InFragment f := by
  refine ⟨.bin .weakUntil (.var "p") (.var "q"), _, by decide +kernel, rfl, ?_⟩
  intro h
  cases h with
  | init h => exact h

/-- **C42.** `str_to_grspec` on `A -> G` returns a specification that means the same, provided that
both sides have an initial and a safety conjunct. -/
theorem strToGrspec_meaning {f : List Char} {A G : Ast} {S : GRSpec}
    (hf : parse f = some (.bin .imp A G)) (hA : Printable A) (hG : Printable G)
    (h : strToGrspec f = .ok S) (hne : ∀ c ∈ S.clauses, c ≠ []) (σ : Trace) :
    S.Meaning σ ↔ Sat σ 0 (.bin .imp A G) := by
  simp only [strToGrspec, hf, bind, Except.bind] at h
  split at h; · cases h
  rename_i a ha
  split at h; · cases h
  rename_i g hg
  have : checkVars [] [] = true := rfl
  simp only [GRSpec.make, this, if_true, Except.ok.injEq] at h
  have h1 : S.envInit = a.init ∧ S.sysInit = g.init ∧ S.envSafety = a.safe ∧ S.sysSafety = g.safe ∧
      S.envProg = a.live ∧ S.sysProg = g.live := by subst h; simp
  obtain ⟨x1, x2, x3, x4, x5, x6⟩ := h1
  have hP : ∀ c, c ≠ [] → ∀ i, PartHolds σ i c ↔ Holds σ i c := by
    intro c hc i; simp [PartHolds, hc]
  have e1 : S.Assumption σ ↔ Sat σ 0 A := by
    rw [splitGr1_meaning hA ha σ]
    simp only [GRSpec.Assumption, SideMeaning, x1, x3, x5]
    refine and_congr (forall₂_congr fun c hc => ?_)
      (and_congr (forall₂_congr fun c hc => forall_congr' fun i => ?_) Iff.rfl)
    · exact (hP c (hne c (by simp [GRSpec.clauses, x1, x2, x3, x4, x5, x6, hc])) 0).symm
    · exact (hP c (hne c (by simp [GRSpec.clauses, x1, x2, x3, x4, x5, x6, hc])) i).symm
  have e2 : S.Guarantee σ ↔ Sat σ 0 G := by
    rw [splitGr1_meaning hG hg σ]
    simp only [GRSpec.Guarantee, SideMeaning, x2, x4, x6]
    refine and_congr (forall₂_congr fun c hc => ?_)
      (and_congr (forall₂_congr fun c hc => forall_congr' fun i => ?_) Iff.rfl)
    · exact (hP c (hne c (by simp [GRSpec.clauses, x1, x2, x3, x4, x5, x6, hc])) 0).symm
    · exact (hP c (hne c (by simp [GRSpec.clauses, x1, x2, x3, x4, x5, x6, hc])) i).symm
  simp only [GRSpec.Meaning, e1, e2, sat_imp]

/-- **C42.** `str_to_grspec` accepts every implication between two formulas of the fragment, and
returns a specification without variables; a formula that does not parse, or that is not an
implication, is rejected; and what it accepts is an implication between two formulas of the
fragment, if weak until does not occur. -/
theorem strToGrspec_accepts {f : List Char} {A G : Ast} (hf : parse f = some (.bin .imp A G))
    (hA : Printable A) (hG : Printable G) (iA : InFragment A) (iG : InFragment G) :
    ∃ S, strToGrspec f = .ok S ∧ S.envVars = [] ∧ S.sysVars = [] := by
  obtain ⟨a, ha⟩ := splitGr1_accepts hA iA
  obtain ⟨g, hg⟩ := splitGr1_accepts hG iG
  have : checkVars [] [] = true := rfl
  simp only [strToGrspec, hf, ha, hg, bind, Except.bind, GRSpec.make, this, if_true]
  exact ⟨_, rfl, rfl, rfl⟩

theorem strToGrspec_rejects {f : List Char} {S : GRSpec} (h : strToGrspec f = .ok S) :
    ∃ A G, parse f = some (.bin .imp A G) ∧
      (NoWeakUntil A → InFragment A) ∧ (NoWeakUntil G → InFragment G) := by
  unfold strToGrspec at h
  split at h
  · cases h
  · rename_i A G hf
    simp only [bind, Except.bind] at h
    split at h; · cases h
    rename_i a ha
    split at h; · cases h
    rename_i g hg
    exact ⟨A, G, hf, fun w => splitGr1_rejects w ha, fun w => splitGr1_rejects w hg⟩
  all_goals cases h

/-- Without an initial conjunct the returned specification contains the empty string, and the
formula that it prints cannot be parsed. -/
theorem strToGrspec_empty_part_counterexample :
    ∃ S, strToGrspec "[]<> p -> []<> q".toList = .ok S ∧ S.sysInit = [[]] ∧
      parse S.toCanon = none := by
  have : (match strToGrspec "[]<> p -> []<> q".toList with
    | .ok S => decide (S.sysInit = [[]] ∧ parse S.toCanon = none)
    | .error _ => false) = true := by decide +kernel
  split at this
  · rename_i S h; exact ⟨S, h, of_decide_eq_true this⟩
  · cases this

/-- Non-vacuity: a formula with conjuncts of all three kinds on both sides. -/
example :
    let A := Ast.and (.var "e") (.and (.G (.imp (.var "e") (.X (.not (.var "e"))))) (.G (.F (.var "e"))))
    InFragment A ∧ Printable A ∧ NoWeakUntil A := by
  refine ⟨.conj (.init trivial) (.conj (.safe ⟨trivial, rfl, trivial⟩) (.live trivial)), ?_, ?_⟩
  · have : IsIdent "e" ∧ ¬ IsReserved "e" :=
      ⟨isIdent_of_check (by decide), by simp [IsReserved, Char.toUpper]⟩
    simp [Printable, this]
  · simp [NoWeakUntil]

example : ∃ S, strToGrspec "(e & [](e -> X !e) & []<>e) -> (s & []( s | e) & []<> (s & e))".toList =
    .ok S ∧ ∀ c ∈ S.clauses, c ≠ [] := by
  have : (match strToGrspec
      "(e & [](e -> X !e) & []<>e) -> (s & []( s | e) & []<> (s & e))".toList with
    | .ok S => decide (∀ c ∈ S.clauses, c ≠ [])
    | .error _ => false) = true := by decide +kernel
  split at this
  · rename_i S h; exact ⟨S, h, of_decide_eq_true this⟩
  · cases this

end Tulip
