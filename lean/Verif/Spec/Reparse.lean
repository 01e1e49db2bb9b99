import Verif.Spec.ParserProps
import Verif.Spec.Compose

/-!
# Formulas that were read can be printed (C34)

Every string without double quotes, `~`, `=>`, `/=` and `=<` that the parser accepts gives a tree
that `flatten` prints, and the printed string parses to the same tree. The excluded spellings are
those for which `flatten` fails, see `flatten_spelling_counterexample`.
-/

namespace Tulip

/-! ## Specification -/

/-- The string has no string constants and no alternative spellings of operators. -/
def PlainText (s : List Char) : Prop :=
  '"' ∉ s ∧ '~' ∉ s ∧ ¬ ['=', '>'] <:+: s ∧ ¬ ['/', '='] <:+: s ∧ ¬ ['=', '<'] <:+: s

/-! ## Tokens -/

/-- Tokens of formulas that `flatten` prints. -/
def PlainTok : Tok → Prop
  | .name w => IsIdent (String.ofList w) ∧ ¬ IsReserved (String.ofList w)
  | .un op => op ≠ .tilde
  | .bin op => op ≠ .imp2 ∧ op ≠ .bimp2
  | .cmp op => op ≠ .ne2 ∧ op ≠ .le2
  | .dquotes => False
  | _ => True

theorem isIdent_of_isWord {w : List Char} (h : IsWord w) : IsIdent (String.ofList w) := by
  obtain ⟨c, cs, rfl, h1, h2⟩ := h
  refine ⟨c, cs, by simp, ?_, ?_⟩
  · simp only [isNameStart, Bool.or_eq_true, Bool.and_eq_true, decide_eq_true_eq, beq_iff_eq] at h1
    rcases h1 with (⟨a, b⟩ | ⟨a, b⟩) | h
    · exact Or.inl ⟨a, b⟩
    · exact Or.inr (Or.inl ⟨a, b⟩)
    · refine Or.inr (Or.inr ?_)
      have : Char.ofNat c.toNat = Char.ofNat 95 := by rw [h]
      rwa [Char.ofNat_toNat] at this
  · intro d hd
    have := List.all_eq_true.1 h2 d hd
    simp only [isNameChar, Bool.or_eq_true, Bool.and_eq_true, decide_eq_true_eq,
      beq_iff_eq] at this
    rcases this with (((⟨a, b⟩ | ⟨a, b⟩) | h) | h) | h
    · exact Or.inl ⟨a, b⟩
    · exact Or.inr (Or.inl ⟨a, b⟩)
    · exact Or.inr (Or.inr (Or.inl h))
    · exact Or.inr (Or.inr (Or.inr (Or.inl h)))
    · exact Or.inr (Or.inr (Or.inr (Or.inr h)))

theorem plain_nameTok {w : List Char} (h : IsWord w) : PlainTok (nameTok w) := by
  unfold nameTok
  iterate 10 (split <;> [(simp [PlainTok]; done); skip])
  refine ⟨isIdent_of_isWord h, ?_⟩
  simp only [IsReserved, String.toList_ofList, List.mem_cons, List.not_mem_nil, or_false, not_or]
  simp only [upper] at *
  refine ⟨⟨?_, ?_, ?_, ?_, ?_, ?_, ?_, ?_⟩, ?_, ?_⟩ <;> assumption

theorem takeWhile_all (p : Char → Bool) (l : List Char) : (l.takeWhile p).all p = true := by
  induction l with
  | nil => rfl
  | cons a l ih =>
    rw [List.takeWhile_cons]
    split
    · simp_all
    · rfl

theorem lexStep_plain {c : Char} {r : List Char} (hp : PlainText (c :: r)) :
    ∀ t, (lexStep c r).1 = some t → PlainTok t := by
  obtain ⟨h1, h2, h3, h4, h5⟩ := hp
  fun_cases lexStep c r
  all_goals intro t ht
  all_goals first
    | (cases ht; done)
    | (cases ht; simp [PlainTok]; done)
    | skip
  all_goals first
    | (cases ht; exact absurd (List.mem_cons_self ..) h1)
    | (cases ht; exact absurd (List.mem_cons_self ..) h2)
    | (exact absurd (⟨[], _, rfl⟩ : ['=', '>'] <:+: _) h3)
    | (exact absurd (⟨['<'], _, rfl⟩ : ['=', '>'] <:+: _) h3)
    | (exact absurd (⟨[], _, rfl⟩ : ['/', '='] <:+: _) h4)
    | (exact absurd (⟨[], _, rfl⟩ : ['=', '<'] <:+: _) h5)
    | skip
  · cases ht
    exact plain_nameTok ⟨_, _, rfl, by assumption, takeWhile_all _ _⟩

theorem PlainText.suffix {s u : List Char} (h : PlainText s) (hu : u <:+ s) : PlainText u := by
  obtain ⟨h1, h2, h3, h4, h5⟩ := h
  exact ⟨fun h => h1 (hu.subset h), fun h => h2 (hu.subset h), fun h => h3 (h.trans hu.isInfix),
    fun h => h4 (h.trans hu.isInfix), fun h => h5 (h.trans hu.isInfix)⟩

theorem lex_plain {s : List Char} (hp : PlainText s) : ∀ t ∈ lex s, PlainTok t := by
  generalize hn : s.length = n
  induction n using Nat.strongRecOn generalizing s with
  | ind n ih =>
    cases s with
    | nil => simp
    | cons d s =>
      rw [lex_cons]
      have hlen := lexStep_length d s
      simp only [List.length_cons] at hn
      have hrec := ih _ (by omega)
        (hp.suffix ((lexStep_suffix d s).trans (List.suffix_cons d s))) rfl
      have hhead := lexStep_plain hp
      cases e : (lexStep d s).1 with
      | none => simpa [e] using hrec
      | some t =>
        intro u hu
        simp only [List.mem_cons, Option.toList_some, List.cons_append,
          List.nil_append] at hu
        rcases hu with rfl | hu
        · exact hhead _ e
        · exact hrec u hu

theorem Derives.printable {ts : List Tok} {t : Ast} (h : Derives ts t) :
    (∀ k ∈ ts, PlainTok k) → Printable t := by
  induction h with
  | tf b => exact fun _ => trivial
  | un op _ ih =>
    exact fun hk => ⟨hk _ (List.mem_cons_self ..), ih (fun k h => hk k (List.mem_cons_of_mem _ h))⟩
  | prime _ ih => exact fun hk => ⟨by decide, ih (fun k h => hk k (by simp [h]))⟩
  | bin op _ _ ih1 ih2 =>
    intro hk
    have := hk (.bin op) (by simp)
    exact ⟨this.1, this.2, ih1 (fun k h => hk k (by simp [h])),
      ih2 (fun k h => hk k (by simp [h]))⟩
  | ite _ _ _ ih1 ih2 ih3 =>
    exact fun hk => ⟨ih1 (fun k h => hk k (by simp [h])), ih2 (fun k h => hk k (by simp [h])),
      ih3 (fun k h => hk k (by simp [h]))⟩
  | cmp op _ _ ih1 ih2 =>
    intro hk
    have := hk (.cmp op) (by simp)
    exact ⟨this.1, this.2, ih1 (fun k h => hk k (by simp [h])),
      ih2 (fun k h => hk k (by simp [h]))⟩
  | trunc n _ ih => exact fun hk => ⟨ih (fun k h => hk k (by simp [h])), Int.natCast_nonneg n⟩
  | ar op _ _ ih1 ih2 =>
    exact fun hk => ⟨ih1 (fun k h => hk k (by simp [h])), ih2 (fun k h => hk k (by simp [h]))⟩
  | paren _ ih => exact fun hk => ih (fun k h => hk k (by simp [h]))
  | var w => exact fun hk => hk _ (List.mem_cons_self ..)
  | number n => exact fun _ => trivial
  | negative n => exact fun _ => trivial
  | str w => exact fun hk => (hk .dquotes (by simp)).elim

theorem printable_of_parse {s : List Char} {t : Ast} (h : parse s = some t) (hp : PlainText s) :
    Printable t :=
  (parse_sound h).printable (lex_plain hp)

/-- **C34 (formulas that were read).** The tree of any accepted string without string constants
and alternative spellings is printed by `flatten` to a string with the same tree. -/
theorem reparse {s : List Char} {t : Ast} (h : parse s = some t) (hp : PlainText s) :
    ∃ u, flatten t = some u ∧ parse u = some t := by
  have hpr := printable_of_parse h hp
  obtain ⟨u, hu⟩ := hpr.flatten_some
  have := parse_flatten _ hpr
  rw [hu] at this
  exact ⟨u, hu, by simpa using this⟩

/-- Non-vacuity. -/
example : PlainText c!"[](a = 3 -> X b' && !c) | <>(d <= -2)" ∧
    (parse c!"[](a = 3 -> X b' && !c) | <>(d <= -2)").isSome = true := by
  refine ⟨⟨?_, ?_, ?_, ?_, ?_⟩, ?_⟩ <;> decide +kernel

end Tulip
