import Verif.Spec.TransProps
import Verif.Interfaces.OmegaProps
import Verif.Spec.LtlFileProps
import Verif.Gridworld.WorldProps

/-!
# Reading texts of conjunctions (for C86 and C87)
-/

namespace Tulip
namespace Trans

open Cache Omega

/-! ## Spec: which clauses a language can express -/

/-- The operators and variables of a formula are among the given ones (no string constants, no `<<>>`,
no `ite`). -/
def Within (un : List UnOp) (bin : List BinOp) (cmp : List CmpOp) (ar : List ArOp) (var : String → Prop) :
    Ast → Prop
  | .var x => var x
  | .bool _ | .num _ => True
  | .str _ => False
  | .un op a => op ∈ un ∧ Within un bin cmp ar var a
  | .bin op a b => op ∈ bin ∧ Within un bin cmp ar var a ∧ Within un bin cmp ar var b
  | .cmp op a b => op ∈ cmp ∧ Within un bin cmp ar var a ∧ Within un bin cmp ar var b
  | .ar op a b => op ∈ ar ∧ Within un bin cmp ar var a ∧ Within un bin cmp ar var b
  | .trunc _ _ => False
  | .ite _ _ _ => False

/-- A tree has a text if and only if its operators and variables have texts. -/
theorem text_iff {L : Lang} {un : List UnOp} {bin : List BinOp} {cmp : List CmpOp} {ar : List ArOp}
    {var : String → Prop}
    (hun : ∀ op, op ∈ un ↔ (L.primes = true ∧ op = .next) ∨ (L.un op).isSome)
    (hbin : ∀ op, op ∈ bin ↔ (L.bin op).isSome) (hcmp : ∀ op, op ∈ cmp ↔ (L.cmp op).isSome)
    (har : ∀ op, op ∈ ar ↔ (L.ar op).isSome) (hvar : ∀ p x, var x ↔ ∃ s, L.var p x = .ok s)
    {b : Ast} (hb : NoStrConst b) (p : Bool) :
    (∃ s, text L p b = .ok s) ↔ Within un bin cmp ar var b := by
  have two : ∀ {α : Type} (o : Option α) (x y : Except PyErr (List Char)) (f : α → List Char → List Char → List Char),
      (∃ s, (do let o ← look o; let a ← x; let b ← y; return f o a b) = (.ok s : Except PyErr (List Char))) ↔
        o.isSome ∧ (∃ s, x = .ok s) ∧ ∃ s, y = .ok s := by
    intro α o x y f
    simp only [bind_ok_iff, look_ok, pure_eq_ok, Except.ok.injEq, Option.isSome_iff_exists]
    constructor
    · rintro ⟨s, o', ho, a, ha, c, hc, rfl⟩
      exact ⟨⟨o', ho⟩, ⟨a, ha⟩, ⟨c, hc⟩⟩
    · rintro ⟨⟨o', ho⟩, ⟨a, ha⟩, ⟨c, hc⟩⟩
      exact ⟨_, o', ho, a, ha, c, hc, rfl⟩
  induction b generalizing p with
  | var x => exact (hvar p x).symm
  | bool | num => simp [text, Within]
  | str => exact hb.elim
  | un op a ih =>
    simp only [text, Within, hun]
    split
    · rename_i h
      simp only [Bool.and_eq_true, decide_eq_true_eq] at h
      have ih := ih hb true
      rw [propext ih]
      simp [h]
    · rename_i h
      simp only [Bool.and_eq_true, decide_eq_true_eq] at h
      have ih := ih hb p
      rw [← propext ih]
      simp only [bind_ok_iff, look_ok, pure_eq_ok, Except.ok.injEq, Option.isSome_iff_exists, h, false_or]
      constructor
      · rintro ⟨s, o', ho, a, ha, rfl⟩
        exact ⟨⟨o', ho⟩, ⟨a, ha⟩⟩
      · rintro ⟨⟨o', ho⟩, ⟨a, ha⟩⟩
        exact ⟨_, o', ho, a, ha, rfl⟩
  | bin op a c iha ihc =>
    simp only [text, Within, hbin]
    have ha := iha hb.1 p
    have hc := ihc hb.2 p
    rw [two, propext ha, propext hc]
  | cmp op a c iha ihc =>
    simp only [text, Within, hcmp]
    have ha := iha hb.1 p
    have hc := ihc hb.2 p
    rw [two, propext ha, propext hc]
  | ar op a c iha ihc =>
    simp only [text, Within, har]
    have ha := iha hb.1 p
    have hc := ihc hb.2 p
    rw [two, propext ha, propext hc]
  | trunc => simp [text, Within]
  | ite => simp [text, Within]

/-- Every clause can be expressed. -/
theorem clauses_iff {g : GRSpec} {L : Lang} {W : Ast → Prop}
    (h : ∀ b, NoStrConst b → ((∃ s, text L false b = .ok s) ↔ W b)) :
    (∃ T : Part → List (List Char), ∀ p, List.Forall₂ (ClauseText g L) (part g p) (T p)) ↔
      ∀ p, ∀ x ∈ part g p, ∃ b, ClauseTree g x b ∧ W b := by
  constructor
  · rintro ⟨T, hT⟩ p x hx
    have : ∀ {xs ss}, List.Forall₂ (ClauseText g L) xs ss → ∀ x ∈ xs, ∃ s, ClauseText g L x s := by
      intro xs ss h
      induction h with
      | nil => simp
      | cons h1 _ ih =>
        intro x hx
        rcases List.mem_cons.1 hx with rfl | hx
        · exact ⟨_, h1⟩
        · exact ih x hx
    obtain ⟨s, b, h1, h2⟩ := this (hT p) x hx
    exact ⟨b, h1, (h b h1.named.2).1 ⟨s, h2⟩⟩
  · intro hall
    have : ∀ xs : List (List Char), (∀ x ∈ xs, ∃ b, ClauseTree g x b ∧ W b) →
        ∃ ss, List.Forall₂ (ClauseText g L) xs ss := by
      intro xs
      induction xs with
      | nil => exact fun _ => ⟨[], .nil⟩
      | cons x xs ih =>
        intro hx
        obtain ⟨b, h1, h2⟩ := hx x (by simp)
        obtain ⟨s, hs⟩ := (h b h1.named.2).2 h2
        obtain ⟨ss, hss⟩ := ih fun y hy => hx y (by simp [hy])
        exact ⟨s :: ss, .cons ⟨b, h1, hs⟩ hss⟩
    exact ⟨fun p => (this (part g p) (hall p)).choose, fun p => (this (part g p) (hall p)).choose_spec⟩

/-! ## Reading conjunctions -/

theorem parse_congr {s t : List Char} (h : lex s = lex t) : Tulip.parse s = Tulip.parse t := by
  simp only [Tulip.parse, h]

theorem holds_congr {s t : List Char} (h : lex s = lex t) (σ : Trace) (i : Nat) :
    Holds σ i s ↔ Holds σ i t := by
  simp only [Holds, parse_congr h]

theorem holds_joined {sep : List Char} (hsep : Separator sep .and) {ss : List (List Char)} (hne : ss ≠ [])
    (h : ∀ s ∈ ss, ∃ b, UnitStr s b) (σ : Trace) (i : Nat) :
    Holds σ i (joinWith sep ss) ↔ ∀ s ∈ ss, Holds σ i s := by
  cases ss with
  | nil => exact absurd rfl hne
  | cons s ss =>
    obtain ⟨b, hb⟩ := h s (by simp)
    have : ∃ bs, List.Forall₂ UnitStr ss bs := by
      have h' : ∀ u ∈ ss, ∃ b, UnitStr u b := fun u hu => h u (by simp [hu])
      clear h hb hne
      induction ss with
      | nil => exact ⟨[], .nil⟩
      | cons u us ih =>
        obtain ⟨c, hc⟩ := h' u (by simp)
        obtain ⟨cs, hcs⟩ := ih (fun v hv => h' v (by simp [hv]))
        exact ⟨c :: cs, .cons hc hcs⟩
    obtain ⟨bs, hbs⟩ := this
    have hp := (chain_join_sep hsep hb hbs).parse
    rw [holds_iff hp, sat_foldBin_and, ← holds_iff hb.parse]
    simp only [List.mem_cons, forall_eq_or_imp]
    refine and_congr Iff.rfl ?_
    clear hp h hne
    induction hbs with
    | nil => simp
    | cons hc _ ih =>
      simp only [List.mem_cons, forall_eq_or_imp]
      rw [← holds_iff hc.parse, ih]

theorem holds_paren {s : List Char} {b : Ast} (hs : '#' ∉ s) (h : Tulip.parse s = some b) (σ : Trace) (i : Nat) :
    Holds σ i (c!"(" ++ s ++ c!")") ↔ Holds σ i s := by
  rw [holds_iff (unit_paren hs h).parse, holds_iff h]

theorem holds_always {s : List Char} {b : Ast} (hs : '#' ∉ s) (h : Tulip.parse s = some b) (σ : Trace) :
    Holds σ 0 (c!"[]" ++ (c!"(" ++ s ++ c!")")) ↔ ∀ i, Holds σ i s := by
  rw [holds_iff (unit_always (unit_paren hs h)).parse, sat_always]
  simp only [Nat.zero_le, true_implies]
  exact forall_congr' fun i => (holds_iff h).symm

theorem holds_recurs {s : List Char} {b : Ast} (hs : '#' ∉ s) (h : Tulip.parse s = some b) (σ : Trace) :
    Holds σ 0 (c!"[]<>" ++ (c!"(" ++ s ++ c!")")) ↔ Recurs σ s := by
  have := (unit_always (unit_eventually (unit_paren hs h))).parse
  rw [show c!"[]<>" ++ (c!"(" ++ s ++ c!")") = c!"[]" ++ (c!"<>" ++ (c!"(" ++ s ++ c!")")) from rfl,
    holds_iff this, sat_always]
  simp only [Nat.zero_le, true_implies, sat_eventually]
  exact forall_congr' fun i => exists_congr fun j => and_congr Iff.rfl (holds_iff h).symm

theorem prints_paren {s : List Char} {t : Ast} (hs : '#' ∉ s) (h : Tulip.parse s = some t) :
    Prints (c!"(" ++ s ++ c!")") t := by
  refine ⟨by simp [hs], _, reads_parse h, fun rest _ => ?_⟩
  have := lex_paren hs rest
  simpa using this

theorem separator_line : Separator c!"\n& " .and :=
  ⟨by decide, by decide, ⟨'\n', _, rfl, by unfold Breaks; decide⟩, fun r => by
    simp [lex_cons, lexStep]⟩

theorem separator_and : Separator c!" & " .and :=
  ⟨by decide, by decide, ⟨' ', _, rfl, by unfold Breaks; decide⟩, fun r => by
    simp [lex_cons, lexStep]⟩

theorem separator_end : Separator c!" & \n" .and :=
  ⟨by decide, by decide, ⟨' ', _, rfl, by unfold Breaks; decide⟩, fun r => by
    simp [lex_cons, lexStep]⟩

/-! ## Characters -/

/-- The characters that occur in texts of clauses. -/
def TextChar (c : Char) : Prop := isNameChar c = true ∨ c ∈ c!" ()!<>=&|-+*'"

theorem intChars_nameChar (n : Int) : ∀ c ∈ intChars n, TextChar c := by
  have hd : ∀ (n : Nat) c, c ∈ digitsOf n → TextChar c := by
    intro n c hc
    have h := List.all_eq_true.1 (digitsOf_spec n).1 c hc
    left
    simp only [isDig, Bool.and_eq_true, decide_eq_true_eq] at h
    simp only [isNameChar, Bool.or_eq_true, Bool.and_eq_true, decide_eq_true_eq]
    exact .inl (.inl (.inl (.inr h)))
  cases n with
  | ofNat n => exact hd n
  | negSucc n =>
    intro c hc
    simp only [intChars, List.mem_cons] at hc
    rcases hc with rfl | hc
    · right; decide
    · exact hd _ c hc

theorem ident_nameChar {x : String} (h : IsIdent x) : ∀ c ∈ x.toList, TextChar c := by
  obtain ⟨c, cs, e, h1, h2⟩ := isWord_of_isIdent h
  intro d hd
  left
  rw [e] at hd
  rcases List.mem_cons.1 hd with rfl | hd
  · simp only [isNameStart, Bool.or_eq_true, Bool.and_eq_true, decide_eq_true_eq, beq_iff_eq] at h1
    simp only [isNameChar, Bool.or_eq_true, Bool.and_eq_true, decide_eq_true_eq, beq_iff_eq]
    omega
  · exact List.all_eq_true.1 h2 d hd

theorem TextChar.ne {c d : Char} (h : TextChar c) (h1 : isNameChar d = false) (h2 : d ∉ c!" ()!<>=&|-+*'") :
    c ≠ d := by
  rintro rfl
  rcases h with h | h
  · rw [h] at h1; cases h1
  · exact h2 h

end Trans
end Tulip
