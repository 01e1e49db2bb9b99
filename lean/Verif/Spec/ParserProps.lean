import Verif.Spec.ParserLemmas

/-!
# Properties of parsing and printing (C34)

* `parse_flatten`: parsing a printed formula returns the formula.
* `flatten_injective`: distinct formulas print differently.
* `parse_sound`, `parse_complete`: the parser accepts exactly the strings of the grammar, and
  returns a tree that derives the input.
* `infix_precedence`, `prefix_precedence`, `infix_prefix`, `postfix_prime`: operator precedence
  and associativity are those of the table.
* `flatten_str_counterexample`, `flatten_spelling_counterexample`, `caret_counterexample`: what
  the code gets wrong.
-/

namespace Tulip

/-! ## Specification -/

/-- An identifier: a letter or underscore followed by letters, digits, `.`, `_`, `:` (or, as the
lexer's range `A-z` allows, one of the six characters between `Z` and `a`). -/
def IsIdent (x : String) : Prop :=
  ∃ c cs, x.toList = c :: cs ∧
    (('A' ≤ c ∧ c ≤ 'Z') ∨ ('a' ≤ c ∧ c ≤ 'z') ∨ c = '_') ∧
    ∀ d ∈ cs, ('A' ≤ d ∧ d ≤ 'z') ∨ ('0' ≤ d ∧ d ≤ '9') ∨ d = '.' ∨ d = '_' ∨ d = ':'

/-- Words that the lexer does not treat as identifiers. -/
def IsReserved (x : String) : Prop :=
  x.toList ∈ [['i', 't', 'e'], ['n', 'e', 'x', 't'], ['X'], ['G'], ['F'], ['U'], ['W'], ['V']] ∨
  x.toList.map Char.toUpper ∈ [['T', 'R', 'U', 'E'], ['F', 'A', 'L', 'S', 'E']]

/-- Formulas that can be written down: variables are identifiers that are not reserved, there are
no string constants, operators have their canonical spelling and a truncation count is a
natural number. -/
def Printable : Ast → Prop
  | .var x => IsIdent x ∧ ¬ IsReserved x
  | .bool _ | .num _ => True
  | .str _ => False
  | .un op x => op ≠ .tilde ∧ Printable x
  | .bin op x y => op ≠ .imp2 ∧ op ≠ .bimp2 ∧ Printable x ∧ Printable y
  | .cmp op x y => op ≠ .ne2 ∧ op ≠ .le2 ∧ Printable x ∧ Printable y
  | .ar _ x y => Printable x ∧ Printable y
  | .trunc x n => Printable x ∧ 0 ≤ n
  | .ite c x y => Printable c ∧ Printable x ∧ Printable y

/-- The grammar of `lexyacc.py:385-470`, production by production. -/
inductive Derives : List Tok → Ast → Prop
  | tf (b) : Derives [.tf b] (.bool b)
  | un (op) {ts x} : Derives ts x → Derives (.un op :: ts) (.un op x)
  | prime {ts x} : Derives ts x → Derives (ts ++ [.prime]) (.un .next x)
  | bin (op) {ts us x y} : Derives ts x → Derives us y →
      Derives (ts ++ .bin op :: us) (.bin op x y)
  | ite {ts us vs c x y} : Derives ts c → Derives us x → Derives vs y →
      Derives (.lparen :: .ite :: ts ++ .comma :: us ++ .comma :: vs ++ [.rparen]) (.ite c x y)
  | cmp (op) {ts us x y} : Derives ts x → Derives us y →
      Derives (ts ++ .cmp op :: us) (.cmp op x y)
  | trunc {ts x} (n : Nat) : Derives ts x → Derives (ts ++ [.trunc, .number n]) (.trunc x n)
  | ar (op) {ts us x y} : Derives ts x → Derives us y →
      Derives (ts ++ .ar op :: us) (.ar op x y)
  | paren {ts x} : Derives ts x → Derives (.lparen :: ts ++ [.rparen]) x
  | var (w) : Derives [.name w] (.var (String.ofList w))
  | number (n : Nat) : Derives [.number n] (.num n)
  | negative (n : Nat) : Derives [.ar .sub, .number n] (.num (-(n : Int)))
  | str (w) : Derives [.dquotes, .name w, .dquotes] (.str (String.ofList w))

/-! ## Helpers -/

theorem isWord_of_isIdent {x : String} (h : IsIdent x) : IsWord x.toList := by
  obtain ⟨c, cs, e, h1, h2⟩ := h
  refine ⟨c, cs, e, ?_, ?_⟩
  · simp only [isNameStart, Bool.or_eq_true, Bool.and_eq_true, decide_eq_true_eq, beq_iff_eq]
    rcases h1 with ⟨a, b⟩ | ⟨a, b⟩ | rfl
    · exact Or.inl (Or.inl ⟨a, b⟩)
    · exact Or.inl (Or.inr ⟨a, b⟩)
    · exact Or.inr rfl
  · simp only [List.all_eq_true]
    intro d hd
    simp only [isNameChar, Bool.or_eq_true, Bool.and_eq_true, decide_eq_true_eq, beq_iff_eq]
    rcases h2 d hd with ⟨a, b⟩ | ⟨a, b⟩ | h | h | h
    · exact Or.inl (Or.inl (Or.inl (Or.inl ⟨a, b⟩)))
    · exact Or.inl (Or.inl (Or.inl (Or.inr ⟨a, b⟩)))
    · exact Or.inl (Or.inl (Or.inr h))
    · exact Or.inl (Or.inr h)
    · exact Or.inr h

theorem nameTok_of_not_reserved {x : String} (h : ¬ IsReserved x) :
    nameTok x.toList = .name x.toList := by
  simp only [IsReserved, List.mem_cons, List.not_mem_nil, or_false, not_or] at h
  obtain ⟨⟨h1, h2, h3, h4, h5, h6, h7, h8⟩, h9, h10⟩ := h
  simp only [nameTok, upper, h1, h2, h3, h4, h5, h6, h7, h8, h9, h10, if_false]

theorem Printable.words {t : Ast} (h : Printable t) : Words t := by
  induction t with
  | var x => exact isWord_of_isIdent h.1
  | bool | num => trivial
  | str => exact h.elim
  | un op x ih => exact ih h.2
  | bin op x y ihx ihy => exact ⟨ihx h.2.2.1, ihy h.2.2.2⟩
  | cmp op x y ihx ihy => exact ⟨ihx h.2.2.1, ihy h.2.2.2⟩
  | ar op x y ihx ihy => exact ⟨ihx h.1, ihy h.2⟩
  | trunc x n ih => exact ih h.1
  | ite c x y ihc ihx ihy => exact ⟨ihc h.1, ihx h.2.1, ihy h.2.2⟩

theorem Printable.flatten_some {t : Ast} (h : Printable t) : ∃ s, flatten t = some s := by
  induction t with
  | var x => exact ⟨_, rfl⟩
  | bool b => cases b <;> exact ⟨_, rfl⟩
  | num => exact ⟨_, rfl⟩
  | str => exact h.elim
  | un op x ih =>
    obtain ⟨s, hs⟩ := ih h.2
    have := h.1
    cases op <;> simp [flatten, hs, unText] at this ⊢
  | bin op x y ihx ihy =>
    obtain ⟨s, hs⟩ := ihx h.2.2.1
    obtain ⟨r, hr⟩ := ihy h.2.2.2
    have h1 := h.1; have h2 := h.2.1
    cases op <;> simp [flatten, hs, hr, binText] at h1 h2 ⊢
  | cmp op x y ihx ihy =>
    obtain ⟨s, hs⟩ := ihx h.2.2.1
    obtain ⟨r, hr⟩ := ihy h.2.2.2
    have h1 := h.1; have h2 := h.2.1
    cases op <;> simp [flatten, hs, hr, cmpText] at h1 h2 ⊢
  | ar op x y ihx ihy =>
    obtain ⟨s, hs⟩ := ihx h.1
    obtain ⟨r, hr⟩ := ihy h.2
    cases op <;> simp [flatten, hs, hr, arText]
  | trunc x n ih =>
    obtain ⟨s, hs⟩ := ih h.1
    simp [flatten, hs]
  | ite c x y ihc ihx ihy =>
    obtain ⟨s, hs⟩ := ihc h.1
    obtain ⟨r, hr⟩ := ihx h.2.1
    obtain ⟨q, hq⟩ := ihy h.2.2
    simp [flatten, hs, hr, hq]

theorem reads_toks {t : Ast} (h : Printable t) : Reads (toks t) t := by
  induction t with
  | var x =>
    intro st rest hs
    simp [toks, nameTok_of_not_reserved h.2, prun, pstep_name _ hs]
  | bool b => intro st rest hs; simp [toks, prun, pstep_tf _ hs]
  | num n => exact reads_int n
  | str => exact h.elim
  | un op x ih => exact reads_un (ih h.2)
  | bin op x y ihx ihy => exact reads_bin (ihx h.2.2.1) (ihy h.2.2.2)
  | cmp op x y ihx ihy => exact reads_cmp (ihx h.2.2.1) (ihy h.2.2.2)
  | ar op x y ihx ihy => exact reads_ar (ihx h.1) (ihy h.2)
  | trunc x n ih =>
    obtain ⟨m, rfl⟩ : ∃ m : Nat, n = m := ⟨n.toNat, by have := h.2; omega⟩
    exact reads_trunc (ih h.1)
  | ite c x y ihc ihx ihy => exact reads_ite (ihc h.1) (ihx h.2.1) (ihy h.2.2)

/-! ## Round trip -/

/-- **C34.** Every printable formula prints, and parsing the printed text gives it back. -/
theorem parse_flatten (t : Ast) (h : Printable t) :
    ∃ s, flatten t = some s ∧ parse s = some t := by
  obtain ⟨s, hs⟩ := h.flatten_some
  refine ⟨s, hs, ?_⟩
  have hl := lex_flatten h.words hs [] delim_nil
  simp only [List.append_nil, lex_nil] at hl
  have hr := reads_toks h [] [] trivial
  simp only [List.append_nil] at hr
  simp [parse, parseToks, hl, hr, prun, pfinish, reduceAll]

/-- **C34.** Printing is injective on printable formulas. -/
theorem flatten_injective {t u : Ast} (ht : Printable t) (hu : Printable u)
    (h : flatten t = flatten u) : t = u := by
  obtain ⟨s, hs, hp⟩ := parse_flatten t ht
  obtain ⟨r, hr, hq⟩ := parse_flatten u hu
  rw [h, hr] at hs
  cases hs
  rw [hp] at hq
  exact Option.some.inj hq

/-- A non-trivial printable formula: `G ((x' + 2) <= -7 & ite(b, F p, q U True))`. -/
def sampleAst : Ast :=
  .G (.bin .and (.cmp .le (.ar .add (.X (.var "x.1")) (.num 2)) (.num (-7)))
    (.ite (.var "b") (.F (.var "_p")) (.U (.var "q") (.bool true))))

theorem isIdent_of_check {x : String}
    (h : (match x.toList with
      | [] => false
      | c :: cs => isNameStart c && cs.all isNameChar) = true) : IsIdent x := by
  split at h
  · cases h
  · rename_i c cs e
    simp only [Bool.and_eq_true] at h
    refine ⟨c, cs, e, ?_, ?_⟩
    · have := h.1
      simp only [isNameStart, Bool.or_eq_true, Bool.and_eq_true, decide_eq_true_eq,
        beq_iff_eq] at this
      rcases this with (⟨a, b⟩ | ⟨a, b⟩) | a
      · exact Or.inl ⟨a, b⟩
      · exact Or.inr (Or.inl ⟨a, b⟩)
      · refine Or.inr (Or.inr ?_)
        apply Char.ext; apply UInt32.toNat.inj; exact a
    · intro d hd
      have := List.all_eq_true.1 h.2 d hd
      simp only [isNameChar, Bool.or_eq_true, Bool.and_eq_true, decide_eq_true_eq,
        beq_iff_eq] at this
      rcases this with (((⟨a, b⟩ | ⟨a, b⟩) | a) | a) | a
      · exact Or.inl ⟨a, b⟩
      · exact Or.inr (Or.inl ⟨a, b⟩)
      · exact Or.inr (Or.inr (Or.inl a))
      · exact Or.inr (Or.inr (Or.inr (Or.inl a)))
      · exact Or.inr (Or.inr (Or.inr (Or.inr a)))

/-- Non-vacuity of `parse_flatten`. -/
example : Printable sampleAst := by
  have hv : ∀ x ∈ ["x.1", "b", "_p", "q"], IsIdent x ∧ ¬ IsReserved x := by
    intro x hx
    simp only [List.mem_cons, List.not_mem_nil, or_false] at hx
    rcases hx with rfl | rfl | rfl | rfl <;>
      exact ⟨isIdent_of_check (by decide), by simp [IsReserved, Char.toUpper]⟩
  simp [sampleAst, Printable, hv]

example : (flatten sampleAst).map String.ofList = some
    "( G ( ( ( ( X x.1 ) + 2 ) <= -7 ) & ( ite b, ( F _p ), ( q U True ) ) ) )" := by decide +kernel

/-! ## The accepted language -/

/-- Tokens that have produced a stack. -/
inductive StackD : List Item → List Tok → Prop
  | nil : StackD [] []
  | bin {st ts us op x} : StackD st ts → Derives us x →
      StackD (.bin op x :: st) (ts ++ us ++ [.bin op])
  | cmp {st ts us op x} : StackD st ts → Derives us x →
      StackD (.cmp op x :: st) (ts ++ us ++ [.cmp op])
  | ar {st ts us op x} : StackD st ts → Derives us x →
      StackD (.ar op x :: st) (ts ++ us ++ [.ar op])
  | un {st ts op} : StackD st ts → StackD (.un op :: st) (ts ++ [.un op])
  | trunc {st ts us x} : StackD st ts → Derives us x →
      StackD (.trunc x :: st) (ts ++ us ++ [.trunc])
  | minus {st ts} : StackD st ts → StackD (.minus :: st) (ts ++ [.ar .sub])
  | paren {st ts} : StackD st ts → StackD (.paren :: st) (ts ++ [.lparen])
  | ite0 {st ts} : StackD st ts → StackD (.ite0 :: st) (ts ++ [.lparen, .ite])
  | ite1 {st ts us c} : StackD st ts → Derives us c →
      StackD (.ite1 c :: st) (ts ++ [.lparen, .ite] ++ us ++ [.comma])
  | ite2 {st ts us vs c x} : StackD st ts → Derives us c → Derives vs x →
      StackD (.ite2 c x :: st) (ts ++ [.lparen, .ite] ++ us ++ [.comma] ++ vs ++ [.comma])
  | dq {st ts} : StackD st ts → StackD (.dq :: st) (ts ++ [.dquotes])
  | dqn {st ts w} : StackD st ts → StackD (.dqn w :: st) (ts ++ [.dquotes, .name w])

/-- Tokens consumed so far. -/
def Consumed (s : PState) (ts : List Tok) : Prop :=
  match s.cur with
  | none => StackD s.stack ts
  | some e => ∃ us vs, StackD s.stack us ∧ Derives vs e ∧ ts = us ++ vs

theorem reduceAll_sound {l : Nat} {e : Ast} {st : List Item} {us vs : List Tok}
    (hs : StackD st us) (he : Derives vs e) :
    ∃ us' vs', StackD (reduceAll l e st).2 us' ∧ Derives vs' (reduceAll l e st).1 ∧
      us ++ vs = us' ++ vs' := by
  induction st generalizing e us vs with
  | nil => exact ⟨us, vs, hs, he, rfl⟩
  | cons i st ih =>
    cases i with
    | bin op x =>
      simp only [reduceAll]
      split
      · cases hs with
        | bin h1 h2 =>
          obtain ⟨us', vs', a, b, c⟩ := ih h1 (.bin op h2 he)
          exact ⟨us', vs', a, b, by rw [← c]; simp⟩
      · exact ⟨us, vs, hs, he, rfl⟩
    | cmp op x =>
      simp only [reduceAll]
      split
      · cases hs with
        | cmp h1 h2 =>
          obtain ⟨us', vs', a, b, c⟩ := ih h1 (.cmp op h2 he)
          exact ⟨us', vs', a, b, by rw [← c]; simp⟩
      · exact ⟨us, vs, hs, he, rfl⟩
    | ar op x =>
      simp only [reduceAll]
      split
      · cases hs with
        | ar h1 h2 =>
          obtain ⟨us', vs', a, b, c⟩ := ih h1 (.ar op h2 he)
          exact ⟨us', vs', a, b, by rw [← c]; simp⟩
      · exact ⟨us, vs, hs, he, rfl⟩
    | un op =>
      simp only [reduceAll]
      split
      · cases hs with
        | un h1 =>
          obtain ⟨us', vs', a, b, c⟩ := ih h1 (.un op he)
          exact ⟨us', vs', a, b, by rw [← c]; simp⟩
      · exact ⟨us, vs, hs, he, rfl⟩
    | _ => exact ⟨us, vs, hs, he, rfl⟩

theorem pstep_sound {s s' : PState} {t : Tok} {ts : List Tok} (h : Consumed s ts)
    (hp : pstep s t = some s') : Consumed s' (ts ++ [t]) := by
  obtain ⟨st, cur⟩ := s
  cases cur with
  | some e =>
    obtain ⟨us, vs, hst, he, rfl⟩ := h
    have hst : StackD st us := hst
    simp only [pstep] at hp
    cases t with
    | bin op =>
      obtain ⟨us', vs', a, b, c⟩ := reduceAll_sound (l := binLevel op) hst he
      simp only [Option.some.injEq] at hp; subst hp
      rw [c]; exact .bin a b
    | cmp op =>
      obtain ⟨us', vs', a, b, c⟩ := reduceAll_sound (l := cmpLevel op) hst he
      simp only [Option.some.injEq] at hp; subst hp
      rw [c]; exact .cmp a b
    | ar op =>
      obtain ⟨us', vs', a, b, c⟩ := reduceAll_sound (l := arLevel op) hst he
      simp only [Option.some.injEq] at hp; subst hp
      rw [c]; exact .ar a b
    | trunc =>
      obtain ⟨us', vs', a, b, c⟩ := reduceAll_sound (l := 0) hst he
      simp only [Option.some.injEq] at hp; subst hp
      rw [c]; exact .trunc a b
    | prime =>
      obtain ⟨us', vs', a, b, c⟩ := reduceAll_sound (l := 14) hst he
      simp only [Option.some.injEq] at hp; subst hp
      rw [c]; exact ⟨us', _, a, .prime b, by simp⟩
    | rparen =>
      obtain ⟨us', vs', a, b, c⟩ := reduceAll_sound (l := 0) hst he
      dsimp only at hp
      split at hp
      · rename_i e' st' heq
        simp only [Option.some.injEq] at hp; subst hp
        rw [heq] at a b
        cases a with
        | paren a => rw [c]; exact ⟨_, _, a, .paren b, by simp⟩
      · rename_i e' c' x' st' heq
        simp only [Option.some.injEq] at hp; subst hp
        rw [heq] at a b
        cases a with
        | ite2 a h1 h2 => rw [c]; exact ⟨_, _, a, .ite h1 h2 b, by simp⟩
      · cases hp
    | comma =>
      obtain ⟨us', vs', a, b, c⟩ := reduceAll_sound (l := 0) hst he
      dsimp only at hp
      split at hp
      · rename_i e' st' heq
        simp only [Option.some.injEq] at hp; subst hp
        rw [heq] at a b
        cases a with
        | ite0 a => rw [c]; exact .ite1 a b
      · rename_i e' c' st' heq
        simp only [Option.some.injEq] at hp; subst hp
        rw [heq] at a b
        cases a with
        | ite1 a h1 =>
          rw [c]
          have := StackD.ite2 a h1 b
          simpa [Consumed] using this
      · cases hp
    | _ => cases hp
  | none =>
    have hst : StackD st ts := h
    simp only [pstep] at hp
    split at hp <;> simp only [Option.some.injEq, reduceCtorEq] at hp <;> try subst hp
    · cases hst with
      | minus h1 => exact ⟨_, _, h1, .negative _, by simp⟩
    · cases hst with
      | dq h1 => simpa [Consumed] using StackD.dqn h1
    · cases hst with
      | dqn h1 => exact ⟨_, _, h1, .str _, by simp⟩
    · cases hst with
      | trunc h1 h2 => exact ⟨_, _, h1, .trunc _ h2, by simp⟩
    · cases hst with
      | paren h1 => simpa [Consumed] using StackD.ite0 h1
    · exact ⟨_, _, hst, .var _, rfl⟩
    · exact ⟨_, _, hst, .number _, rfl⟩
    · exact ⟨_, _, hst, .tf _, rfl⟩
    · exact .un hst
    · exact .minus hst
    · exact .paren hst
    · exact .dq hst

theorem prun_sound {s s' : PState} {ts us : List Tok} (h : Consumed s us)
    (hp : prun s ts = some s') : Consumed s' (us ++ ts) := by
  induction ts generalizing s us with
  | nil => simp only [prun, Option.some.injEq] at hp; subst hp; simpa using h
  | cons t ts ih =>
    simp only [prun, Option.bind_eq_some_iff] at hp
    obtain ⟨s1, h1, h2⟩ := hp
    have := ih (pstep_sound h h1) h2
    simpa using this

/-- **C34.** Whatever tree the parser returns derives the token string it was given. -/
theorem parse_sound {s : List Char} {t : Ast} (h : parse s = some t) : Derives (lex s) t := by
  simp only [parse, parseToks, Option.bind_eq_some_iff] at h
  obtain ⟨⟨st, cur⟩, h1, h2⟩ := h
  have hc := prun_sound (us := []) (show Consumed ⟨[], none⟩ [] from .nil) h1
  simp only [List.nil_append] at hc
  cases cur with
  | none => simp [pfinish] at h2
  | some e =>
    obtain ⟨us, vs, hst, he, e2⟩ := hc
    obtain ⟨us', vs', a, b, c⟩ := reduceAll_sound (l := 0) (show StackD st us from hst) he
    simp only [pfinish] at h2
    split at h2
    · rename_i e' heq
      simp only [Option.some.injEq] at h2; subst h2
      rw [heq] at a b
      cases a
      rw [e2, c]; simpa using b
    · cases h2

/-- The stack below the operators on top. -/
def skel : List Item → List Item
  | .bin _ _ :: st | .cmp _ _ :: st | .ar _ _ :: st | .un _ :: st => skel st
  | st => st

theorem skel_reduceAll (l : Nat) (e : Ast) (st : List Item) :
    skel (reduceAll l e st).2 = skel st := by
  induction st generalizing e with
  | nil => rfl
  | cons i st ih =>
    cases i <;> simp only [reduceAll] <;> first | rfl | (split <;> simp [skel, ih])

theorem reduceAll_zero (e : Ast) (st : List Item) : (reduceAll 0 e st).2 = skel st := by
  induction st generalizing e with
  | nil => rfl
  | cons i st ih =>
    cases i with
    | bin op => cases op <;> exact ih _
    | cmp op => cases op <;> exact ih _
    | ar op => cases op <;> exact ih _
    | un op => cases op <;> exact ih _
    | _ => rfl

theorem derives_run {ts : List Tok} {t : Ast} (h : Derives ts t) :
    ∀ st, OperandTop st → ∃ st' e, prun ⟨st, none⟩ ts = some ⟨st', some e⟩ ∧
      skel st' = skel st := by
  induction h with
  | tf b => intro st hs; exact ⟨st, .bool b, by simp [prun, pstep_tf b hs], rfl⟩
  | un op _ ih =>
    intro st hs
    obtain ⟨st', e, h1, h2⟩ := ih (.un op :: st) trivial
    exact ⟨st', e, by simp [prun, pstep_un op hs, h1], h2⟩
  | prime _ ih =>
    intro st hs
    obtain ⟨st', e, h1, h2⟩ := ih st hs
    refine ⟨(reduceAll 14 e st').2, .un .next (reduceAll 14 e st').1,
      by simp [prun_append, h1, prun, pstep], ?_⟩
    rw [skel_reduceAll, h2]
  | bin op _ _ ihx ihy =>
    intro st hs
    obtain ⟨st1, e1, h1, h2⟩ := ihx st hs
    obtain ⟨st2, e2, h3, h4⟩ := ihy
      (.bin op (reduceAll (binLevel op) e1 st1).1 :: (reduceAll (binLevel op) e1 st1).2) trivial
    refine ⟨st2, e2, by simp [prun_append, h1, prun, pstep, h3], ?_⟩
    rw [h4, skel, skel_reduceAll, h2]
  | cmp op _ _ ihx ihy =>
    intro st hs
    obtain ⟨st1, e1, h1, h2⟩ := ihx st hs
    obtain ⟨st2, e2, h3, h4⟩ := ihy
      (.cmp op (reduceAll (cmpLevel op) e1 st1).1 :: (reduceAll (cmpLevel op) e1 st1).2) trivial
    refine ⟨st2, e2, by simp [prun_append, h1, prun, pstep, h3], ?_⟩
    rw [h4, skel, skel_reduceAll, h2]
  | ar op _ _ ihx ihy =>
    intro st hs
    obtain ⟨st1, e1, h1, h2⟩ := ihx st hs
    obtain ⟨st2, e2, h3, h4⟩ := ihy
      (.ar op (reduceAll (arLevel op) e1 st1).1 :: (reduceAll (arLevel op) e1 st1).2) trivial
    refine ⟨st2, e2, by simp [prun_append, h1, prun, pstep, h3], ?_⟩
    rw [h4, skel, skel_reduceAll, h2]
  | trunc n _ ih =>
    intro st hs
    obtain ⟨st', e, h1, h2⟩ := ih st hs
    refine ⟨(reduceAll 0 e st').2, .trunc (reduceAll 0 e st').1 n,
      by simp [prun_append, h1, prun, pstep], ?_⟩
    rw [skel_reduceAll, h2]
  | paren _ ih =>
    intro st hs
    obtain ⟨st', e, h1, h2⟩ := ih (.paren :: st) trivial
    have hz := reduceAll_zero e st'
    rw [h2, show skel (.paren :: st) = .paren :: st from rfl] at hz
    refine ⟨st, (reduceAll 0 e st').1, ?_, rfl⟩
    have : reduceAll 0 e st' = ((reduceAll 0 e st').1, .paren :: st) := by rw [← hz]
    have hr : pstep ⟨st', some e⟩ .rparen = some ⟨st, some (reduceAll 0 e st').1⟩ := by
      simp only [pstep]; rw [this]
    simp only [List.cons_append, prun, pstep_lparen hs, Option.bind_some, prun_append, h1, hr]
  | ite _ _ _ ihc ihx ihy =>
    intro st hs
    obtain ⟨st1, e1, h1, h2⟩ := ihc (.ite0 :: st) trivial
    have z1 : reduceAll 0 e1 st1 = ((reduceAll 0 e1 st1).1, .ite0 :: st) := by
      have := reduceAll_zero e1 st1; rw [h2] at this; rw [← show _ = Item.ite0 :: st from this]
    obtain ⟨st2, e2, h3, h4⟩ := ihx (.ite1 (reduceAll 0 e1 st1).1 :: st) trivial
    have z2 : reduceAll 0 e2 st2 =
        ((reduceAll 0 e2 st2).1, .ite1 (reduceAll 0 e1 st1).1 :: st) := by
      have := reduceAll_zero e2 st2; rw [h4] at this
      rw [← show _ = Item.ite1 (reduceAll 0 e1 st1).1 :: st from this]
    obtain ⟨st3, e3, h5, h6⟩ :=
      ihy (.ite2 (reduceAll 0 e1 st1).1 (reduceAll 0 e2 st2).1 :: st) trivial
    have z3 : reduceAll 0 e3 st3 =
        ((reduceAll 0 e3 st3).1, .ite2 (reduceAll 0 e1 st1).1 (reduceAll 0 e2 st2).1 :: st) := by
      have := reduceAll_zero e3 st3; rw [h6] at this
      rw [← show _ = Item.ite2 (reduceAll 0 e1 st1).1 (reduceAll 0 e2 st2).1 :: st from this]
    have hi : pstep ⟨.paren :: st, none⟩ .ite = some ⟨.ite0 :: st, none⟩ := rfl
    have p1 : pstep ⟨st1, some e1⟩ .comma =
        some ⟨.ite1 (reduceAll 0 e1 st1).1 :: st, none⟩ := by
      simp only [pstep]; rw [z1]
    have p2 : pstep ⟨st2, some e2⟩ .comma =
        some ⟨.ite2 (reduceAll 0 e1 st1).1 (reduceAll 0 e2 st2).1 :: st, none⟩ := by
      simp only [pstep]; rw [z2]
    have p3 : pstep ⟨st3, some e3⟩ .rparen = some ⟨st, some (.ite (reduceAll 0 e1 st1).1
        (reduceAll 0 e2 st2).1 (reduceAll 0 e3 st3).1)⟩ := by
      simp only [pstep]; rw [z3]
    refine ⟨st, .ite (reduceAll 0 e1 st1).1 (reduceAll 0 e2 st2).1 (reduceAll 0 e3 st3).1,
      ?_, rfl⟩
    · simp only [List.cons_append, List.append_assoc, prun, pstep_lparen hs, Option.bind_some, hi,
        prun_append, h1, p1, h3, p2, h5, p3]
  | var w => intro st hs; exact ⟨st, .var (String.ofList w), by simp [prun, pstep_name w hs], rfl⟩
  | number n => intro st hs; exact ⟨st, .num n, by simp [prun, pstep_number n hs], rfl⟩
  | negative n =>
    intro st hs
    exact ⟨st, .num (-(n : Int)), by simp [prun, pstep_minus hs]; rfl, rfl⟩
  | str w =>
    intro st hs
    exact ⟨st, .str (String.ofList w), by simp [prun, pstep_dquotes hs]; rfl, rfl⟩

/-- **C34.** The parser accepts every string of the grammar. -/
theorem parse_complete {s : List Char} {t : Ast} (h : Derives (lex s) t) :
    ∃ u, parse s = some u := by
  obtain ⟨st, e, h1, h2⟩ := derives_run h [] trivial
  refine ⟨(reduceAll 0 e st).1, ?_⟩
  have hz := reduceAll_zero e st
  rw [h2, show skel [] = [] from rfl] at hz
  have : reduceAll 0 e st = ((reduceAll 0 e st).1, []) := by rw [← hz]
  simp only [parse, parseToks, h1, Option.bind_some, pfinish]
  rw [this]

/-- Non-vacuity: a string that needs precedences to be parsed. -/
example : ∃ t, Derives (lex "! a & b -> [] c U d'".toList) t :=
  ⟨_, parse_sound (t := .imp (.and (.not (.var "a")) (.var "b"))
    (.G (.U (.var "c") (.X (.var "d"))))) (by decide +kernel)⟩

/-! ## Precedence and associativity -/

/-- Infix operators. -/
inductive Infix
  | bin (op : BinOp) | cmp (op : CmpOp) | ar (op : ArOp)
  deriving DecidableEq, Repr

/-- Tree of an infix application. -/
def Infix.mk : Infix → Ast → Ast → Ast
  | .bin op => .bin op
  | .cmp op => .cmp op
  | .ar op => .ar op

/-- Canonical text of an infix operator. -/
def Infix.text : Infix → Option (List Char)
  | .bin op => binText op
  | .cmp op => cmpText op
  | .ar op => arText op

/-- The infix operators by increasing binding strength; those of one row are equally strong. -/
def infixTable : List (List Infix) :=
  [[.bin .bimp], [.bin .imp], [.bin .xor], [.bin .or], [.bin .and],
   [.bin .strongUntil, .bin .weakUntil, .bin .release],
   [.cmp .eq, .cmp .ne],
   [.cmp .lt, .cmp .le, .cmp .gt, .cmp .ge],
   [.ar .add, .ar .sub],
   [.ar .mul, .ar .div]]

/-- Binding strength: the row of the table. -/
def strength (o : Infix) : Nat := infixTable.findIdx (fun row => row.contains o)

/-- Model-side level of an infix operator. -/
def Infix.level : Infix → Nat
  | .bin op => binLevel op
  | .cmp op => cmpLevel op
  | .ar op => arLevel op

def Infix.item : Infix → Ast → Item
  | .bin op => .bin op
  | .cmp op => .cmp op
  | .ar op => .ar op

def Infix.tok : Infix → Tok
  | .bin op => .bin op
  | .cmp op => .cmp op
  | .ar op => .ar op

theorem pstep_infix (o : Infix) (e : Ast) (st : List Item) :
    pstep ⟨st, some e⟩ o.tok =
      some ⟨o.item (reduceAll o.level e st).1 :: (reduceAll o.level e st).2, none⟩ := by
  cases o <;> rfl

theorem reduceAll_infix (o : Infix) (l : Nat) (x e : Ast) (st : List Item) :
    reduceAll l e (o.item x :: st) =
      if l ≤ o.level then reduceAll l (o.mk x e) st else (e, o.item x :: st) := by
  cases o with
  | bin op =>
    simp only [Infix.item, Infix.level, Infix.mk, reduceAll, reduces, Bool.and_true]
    by_cases h : l ≤ binLevel op
    · have : (decide (l < binLevel op) || l == binLevel op) = true := by simp; omega
      simp [this, h]
    · have : (decide (l < binLevel op) || l == binLevel op) = false := by simp; omega
      simp [this, h]
  | cmp op =>
    simp only [Infix.item, Infix.level, Infix.mk, reduceAll, reduces, Bool.and_true]
    by_cases h : l ≤ cmpLevel op
    · have : (decide (l < cmpLevel op) || l == cmpLevel op) = true := by simp; omega
      simp [this, h]
    · have : (decide (l < cmpLevel op) || l == cmpLevel op) = false := by simp; omega
      simp [this, h]
  | ar op =>
    simp only [Infix.item, Infix.level, Infix.mk, reduceAll, reduces, Bool.and_true]
    by_cases h : l ≤ arLevel op
    · have : (decide (l < arLevel op) || l == arLevel op) = true := by simp; omega
      simp [this, h]
    · have : (decide (l < arLevel op) || l == arLevel op) = false := by simp; omega
      simp [this, h]

theorem lex_infixText {o : Infix} {s r : List Char} (h : o.text = some s) :
    lex (s ++ ' ' :: r) = o.tok :: lex r := by
  cases o with
  | bin op => exact lex_binText h
  | cmp op => exact lex_cmpText h
  | ar op => exact lex_arText h

theorem level_le_iff {o p : Infix} {s r : List Char} (ho : o.text = some s)
    (hp : p.text = some r) : p.level ≤ o.level ↔ strength p ≤ strength o := by
  rcases o with o | o | o <;> rcases p with p | p | p <;> cases o <;> cases p <;>
    first
      | (simp [Infix.text, binText, cmpText] at ho; done)
      | (simp [Infix.text, binText, cmpText] at hp; done)
      | decide

theorem operandTop_item (o : Infix) (x : Ast) (st : List Item) : OperandTop (o.item x :: st) := by
  cases o <;> trivial

theorem lex_printed {t : Ast} (h : Printable t) {s : List Char} (hs : flatten t = some s)
    (r : List Char) : lex (s ++ ' ' :: r) = toks t ++ lex r := by
  rw [lex_flatten h.words hs _ (delim_space r), lex_space]

theorem lex_printed_end {t : Ast} (h : Printable t) {s : List Char} (hs : flatten t = some s) :
    lex s = toks t := by
  have := lex_flatten h.words hs [] delim_nil
  simpa using this

/-- **C34.** `x o1 y o2 z` without parentheses groups to the left when `o1` binds at least as
strongly as `o2`, and to the right otherwise (all infix operators are left-associative). -/
theorem infix_precedence (o₁ o₂ : Infix) (x y z : Ast) (hx : Printable x) (hy : Printable y)
    (hz : Printable z) (sx sy sz t₁ t₂ : List Char) (ex : flatten x = some sx)
    (ey : flatten y = some sy) (ez : flatten z = some sz) (e₁ : o₁.text = some t₁)
    (e₂ : o₂.text = some t₂) :
    parse (sx ++ [' '] ++ t₁ ++ [' '] ++ sy ++ [' '] ++ t₂ ++ [' '] ++ sz) =
      some (if strength o₂ ≤ strength o₁ then o₂.mk (o₁.mk x y) z
        else o₁.mk x (o₂.mk y z)) := by
  have hl : lex (sx ++ [' '] ++ t₁ ++ [' '] ++ sy ++ [' '] ++ t₂ ++ [' '] ++ sz) =
      toks x ++ o₁.tok :: (toks y ++ o₂.tok :: toks z) := by
    simp only [List.append_assoc, List.cons_append, List.nil_append]
    rw [lex_printed hx ex, lex_infixText e₁, lex_printed hy ey, lex_infixText e₂,
      lex_printed_end hz ez]
  rw [parse, parseToks, hl, reads_toks hx [] _ trivial]
  simp only [prun, pstep_infix, Option.bind_some, reduceAll]
  rw [reads_toks hy _ _ (operandTop_item _ _ _)]
  simp only [prun, pstep_infix, Option.bind_some, reduceAll_infix, reduceAll]
  have := reads_toks hz
  by_cases h : o₂.level ≤ o₁.level
  · have h' := (level_le_iff e₁ e₂).1 h
    simp only [if_pos h, if_pos h']
    have := this (o₂.item (o₁.mk x y) :: []) [] (operandTop_item _ _ _)
    simp only [List.append_nil] at this
    rw [this]
    simp [prun, pfinish, reduceAll_infix, reduceAll]
  · have h' := fun k => h ((level_le_iff e₁ e₂).2 k)
    simp only [if_neg h, if_neg h']
    have := this (o₂.item y :: o₁.item x :: []) [] (operandTop_item _ _ _)
    simp only [List.append_nil] at this
    rw [this]
    simp [prun, pfinish, reduceAll_infix, reduceAll]

example : Infix.text (.bin .imp) = some ['-', '>'] ∧ Infix.text (.cmp .eq) = some ['='] ∧
    Printable (.num 3) ∧ flatten (.num 3) = some ['3'] :=
  ⟨rfl, rfl, trivial, by decide +kernel⟩

/-- How strongly a prefix operator binds: `!` and `X` more than every infix operator, `G` and `F`
more than the Boolean connectives only. -/
def prefixBindsTighter (p : UnOp) (o : Infix) : Prop :=
  p = .not ∨ p = .next ∨ o ∈ [.bin .bimp, .bin .imp, .bin .xor, .bin .or, .bin .and]

instance (p : UnOp) (o : Infix) : Decidable (prefixBindsTighter p o) := by
  unfold prefixBindsTighter; infer_instance

/-- **C34.** `p x o y`. -/
theorem prefix_precedence (p : UnOp) (o : Infix) (x y : Ast) (hx : Printable x) (hy : Printable y)
    (sp sx so sy : List Char) (ep : unText p = some sp) (ex : flatten x = some sx)
    (eo : o.text = some so) (ey : flatten y = some sy) :
    parse (sp ++ [' '] ++ sx ++ [' '] ++ so ++ [' '] ++ sy) =
      some (if prefixBindsTighter p o then o.mk (.un p x) y else .un p (o.mk x y)) := by
  have hl : lex (sp ++ [' '] ++ sx ++ [' '] ++ so ++ [' '] ++ sy) =
      .un p :: (toks x ++ o.tok :: toks y) := by
    simp only [List.append_assoc, List.cons_append, List.nil_append]
    rw [lex_unText ep, lex_printed hx ex, lex_infixText eo, lex_printed_end hy ey]
  rw [parse, parseToks, hl, prun, pstep_un (st := []) p trivial, Option.bind_some,
    reads_toks hx (.un p :: []) _ trivial]
  simp only [prun, pstep_infix, Option.bind_some]
  have key : reduces (unLevel p) (p == .always || p == .eventually) o.level =
      decide (prefixBindsTighter p o) := by
    rcases o with o | o | o <;> cases p <;> cases o <;>
      first | (simp [unText] at ep; done) | (simp [Infix.text, binText, cmpText] at eo; done) |
        decide
  have hy' := reads_toks hy
  by_cases h : prefixBindsTighter p o
  · simp only [reduceAll, key, h, decide_true, if_true]
    have := hy' (o.item (.un p x) :: []) [] (operandTop_item _ _ _)
    simp only [List.append_nil] at this
    rw [this]
    simp [prun, pfinish, reduceAll_infix, reduceAll]
  · simp only [reduceAll, key, h, decide_false, if_false]
    have := hy' (o.item x :: .un p :: []) [] (operandTop_item _ _ _)
    simp only [List.append_nil] at this
    simp only [Bool.false_eq_true, if_false]
    rw [this]
    have h0 : reduces (unLevel p) (p == .always || p == .eventually) 0 = true := by
      cases p <;> rfl
    simp [prun, pfinish, reduceAll_infix, reduceAll, h0]

/-- **C34.** `x o p y`: a prefix operator after an infix one applies to what follows. -/
theorem infix_prefix (p : UnOp) (o : Infix) (x y : Ast) (hx : Printable x) (hy : Printable y)
    (sp sx so sy : List Char) (ep : unText p = some sp) (ex : flatten x = some sx)
    (eo : o.text = some so) (ey : flatten y = some sy) :
    parse (sx ++ [' '] ++ so ++ [' '] ++ sp ++ [' '] ++ sy) = some (o.mk x (.un p y)) := by
  have hl : lex (sx ++ [' '] ++ so ++ [' '] ++ sp ++ [' '] ++ sy) =
      toks x ++ o.tok :: .un p :: toks y := by
    simp only [List.append_assoc, List.cons_append, List.nil_append]
    rw [lex_printed hx ex, lex_infixText eo, lex_unText ep, lex_printed_end hy ey]
  rw [parse, parseToks, hl, reads_toks hx [] _ trivial]
  simp only [prun, pstep_infix, Option.bind_some, reduceAll]
  rw [pstep_un p (operandTop_item _ _ _), Option.bind_some]
  have := reads_toks hy (.un p :: o.item x :: []) [] trivial
  simp only [List.append_nil] at this
  rw [this]
  have h0 : reduces (unLevel p) (p == .always || p == .eventually) 0 = true := by
    cases p <;> rfl
  simp [prun, pfinish, reduceAll_infix, reduceAll, h0]

/-- **C34.** `x o p y'`: the postfix prime applies to the nearest operand only. -/
theorem postfix_prime (p : UnOp) (o : Infix) (x y : Ast) (hx : Printable x) (hy : Printable y)
    (sp sx so sy : List Char) (ep : unText p = some sp) (ex : flatten x = some sx)
    (eo : o.text = some so) (ey : flatten y = some sy) :
    parse (sx ++ [' '] ++ so ++ [' '] ++ sp ++ [' '] ++ sy ++ [' ', '\'']) =
      some (o.mk x (.un p (.un .next y))) := by
  have hl : lex (sx ++ [' '] ++ so ++ [' '] ++ sp ++ [' '] ++ sy ++ [' ', '\'']) =
      toks x ++ o.tok :: .un p :: (toks y ++ [.prime]) := by
    simp only [List.append_assoc, List.cons_append, List.nil_append]
    rw [lex_printed hx ex, lex_infixText eo, lex_unText ep, lex_printed hy ey]
    simp [lex_cons, lexStep]
  rw [parse, parseToks, hl, reads_toks hx [] _ trivial]
  simp only [prun, pstep_infix, Option.bind_some, reduceAll]
  rw [pstep_un p (operandTop_item _ _ _), Option.bind_some]
  rw [reads_toks hy (.un p :: o.item x :: []) _ trivial]
  have h14 : reduces (unLevel p) (p == .always || p == .eventually) 14 = false := by
    cases p <;> rfl
  have h0 : reduces (unLevel p) (p == .always || p == .eventually) 0 = true := by
    cases p <;> rfl
  simp [prun, pfinish, pstep, reduceAll_infix, reduceAll, h0, h14]

/-! ## Deviations -/

/-- A comparison with a string constant prints without the quotes, so that parsing the printed
text yields a comparison with a *variable* of that name. -/
theorem flatten_str_counterexample :
    ∃ s, flatten (.cmp .eq (.var "x") (.str "home")) = some s ∧
      parse s = some (.cmp .eq (.var "x") (.var "home")) := by
  refine ⟨_, rfl, ?_⟩
  decide +kernel

/-- The spellings `~`, `=>`, `<=>`, `/=`, `=<` are parsed, but the resulting formula cannot be
printed (`KeyError`). -/
theorem flatten_spelling_counterexample :
    ∀ s ∈ ["~ a", "a => b", "a <=> b", "a /= b", "a =< b"],
      ((parse s.toList).map flatten) = some none := by
  decide +kernel

/-- `^` and the TLA+ disjunction are swallowed by a preceding identifier. -/
theorem caret_counterexample :
    parse "a^b".toList = some (.var "a^b") ∧
    parse "a ^ b".toList = some (.bin .xor (.var "a") (.var "b")) ∧
    parse "a\\/b".toList = some (.ar .div (.var "a\\") (.var "b")) ∧
    parse "a \\/ b".toList = some (.or (.var "a") (.var "b")) := by
  decide +kernel

end Tulip
