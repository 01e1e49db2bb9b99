import Verif.Spec.ParserProps
import Verif.Spec.Semantics
import Mathlib.Data.List.Forall2

/-!
# Formulas built by string concatenation

`tulip` builds formulas by concatenating strings. These lemmas say what the parser makes of a
string `…(s)…` when `s` is a string that it accepts on its own.
-/

namespace Tulip

theorem takeWhile_append_delim {p : Char → Bool} {c : Char} (hc : p c = false) (s r : List Char) :
    (s ++ c :: r).takeWhile p = s.takeWhile p ∧
      (s ++ c :: r).dropWhile p = s.dropWhile p ++ c :: r := by
  induction s with
  | nil => simp [hc]
  | cons a s ih =>
    simp only [List.cons_append, List.takeWhile_cons, List.dropWhile_cons]
    split <;> simp [ih]

theorem prefix_of_append_delim {c : Char} (es : List Char) {s r r' : List Char} (hc : c ∉ es)
    (h : s ++ c :: r = es ++ r') : ∃ s', s = es ++ s' := by
  induction es generalizing s with
  | nil => exact ⟨s, rfl⟩
  | cons e es ih =>
    cases s with
    | nil =>
      simp only [List.nil_append, List.cons_append, List.cons.injEq] at h
      exact absurd (by rw [h.1]; simp) hc
    | cons a s =>
      simp only [List.cons_append, List.cons.injEq] at h
      obtain ⟨s', rfl⟩ := ih (fun h => hc (by simp [h])) h.2
      exact ⟨s', by simp [h.1]⟩

/-- Characters that end a token and do not belong to a longer token. -/
def Breaks (c : Char) : Prop := c = ')' ∨ c = ' ' ∨ c = '(' ∨ c = '\n' ∨ c = '\t'

theorem lexStep_breaks {d c : Char} (s r : List Char) (hd : d ≠ '#') (hc : Breaks c) :
    lexStep d (s ++ c :: r) = ((lexStep d s).1, (lexStep d s).2 ++ c :: r) := by
  have hn : isNameChar c = false := by rcases hc with rfl | rfl | rfl | rfl | rfl <;> decide
  have hg : isDig c = false := by rcases hc with rfl | rfl | rfl | rfl | rfl <;> decide
  have key : ∀ es, (∀ e ∈ es, ¬ Breaks e) → (∀ r, s = es ++ r → False) →
      ∀ r', s ++ c :: r = es ++ r' → False := by
    intro e h1 h r' h'
    obtain ⟨s', rfl⟩ := prefix_of_append_delim e (fun hm => h1 c hm hc) h'
    exact h _ rfl
  have key1 : ∀ e, ¬ Breaks e → (∀ r, s = e :: r → False) →
      ∀ r', s ++ c :: r = e :: r' → False := fun e h1 => key [e] (by simpa using h1)
  fun_cases lexStep d s
  all_goals try (simp [lexStep]; done)
  all_goals try (exact absurd rfl hd)
  case case6 h => rw [lexStep.eq_6 _ (key1 _ (by unfold Breaks; decide) h)]
  case case9 h => rw [lexStep.eq_9 _ (key1 _ (by unfold Breaks; decide) h)]
  case case19 r' h =>
    rw [List.cons_append, lexStep.eq_19]
    intro r2 h2
    obtain ⟨s', rfl⟩ := prefix_of_append_delim ['>']
      (by rcases hc with rfl | rfl | rfl | rfl | rfl <;> decide) h2
    exact h _ rfl
  case case21 h => rw [lexStep.eq_21 _ (key1 _ (by unfold Breaks; decide) h)]
  case case29 h => rw [lexStep.eq_29 _ (key1 _ (by unfold Breaks; decide) h)]
  case case31 h h2 =>
    rw [lexStep.eq_31 _ (key1 _ (by unfold Breaks; decide) h) (key1 _ (by unfold Breaks; decide) h2)]
  case case32 h1 h2 h3 h4 h5 =>
    rw [lexStep.eq_32 _ (key1 _ (by unfold Breaks; decide) h1)
      (key ['-', '>'] (by unfold Breaks; decide) h2) (key ['=', '>'] (by unfold Breaks; decide) h3)
      (key1 _ (by unfold Breaks; decide) h4) (key ['<', '>', '>'] (by unfold Breaks; decide) h5)]
  case case33 h => rw [lexStep.eq_33 _ (key1 _ (by unfold Breaks; decide) h)]
  case case34 h h2 =>
    rw [lexStep.eq_34 _ (key1 _ (by unfold Breaks; decide) h) (key1 _ (by unfold Breaks; decide) h2)]
  case case38 h _ _ _ _ _ _ _ _ _ _ _ _ _ _ _ _ =>
    rw [lexStep_name _ ‹_›]
    simp [takeWhile_append_delim hn]
  case case39 h _ _ _ _ _ _ _ _ _ _ _ _ _ _ _ _ =>
    rw [lexStep_dig _ ‹_›]
    simp [takeWhile_append_delim hg]
  case case40 =>
    rw [lexStep.eq_38, if_neg ‹_›, if_neg ‹_›] <;> try assumption
    · intro r' h; exact key1 _ (by unfold Breaks; decide) (fun r h' => (by assumption : ∀ (r : List Char), d = '[' → s = ']' :: r → False) r h h') r'
    · intro r' h; exact absurd h ‹_›
    · intro r' h; exact absurd h ‹_›
    · intro r' h; exact absurd h ‹_›
    · intro r' h; exact absurd h ‹_›
    · intro r' h; exact key1 _ (by unfold Breaks; decide) (fun r h' => (by assumption : ∀ (r : List Char), d = '\\' → s = '/' :: r → False) r h h') r'
    all_goals (intro r' h; exact absurd h ‹_›)

theorem lexStep_append {d c : Char} (s r : List Char) (hd : d ≠ '#') (hc : c = ')' ∨ c = ' ') :
    lexStep d (s ++ c :: r) = ((lexStep d s).1, (lexStep d s).2 ++ c :: r) :=
  lexStep_breaks s r hd (by unfold Breaks; tauto)

theorem lexStep_suffix (d : Char) (s : List Char) : (lexStep d s).2 <:+ s := by
  fun_cases lexStep d s
  all_goals
    first
    | exact List.suffix_refl _
    | exact List.dropWhile_suffix _
    | exact List.suffix_cons _ _
    | exact (List.suffix_cons _ _).trans (List.suffix_cons _ _)
    | exact ((List.suffix_cons _ _).trans (List.suffix_cons _ _)).trans (List.suffix_cons _ _)

/-- Lexing is compositional at a parenthesis or at white space (comments excluded). -/
theorem lex_breaks {s : List Char} {c : Char} (r : List Char) (hs : '#' ∉ s)
    (hc : Breaks c) : lex (s ++ c :: r) = lex s ++ lex (c :: r) := by
  generalize hn : s.length = n
  induction n using Nat.strongRecOn generalizing s with
  | ind n ih =>
    cases s with
    | nil => simp
    | cons d s =>
      have hd : d ≠ '#' := fun e => hs (by simp [e])
      rw [List.cons_append, lex_cons, lex_cons, lexStep_breaks s r hd hc]
      have hlen := lexStep_length d s
      have hsub : '#' ∉ (lexStep d s).2 := fun h =>
        hs (List.mem_cons_of_mem _ ((lexStep_suffix d s).subset h))
      simp only [List.length_cons] at hn
      rw [ih _ (by omega) hsub rfl]
      cases (lexStep d s).1 <;> simp

theorem lex_append {s : List Char} {c : Char} (r : List Char) (hs : '#' ∉ s)
    (hc : c = ')' ∨ c = ' ') : lex (s ++ c :: r) = lex s ++ lex (c :: r) :=
  lex_breaks r hs (by unfold Breaks; tauto)

theorem lex_paren {s : List Char} (hs : '#' ∉ s) (r : List Char) :
    lex ('(' :: (s ++ ')' :: r)) = .lparen :: (lex s ++ .rparen :: lex r) := by
  rw [lex_lparen, lex_append r hs (Or.inl rfl), lex_rparen]

/-- Run with something below the stack. -/
def PState.frame (s : PState) (base : List Item) : PState := ⟨s.stack ++ .paren :: base, s.cur⟩

theorem reduceAll_frame (l : Nat) (e : Ast) (st base : List Item) :
    reduceAll l e (st ++ .paren :: base) =
      ((reduceAll l e st).1, (reduceAll l e st).2 ++ .paren :: base) := by
  induction st generalizing e with
  | nil => rfl
  | cons i st ih =>
    cases i <;> simp only [List.cons_append, reduceAll] <;> split <;> simp [ih]

theorem pstep_frame {s s' : PState} {t : Tok} (base : List Item) (h : pstep s t = some s') :
    pstep (s.frame base) t = some (s'.frame base) := by
  obtain ⟨st, cur⟩ := s
  cases cur with
  | some e =>
    simp only [pstep, PState.frame] at h ⊢
    cases t <;> simp only [reduceAll_frame, Option.some.injEq, reduceCtorEq] at h ⊢ <;>
      first
      | (subst h; rfl)
      | (split at h <;> simp only [Option.some.injEq, reduceCtorEq] at h
         all_goals (subst h; rename_i heq; rw [heq]; rfl))
  | none =>
    simp only [pstep, PState.frame] at h ⊢
    split at h <;> simp only [Option.some.injEq, reduceCtorEq] at h <;> (try subst h)
    all_goals first | rfl | skip
    all_goals
      cases st with
      | nil => rfl
      | cons i st => cases i <;> first | rfl | (exfalso; simp_all)

theorem prun_frame {s s' : PState} {ts : List Tok} (base : List Item) (h : prun s ts = some s') :
    prun (s.frame base) ts = some (s'.frame base) := by
  induction ts generalizing s with
  | nil => simp only [prun, Option.some.injEq] at h ⊢; rw [h]
  | cons t ts ih =>
    simp only [prun, Option.bind_eq_some_iff] at h ⊢
    obtain ⟨s1, h1, h2⟩ := h
    exact ⟨_, pstep_frame base h1, ih h2⟩

/-- A parseable string between parentheses reads as the formula it parses to. -/
theorem reads_parse {s : List Char} {t : Ast} (h : parse s = some t) :
    Reads (.lparen :: (lex s ++ [.rparen])) t := by
  intro st rest hst
  simp only [parse, parseToks, Option.bind_eq_some_iff] at h
  obtain ⟨⟨st', cur⟩, h1, h2⟩ := h
  cases cur with
  | none => simp [pfinish] at h2
  | some e =>
    simp only [pfinish] at h2
    split at h2
    · rename_i e' heq
      simp only [Option.some.injEq] at h2
      subst h2
      have h3 : prun ⟨.paren :: st, none⟩ (lex s) = _ := prun_frame st h1
      simp only [List.cons_append, List.append_assoc, prun, pstep_lparen hst, Option.bind_some,
        prun_append, h3, PState.frame]
      simp [pstep, reduceAll_frame, heq]
    · cases h2

/-! ## Units and chains -/

/-- `c!"abc"` is the list of characters of the literal. -/
macro:max "c!" s:str : term => do
  let cs := s.getString.toList.map Lean.Syntax.mkCharLit
  `([$(cs.toArray),*])

/-- An operand that the connectives of level at most 5 (`<->`, `->`, `^`, `|`, `&`) leave whole. -/
def ReadsLow (ts : List Tok) (t : Ast) : Prop :=
  ∀ st, OperandTop st → ∃ e st', prun ⟨st, none⟩ ts = some ⟨st', some e⟩ ∧
    ∀ l ≤ 5, reduceAll l e st' = reduceAll l t st

/-- The string `s`, followed by a space, a closing parenthesis or the end of input, is an operand
of the Boolean connectives and reads as `t`. -/
structure UnitStr (s : List Char) (t : Ast) : Prop where
  clean : '#' ∉ s
  reads : ReadsLow (lex s) t

theorem Reads.low {ts : List Tok} {t : Ast} (h : Reads ts t) : ReadsLow ts t := by
  intro st hst
  have := h st [] hst
  simp only [List.append_nil, prun] at this
  exact ⟨t, st, this, fun _ _ => rfl⟩

theorem ReadsLow.un {ts : List Tok} {t : Ast} (op : UnOp) (h : ReadsLow ts t) :
    ReadsLow (.un op :: ts) (.un op t) := by
  intro st hst
  obtain ⟨e, st', h1, h2⟩ := h (.un op :: st) trivial
  refine ⟨e, st', by simp [prun, pstep_un op hst, h1], fun l hl => ?_⟩
  rw [h2 l hl, reduceAll]
  have : reduces (unLevel op) (op == .always || op == .eventually) l = true := by
    cases op <;> simp only [reduces, unLevel, Bool.or_eq_true] <;> left <;>
      exact decide_eq_true (by omega)
  simp [this]

/-- `(s)` for any parseable `s`. -/
theorem unit_paren {s : List Char} {t : Ast} (hs : '#' ∉ s) (h : parse s = some t) :
    UnitStr (c!"(" ++ s ++ c!")") t := by
  refine ⟨by simp [hs], ?_⟩
  have : lex (c!"(" ++ s ++ c!")") = .lparen :: (lex s ++ [.rparen]) := by
    have := lex_paren hs []
    simpa using this
  rw [this]
  exact (reads_parse h).low

theorem unit_always {s : List Char} {t : Ast} (h : UnitStr s t) :
    UnitStr (c!"[]" ++ s) (.un .always t) := by
  refine ⟨by simp [h.clean], ?_⟩
  have : lex (c!"[]" ++ s) = .un .always :: lex s := by simp [lex_cons, lexStep]
  rw [this]; exact h.reads.un _

theorem unit_eventually {s : List Char} {t : Ast} (h : UnitStr s t) :
    UnitStr (c!"<>" ++ s) (.un .eventually t) := by
  refine ⟨by simp [h.clean], ?_⟩
  have : lex (c!"<>" ++ s) = .un .eventually :: lex s := by simp [lex_cons, lexStep]
  rw [this]; exact h.reads.un _

theorem unit_next {s : List Char} {t : Ast} (h : UnitStr s t) :
    UnitStr (c!"X " ++ s) (.un .next t) := by
  refine ⟨by simp [h.clean], ?_⟩
  have : lex (c!"X " ++ s) = .un .next :: lex s :=
    lex_unText (op := .next) (o := ['X']) rfl
  rw [this]; exact h.reads.un _

/-- `!` directly before an opening parenthesis. -/
theorem unit_not {s : List Char} {t : Ast} (h : UnitStr (c!"(" ++ s) t) :
    UnitStr (c!"!(" ++ s) (.un .not t) := by
  refine ⟨by simpa using h.clean, ?_⟩
  have : lex (c!"!(" ++ s) = .un .not :: lex (c!"(" ++ s) := by
    rw [List.cons_append, lex_cons]; simp [lexStep]
  rw [this]; exact h.reads.un _

/-- `! ` before anything. -/
theorem unit_not_space {s : List Char} {t : Ast} (h : UnitStr s t) :
    UnitStr (c!"! " ++ s) (.un .not t) := by
  refine ⟨by simp [h.clean], ?_⟩
  have : lex (c!"! " ++ s) = .un .not :: lex s :=
    lex_unText (op := .not) (o := ['!']) rfl
  rw [this]; exact h.reads.un _

/-- Identifiers. -/
theorem unit_ident {x : String} (h : IsIdent x) (hr : ¬ IsReserved x) :
    UnitStr x.toList (.var x) := by
  have hw := isWord_of_isIdent h
  refine ⟨?_, ?_⟩
  · obtain ⟨c, cs, e, h1, h2⟩ := hw
    rw [e]
    intro hm
    simp only [List.mem_cons] at hm
    rcases hm with rfl | hm
    · simp [isNameStart] at h1
    · have := List.all_eq_true.1 h2 _ hm
      simp [isNameChar] at this
  · have := lex_isWord hw (rest := []) delim_nil
    simp only [List.append_nil, lex_nil] at this
    rw [this, nameTok_of_not_reserved hr]
    intro st hst
    refine ⟨.var x, st, ?_, fun _ _ => rfl⟩
    simp [prun, pstep_name _ hst]

theorem UnitStr.parse {s : List Char} {t : Ast} (h : UnitStr s t) : parse s = some t := by
  obtain ⟨e, st', h1, h2⟩ := h.reads [] trivial
  simp only [Tulip.parse, parseToks, h1, Option.bind_some, pfinish, h2 0 (by omega), reduceAll]

/-- Tops of the stack that no connective reduces. -/
def BaseTop (st : List Item) : Prop := ∀ l t, reduceAll l t st = (t, st)

theorem baseTop_nil : BaseTop [] := fun _ _ => rfl

/-- A chain of operands joined by connectives of level `L`. -/
def ChainStr (L : Nat) (s : List Char) (t : Ast) : Prop :=
  '#' ∉ s ∧ ∃ e st', prun ⟨[], none⟩ (lex s) = some ⟨st', some e⟩ ∧
    ∀ l ≤ L, reduceAll l e st' = (t, [])

theorem UnitStr.chain {L : Nat} {s : List Char} {t : Ast} (h : UnitStr s t) (hL : L ≤ 5) :
    ChainStr L s t := by
  obtain ⟨e, st', h1, h2⟩ := h.reads [] trivial
  refine ⟨h.clean, e, st', h1, fun l hl => ?_⟩
  rw [h2 l (by omega)]; rfl

theorem ChainStr.parse {L : Nat} {s : List Char} {t : Ast} (h : ChainStr L s t) :
    Tulip.parse s = some t := by
  obtain ⟨_, e, st', h1, h2⟩ := h
  simp only [Tulip.parse, parseToks, h1, Option.bind_some, pfinish, h2 0 (by omega)]

theorem ChainStr.clean {L : Nat} {s : List Char} {t : Ast} (h : ChainStr L s t) : '#' ∉ s := h.1

theorem ChainStr.mono {L M : Nat} {s : List Char} {t : Ast} (h : ChainStr L s t) (hM : M ≤ L) :
    ChainStr M s t := by
  obtain ⟨hc, e, st', h1, h2⟩ := h
  exact ⟨hc, e, st', h1, fun l hl => h2 l (by omega)⟩

/-- Texts of connectives between spaces. -/
def Connective (txt : List Char) (op : BinOp) : Prop :=
  '#' ∉ txt ∧ binLevel op ≤ 5 ∧ ∀ r, lex (txt ++ ' ' :: r) = .bin op :: lex r

theorem ChainStr.append {txt : List Char} {op : BinOp} {s u : List Char} {x y : Ast}
    (hop : Connective txt op) (hs : ChainStr (binLevel op) s x) (hu : UnitStr u y) :
    ChainStr (binLevel op) (s ++ c!" " ++ txt ++ c!" " ++ u) (.bin op x y) := by
  obtain ⟨hc, e, st', h1, h2⟩ := hs
  refine ⟨by simp [hc, hop.1, hu.clean], ?_⟩
  have hl : lex (s ++ c!" " ++ txt ++ c!" " ++ u) = lex s ++ .bin op :: lex u := by
    have h := lex_append (c := ' ') (txt ++ ' ' :: u) hc (Or.inr rfl)
    simp only [List.append_assoc, List.cons_append, List.nil_append] at h ⊢
    rw [h, lex_space, hop.2.2]
  obtain ⟨e2, st2, h3, h4⟩ := hu.reads (.bin op x :: []) trivial
  refine ⟨e2, st2, ?_, fun l hl' => ?_⟩
  · rw [hl, prun_append, h1]
    simp only [Option.bind_some, prun, pstep, h2 _ (Nat.le_refl _), h3]
  · have hle : l ≤ 5 := by have := hop.2.1; omega
    rw [h4 l hle, reduceAll]
    have : reduces (binLevel op) true l = true := by simp [reduces]; omega
    simp [this, reduceAll]

theorem connective_and2 : Connective c!"&&" .and :=
  ⟨by decide, by decide, fun r => by simp [lex_cons, lexStep]⟩
theorem connective_and : Connective c!"&" .and :=
  ⟨by decide, by decide, fun r => by simp [lex_cons, lexStep]⟩
theorem connective_or2 : Connective c!"||" .or :=
  ⟨by decide, by decide, fun r => by simp [lex_cons, lexStep]⟩
theorem connective_or : Connective c!"|" .or :=
  ⟨by decide, by decide, fun r => by simp [lex_cons, lexStep]⟩
theorem connective_imp : Connective c!"->" .imp :=
  ⟨by decide, by decide, fun r => by simp [lex_cons, lexStep]⟩
theorem connective_bimp : Connective c!"<->" .bimp :=
  ⟨by decide, by decide, fun r => by simp [lex_cons, lexStep]⟩

/-- `x op y` for two units. -/
theorem chain_bin {txt : List Char} {op : BinOp} {s u : List Char} {x y : Ast}
    (hop : Connective txt op) (hs : UnitStr s x) (hu : UnitStr u y) :
    ChainStr (binLevel op) (s ++ c!" " ++ txt ++ c!" " ++ u) (.bin op x y) :=
  (hs.chain hop.2.1).append hop hu

/-- Python's `sep.join(xs)`. -/
def joinWith (sep : List Char) : List (List Char) → List Char
  | [] => []
  | [x] => x
  | x :: y :: xs => x ++ sep ++ joinWith sep (y :: xs)

/-- Left-nested application of a connective. -/
def foldBin (op : BinOp) : Ast → List Ast → Ast
  | t, [] => t
  | t, u :: us => foldBin op (.bin op t u) us

theorem joinWith_cons_eq (sep x : List Char) (xs : List (List Char)) :
    joinWith sep (x :: xs) = x ++ (xs.map (sep ++ ·)).flatten := by
  induction xs generalizing x with
  | nil => simp [joinWith]
  | cons y ys ih => simp [joinWith, ih]

theorem chain_join_aux {txt : List Char} {op : BinOp} (hop : Connective txt op)
    {s : List Char} {t : Ast} {xs : List (List Char)} {ts : List Ast}
    (hs : ChainStr (binLevel op) s t) (h : List.Forall₂ UnitStr xs ts) :
    ChainStr (binLevel op) (s ++ (xs.map (c!" " ++ txt ++ c!" " ++ ·)).flatten)
      (foldBin op t ts) := by
  induction h generalizing s t with
  | nil => simpa [foldBin] using hs
  | cons hx _ ih =>
    have := ih (hs.append hop hx)
    simpa [foldBin] using this

/-- A joined list of units. -/
theorem chain_join {txt : List Char} {op : BinOp} (hop : Connective txt op)
    {x : List Char} {t : Ast} {xs : List (List Char)} {ts : List Ast}
    (hx : UnitStr x t) (h : List.Forall₂ UnitStr xs ts) :
    ChainStr (binLevel op) (joinWith (c!" " ++ txt ++ c!" ") (x :: xs)) (foldBin op t ts) := by
  rw [joinWith_cons_eq]
  exact chain_join_aux hop (hx.chain hop.2.1) h

/-- Separators that read as a connective, white space included. -/
def Separator (sep : List Char) (op : BinOp) : Prop :=
  '#' ∉ sep ∧ binLevel op ≤ 5 ∧ (∃ c r, sep = c :: r ∧ Breaks c) ∧ ∀ r, lex (sep ++ r) = .bin op :: lex r

theorem ChainStr.append_sep {sep : List Char} {op : BinOp} {s u : List Char} {x y : Ast}
    (hop : Separator sep op) (hs : ChainStr (binLevel op) s x) (hu : UnitStr u y) :
    ChainStr (binLevel op) (s ++ (sep ++ u)) (.bin op x y) := by
  obtain ⟨hc, e, st', h1, h2⟩ := hs
  obtain ⟨o1, o2, ⟨c, r, rfl, o3⟩, o4⟩ := hop
  refine ⟨by simp only [List.mem_append, not_or]; exact ⟨hc, o1, hu.clean⟩, ?_⟩
  have hl : lex (s ++ (c :: r ++ u)) = lex s ++ .bin op :: lex u := by
    rw [List.cons_append, lex_breaks _ hc o3, ← List.cons_append, o4]
  obtain ⟨e2, st2, h3, h4⟩ := hu.reads (.bin op x :: []) trivial
  refine ⟨e2, st2, ?_, fun l hl' => ?_⟩
  · rw [hl, prun_append, h1]
    simp only [Option.bind_some, prun, pstep, h2 _ (Nat.le_refl _), h3]
  · rw [h4 l (by omega), reduceAll]
    have : reduces (binLevel op) true l = true := by simp [reduces]; omega
    simp [this, reduceAll]

theorem chain_join_sep_aux {sep : List Char} {op : BinOp} (hop : Separator sep op)
    {s : List Char} {t : Ast} {xs : List (List Char)} {ts : List Ast}
    (hs : ChainStr (binLevel op) s t) (h : List.Forall₂ UnitStr xs ts) :
    ChainStr (binLevel op) (s ++ (xs.map (sep ++ ·)).flatten) (foldBin op t ts) := by
  induction h generalizing s t with
  | nil => simpa [foldBin] using hs
  | cons hx _ ih =>
    have := ih (hs.append_sep hop hx)
    simpa [foldBin] using this

/-- A list of units joined by a separator. -/
theorem chain_join_sep {sep : List Char} {op : BinOp} (hop : Separator sep op)
    {x : List Char} {t : Ast} {xs : List (List Char)} {ts : List Ast}
    (hx : UnitStr x t) (h : List.Forall₂ UnitStr xs ts) :
    ChainStr (binLevel op) (joinWith sep (x :: xs)) (foldBin op t ts) := by
  rw [joinWith_cons_eq]
  exact chain_join_sep_aux hop (hx.chain hop.2.1) h

theorem sat_foldBin_and {σ : Trace} {i : Nat} (t : Ast) (ts : List Ast) :
    Sat σ i (foldBin .and t ts) ↔ Sat σ i t ∧ ∀ u ∈ ts, Sat σ i u := by
  induction ts generalizing t with
  | nil => simp [foldBin]
  | cons u us ih => simp [foldBin, ih, and_assoc]

theorem sat_foldBin_or {σ : Trace} {i : Nat} (t : Ast) (ts : List Ast) :
    Sat σ i (foldBin .or t ts) ↔ Sat σ i t ∨ ∃ u ∈ ts, Sat σ i u := by
  induction ts generalizing t with
  | nil => simp [foldBin]
  | cons u us ih => simp [foldBin, ih, or_assoc]

end Tulip
