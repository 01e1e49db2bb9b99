import Verif.Spec.Parser

/-! # Helper lemmas about the lexer and the parser -/

namespace Tulip

theorem lexStep_name {c : Char} (r : List Char) (h : isNameStart c = true) :
    lexStep c r =
      (some (nameTok (c :: r.takeWhile isNameChar)), r.dropWhile isNameChar) := by
  fun_cases lexStep c r <;> first | rfl | (exfalso; revert h; decide) | simp_all

theorem lexStep_dig {c : Char} (r : List Char) (h : isDig c = true) :
    lexStep c r = (some (.number (natOf (c :: r.takeWhile isDig))), r.dropWhile isDig) := by
  have h' : isNameStart c = false := by
    simp only [isDig, Bool.and_eq_true, decide_eq_true_eq] at h
    simp only [isNameStart, Bool.or_eq_false_iff, Bool.and_eq_false_iff, decide_eq_false_iff_not,
      beq_eq_false_iff_ne]
    omega
  fun_cases lexStep c r <;> first | rfl | (exfalso; revert h; decide) | simp_all

theorem lex_cons (c : Char) (r : List Char) :
    lex (c :: r) = (lexStep c r).1.toList ++ lex (lexStep c r).2 := by
  rw [lex]
  split <;> rename_i h <;> simp [h]

@[simp] theorem lex_nil : lex [] = [] := by rw [lex]

@[simp] theorem lex_space (r : List Char) : lex (' ' :: r) = lex r := by
  rw [lex_cons]; rfl

theorem takeWhile_append_stop {p : Char → Bool} {w rest : List Char} (hw : w.all p = true)
    (hr : ∀ c ∈ rest.head?, p c = false) :
    (w ++ rest).takeWhile p = w ∧ (w ++ rest).dropWhile p = rest := by
  induction w with
  | nil =>
    cases rest with
    | nil => simp
    | cons c r => simp at hr; simp [hr]
  | cons a w ih =>
    simp only [List.all_cons, Bool.and_eq_true] at hw
    simp [hw.1, ih hw.2]

theorem lex_word {c : Char} {w rest : List Char} (hc : isNameStart c = true)
    (hw : w.all isNameChar = true) (hr : ∀ c ∈ rest.head?, isNameChar c = false) :
    lex (c :: w ++ rest) = nameTok (c :: w) :: lex rest := by
  have := takeWhile_append_stop hw hr
  rw [List.cons_append, lex_cons, lexStep_name _ hc, this.1, this.2]; rfl

theorem isDig_ofNat {n : Nat} (h : n < 10) : isDig (Char.ofNat (48 + n)) = true := by
  have : ∀ n : Fin 10, isDig (Char.ofNat (48 + n.1)) = true := by decide
  exact this ⟨n, h⟩

theorem toNat_ofNat_dig {n : Nat} (h : n < 10) : (Char.ofNat (48 + n)).toNat = 48 + n := by
  have : ∀ n : Fin 10, (Char.ofNat (48 + n.1)).toNat = 48 + n.1 := by decide
  exact this ⟨n, h⟩

theorem digitsOf_spec (n : Nat) :
    (digitsOf n).all isDig = true ∧ digitsOf n ≠ [] ∧ natOf (digitsOf n) = n := by
  induction n using Nat.strongRecOn with
  | _ n ih =>
    unfold digitsOf
    split
    · rename_i h
      refine ⟨?_, by simp, ?_⟩
      · simp [isDig_ofNat h]
      · simp [natOf, toNat_ofNat_dig h]
    · rename_i h
      have := ih (n / 10) (by omega)
      have hm : n % 10 < 10 := Nat.mod_lt _ (by omega)
      refine ⟨?_, by simp, ?_⟩
      · simp only [List.all_append, this.1, Bool.true_and]
        simp [isDig_ofNat hm]
      · have h3 := this.2.2
        simp only [natOf] at h3 ⊢
        rw [List.foldl_append, h3]
        simp only [List.foldl_cons, List.foldl_nil, toNat_ofNat_dig hm]
        omega

theorem lex_digits (n : Nat) {rest : List Char} (hr : ∀ c ∈ rest.head?, isDig c = false) :
    lex (digitsOf n ++ rest) = .number n :: lex rest := by
  obtain ⟨h1, h2, h3⟩ := digitsOf_spec n
  obtain ⟨c, w, e⟩ := List.exists_cons_of_ne_nil h2
  rw [e] at h1 h3 ⊢
  simp only [List.all_cons, Bool.and_eq_true] at h1
  have := takeWhile_append_stop h1.2 hr
  rw [List.cons_append, lex_cons, lexStep_dig _ h1.1, this.1, this.2, h3]; rfl

/-- What may follow a printed subformula: nothing, a blank or a comma. -/
def Delim (rest : List Char) : Prop := ∀ c ∈ rest.head?, c = ' ' ∨ c = ','

theorem Delim.nameChar {rest} (h : Delim rest) : ∀ c ∈ rest.head?, isNameChar c = false := by
  intro c hc; rcases h c hc with rfl | rfl <;> decide

theorem Delim.dig {rest} (h : Delim rest) : ∀ c ∈ rest.head?, isDig c = false := by
  intro c hc; rcases h c hc with rfl | rfl <;> decide

theorem delim_space (r : List Char) : Delim (' ' :: r) := by simp [Delim]
theorem delim_comma (r : List Char) : Delim (',' :: r) := by simp [Delim]
theorem delim_nil : Delim [] := by simp [Delim]

/-- Tokens of an integer literal. -/
def intToks : Int → List Tok
  | .ofNat n => [.number n]
  | .negSucc n => [.ar .sub, .number (n + 1)]

theorem digitsOf_head (n : Nat) (rest : List Char) :
    ∃ c w, digitsOf n ++ rest = c :: w ∧ isDig c = true := by
  obtain ⟨h1, h2, -⟩ := digitsOf_spec n
  obtain ⟨c, w, e⟩ := List.exists_cons_of_ne_nil h2
  rw [e] at h1; simp only [List.all_cons, Bool.and_eq_true] at h1
  exact ⟨c, w ++ rest, by rw [e]; rfl, h1.1⟩

theorem lex_int (n : Int) {rest : List Char} (hr : Delim rest) :
    lex (intChars n ++ rest) = intToks n ++ lex rest := by
  cases n with
  | ofNat n => exact lex_digits n hr.dig
  | negSucc n =>
    obtain ⟨c, w, e, hc⟩ := digitsOf_head (n + 1) rest
    have hne : c ≠ '>' := by rintro rfl; revert hc; decide
    have : lexStep '-' (c :: w) = (some (.ar .sub), c :: w) := by
      simp [lexStep, hne]
    simp only [intChars, intToks, List.cons_append]
    rw [lex_cons, e, this]
    have := lex_digits (n + 1) (rest := rest) hr.dig
    rw [e] at this
    simp [this]

/-- Tokens of a printed formula. -/
def toks : Ast → List Tok
  | .var x => [nameTok x.toList]
  | .bool b => [.tf b]
  | .num n => intToks n
  | .str s => [nameTok s.toList]
  | .un op x => [.lparen, .un op] ++ toks x ++ [.rparen]
  | .bin op x y => [.lparen] ++ toks x ++ [.bin op] ++ toks y ++ [.rparen]
  | .cmp op x y => [.lparen] ++ toks x ++ [.cmp op] ++ toks y ++ [.rparen]
  | .ar op x y => [.lparen] ++ toks x ++ [.ar op] ++ toks y ++ [.rparen]
  | .trunc x n => [.lparen] ++ toks x ++ [.trunc] ++ intToks n ++ [.rparen]
  | .ite c x y =>
    [.lparen, .ite] ++ toks c ++ [.comma] ++ toks x ++ [.comma] ++ toks y ++ [.rparen]

/-- A word of the `NAME` regular expression. -/
def IsWord (w : List Char) : Prop :=
  ∃ c cs, w = c :: cs ∧ isNameStart c = true ∧ cs.all isNameChar = true

theorem lex_isWord {w rest : List Char} (h : IsWord w) (hr : Delim rest) :
    lex (w ++ rest) = nameTok w :: lex rest := by
  obtain ⟨c, cs, rfl, h1, h2⟩ := h
  exact lex_word h1 h2 hr.nameChar

/-- Names and string constants are words. -/
def Words : Ast → Prop
  | .var x | .str x => IsWord x.toList
  | .bool _ | .num _ => True
  | .un _ x => Words x
  | .bin _ x y | .cmp _ x y | .ar _ x y => Words x ∧ Words y
  | .trunc x _ => Words x
  | .ite c x y => Words c ∧ Words x ∧ Words y

@[simp] theorem lex_rparen (r : List Char) : lex (')' :: r) = .rparen :: lex r := by
  rw [lex_cons]; rfl
@[simp] theorem lex_lparen (r : List Char) : lex ('(' :: r) = .lparen :: lex r := by
  rw [lex_cons]; rfl
@[simp] theorem lex_comma (r : List Char) : lex (',' :: r) = .comma :: lex r := by
  rw [lex_cons]; rfl

theorem lex_unText {op : UnOp} {o r : List Char} (h : unText op = some o) :
    lex (o ++ ' ' :: r) = .un op :: lex r := by
  cases op <;> simp only [unText, Option.some.injEq, reduceCtorEq] at h <;> subst h
  · simp [lex_cons, lexStep]
  all_goals
    rw [lex_word (by decide) (by decide) (delim_space r).nameChar, lex_space]; rfl

theorem lex_binText {op : BinOp} {o r : List Char} (h : binText op = some o) :
    lex (o ++ ' ' :: r) = .bin op :: lex r := by
  cases op <;> simp only [binText, Option.some.injEq, reduceCtorEq] at h <;> subst h
  case strongUntil | weakUntil | release =>
    rw [lex_word (by decide) (by decide) (delim_space r).nameChar, lex_space]; rfl
  all_goals simp [lex_cons, lexStep]

theorem lex_cmpText {op : CmpOp} {o r : List Char} (h : cmpText op = some o) :
    lex (o ++ ' ' :: r) = .cmp op :: lex r := by
  cases op <;> simp only [cmpText, Option.some.injEq, reduceCtorEq] at h <;> subst h <;>
    simp [lex_cons, lexStep]

theorem lex_arText {op : ArOp} {o r : List Char} (h : arText op = some o) :
    lex (o ++ ' ' :: r) = .ar op :: lex r := by
  cases op <;> simp only [arText, Option.some.injEq] at h <;> subst h <;>
    simp [lex_cons, lexStep]

theorem lex_truncText (r : List Char) :
    lex (['<', '<', '>', '>'] ++ ' ' :: r) = .trunc :: lex r := by
  simp [lex_cons, lexStep]

theorem lex_bool (b : Bool) {s rest : List Char} (h : flatten (.bool b) = some s)
    (hr : Delim rest) : lex (s ++ rest) = .tf b :: lex rest := by
  cases b <;> simp only [flatten, Option.some.injEq] at h <;> subst h <;>
  · rw [lex_word (by decide) (by decide) hr.nameChar]; rfl

theorem lex_infix {a o b : List Char} {ka kb : List Tok} {k : Tok} (rest : List Char)
    (ha : ∀ rest, Delim rest → lex (a ++ rest) = ka ++ lex rest)
    (ho : ∀ r, lex (o ++ ' ' :: r) = k :: lex r)
    (hb : ∀ rest, Delim rest → lex (b ++ rest) = kb ++ lex rest) :
    lex (infixText a o b ++ rest) = [.lparen] ++ ka ++ [k] ++ kb ++ [.rparen] ++ lex rest := by
  have e : infixText a o b ++ rest = '(' :: ' ' :: (a ++ (' ' :: (o ++ ' ' ::
      (b ++ ' ' :: ')' :: rest)))) := by simp [infixText]
  rw [e, lex_lparen, lex_space, ha _ (delim_space _), lex_space, ho, hb _ (delim_space _)]
  simp

theorem lex_flatten {t : Ast} {s : List Char} (hw : Words t) (h : flatten t = some s) :
    ∀ rest, Delim rest → lex (s ++ rest) = toks t ++ lex rest := by
  induction t generalizing s with
  | var x =>
    intro rest hr
    simp only [flatten, Option.some.injEq] at h; subst h
    exact lex_isWord hw hr
  | str x =>
    intro rest hr
    simp only [flatten, Option.some.injEq] at h; subst h
    exact lex_isWord hw hr
  | bool b => intro rest hr; exact lex_bool b h hr
  | num n =>
    intro rest hr
    simp only [flatten, Option.some.injEq] at h; subst h
    exact lex_int n hr
  | un op x ih =>
    intro rest hr
    simp only [flatten, Option.bind_eq_bind, Option.bind_eq_some_iff, Option.pure_def,
      Option.some.injEq] at h
    obtain ⟨o, ho, a, ha, rfl⟩ := h
    have e : ['(', ' '] ++ o ++ [' '] ++ a ++ [' ', ')'] ++ rest =
        '(' :: ' ' :: (o ++ ' ' :: (a ++ ' ' :: ')' :: rest)) := by simp
    rw [e, lex_lparen, lex_space, lex_unText ho, ih hw ha _ (delim_space _)]
    simp [toks]
  | bin op x y ihx ihy =>
    intro rest hr
    simp only [flatten, Option.bind_eq_bind, Option.bind_eq_some_iff, Option.pure_def,
      Option.some.injEq] at h
    obtain ⟨o, ho, a, ha, b, hb, rfl⟩ := h
    rw [lex_infix rest (ihx hw.1 ha) (fun r => lex_binText ho) (ihy hw.2 hb)]
    simp [toks]
  | cmp op x y ihx ihy =>
    intro rest hr
    simp only [flatten, Option.bind_eq_bind, Option.bind_eq_some_iff, Option.pure_def,
      Option.some.injEq] at h
    obtain ⟨o, ho, a, ha, b, hb, rfl⟩ := h
    rw [lex_infix rest (ihx hw.1 ha) (fun r => lex_cmpText ho) (ihy hw.2 hb)]
    simp [toks]
  | ar op x y ihx ihy =>
    intro rest hr
    simp only [flatten, Option.bind_eq_bind, Option.bind_eq_some_iff, Option.pure_def,
      Option.some.injEq] at h
    obtain ⟨o, ho, a, ha, b, hb, rfl⟩ := h
    rw [lex_infix rest (ihx hw.1 ha) (fun r => lex_arText ho) (ihy hw.2 hb)]
    simp [toks]
  | trunc x n ih =>
    intro rest hr
    simp only [flatten, Option.bind_eq_bind, Option.bind_eq_some_iff, Option.pure_def,
      Option.some.injEq] at h
    obtain ⟨a, ha, rfl⟩ := h
    rw [lex_infix rest (ih hw ha) lex_truncText (fun r hr => lex_int n hr)]
    simp [toks]
  | ite c x y ihc ihx ihy =>
    intro rest hr
    simp only [flatten, Option.bind_eq_bind, Option.bind_eq_some_iff, Option.pure_def,
      Option.some.injEq] at h
    obtain ⟨a, ha, b, hb, d, hd, rfl⟩ := h
    have e : ['(', ' ', 'i', 't', 'e', ' '] ++ a ++ [',', ' '] ++ b ++ [',', ' '] ++ d ++
        [' ', ')'] ++ rest =
        '(' :: ' ' :: (['i', 't', 'e'] ++ (' ' :: (a ++ ',' :: ' ' :: (b ++ ',' :: ' ' ::
          (d ++ ' ' :: ')' :: rest))))) := by simp
    have hi : ∀ r, lex (['i', 't', 'e'] ++ ' ' :: r) = .ite :: lex r := by
      intro r
      rw [lex_word (by decide) (by decide) (delim_space r).nameChar, lex_space]; rfl
    rw [e, lex_lparen, lex_space, hi, ihc hw.1 ha _ (delim_comma _), lex_comma, lex_space,
      ihx hw.2.1 hb _ (delim_comma _), lex_comma, lex_space, ihy hw.2.2 hd _ (delim_space _)]
    simp [toks]

/-! ## Parser -/

/-- Stack tops at which an arbitrary operand is expected. -/
def OperandTop : List Item → Prop
  | .minus :: _ | .dq :: _ | .dqn _ :: _ | .trunc _ :: _ => False
  | _ => True

theorem prun_append (s : PState) (a b : List Tok) :
    prun s (a ++ b) = (prun s a).bind (prun · b) := by
  induction a generalizing s with
  | nil => simp [prun]
  | cons t a ih =>
    simp only [List.cons_append, prun]
    cases pstep s t <;> simp [ih]

/-- The operand token list `ts` is read as the expression `t`, on any stack. -/
def Reads (ts : List Tok) (t : Ast) : Prop :=
  ∀ st rest, OperandTop st → prun ⟨st, none⟩ (ts ++ rest) = prun ⟨st, some t⟩ rest

theorem pstep_name {st} (w : List Char) (h : OperandTop st) :
    pstep ⟨st, none⟩ (.name w) = some ⟨st, some (.var (String.ofList w))⟩ := by
  cases st with
  | nil => rfl
  | cons i st => cases i <;> first | rfl | exact h.elim

theorem pstep_number {st} (n : Nat) (h : OperandTop st) :
    pstep ⟨st, none⟩ (.number n) = some ⟨st, some (.num n)⟩ := by
  cases st with
  | nil => rfl
  | cons i st => cases i <;> first | rfl | exact h.elim

theorem pstep_tf {st} (b : Bool) (h : OperandTop st) :
    pstep ⟨st, none⟩ (.tf b) = some ⟨st, some (.bool b)⟩ := by
  cases st with
  | nil => rfl
  | cons i st => cases i <;> first | rfl | exact h.elim

theorem pstep_un {st} (op : UnOp) (h : OperandTop st) :
    pstep ⟨st, none⟩ (.un op) = some ⟨.un op :: st, none⟩ := by
  cases st with
  | nil => rfl
  | cons i st => cases i <;> first | rfl | exact h.elim

theorem pstep_minus {st} (h : OperandTop st) :
    pstep ⟨st, none⟩ (.ar .sub) = some ⟨.minus :: st, none⟩ := by
  cases st with
  | nil => rfl
  | cons i st => cases i <;> first | rfl | exact h.elim

theorem pstep_lparen {st} (h : OperandTop st) :
    pstep ⟨st, none⟩ .lparen = some ⟨.paren :: st, none⟩ := by
  cases st with
  | nil => rfl
  | cons i st => cases i <;> first | rfl | exact h.elim

theorem pstep_dquotes {st} (h : OperandTop st) :
    pstep ⟨st, none⟩ .dquotes = some ⟨.dq :: st, none⟩ := by
  cases st with
  | nil => rfl
  | cons i st => cases i <;> first | rfl | exact h.elim

theorem reads_int (n : Int) : Reads (intToks n) (.num n) := by
  intro st rest h
  cases n with
  | ofNat n => simp [intToks, prun, pstep_number n h]
  | negSucc n =>
    simp only [intToks, List.cons_append, List.nil_append, prun, pstep_minus h, Option.bind_some]
    have : pstep ⟨.minus :: st, none⟩ (.number (n + 1)) =
      some ⟨st, some (.num (Int.negSucc n))⟩ := rfl
    rw [this]; rfl

/-- Reading a parenthesised expression: the tokens inside must leave, on top of the opening
parenthesis, items that reduce to `t`. -/
theorem reads_paren {ts : List Tok} {t : Ast}
    (h : ∀ st rest, prun ⟨.paren :: st, none⟩ (ts ++ .rparen :: rest) = prun ⟨st, some t⟩ rest) :
    Reads ([.lparen] ++ ts ++ [.rparen]) t := by
  intro st rest hs
  simp only [List.append_assoc, List.cons_append, List.nil_append, prun, pstep_lparen hs,
    Option.bind_some]
  exact h st rest

theorem reads_bin {op : BinOp} {tx ty : List Tok} {x y : Ast} (hx : Reads tx x)
    (hy : Reads ty y) : Reads ([.lparen] ++ tx ++ [.bin op] ++ ty ++ [.rparen]) (.bin op x y) := by
  have := reads_paren (ts := tx ++ [.bin op] ++ ty) (t := .bin op x y) ?_
  · simpa using this
  · intro st rest
    simp only [List.append_assoc, List.cons_append, List.nil_append]
    rw [hx (.paren :: st) _ trivial]
    simp only [prun, pstep, reduceAll, Option.bind_some]
    rw [hy (.bin op x :: .paren :: st) _ trivial]
    have : binLevel op ≠ 0 := by cases op <;> decide
    simp [prun, pstep, reduceAll, reduces, Nat.pos_of_ne_zero this]

theorem reads_cmp {op : CmpOp} {tx ty : List Tok} {x y : Ast} (hx : Reads tx x)
    (hy : Reads ty y) : Reads ([.lparen] ++ tx ++ [.cmp op] ++ ty ++ [.rparen]) (.cmp op x y) := by
  have := reads_paren (ts := tx ++ [.cmp op] ++ ty) (t := .cmp op x y) ?_
  · simpa using this
  · intro st rest
    simp only [List.append_assoc, List.cons_append, List.nil_append]
    rw [hx (.paren :: st) _ trivial]
    simp only [prun, pstep, reduceAll, Option.bind_some]
    rw [hy (.cmp op x :: .paren :: st) _ trivial]
    have : cmpLevel op ≠ 0 := by cases op <;> decide
    simp [prun, pstep, reduceAll, reduces, Nat.pos_of_ne_zero this]

theorem reads_ar {op : ArOp} {tx ty : List Tok} {x y : Ast} (hx : Reads tx x)
    (hy : Reads ty y) : Reads ([.lparen] ++ tx ++ [.ar op] ++ ty ++ [.rparen]) (.ar op x y) := by
  have := reads_paren (ts := tx ++ [.ar op] ++ ty) (t := .ar op x y) ?_
  · simpa using this
  · intro st rest
    simp only [List.append_assoc, List.cons_append, List.nil_append]
    rw [hx (.paren :: st) _ trivial]
    simp only [prun, pstep, reduceAll, Option.bind_some]
    rw [hy (.ar op x :: .paren :: st) _ trivial]
    have : arLevel op ≠ 0 := by cases op <;> decide
    simp [prun, pstep, reduceAll, reduces, Nat.pos_of_ne_zero this]

theorem reads_un {op : UnOp} {tx : List Tok} {x : Ast} (hx : Reads tx x) :
    Reads ([.lparen, .un op] ++ tx ++ [.rparen]) (.un op x) := by
  have := reads_paren (ts := [.un op] ++ tx) (t := .un op x) ?_
  · simpa using this
  · intro st rest
    simp only [List.cons_append, List.nil_append, prun]
    rw [pstep_un (st := .paren :: st) op trivial, Option.bind_some,
      hx (.un op :: .paren :: st) _ trivial]
    have : unLevel op ≠ 0 := by cases op <;> decide
    simp [prun, pstep, reduceAll, reduces, Nat.pos_of_ne_zero this]

theorem reads_trunc {tx : List Tok} {x : Ast} {n : Nat} (hx : Reads tx x) :
    Reads ([.lparen] ++ tx ++ [.trunc] ++ [.number n] ++ [.rparen]) (.trunc x n) := by
  have := reads_paren (ts := tx ++ [.trunc] ++ [.number n]) (t := .trunc x n) ?_
  · simpa using this
  · intro st rest
    simp only [List.append_assoc, List.cons_append, List.nil_append]
    rw [hx (.paren :: st) _ trivial]
    simp [prun, pstep, reduceAll]

theorem reads_ite {tc tx ty : List Tok} {c x y : Ast} (hc : Reads tc c) (hx : Reads tx x)
    (hy : Reads ty y) :
    Reads ([.lparen, .ite] ++ tc ++ [.comma] ++ tx ++ [.comma] ++ ty ++ [.rparen])
      (.ite c x y) := by
  have := reads_paren (ts := [.ite] ++ tc ++ [.comma] ++ tx ++ [.comma] ++ ty)
    (t := .ite c x y) ?_
  · simpa using this
  · intro st rest
    simp only [List.append_assoc, List.cons_append, List.nil_append, prun]
    have : pstep ⟨.paren :: st, none⟩ .ite = some ⟨.ite0 :: st, none⟩ := rfl
    rw [this, Option.bind_some, hc (.ite0 :: st) _ trivial]
    simp only [prun, pstep, reduceAll, Option.bind_some]
    rw [hx (.ite1 c :: st) _ trivial]
    simp only [prun, pstep, reduceAll, Option.bind_some]
    rw [hy (.ite2 c x :: st) _ trivial]
    simp [prun, pstep, reduceAll]

end Tulip
