import Verif.Interfaces.Ltl2ba
import Verif.Spec.ParserLemmas

/-!
# Never claims are read as the Büchi automata they describe (C106)
-/

namespace Tulip
namespace Ba

/-! ## Spec: never claims -/

/-- Guards, as `ltl2ba` writes them. -/
inductive Expr
  | num (n : Nat)
  | var (w : List Char)
  | neg (a : Expr)
  | conj (a b : Expr)
  | disj (a b : Expr)
  | par (a : Expr)

namespace Expr

/-- The text of a guard. -/
def text : Expr → List Char
  | num n => digitsOf n
  | var w => w
  | neg a => c!"!" ++ a.text
  | conj a b => a.text ++ c!" && " ++ b.text
  | disj a b => a.text ++ c!" || " ++ b.text
  | par a => c!"(" ++ a.text ++ c!")"

/-- The truth of a guard, when the propositions are as `v` says. -/
def Holds (v : List Char → Bool) : Expr → Bool
  | num n => n != 0
  | var w => v w
  | neg a => !a.Holds v
  | conj a b => a.Holds v && b.Holds v
  | disj a b => a.Holds v || b.Holds v
  | par a => a.Holds v

/-- How strongly the main operator binds. -/
def level : Expr → Nat
  | disj _ _ => 0
  | conj _ _ => 1
  | _ => 2

/-- The parentheses are where they have to be. -/
def Fits : Expr → Prop
  | num _ => True
  | var _ => True
  | neg a => a.level = 2 ∧ a.Fits
  | conj a b => 1 ≤ a.level ∧ b.level = 2 ∧ a.Fits ∧ b.Fits
  | disj a b => 1 ≤ b.level ∧ a.Fits ∧ b.Fits
  | par a => a.Fits

/-- The propositions of a guard. -/
def vars : Expr → List (List Char)
  | num _ => []
  | var w => [w]
  | neg a => a.vars
  | conj a b => a.vars ++ b.vars
  | disj a b => a.vars ++ b.vars
  | par a => a.vars

end Expr

/-- What follows a label: an `if` with guarded jumps, or the statement `skip`, which is always possible. -/
inductive Body
  | ifs (cases : List (Expr × List Char))
  | skip

/-- A never claim: the text of the comment, and labelled statements. -/
structure Claim where
  comment : List Char
  clauses : List (List Char × Body)

/-- A guarded jump, as `ltl2ba` writes it. -/
def caseText (c : Expr × List Char) : List Char := c!"\t:: " ++ c.1.text ++ c!" -> goto " ++ c.2 ++ c!"\n"

/-- A labelled statement, as `ltl2ba` writes it. -/
def clauseText (c : List Char × Body) : List Char :=
  c.1 ++ c!":\n" ++ match c.2 with
    | .ifs cases => c!"\tif\n" ++ cases.flatMap caseText ++ c!"\tfi;\n"
    | .skip => c!"\tskip\n"

/-- A never claim, as `ltl2ba` writes it. -/
def Claim.text (c : Claim) : List Char :=
  c!"never { /* " ++ c.comment ++ c!" */\n" ++ c.clauses.flatMap clauseText ++ c!"}\n"

/-- The meaning of a statement. -/
def Body.Moves (b : Body) (u v : List Char) (val : List Char → Bool) : Prop :=
  match b with
  | .ifs cases => ∃ g, (g, v) ∈ cases ∧ g.Holds val = true
  | .skip => v = u

/-- A never claim accepts a word: it can be executed forever from its first statement, in step with the
word, and passes infinitely often a label that begins with `accept`. -/
def Claim.Accepts (c : Claim) (word : Nat → List Char → Bool) : Prop :=
  ∃ r : Nat → List Char, (∃ b rest, c.clauses = (r 0, b) :: rest) ∧
    (∀ i, ∃ b, (r i, b) ∈ c.clauses ∧ b.Moves (r i) (r (i + 1)) (word i)) ∧
    ∀ n, ∃ m, n ≤ m ∧ c!"accept" <+: r m

/-! ## Spec: boolean expressions of Python -/

/-- Tokens of Python. -/
inductive PyTok
  | lpar | rpar | and | or | not
  | name (w : List Char)
  | num (n : Nat)
  deriving DecidableEq, Repr

/-- The keywords of Python. -/
def pyKeywords : List (List Char) :=
  [c!"False", c!"None", c!"True", c!"and", c!"as", c!"assert", c!"async", c!"await", c!"break", c!"class",
   c!"continue", c!"def", c!"del", c!"elif", c!"else", c!"except", c!"finally", c!"for", c!"from", c!"global",
   c!"if", c!"import", c!"in", c!"is", c!"lambda", c!"nonlocal", c!"not", c!"or", c!"pass", c!"raise",
   c!"return", c!"try", c!"while", c!"with", c!"yield"]

/-- A word of Python; the other keywords are not in boolean expressions. -/
def pyWord (w : List Char) : Option PyTok :=
  if w = c!"and" then some .and
  else if w = c!"or" then some .or
  else if w = c!"not" then some .not
  else if w ∈ pyKeywords then none
  else some (.name w)

/-- The tokens of a text, with fuel. -/
def pyLex : Nat → List Char → Option (List PyTok)
  | _, [] => some []
  | 0, _ => none
  | n + 1, c :: r =>
    if c = ' ' then pyLex n r
    else if c = '(' then (pyLex n r).map (.lpar :: ·)
    else if c = ')' then (pyLex n r).map (.rpar :: ·)
    else if isIdStart c then
      match pyWord (c :: r.takeWhile isIdChar) with
      | some t => (pyLex n (r.dropWhile isIdChar)).map (t :: ·)
      | none => none
    else if isDig c then (pyLex n (r.dropWhile isDig)).map (.num (natOf (c :: r.takeWhile isDig)) :: ·)
    else none

/-- Boolean expressions of Python. -/
inductive PyB
  | num (n : Nat)
  | name (w : List Char)
  | not (a : PyB)
  | and (a b : PyB)
  | or (a b : PyB)

/-- Whether an expression counts as true. -/
def PyB.Holds (v : List Char → Bool) : PyB → Bool
  | num n => n != 0
  | name w => v w
  | not a => !a.Holds v
  | and a b => a.Holds v && b.Holds v
  | or a b => a.Holds v || b.Holds v

/-- The grammar of Python, with fuel: `disjunction` (0), `conjunction` (1), `inversion` (2). -/
def pyParse : Nat → Nat → List PyTok → Option (PyB × List PyTok)
  | 0, _, _ => none
  | n + 1, 0, ts => match pyParse n 1 ts with
    | some (a, .or :: ts) => (pyParse n 0 ts).map fun p => (.or a p.1, p.2)
    | x => x
  | n + 1, 1, ts => match pyParse n 2 ts with
    | some (a, .and :: ts) => (pyParse n 1 ts).map fun p => (.and a p.1, p.2)
    | x => x
  | n + 1, _ + 2, .not :: ts => (pyParse n 2 ts).map fun p => (.not p.1, p.2)
  | _ + 1, _ + 2, .name w :: ts => some (.name w, ts)
  | _ + 1, _ + 2, .num k :: ts => some (.num k, ts)
  | n + 1, _ + 2, .lpar :: ts => match pyParse n 0 ts with
    | some (a, .rpar :: ts) => some (a, ts)
    | _ => none
  | _ + 1, _ + 2, _ => none

/-- The expression that Python reads from a text. -/
def pyRead (s : List Char) : Option PyB :=
  match pyLex s.length s with
  | none => none
  | some ts => match pyParse (4 * ts.length) 0 ts with
    | some (a, []) => some a
    | _ => none

/-! ## Spec: automata with guards -/

/-- A guard of the automaton is true. -/
def Guard.Holds (v : List Char → Bool) : Guard → Prop
  | .int n => n ≠ 0
  | .str s => ∃ e, pyRead s = some e ∧ e.Holds v = true

/-- The automaton accepts a word, in the sense of Büchi. -/
def Auto.Accepts (a : Auto) (word : Nat → List Char → Bool) : Prop :=
  ∃ r : Nat → List Char, r 0 ∈ a.initial ∧
    (∀ i, ∃ g, (r i, r (i + 1), g) ∈ a.edges ∧ g.Holds (word i)) ∧
    ∀ n, ∃ m, n ≤ m ∧ r m ∈ a.accepting

/-- An identifier that is not a word of the language of claims. -/
def IsName (w : List Char) : Prop :=
  (∃ c r, w = c :: r ∧ isIdStart c = true ∧ ∀ d ∈ r, isIdChar d = true) ∧
    w ∉ [c!"goto", c!"if", c!"fi", c!"never", c!"skip"]

/-- A claim is well formed: the comment is in one line, there are statements, each of them is an `if` with
cases, names are identifiers and guards have their parentheses. Propositions are not keywords of Python. -/
structure Claim.Ok (c : Claim) : Prop where
  comment : '\n' ∉ c.comment
  nonempty : c.clauses ≠ []
  label : ∀ p ∈ c.clauses, IsName p.1
  ifs : ∀ p ∈ c.clauses, ∃ cases, p.2 = .ifs cases ∧ cases ≠ [] ∧
    ∀ q ∈ cases, q.1.Fits ∧ (∀ x ∈ q.1.vars, IsName x ∧ x ∉ pyKeywords) ∧ IsName q.2

/-! ## The lexer -/

theorem commentRest_length : ∀ (s r : List Char), commentRest s = some r → r.length ≤ s.length
  | [], _, h => by simp [commentRest] at h
  | c :: s, r, h => by
    simp only [commentRest] at h
    split at h
    · simp at h
    · split at h
      · rename_i t ht
        cases h
        have := commentRest_length s _ ht
        simp; omega
      · split at h
        · cases h
          simp; omega
        · simp at h

theorem lexStep_length' (c : Char) (r : List Char) : (lexStep c r).2.length ≤ r.length := by
  unfold lexStep
  split
  · exact length_dropWhile_le _ _
  · split
    · exact length_dropWhile_le _ _
    · split <;> try (simp; done)
      rename_i s _ _
      cases h : commentRest s with
      | none => simp
      | some t =>
        have := commentRest_length s t h
        simp; omega

theorem lexLoop_eq : ∀ (n : Nat) (s : List Char), s.length ≤ n → ∀ m, s.length ≤ m → lexLoop n s = lexLoop m s
  | 0, s, h, m, _ => by
    have : s = [] := List.length_eq_zero_iff.1 (by omega)
    subst this
    cases m <;> rfl
  | n + 1, [], _, m, _ => by cases m <;> rfl
  | n + 1, c :: r, h, 0, h' => by simp at h'
  | n + 1, c :: r, h, m + 1, h' => by
    have hl := lexStep_length' c r
    simp only [List.length_cons] at h h'
    simp only [lexLoop]
    cases hs : lexStep c r with
    | mk t s =>
      rw [hs] at hl
      simp only at hl
      have := lexLoop_eq n s (by omega) m (by omega)
      cases t <;> simp [this]

theorem lex_cons (c : Char) (r : List Char) : lex (c :: r) = (lexStep c r).1.toList ++ lex (lexStep c r).2 := by
  have hl := lexStep_length' c r
  show lexLoop (r.length + 1) (c :: r) = _
  simp only [lexLoop, lex]
  cases hs : lexStep c r with
  | mk t s =>
    rw [hs] at hl
    have := lexLoop_eq r.length s hl s.length (Nat.le_refl _)
    cases t <;> simp [this]

theorem lex_nil : lex [] = [] := rfl

theorem lex_space (r : List Char) : lex (' ' :: r) = lex r := by
  rw [lex_cons]; simp [lexStep, isIdStart, isDig]

theorem lex_tab (r : List Char) : lex ('\t' :: r) = lex r := by
  rw [lex_cons]; simp [lexStep, isIdStart, isDig]

theorem lex_newline (r : List Char) : lex ('\n' :: r) = lex r := by
  rw [lex_cons]; simp [lexStep, isIdStart, isDig]

/-- The text does not go on with a letter, a digit or an underscore. -/
def Stops (r : List Char) : Prop := ∀ c ∈ r.head?, isIdChar c = false

theorem span_all {p : Char → Bool} {w r : List Char} (hw : ∀ d ∈ w, p d = true) (hr : ∀ c ∈ r.head?, p c = false) :
    (w ++ r).takeWhile p = w ∧ (w ++ r).dropWhile p = r := by
  induction w with
  | nil =>
    cases r with
    | nil => simp
    | cons c r => simp [hr c (by simp)]
  | cons d w ih =>
    have := ih fun d h => hw d (by simp [h])
    simp [hw d (by simp), this]

theorem lex_word {c : Char} {w r : List Char} (hc : isIdStart c = true) (hw : ∀ d ∈ w, isIdChar d = true)
    (hr : Stops r) : lex (c :: w ++ r) = word (c :: w) :: lex r := by
  have := span_all hw hr
  rw [List.cons_append, lex_cons]
  simp [lexStep, hc, this]

theorem lex_name {w r : List Char} (hw : IsName w) (hr : Stops r) : lex (w ++ r) = .name w :: lex r := by
  obtain ⟨⟨c, s, rfl, hc, hs⟩, hk⟩ := hw
  rw [lex_word hc hs hr]
  simp only [List.mem_cons, List.not_mem_nil, or_false, not_or] at hk
  simp [word, hk]

theorem idStart_not_dig {c : Char} (h : isDig c = true) : isIdStart c = false := by
  simp only [isDig, Bool.and_eq_true, decide_eq_true_eq] at h
  have h2 : c ≠ '_' := by rintro rfl; revert h; decide
  simp [isIdStart, h2]
  omega

theorem stops_dig {r : List Char} (h : Stops r) : ∀ c ∈ r.head?, isDig c = false := fun c hc => by
  have := h c hc
  simp only [isIdChar, Bool.or_eq_false_iff] at this
  exact this.2

theorem lex_num (n : Nat) {r : List Char} (hr : Stops r) : lex (digitsOf n ++ r) = .num n :: lex r := by
  obtain ⟨h1, h2, h3⟩ := digitsOf_spec n
  cases hd : digitsOf n with
  | nil => exact absurd hd h2
  | cons c w =>
    rw [hd] at h1 h3
    simp only [List.all_cons, Bool.and_eq_true] at h1
    have := span_all (p := isDig) (w := w) (fun d hd => List.all_eq_true.1 h1.2 d hd) (stops_dig hr)
    rw [List.cons_append, lex_cons]
    simp [lexStep, idStart_not_dig h1.1, h1.1, this, h3]

/-- The tokens of a guard. -/
def Expr.toks : Expr → List Tok
  | num n => [.num n]
  | var w => [.name w]
  | neg a => .not :: a.toks
  | conj a b => a.toks ++ .and :: b.toks
  | disj a b => a.toks ++ .or :: b.toks
  | par a => .lpar :: a.toks ++ [.rpar]

theorem text_head : ∀ (e : Expr), (∀ x ∈ e.vars, IsName x) → ∀ r, ∃ c s, e.text ++ r = c :: s ∧ c ≠ '='
  | .num n, _, r => by
    obtain ⟨c, w, h, hc⟩ := digitsOf_head n r
    exact ⟨c, w, h, by rintro rfl; revert hc; decide⟩
  | .var w, h, r => by
    obtain ⟨⟨c, s, rfl, hc, -⟩, -⟩ := h w (by simp [Expr.vars])
    exact ⟨c, s ++ r, rfl, by rintro rfl; revert hc; decide⟩
  | .neg a, _, r => ⟨'!', a.text ++ r, rfl, by decide⟩
  | .conj a b, h, r => by
    simp only [Expr.text, List.append_assoc]
    exact text_head a (fun x hx => h x (by simp [Expr.vars, hx])) _
  | .disj a b, h, r => by
    simp only [Expr.text, List.append_assoc]
    exact text_head a (fun x hx => h x (by simp [Expr.vars, hx])) _
  | .par a, _, r => ⟨'(', a.text ++ (c!")" ++ r), by simp [Expr.text], by decide⟩

theorem lex_expr : ∀ (e : Expr), (∀ x ∈ e.vars, IsName x) → ∀ r, Stops r → lex (e.text ++ r) = e.toks ++ lex r
  | .num n, _, r, hr => lex_num n hr
  | .var w, h, r, hr => lex_name (h w (by simp [Expr.vars])) hr
  | .neg a, h, r, hr => by
    obtain ⟨c, s, hc, hne⟩ := text_head a (fun x hx => h x (by simp [Expr.vars, hx])) r
    have := lex_expr a (fun x hx => h x (by simp [Expr.vars, hx])) r hr
    simp only [Expr.text, Expr.toks, List.cons_append, List.nil_append]
    rw [lex_cons, this.symm, hc]
    have : lexStep '!' (c :: s) = (some .not, c :: s) := by
      simp [lexStep, isIdStart, isDig, hne]
    rw [this]
    rfl
  | .conj a b, h, r, hr => by
    have ha := lex_expr a (fun x hx => h x (by simp [Expr.vars, hx])) (' ' :: '&' :: '&' :: ' ' :: (b.text ++ r))
      (by intro c hc; simp at hc; subst hc; decide)
    have hb := lex_expr b (fun x hx => h x (by simp [Expr.vars, hx])) r hr
    simp only [Expr.text, Expr.toks, List.append_assoc, List.cons_append, List.nil_append]
    rw [ha, lex_space, lex_cons]
    simp only [lexStep, isIdStart, isDig]
    simp [lex_space, hb]
  | .disj a b, h, r, hr => by
    have ha := lex_expr a (fun x hx => h x (by simp [Expr.vars, hx])) (' ' :: '|' :: '|' :: ' ' :: (b.text ++ r))
      (by intro c hc; simp at hc; subst hc; decide)
    have hb := lex_expr b (fun x hx => h x (by simp [Expr.vars, hx])) r hr
    simp only [Expr.text, Expr.toks, List.append_assoc, List.cons_append, List.nil_append]
    rw [ha, lex_space, lex_cons]
    simp only [lexStep, isIdStart, isDig]
    simp [lex_space, hb]
  | .par a, h, r, hr => by
    have ha := lex_expr a (fun x hx => h x (by simp [Expr.vars, hx])) (')' :: r)
      (by intro c hc; simp at hc; subst hc; decide)
    simp only [Expr.text, Expr.toks, List.append_assoc, List.cons_append, List.nil_append]
    rw [lex_cons]
    simp only [lexStep, isIdStart, isDig]
    simp [ha]
    rw [lex_cons]
    simp [lexStep, isIdStart, isDig]

/-- The tokens of a guarded jump. -/
def caseToks (c : Expr × List Char) : List Tok := .colon2 :: c.1.toks ++ [.imp, .goto, .name c.2]

/-- The tokens of a labelled `if`. -/
def clauseToks (u : List Char) (cases : List (Expr × List Char)) : List Tok :=
  [.name u, .colon, .ifw] ++ cases.flatMap caseToks ++ [.fi, .semi]

theorem stops_of {c : Char} {r : List Char} (h : isIdChar c = false) : Stops (c :: r) := by
  intro d hd
  simp at hd
  subst hd
  exact h

/-- The conditions on a guarded jump. -/
def CaseOk (q : Expr × List Char) : Prop :=
  q.1.Fits ∧ (∀ x ∈ q.1.vars, IsName x ∧ x ∉ pyKeywords) ∧ IsName q.2

theorem lex_kw {w : List Char} {t : Tok} (hw : ∃ c s, w = c :: s ∧ isIdStart c = true ∧ ∀ d ∈ s, isIdChar d = true)
    (ht : word w = t) {r : List Char} (hr : Stops r) : lex (w ++ r) = t :: lex r := by
  obtain ⟨c, s, rfl, hc, hs⟩ := hw
  rw [lex_word hc hs hr, ht]

theorem lex_case {q : Expr × List Char} (h : CaseOk q) (r : List Char) :
    lex (caseText q ++ r) = caseToks q ++ lex r := by
  obtain ⟨-, hv, hn⟩ := h
  simp only [caseText, caseToks, List.append_assoc, List.cons_append, List.nil_append]
  rw [lex_tab, lex_cons]
  simp only [lexStep, isIdStart, isDig]
  simp only [show ((65 ≤ ':'.toNat && ':'.toNat ≤ 90 || 97 ≤ ':'.toNat && ':'.toNat ≤ 122 || ':' == '_') = true) = False by decide,
    show ((48 ≤ ':'.toNat && ':'.toNat ≤ 57) = true) = False by decide, if_false, Option.toList, lex_space]
  rw [lex_expr q.1 (fun x hx => (hv x hx).1) _ (stops_of (by decide)), lex_space]
  rw [lex_cons]
  simp only [lexStep, isIdStart, isDig]
  simp only [show ((65 ≤ '-'.toNat && '-'.toNat ≤ 90 || 97 ≤ '-'.toNat && '-'.toNat ≤ 122 || '-' == '_') = true) = False by decide,
    show ((48 ≤ '-'.toNat && '-'.toNat ≤ 57) = true) = False by decide, if_false, Option.toList, lex_space]
  rw [show ('g' :: 'o' :: 't' :: 'o' :: ' ' :: (q.2 ++ '\n' :: r)) = c!"goto" ++ (' ' :: (q.2 ++ '\n' :: r)) from rfl,
    lex_kw (t := .goto) ⟨'g', c!"oto", rfl, by decide, by decide⟩ (by decide) (stops_of (by decide)), lex_space,
    lex_name hn (stops_of (by decide)), lex_newline]
  simp

theorem lex_cases : ∀ (l : List (Expr × List Char)), (∀ q ∈ l, CaseOk q) → ∀ r,
    lex (l.flatMap caseText ++ r) = l.flatMap caseToks ++ lex r
  | [], _, r => rfl
  | q :: l, h, r => by
    simp only [List.flatMap_cons, List.append_assoc]
    rw [lex_case (h q (by simp)), lex_cases l (fun q hq => h q (by simp [hq]))]

theorem lex_clause {u : List Char} {l : List (Expr × List Char)} (hu : IsName u) (h : ∀ q ∈ l, CaseOk q)
    (r : List Char) : lex (clauseText (u, .ifs l) ++ r) = clauseToks u l ++ lex r := by
  simp only [clauseText, clauseToks, List.append_assoc, List.cons_append, List.nil_append]
  rw [lex_name hu (stops_of (by decide))]
  have hcolon : ∀ s, lex (':' :: '\n' :: s) = .colon :: lex s := by
    intro s
    rw [lex_cons]
    have : lexStep ':' ('\n' :: s) = (some .colon, '\n' :: s) := by simp [lexStep, isIdStart, isDig]
    rw [this]
    simp [lex_newline]
  rw [hcolon, lex_tab]
  rw [show ('i' :: 'f' :: '\n' :: (l.flatMap caseText ++ '\t' :: 'f' :: 'i' :: ';' :: '\n' :: r)) =
      c!"if" ++ ('\n' :: (l.flatMap caseText ++ '\t' :: 'f' :: 'i' :: ';' :: '\n' :: r)) from rfl,
    lex_kw (t := .ifw) ⟨'i', c!"f", rfl, by decide, by decide⟩ (by decide) (stops_of (by decide)), lex_newline,
    lex_cases l h, lex_tab]
  rw [show ('f' :: 'i' :: ';' :: '\n' :: r) = c!"fi" ++ (';' :: '\n' :: r) from rfl,
    lex_kw (t := .fi) ⟨'f', c!"i", rfl, by decide, by decide⟩ (by decide) (stops_of (by decide))]
  have hsemi : ∀ s, lex (';' :: '\n' :: s) = .semi :: lex s := by
    intro s
    rw [lex_cons]
    have : lexStep ';' ('\n' :: s) = (some .semi, '\n' :: s) := by simp [lexStep, isIdStart, isDig]
    rw [this]
    simp [lex_newline]
  rw [hsemi]

/-- The conditions on a labelled statement. -/
def ClauseOk (p : List Char × Body) : Prop :=
  IsName p.1 ∧ ∃ cases, p.2 = .ifs cases ∧ cases ≠ [] ∧ ∀ q ∈ cases, CaseOk q

/-- The cases of a statement. -/
def casesOf (p : List Char × Body) : List (Expr × List Char) :=
  match p.2 with
  | .ifs l => l
  | .skip => []

theorem lex_clauses : ∀ (l : List (List Char × Body)), (∀ p ∈ l, ClauseOk p) → ∀ r,
    lex (l.flatMap clauseText ++ r) = l.flatMap (fun p => clauseToks p.1 (casesOf p)) ++ lex r
  | [], _, r => rfl
  | (u, b) :: l, h, r => by
    obtain ⟨hu, cases, hb, -, hc⟩ := h (u, b) (by simp)
    simp only at hb
    subst hb
    simp only [List.flatMap_cons, List.append_assoc]
    rw [lex_clause hu hc, lex_clauses l (fun q hq => h q (by simp [hq]))]
    rfl

theorem commentRest_line {s : List Char} (h : '\n' ∉ s) (r : List Char) :
    commentRest (s ++ c!" */\n" ++ r) = some ('\n' :: r) := by
  induction s with
  | nil => simp [commentRest]
  | cons c s ih =>
    simp only [List.mem_cons, not_or] at h
    have := ih h.2
    simp only [List.cons_append, commentRest]
    rw [if_neg (fun e => h.1 e.symm)]
    simp only [List.append_assoc] at this ⊢
    rw [this]

theorem lex_claim {c : Claim} (h : c.Ok) :
    lex c.text = [.never, .lbrace, .comment] ++ c.clauses.flatMap (fun p => clauseToks p.1 (casesOf p)) ++ [.rbrace] := by
  simp only [Claim.text, List.append_assoc]
  rw [show c!"never { /* " ++ (c.comment ++ (c!" */\n" ++ (c.clauses.flatMap clauseText ++ c!"}\n"))) =
    c!"never" ++ (' ' :: '{' :: ' ' :: '/' :: '*' :: (' ' :: c.comment ++ c!" */\n" ++ (c.clauses.flatMap clauseText ++ c!"}\n")))
    by simp,
    lex_kw (t := .never) ⟨'n', c!"ever", rfl, by decide, by decide⟩ (by decide) (stops_of (by decide)), lex_space]
  have h1 : ∀ s, lex ('{' :: s) = .lbrace :: lex s := by
    intro s
    rw [lex_cons]
    simp [lexStep, isIdStart, isDig]
  have h2 : ∀ s, lex ('}' :: s) = .rbrace :: lex s := by
    intro s
    rw [lex_cons]
    simp [lexStep, isIdStart, isDig]
  rw [h1, lex_space, lex_cons]
  have h3 := commentRest_line (s := ' ' :: c.comment) (by simp [h.comment]) (c.clauses.flatMap clauseText ++ c!"}\n")
  have h4 : lexStep '/' ('*' :: (' ' :: c.comment ++ c!" */\n" ++ (c.clauses.flatMap clauseText ++ c!"}\n"))) =
      (some .comment, '\n' :: (c.clauses.flatMap clauseText ++ c!"}\n")) := by
    simp only [lexStep, isIdStart, isDig]
    simp only [show ((65 ≤ '/'.toNat && '/'.toNat ≤ 90 || 97 ≤ '/'.toNat && '/'.toNat ≤ 122 || '/' == '_') = true) = False by decide,
      show ((48 ≤ '/'.toNat && '/'.toNat ≤ 57) = true) = False by decide, if_false, h3]
  rw [h4]
  simp only [Option.toList, lex_newline, List.cons_append, List.nil_append]
  rw [lex_clauses c.clauses (fun p hp => ⟨h.label p hp, h.ifs p hp⟩), h2, lex_newline, lex_nil]

/-! ## The parser -/

/-- The parser without errors. -/
def go : Pos → Auto → List Tok → Option (Pos × Auto)
  | p, a, [] => some (p, a)
  | p, a, t :: ts => match step p a t with
    | (some q, a) => go q a ts
    | (none, _) => none

theorem go_append : ∀ (ts us : List Tok) (p : Pos) (a : Auto),
    go p a (ts ++ us) = (go p a ts).bind fun q => go q.1 q.2 us
  | [], us, p, a => rfl
  | t :: ts, us, p, a => by
    simp only [List.cons_append, go]
    cases hs : step p a t with
    | mk q b =>
      cases q with
      | none => rfl
      | some q => exact go_append ts us q b

theorem run_go : ∀ (ts : List Tok) (p : Pos) (n : Nat) (a b : Auto), go p a ts = some (.done, b) →
    run p n a ts = .ok b
  | [], p, n, a, b, h => by
    simp only [go, Option.some.injEq, Prod.mk.injEq] at h
    simp [run, h.1, h.2]
  | t :: ts, p, n, a, b, h => by
    simp only [go] at h
    simp only [run]
    cases hs : step p a t with
    | mk q c =>
      rw [hs] at h
      cases q with
      | none => simp at h
      | some q => exact run_go ts q _ c b h

/-- The value of a guard. -/
def Expr.val : Expr → Guard
  | num n => .int n
  | var w => .str w
  | neg a => notG a.val
  | conj a b => andG a.val b.val
  | disj a b => orG a.val b.val
  | par a => parenG a.val

/-- The effect of reading a guard. -/
def symsEff (l : List (List Char)) (a : Auto) : Auto := l.foldl (fun a w => addSymbol w a) a

/-- The stack lets an operand of this level stand. -/
def StackOk (lvl : Nat) : List Item → Prop
  | .neg :: _ => lvl = 2
  | .conj _ :: _ => lvl = 2
  | .disj _ :: _ => 1 ≤ lvl
  | _ => True

theorem reduce_and {s : List Item} (h : StackOk 1 s) (g : Guard) : reduce .and s g = (s, g) := by
  cases s with
  | nil => rfl
  | cons i s => cases i <;> simp_all [StackOk, reduce]

theorem reduce_zero {s : List Item} (h : StackOk 0 s) (t : Tok) (g : Guard) : reduce t s g = (s, g) := by
  cases s with
  | nil => rfl
  | cons i s => cases i <;> simp_all [StackOk, reduce]

theorem StackOk.mono {l m : Nat} {s : List Item} (h : StackOk l s) (hl : l ≤ m) (hm : m ≤ 2) : StackOk m s := by
  cases s with
  | nil => trivial
  | cons i s => cases i <;> simp_all [StackOk] <;> omega

theorem level_le (e : Expr) : e.level ≤ 2 := by cases e <;> simp [Expr.level]

theorem go_expr : ∀ (e : Expr), e.Fits → ∀ (c : Ctx) (s : List Item) (a : Auto) (t : Tok) (ts : List Tok),
    StackOk e.level s → (t = .and ∨ t = .or ∨ t = .rpar ∨ t = .imp) → (e.level = 0 → t ≠ .and) →
    go (.operand c s) a (e.toks ++ t :: ts) = go (.after c s e.val none) (symsEff e.vars a) (t :: ts)
  | .num n, _, c, s, a, t, ts, _, _, _ => by simp [Expr.toks, go, step, Expr.val, Expr.vars, symsEff]
  | .var w, _, c, s, a, t, ts, _, ht, _ => by
    simp [Expr.toks, go, step, Expr.val, Expr.vars, symsEff, ht]
  | .neg e, h, c, s, a, t, ts, hs, ht, _ => by
    have ih := go_expr e h.2 c (.neg :: s) a t ts h.1 ht (by rw [h.1]; simp)
    simp only [Expr.toks, List.cons_append, go, step] at ih ⊢
    rw [ih]
    simp [closeOperand, reduce, Expr.val, Expr.vars]
  | .conj e f, h, c, s, a, t, ts, hs, ht, _ => by
    obtain ⟨h1, h2, he, hf⟩ := h
    have hs1 : StackOk 1 s := hs
    have ih := go_expr e he c s a .and (f.toks ++ t :: ts) (hs1.mono h1 (level_le e)) (by simp) (by omega)
    have ih' := go_expr f hf c (.conj e.val :: s) (symsEff e.vars a) t ts h2 ht (by omega)
    simp only [Expr.toks, List.append_assoc, List.cons_append]
    rw [ih]
    simp only [go, step, closeOperand, reduce_and hs1]
    simp only [true_or, if_true]
    rw [ih']
    simp [go, step, closeOperand, reduce, Expr.val, Expr.vars, symsEff]
  | .disj e f, h, c, s, a, t, ts, hs, ht, hand => by
    obtain ⟨h1, he, hf⟩ := h
    have hs0 : StackOk 0 s := hs
    have hta := hand rfl
    have ih := go_expr e he c s a .or (f.toks ++ t :: ts) (hs0.mono (Nat.zero_le _) (level_le e)) (by simp) (by simp)
    have ih' := go_expr f hf c (.disj e.val :: s) (symsEff e.vars a) t ts h1 ht (by omega)
    simp only [Expr.toks, List.append_assoc, List.cons_append]
    rw [ih]
    simp only [go, step, closeOperand, reduce_zero hs0]
    simp only [true_or, or_true, if_true]
    rw [ih']
    rcases ht.resolve_left hta with rfl | rfl | rfl <;>
      simp [go, step, closeOperand, reduce, reduce_zero hs0, Expr.val, Expr.vars, symsEff]
  | .par e, h, c, s, a, t, ts, hs, ht, _ => by
    have ih := go_expr e h c (.paren :: s) a .rpar (t :: ts) trivial (by simp) (by simp)
    simp only [Expr.toks, List.append_assoc, List.cons_append, List.nil_append]
    rw [show go (.operand c s) a (.lpar :: (e.toks ++ .rpar :: t :: ts)) =
      go (.operand c (.paren :: s)) a (e.toks ++ .rpar :: t :: ts) from rfl, ih]
    rw [show go (.after c (.paren :: s) e.val none) (symsEff e.vars a) (.rpar :: t :: ts) =
      go (.after c s (parenG e.val) none) (symsEff e.vars a) (t :: ts) from rfl]
    rfl

/-! The effects of the parser, in order. -/

/-- An effect. -/
inductive Op
  | symbol (w : List Char)
  | state (w : List Char)
  | clause (u : List Char) (cs : List (Guard × List Char))

/-- An effect on the attributes. -/
def Op.apply (a : Auto) : Op → Auto
  | symbol w => addSymbol w a
  | state w => addState w a
  | clause u cs => addClause u cs a

/-- Effects one after the other. -/
def applyAll (ops : List Op) (a : Auto) : Auto := ops.foldl Op.apply a

theorem applyAll_append (l m : List Op) (a : Auto) : applyAll (l ++ m) a = applyAll m (applyAll l a) :=
  List.foldl_append

/-- The effects of a guarded jump. -/
def caseOps (q : Expr × List Char) : List Op := q.1.vars.map .symbol ++ [.state q.2]

/-- The effects of a labelled statement. -/
def clauseOps (p : List Char × Body) : List Op :=
  .state p.1 :: (casesOf p).flatMap caseOps ++ [.clause p.1 ((casesOf p).map fun q => (q.1.val, q.2))]

theorem symsEff_ops (l : List (List Char)) (a : Auto) : symsEff l a = applyAll (l.map .symbol) a := by
  simp only [symsEff, applyAll, List.foldl_map]
  rfl

theorem go_cases (u : List Char) : ∀ (l : List (Expr × List Char)) (q : Expr × List Char)
    (pre : List (Guard × List Char)) (a : Auto), (∀ q ∈ l, CaseOk q) → CaseOk q →
    go (.operand ⟨some u, pre⟩ []) a (q.1.toks ++ [.imp, .goto, .name q.2] ++ l.flatMap caseToks ++ [.fi, .semi]) =
      some (.semi ⟨some u, pre ++ (q :: l).map fun q => (q.1.val, q.2)⟩, applyAll ((q :: l).flatMap caseOps) a)
  | [], q, pre, a, _, hq => by
    simp only [List.append_assoc, List.cons_append, List.nil_append, List.flatMap_nil]
    rw [go_expr q.1 hq.1 _ [] _ _ _ trivial (by simp) (by simp)]
    simp [go, step, closeOperand, reduce, symsEff_ops, caseOps, applyAll_append]
    rfl
  | q' :: l, q, pre, a, h, hq => by
    have ih := go_cases u l q' (pre ++ [(q.1.val, q.2)]) (applyAll (caseOps q) a) (fun q hq => h q (by simp [hq]))
      (h q' (by simp))
    simp only [List.append_assoc, List.cons_append, List.nil_append, List.flatMap_cons, caseToks] at ih ⊢
    rw [go_expr q.1 hq.1 _ [] _ _ _ trivial (by simp) (by simp)]
    have : ∀ ts, go (.after ⟨some u, pre⟩ [] q.1.val none) (symsEff q.1.vars a)
        (.imp :: .goto :: .name q.2 :: .colon2 :: ts) =
        go (.operand ⟨some u, pre ++ [(q.1.val, q.2)]⟩ []) (addState q.2 (symsEff q.1.vars a)) ts := by
      intro ts
      simp [go, step, closeOperand, reduce]
    rw [this]
    have e : addState q.2 (symsEff q.1.vars a) = applyAll (caseOps q) a := by
      simp only [caseOps, applyAll_append, symsEff_ops]
      rfl
    rw [e, ih]
    simp [applyAll_append]

/-- The position after some clauses; the effect of the last one is pending. -/
def posOf : Option Ctx → Pos
  | none => .first
  | some c => .semi c

/-- The pending effect. -/
def pendOf : Option Ctx → Auto → Auto
  | none, a => a
  | some c, a => clauseEffect c a

theorem go_clause {p : List Char × Body} (h : ClauseOk p) (pc : Option Ctx) (a : Auto) :
    ∃ c, go (posOf pc) a (clauseToks p.1 (casesOf p)) = some (.semi c, applyAll (.state p.1 :: (casesOf p).flatMap caseOps) (pendOf pc a)) ∧
      ∀ b, clauseEffect c b = Op.apply b (.clause p.1 ((casesOf p).map fun q => (q.1.val, q.2))) := by
  obtain ⟨u, b⟩ := p
  obtain ⟨-, cases, hb, hne, hc⟩ := h
  simp only at hb
  subst hb
  obtain ⟨q, l, rfl⟩ := List.exists_cons_of_ne_nil hne
  have ih := go_cases u l q [] (addState u (pendOf pc a)) (fun q hq => hc q (by simp [hq])) (hc q (by simp))
  refine ⟨⟨some u, (q :: l).map fun q => (q.1.val, q.2)⟩, ?_, fun b => rfl⟩
  simp only [clauseToks, casesOf, List.append_assoc, List.cons_append, List.nil_append, List.flatMap_cons, caseToks] at ih ⊢
  have : ∀ ts, go (posOf pc) a (.name u :: .colon :: .ifw :: .colon2 :: ts) =
      go (.operand ⟨some u, []⟩ []) (addState u (pendOf pc a)) ts := by
    intro ts
    cases pc <;> rfl
  rw [this, ih]
  rfl

theorem go_clauses : ∀ (l : List (List Char × Body)) (p : List Char × Body) (pc : Option Ctx) (a : Auto),
    (∀ p ∈ l, ClauseOk p) → ClauseOk p →
    go (posOf pc) a ((p :: l).flatMap (fun p => clauseToks p.1 (casesOf p)) ++ [.rbrace]) =
      some (.done, applyAll ((p :: l).flatMap clauseOps) (pendOf pc a))
  | [], p, pc, a, _, hp => by
    obtain ⟨c, h1, h2⟩ := go_clause hp pc a
    simp only [List.flatMap_cons, List.flatMap_nil, List.append_nil]
    rw [go_append, h1]
    simp only [Option.bind, go, step, nextClause, h2, clauseOps, applyAll_append]
    rfl
  | p' :: l, p, pc, a, h, hp => by
    obtain ⟨c, h1, h2⟩ := go_clause hp pc a
    have ih := go_clauses l p' (some c) (applyAll (.state p.1 :: (casesOf p).flatMap caseOps) (pendOf pc a))
      (fun q hq => h q (by simp [hq])) (h p' (by simp))
    rw [List.flatMap_cons, List.append_assoc, go_append, h1]
    simp only [Option.bind]
    rw [show Pos.semi c = posOf (some c) from rfl, ih]
    show _ = some (Pos.done, applyAll (clauseOps p ++ (p' :: l).flatMap clauseOps) (pendOf pc a))
    have e : clauseOps p = (.state p.1 :: (casesOf p).flatMap caseOps) ++
      [.clause p.1 ((casesOf p).map fun q => (q.1.val, q.2))] := rfl
    rw [applyAll_append, e, applyAll_append]
    simp only [pendOf, h2]
    rfl

theorem go_claim {c : Claim} (h : c.Ok) :
    go .start {} (lex c.text) = some (.done, applyAll (c.clauses.flatMap clauseOps) {}) := by
  rw [lex_claim h]
  obtain ⟨p, l, hl⟩ := List.exists_cons_of_ne_nil h.nonempty
  have hok : ∀ p ∈ c.clauses, ClauseOk p := fun p hp => ⟨h.label p hp, h.ifs p hp⟩
  rw [hl] at hok ⊢
  have := go_clauses l p none {} (fun q hq => hok q (by simp [hq])) (hok p (by simp))
  simp only [List.cons_append, List.nil_append]
  exact this

theorem parse_ops {c : Claim} (h : c.Ok) : parse c.text = .ok (applyAll (c.clauses.flatMap clauseOps) {}) :=
  run_go _ _ _ _ _ (go_claim h)

theorem run_go' : ∀ (ts : List Tok) (p : Pos) (a : Auto) (q : Pos) (b : Auto), go p a ts = some (q, b) → q ≠ .done →
    run p 0 a ts = .error .attribute
  | [], p, a, q, b, h, hq => by
    simp only [go, Option.some.injEq, Prod.mk.injEq] at h
    simp [run, h.1, hq]
  | t :: ts, p, a, q, b, h, hq => by
    simp only [go] at h
    simp only [run]
    cases hs : step p a t with
    | mk q' c =>
      rw [hs] at h
      cases q' with
      | none => simp at h
      | some q' => exact run_go' ts q' c q b h hq

/-- **C106.** A never claim of which the last tokens are missing is not read: the parser fails. -/
theorem parse_truncated {c : Claim} (h : c.Ok) {s : List Char} {t : Tok} {rest : List Tok}
    (hs : lex c.text = lex s ++ t :: rest) : parse s = .error .attribute := by
  have h1 := go_claim h
  rw [hs, go_append] at h1
  cases hg : go .start {} (lex s) with
  | none => rw [hg] at h1; cases h1
  | some qb =>
    obtain ⟨q, b⟩ := qb
    rw [hg] at h1
    refine run_go' _ _ _ q b hg ?_
    rintro rfl
    simp [Option.bind, go, step] at h1

/-! ## Python reads the guards -/

/-- The tokens of Python of a guard. -/
def Expr.pyToks : Expr → List PyTok
  | num n => [.num n]
  | var w => [.name w]
  | neg a => .lpar :: .not :: a.pyToks ++ [.rpar]
  | conj a b => .lpar :: a.pyToks ++ .and :: b.pyToks ++ [.rpar]
  | disj a b => .lpar :: a.pyToks ++ .or :: b.pyToks ++ [.rpar]
  | par a => .lpar :: a.pyToks ++ [.rpar]

/-- The expression of Python of a guard. -/
def Expr.py : Expr → PyB
  | num n => .num n
  | var w => .name w
  | neg a => .not a.py
  | conj a b => .and a.py b.py
  | disj a b => .or a.py b.py
  | par a => a.py

theorem py_holds (v : List Char → Bool) : ∀ e : Expr, e.py.Holds v = e.Holds v
  | .num n => rfl
  | .var w => rfl
  | .neg a => by simp [Expr.py, PyB.Holds, Expr.Holds, py_holds v a]
  | .conj a b => by simp [Expr.py, PyB.Holds, Expr.Holds, py_holds v a, py_holds v b]
  | .disj a b => by simp [Expr.py, PyB.Holds, Expr.Holds, py_holds v a, py_holds v b]
  | .par a => by simp [Expr.py, Expr.Holds, py_holds v a]

theorem pyLex_eq : ∀ (n : Nat) (s : List Char), s.length ≤ n → ∀ m, s.length ≤ m → pyLex n s = pyLex m s
  | n, [], _, m, _ => by cases n <;> cases m <;> rfl
  | 0, c :: r, h, _, _ => by simp at h
  | n + 1, c :: r, h, 0, h' => by simp at h'
  | n + 1, c :: r, h, m + 1, h' => by
    simp only [List.length_cons] at h h'
    have h1 := length_dropWhile_le isIdChar r
    have h2 := length_dropWhile_le isDig r
    have e1 := pyLex_eq n r (by omega) m (by omega)
    have e2 := pyLex_eq n (r.dropWhile isIdChar) (by omega) m (by omega)
    have e3 := pyLex_eq n (r.dropWhile isDig) (by omega) m (by omega)
    simp only [pyLex, e1, e2, e3]

/-- The tokens of Python of a text. -/
def pl (s : List Char) : Option (List PyTok) := pyLex s.length s

theorem pl_eq {n : Nat} {s : List Char} (h : s.length ≤ n) : pyLex n s = pl s :=
  pyLex_eq n s h _ (Nat.le_refl _)

theorem pl_space (r : List Char) : pl (' ' :: r) = pl r := by simp [pl, pyLex]

theorem pl_lpar (r : List Char) : pl ('(' :: r) = (pl r).map (.lpar :: ·) := by simp [pl, pyLex]

theorem pl_rpar (r : List Char) : pl (')' :: r) = (pl r).map (.rpar :: ·) := by simp [pl, pyLex]

theorem idStart_ne {c : Char} (h : isIdStart c = true) : c ≠ ' ' ∧ c ≠ '(' ∧ c ≠ ')' :=
  ⟨by rintro rfl; revert h; decide, by rintro rfl; revert h; decide, by rintro rfl; revert h; decide⟩

theorem dig_ne {c : Char} (h : isDig c = true) : c ≠ ' ' ∧ c ≠ '(' ∧ c ≠ ')' :=
  ⟨by rintro rfl; revert h; decide, by rintro rfl; revert h; decide, by rintro rfl; revert h; decide⟩

theorem pl_word {c : Char} {w r : List Char} {t : PyTok} (hc : isIdStart c = true)
    (hw : ∀ d ∈ w, isIdChar d = true) (hr : Stops r) (ht : pyWord (c :: w) = some t) :
    pl (c :: w ++ r) = (pl r).map (t :: ·) := by
  have := span_all hw hr
  have hne := idStart_ne hc
  have hl : pyLex (w.length + r.length) r = pl r := pl_eq (by omega)
  simp [pl, pyLex, hc, hne, this, ht]
  rw [hl]
  rfl

theorem pl_num (k : Nat) {r : List Char} (hr : Stops r) : pl (digitsOf k ++ r) = (pl r).map (.num k :: ·) := by
  obtain ⟨h1, h2, h3⟩ := digitsOf_spec k
  cases hd : digitsOf k with
  | nil => exact absurd hd h2
  | cons c w =>
    rw [hd] at h1 h3
    simp only [List.all_cons, Bool.and_eq_true] at h1
    have := span_all (p := isDig) (w := w) (fun d hd => List.all_eq_true.1 h1.2 d hd) (stops_dig hr)
    have hne := dig_ne h1.1
    have hl : pyLex (w.length + r.length) r = pl r := pl_eq (by omega)
    simp [pl, pyLex, idStart_not_dig h1.1, h1.1, hne, this, h3]
    rw [hl]
    rfl

theorem pyWord_name {w : List Char} (h : w ∉ pyKeywords) : pyWord w = some (.name w) := by
  have h1 : w ≠ c!"and" := by rintro rfl; revert h; decide
  have h2 : w ≠ c!"or" := by rintro rfl; revert h; decide
  have h3 : w ≠ c!"not" := by rintro rfl; revert h; decide
  simp only [pyWord, h1, h2, h3, h, if_false]

theorem pl_expr : ∀ (e : Expr), (∀ x ∈ e.vars, IsName x ∧ x ∉ pyKeywords) → ∀ (r : List Char), Stops r →
    pl (e.val.text ++ r) = (pl r).map (e.pyToks ++ ·)
  | .num k, _, r, hr => pl_num k hr
  | .var w, h, r, hr => by
    obtain ⟨⟨⟨c, s, rfl, hc, hs⟩, -⟩, hk⟩ := h w (by simp [Expr.vars])
    exact pl_word hc hs hr (pyWord_name hk)
  | .neg a, h, r, hr => by
    have ih := pl_expr a h (')' :: r) (stops_of (by decide))
    have e1 : (Expr.neg a).val.text ++ r = '(' :: (c!"not" ++ (' ' :: (a.val.text ++ ')' :: r))) := by
      simp [Expr.val, notG, Guard.text]
    rw [e1, pl_lpar, pl_word (t := .not) (by decide) (by decide) (stops_of (by decide)) (by decide), pl_space, ih, pl_rpar]
    cases pl r <;> simp [Expr.pyToks]
  | .conj a b, h, r, hr => by
    have ih := pl_expr b (fun x hx => h x (by simp [Expr.vars, hx])) (')' :: r) (stops_of (by decide))
    have ih' := pl_expr a (fun x hx => h x (by simp [Expr.vars, hx])) (' ' :: (c!"and" ++ (' ' :: (b.val.text ++ ')' :: r))))
      (stops_of (by decide))
    have e1 : (Expr.conj a b).val.text ++ r =
        '(' :: (a.val.text ++ (' ' :: (c!"and" ++ (' ' :: (b.val.text ++ ')' :: r))))) := by
      simp [Expr.val, andG, Guard.text]
    rw [e1, pl_lpar, ih', pl_space, pl_word (t := .and) (by decide) (by decide) (stops_of (by decide)) (by decide),
      pl_space, ih, pl_rpar]
    cases pl r <;> simp [Expr.pyToks]
  | .disj a b, h, r, hr => by
    have ih := pl_expr b (fun x hx => h x (by simp [Expr.vars, hx])) (')' :: r) (stops_of (by decide))
    have ih' := pl_expr a (fun x hx => h x (by simp [Expr.vars, hx])) (' ' :: (c!"or" ++ (' ' :: (b.val.text ++ ')' :: r))))
      (stops_of (by decide))
    have e1 : (Expr.disj a b).val.text ++ r =
        '(' :: (a.val.text ++ (' ' :: (c!"or" ++ (' ' :: (b.val.text ++ ')' :: r))))) := by
      simp [Expr.val, orG, Guard.text]
    rw [e1, pl_lpar, ih', pl_space, pl_word (t := .or) (by decide) (by decide) (stops_of (by decide)) (by decide),
      pl_space, ih, pl_rpar]
    cases pl r <;> simp [Expr.pyToks]
  | .par a, h, r, hr => by
    have ih := pl_expr a h (')' :: r) (stops_of (by decide))
    have e1 : (Expr.par a).val.text ++ r = '(' :: (a.val.text ++ ')' :: r) := by
      simp [Expr.val, parenG, Guard.text]
    rw [e1, pl_lpar, ih, pl_rpar]
    cases pl r <;> simp [Expr.pyToks]

/-- The fuel that a guard needs. -/
def Expr.need : Expr → Nat
  | num _ => 1
  | var _ => 1
  | neg a => a.need + 4
  | conj a b => a.need + b.need + 4
  | disj a b => a.need + b.need + 4
  | par a => a.need + 3

theorem need_le : ∀ e : Expr, e.need + 2 ≤ 4 * e.pyToks.length
  | .num n => by simp [Expr.need, Expr.pyToks]
  | .var w => by simp [Expr.need, Expr.pyToks]
  | .neg a => by have := need_le a; simp [Expr.need, Expr.pyToks]; omega
  | .conj a b => by have := need_le a; have := need_le b; simp [Expr.need, Expr.pyToks]; omega
  | .disj a b => by have := need_le a; have := need_le b; simp [Expr.need, Expr.pyToks]; omega
  | .par a => by have := need_le a; simp [Expr.need, Expr.pyToks]; omega

theorem pyParse_up1 {n : Nat} {ts r : List PyTok} {a : PyB} (h : pyParse n 2 ts = some (a, r))
    (hr : r.head? ≠ some .and) : pyParse (n + 1) 1 ts = some (a, r) := by
  simp only [pyParse, h]
  split
  · simp_all
  · rfl

theorem pyParse_up0 {n : Nat} {ts r : List PyTok} {a : PyB} (h : pyParse n 1 ts = some (a, r))
    (hr : r.head? ≠ some .or) : pyParse (n + 1) 0 ts = some (a, r) := by
  simp only [pyParse, h]
  split
  · simp_all
  · rfl

theorem pyParse_expr : ∀ (e : Expr) (n : Nat) (r : List PyTok), e.need ≤ n →
    pyParse n 2 (e.pyToks ++ r) = some (e.py, r)
  | .num k, n, r, h => by
    obtain ⟨n, rfl⟩ : ∃ m, n = m + 1 := ⟨n - 1, by simp [Expr.need] at h; omega⟩
    simp [Expr.pyToks, pyParse, Expr.py]
  | .var w, n, r, h => by
    obtain ⟨n, rfl⟩ : ∃ m, n = m + 1 := ⟨n - 1, by simp [Expr.need] at h; omega⟩
    simp [Expr.pyToks, pyParse, Expr.py]
  | .neg a, n, r, h => by
    obtain ⟨n, rfl⟩ : ∃ m, n = m + 4 := ⟨n - 4, by simp [Expr.need] at h; omega⟩
    have ih := pyParse_expr a n (.rpar :: r) (by simp [Expr.need] at h; omega)
    have h2 : pyParse (n + 1) 2 (.not :: (a.pyToks ++ .rpar :: r)) = some (.not a.py, .rpar :: r) := by
      simp [pyParse, ih]
    have h0 := pyParse_up0 (pyParse_up1 h2 (by simp)) (by simp)
    simp only [Expr.pyToks, List.cons_append, List.append_assoc, List.nil_append, pyParse] at h0 ⊢
    rw [h0]
    rfl
  | .par a, n, r, h => by
    obtain ⟨n, rfl⟩ : ∃ m, n = m + 3 := ⟨n - 3, by simp [Expr.need] at h; omega⟩
    have ih := pyParse_expr a n (.rpar :: r) (by simp [Expr.need] at h; omega)
    have h0 := pyParse_up0 (pyParse_up1 ih (by simp)) (by simp)
    simp only [Expr.pyToks, List.cons_append, List.append_assoc, List.nil_append]
    show pyParse ((n + 2) + 1) 2 _ = _
    simp only [pyParse] at h0 ⊢
    rw [h0]
    rfl
  | .conj a b, n, r, h => by
    obtain ⟨n, rfl⟩ : ∃ m, n = m + 4 := ⟨n - 4, by simp [Expr.need] at h; omega⟩
    have iha := pyParse_expr a (n + 1) (.and :: (b.pyToks ++ .rpar :: r)) (by simp [Expr.need] at h; omega)
    have ihb := pyParse_expr b n (.rpar :: r) (by simp [Expr.need] at h; omega)
    have hb := pyParse_up1 ihb (by simp)
    have h1 : pyParse (n + 2) 1 (a.pyToks ++ .and :: (b.pyToks ++ .rpar :: r)) = some (.and a.py b.py, .rpar :: r) := by
      show pyParse ((n + 1) + 1) 1 _ = _
      rw [pyParse, iha]
      simp [hb]
    have h0 := pyParse_up0 h1 (by simp)
    simp only [Expr.pyToks, List.cons_append, List.append_assoc, List.nil_append]
    show pyParse ((n + 3) + 1) 2 _ = _
    rw [pyParse, h0]
    rfl
  | .disj a b, n, r, h => by
    obtain ⟨n, rfl⟩ : ∃ m, n = m + 4 := ⟨n - 4, by simp [Expr.need] at h; omega⟩
    have iha := pyParse_expr a (n + 1) (.or :: (b.pyToks ++ .rpar :: r)) (by simp [Expr.need] at h; omega)
    have ihb := pyParse_expr b n (.rpar :: r) (by simp [Expr.need] at h; omega)
    have ha := pyParse_up1 iha (by simp)
    have hb := pyParse_up0 (pyParse_up1 ihb (by simp)) (by simp)
    have h0 : pyParse (n + 3) 0 (a.pyToks ++ .or :: (b.pyToks ++ .rpar :: r)) = some (.or a.py b.py, .rpar :: r) := by
      show pyParse ((n + 2) + 1) 0 _ = _
      rw [pyParse, ha]
      simp [hb]
    simp only [Expr.pyToks, List.cons_append, List.append_assoc, List.nil_append]
    show pyParse ((n + 3) + 1) 2 _ = _
    rw [pyParse, h0]
    rfl

theorem pyRead_val {e : Expr} (h : ∀ x ∈ e.vars, IsName x ∧ x ∉ pyKeywords) : pyRead e.val.text = some e.py := by
  have h1 := pl_expr e h [] (by intro c hc; simp at hc)
  simp only [List.append_nil] at h1
  have h1 : pyLex e.val.text.length e.val.text = some e.pyToks := by simpa [pl, pyLex] using h1
  have hn := need_le e
  obtain ⟨k, hk⟩ : ∃ k, 4 * e.pyToks.length = k + 2 := ⟨4 * e.pyToks.length - 2, by omega⟩
  have h2 := pyParse_expr e k [] (by omega)
  have h0 := pyParse_up0 (pyParse_up1 h2 (by simp)) (by simp)
  simp only [List.append_nil] at h0
  simp [pyRead, h1, hk, h0]

theorem guard_meaning {e : Expr} (h : ∀ x ∈ e.vars, IsName x ∧ x ∉ pyKeywords) (v : List Char → Bool) :
    e.val.Holds v ↔ e.Holds v = true := by
  have hr := pyRead_val h
  rw [← py_holds]
  cases hv : e.val with
  | int n =>
    cases e <;> simp_all [Expr.val, Expr.py, PyB.Holds, Guard.Holds, notG, andG, orG, parenG]
  | str s =>
    rw [hv] at hr
    simp only [Guard.text] at hr
    simp [Guard.Holds, hr]

/-! ## What the attributes are -/

theorem mem_insertNew {x w : List Char} {l : List (List Char)} : x ∈ insertNew w l ↔ x ∈ l ∨ x = w := by
  unfold insertNew
  split
  · constructor
    · exact .inl
    · rintro (h | rfl) <;> assumption
  · simp

theorem mem_insertAll {x : List Char} : ∀ (cs : List (Guard × List Char)) (l : List (List Char)),
    x ∈ cs.foldl (fun l c => insertNew c.2 l) l ↔ x ∈ l ∨ ∃ g, (g, x) ∈ cs
  | [], l => by simp
  | (g, w) :: cs, l => by
    simp only [List.foldl_cons]
    rw [mem_insertAll cs, mem_insertNew]
    simp only [List.mem_cons, Prod.mk.injEq]
    constructor
    · rintro ((h | rfl) | ⟨g, h⟩)
      · exact .inl h
      · exact .inr ⟨g, .inl ⟨rfl, rfl⟩⟩
      · exact .inr ⟨g, .inr h⟩
    · rintro (h | ⟨g, ⟨rfl, rfl⟩ | h⟩)
      · exact .inl (.inl h)
      · exact .inl (.inr rfl)
      · exact .inr ⟨g, h⟩

theorem isInfixOf_iff {x : List Char} : ∀ (s : List Char), isInfixOf x s = true ↔ x <:+: s
  | [] => by simp [isInfixOf]
  | c :: s => by
    simp only [isInfixOf, Bool.or_eq_true, List.infix_cons_iff, isInfixOf_iff s, List.isPrefixOf_iff_prefix]

theorem mem_nodes {x : List Char} : ∀ (ops : List Op) (a : Auto), x ∈ (applyAll ops a).nodes ↔
    x ∈ a.nodes ∨ .state x ∈ ops ∨ ∃ u cs, .clause u cs ∈ ops ∧ (x = u ∨ ∃ g, (g, x) ∈ cs)
  | [], a => by simp [applyAll]
  | op :: ops, a => by
    show x ∈ (applyAll ops (op.apply a)).nodes ↔ _
    rw [mem_nodes ops]
    cases op with
    | symbol w => simp [Op.apply, addSymbol]
    | state w =>
      have : x ∈ (Op.apply a (.state w)).nodes ↔ x ∈ a.nodes ∨ x = w := by
        simp only [Op.apply, addState]
        split
        · exact mem_insertNew
        · split <;> exact mem_insertNew
      rw [this]
      simp [or_assoc]
    | clause u cs =>
      simp only [Op.apply, addClause, mem_insertAll, mem_insertNew, List.mem_cons, reduceCtorEq, false_or, Op.clause.injEq]
      constructor
      · rintro (((h | rfl) | ⟨g, h⟩) | h | ⟨u', cs', h, h'⟩)
        · exact .inl h
        · exact .inr (.inr ⟨_, cs, .inl ⟨rfl, rfl⟩, .inl rfl⟩)
        · exact .inr (.inr ⟨u, cs, .inl ⟨rfl, rfl⟩, .inr ⟨g, h⟩⟩)
        · exact .inr (.inl h)
        · exact .inr (.inr ⟨u', cs', .inr h, h'⟩)
      · rintro (h | h | ⟨u', cs', ⟨rfl, rfl⟩ | h, h'⟩)
        · exact .inl (.inl (.inl h))
        · exact .inr (.inl h)
        · rcases h' with rfl | ⟨g, h'⟩
          · exact .inl (.inl (.inr rfl))
          · exact .inl (.inr ⟨g, h'⟩)
        · exact .inr (.inr ⟨u', cs', h, h'⟩)

theorem mem_initial {x : List Char} : ∀ (ops : List Op) (a : Auto), x ∈ (applyAll ops a).initial ↔
    x ∈ a.initial ∨ .state x ∈ ops ∧ c!"init" <:+: x
  | [], a => by simp [applyAll]
  | op :: ops, a => by
    show x ∈ (applyAll ops (op.apply a)).initial ↔ _
    rw [mem_initial ops]
    cases op with
    | symbol w => simp [Op.apply, addSymbol]
    | state w =>
      have : x ∈ (Op.apply a (.state w)).initial ↔ x ∈ a.initial ∨ x = w ∧ c!"init" <:+: x := by
        simp only [Op.apply, addState, isInfixOf_iff]
        split
        · rename_i h
          rw [mem_insertNew]
          constructor
          · rintro (h' | rfl)
            · exact .inl h'
            · exact .inr ⟨rfl, h⟩
          · rintro (h' | h')
            · exact .inl h'
            · exact .inr h'.1
        · rename_i h
          have : (x ∈ a.initial ↔ x ∈ a.initial ∨ x = w ∧ c!"init" <:+: x) := by
            constructor
            · exact .inl
            · rintro (h' | ⟨rfl, h'⟩)
              · exact h'
              · exact absurd h' h
          split <;> exact this
      rw [this]
      simp only [List.mem_cons, Op.state.injEq]
      tauto
    | clause u cs => simp [Op.apply, addClause]

theorem mem_accepting {x : List Char} : ∀ (ops : List Op) (a : Auto), x ∈ (applyAll ops a).accepting ↔
    x ∈ a.accepting ∨ .state x ∈ ops ∧ c!"accept" <:+: x ∧ ¬ c!"init" <:+: x
  | [], a => by simp [applyAll]
  | op :: ops, a => by
    show x ∈ (applyAll ops (op.apply a)).accepting ↔ _
    rw [mem_accepting ops]
    cases op with
    | symbol w => simp [Op.apply, addSymbol]
    | state w =>
      have : x ∈ (Op.apply a (.state w)).accepting ↔
          x ∈ a.accepting ∨ x = w ∧ c!"accept" <:+: x ∧ ¬ c!"init" <:+: x := by
        simp only [Op.apply, addState, isInfixOf_iff]
        split
        · rename_i h
          constructor
          · exact .inl
          · rintro (h' | ⟨rfl, -, h'⟩)
            · exact h'
            · exact absurd h h'
        · rename_i h
          split
          · rename_i h2
            rw [mem_insertNew]
            constructor
            · rintro (h' | rfl)
              · exact .inl h'
              · exact .inr ⟨rfl, h2, h⟩
            · rintro (h' | h')
              · exact .inl h'
              · exact .inr h'.1
          · rename_i h2
            constructor
            · exact .inl
            · rintro (h' | ⟨rfl, h', -⟩)
              · exact h'
              · exact absurd h' h2
      rw [this]
      simp only [List.mem_cons, Op.state.injEq]
      tauto
    | clause u cs => simp [Op.apply, addClause]

theorem mem_symbols {x : List Char} : ∀ (ops : List Op) (a : Auto), x ∈ (applyAll ops a).symbols ↔
    x ∈ a.symbols ∨ .symbol x ∈ ops
  | [], a => by simp [applyAll]
  | op :: ops, a => by
    show x ∈ (applyAll ops (op.apply a)).symbols ↔ _
    rw [mem_symbols ops]
    cases op with
    | symbol w =>
      simp only [Op.apply, addSymbol, mem_insertNew, List.mem_cons, Op.symbol.injEq]
      tauto
    | state w =>
      have : (Op.apply a (.state w)).symbols = a.symbols := by
        simp only [Op.apply, addState]
        split
        · rfl
        · split <;> rfl
      rw [this]
      simp
    | clause u cs => simp [Op.apply, addClause]

/-- The edges that an effect adds. -/
def Op.edges : Op → List (List Char × List Char × Guard)
  | clause u cs => cs.map fun c => (u, c.2, c.1)
  | _ => []

theorem edges_ops : ∀ (ops : List Op) (a : Auto), (applyAll ops a).edges = a.edges ++ ops.flatMap Op.edges
  | [], a => by simp [applyAll]
  | op :: ops, a => by
    show (applyAll ops (op.apply a)).edges = _
    rw [edges_ops ops]
    cases op with
    | symbol w => rfl
    | state w =>
      have : (Op.apply a (.state w)).edges = a.edges := by
        simp only [Op.apply, addState]
        split
        · rfl
        · split <;> rfl
      rw [this]
      rfl
    | clause u cs => simp [Op.apply, addClause, Op.edges]

theorem edges_clause (p : List Char × Body) :
    (clauseOps p).flatMap Op.edges = (casesOf p).map fun q => (p.1, q.2, q.1.val) := by
  have h : ∀ l : List (Expr × List Char), (l.flatMap caseOps).flatMap Op.edges = [] := by
    intro l
    rw [List.flatMap_eq_nil_iff]
    intro op hop
    simp only [List.mem_flatMap, caseOps, List.mem_append, List.mem_map, List.mem_singleton] at hop
    obtain ⟨q, -, ⟨w, -, rfl⟩ | rfl⟩ := hop <;> rfl
  simp only [clauseOps, List.flatMap_append, List.flatMap_cons, h]
  simp [Op.edges, Function.comp_def]

/-! ## C106 -/

/-- A state of the claim: a label, or the target of a jump. -/
def Claim.State (c : Claim) (x : List Char) : Prop :=
  ∃ p ∈ c.clauses, x = p.1 ∨ ∃ cases g, p.2 = .ifs cases ∧ (g, x) ∈ cases

theorem state_ops {c : Claim} (h : c.Ok) {x : List Char} : .state x ∈ c.clauses.flatMap clauseOps ↔ c.State x := by
  simp only [List.mem_flatMap, clauseOps, List.cons_append, List.mem_cons, List.mem_append, caseOps, List.mem_map,
    List.not_mem_nil, or_false, reduceCtorEq, Op.state.injEq, Claim.State, and_false, exists_false, false_or]
  refine exists_congr fun p => and_congr_right fun hp => or_congr_right ?_
  obtain ⟨cases, hb, -⟩ := h.ifs p hp
  simp only [casesOf, hb, Body.ifs.injEq]
  constructor
  · rintro ⟨q, hq, rfl⟩
    exact ⟨cases, q.1, rfl, hq⟩
  · rintro ⟨_, g, rfl, hq⟩
    exact ⟨(g, x), hq, rfl⟩

theorem clause_ops {c : Claim} {u : List Char} {cs : List (Guard × List Char)} :
    .clause u cs ∈ c.clauses.flatMap clauseOps ↔
      ∃ p ∈ c.clauses, u = p.1 ∧ cs = (casesOf p).map fun q => (q.1.val, q.2) := by
  simp [List.mem_flatMap, clauseOps, caseOps]

/-- **C106.** A never claim in the format of `ltl2ba` is read as it is written: the jumps in their order, with
guards that Python evaluates as the guards of the claim; and the sets of states, initial states, accepting
states and propositions. -/
theorem claim_read {c : Claim} (h : c.Ok) : ∃ a, parse c.text = .ok a ∧
    (a.edges.map fun e => (e.1, e.2.1)) =
      c.clauses.flatMap (fun p => match p.2 with
        | .ifs cases => cases.map fun q => (p.1, q.2)
        | .skip => []) ∧
    (∀ u v val, (∃ g, (u, v, g) ∈ a.edges ∧ g.Holds val) ↔ ∃ b, (u, b) ∈ c.clauses ∧ b.Moves u v val) ∧
    (∀ x, x ∈ a.nodes ↔ c.State x) ∧
    (∀ x, x ∈ a.initial ↔ c.State x ∧ c!"init" <:+: x) ∧
    (∀ x, x ∈ a.accepting ↔ c.State x ∧ c!"accept" <:+: x ∧ ¬ c!"init" <:+: x) ∧
    ∀ x, x ∈ a.symbols ↔ ∃ p ∈ c.clauses, ∃ cases g v, p.2 = .ifs cases ∧ (g, v) ∈ cases ∧ x ∈ g.vars := by
  have hedges : (applyAll (c.clauses.flatMap clauseOps) {}).edges =
      c.clauses.flatMap fun p => (casesOf p).map fun q => (p.1, q.2, q.1.val) := by
    rw [edges_ops, List.flatMap_assoc]
    simp only [edges_clause]
    rfl
  refine ⟨_, parse_ops h, ?_, ?_, ?_, ?_, ?_, ?_⟩
  · rw [hedges, List.map_flatMap]
    congr 1
    funext p
    obtain ⟨u, b⟩ := p
    cases b <;> simp [casesOf, Function.comp_def]
  · intro u v val
    rw [hedges]
    simp only [List.mem_flatMap, List.mem_map]
    constructor
    · rintro ⟨g, ⟨⟨u', b⟩, hp, q, hq, he⟩, hg⟩
      obtain ⟨cases, hb, -, hc⟩ := h.ifs _ hp
      simp only at hb
      subst hb
      cases he
      exact ⟨_, hp, q.1, hq, (guard_meaning (hc q hq).2.1 val).1 hg⟩
    · rintro ⟨b, hp, hm⟩
      obtain ⟨cases, hb, -, hc⟩ := h.ifs _ hp
      simp only at hb
      subst hb
      obtain ⟨g, hq, hg⟩ := hm
      exact ⟨g.val, ⟨_, hp, (g, v), hq, rfl⟩, (guard_meaning (hc _ hq).2.1 val).2 hg⟩
  · intro x
    rw [mem_nodes, state_ops h]
    constructor
    · rintro (h' | h' | ⟨u, cs, hop, h'⟩)
      · exact absurd h' (by simp)
      · exact h'
      · obtain ⟨p, hp, rfl, rfl⟩ := clause_ops.1 hop
        refine ⟨p, hp, ?_⟩
        obtain ⟨cases, hb, -⟩ := h.ifs p hp
        rcases h' with rfl | ⟨g, hg⟩
        · exact .inl rfl
        · simp only [casesOf, hb, List.mem_map] at hg
          obtain ⟨q, hq, he⟩ := hg
          cases he
          exact .inr ⟨cases, q.1, hb, hq⟩
    · exact fun h' => .inr (.inl h')
  · intro x
    rw [mem_initial, state_ops h]
    simp
  · intro x
    rw [mem_accepting, state_ops h]
    simp
  · intro x
    rw [mem_symbols]
    simp only [List.not_mem_nil, false_or, List.mem_flatMap, clauseOps, List.cons_append, List.mem_cons,
      List.mem_append, caseOps, List.mem_map, reduceCtorEq, Op.symbol.injEq, or_false, exists_eq_right]
    refine exists_congr fun p => and_congr_right fun hp => ?_
    obtain ⟨cases, hb, -⟩ := h.ifs p hp
    simp only [casesOf, hb, Body.ifs.injEq]
    constructor
    · rintro ⟨q, hq, hx⟩
      exact ⟨cases, q.1, q.2, rfl, hq, hx⟩
    · rintro ⟨_, g, v, rfl, hq, hx⟩
      exact ⟨(g, v), hq, hx⟩

/-- **C106.** If moreover exactly the first label has `init` in its name, and `accept` is at the beginning of a
name if it is in it, and not together with `init`, then the automaton accepts the words that the claim
accepts. -/
theorem claim_language {c : Claim} (h : c.Ok)
    (hinit : ∀ x, c.State x → (c!"init" <:+: x ↔ ∃ b rest, c.clauses = (x, b) :: rest))
    (hacc : ∀ x, c.State x → c!"accept" <:+: x → c!"accept" <+: x ∧ ¬ c!"init" <:+: x) :
    ∃ a, parse c.text = .ok a ∧ ∀ word, a.Accepts word ↔ c.Accepts word := by
  obtain ⟨a, ha, -, hmove, -, hi, hf, -⟩ := claim_read h
  refine ⟨a, ha, fun word => exists_congr fun r => ?_⟩
  simp only [hmove, hi, hf]
  have hstate : (∀ i, ∃ b, (r i, b) ∈ c.clauses ∧ b.Moves (r i) (r (i + 1)) (word i)) → ∀ i, c.State (r i) := by
    intro hm i
    obtain ⟨b, hb, -⟩ := hm i
    exact ⟨_, hb, .inl rfl⟩
  constructor
  · rintro ⟨⟨h0, h0'⟩, hm, hacc'⟩
    refine ⟨(hinit _ h0).1 h0', hm, fun n => ?_⟩
    obtain ⟨m, hnm, hs, hx, -⟩ := hacc' n
    exact ⟨m, hnm, (hacc _ hs hx).1⟩
  · rintro ⟨h0, hm, hacc'⟩
    have hs := hstate hm
    refine ⟨⟨hs 0, (hinit _ (hs 0)).2 h0⟩, hm, fun n => ?_⟩
    obtain ⟨m, hnm, hx⟩ := hacc' n
    exact ⟨m, hnm, hs m, hx.isInfix, (hacc _ (hs m) hx.isInfix).2⟩

theorem ok_of {x : Except PyErr Auto} {a : Auto} (h : x.toOption = some a) : x = .ok a := by
  cases x with
  | error e => cases h
  | ok b => cases h; rfl

/-- A claim for `[]<>((p && !q) || r)`, in the format of `ltl2ba`. -/
def inftyP : Claim where
  comment := c!"[]<>((p && !q) || r)"
  clauses :=
    [(c!"T0_init", .ifs [(.par (.num 1), c!"T0_init"), (.disj (.par (.conj (.var c!"p") (.neg (.var c!"q")))) (.par (.var c!"r")), c!"accept_S1")]),
     (c!"accept_S1", .ifs [(.par (.num 1), c!"T0_init")])]

theorem inftyP_names : IsName c!"T0_init" ∧ IsName c!"accept_S1" ∧ IsName c!"p" ∧ IsName c!"q" ∧ IsName c!"r" :=
  ⟨⟨⟨'T', c!"0_init", rfl, by decide, by decide⟩, by decide⟩,
   ⟨⟨'a', c!"ccept_S1", rfl, by decide, by decide⟩, by decide⟩,
   ⟨⟨'p', [], rfl, by decide, by decide⟩, by decide⟩,
   ⟨⟨'q', [], rfl, by decide, by decide⟩, by decide⟩,
   ⟨⟨'r', [], rfl, by decide, by decide⟩, by decide⟩⟩

theorem inftyP_ok : inftyP.Ok := by
  obtain ⟨h1, h2, hp, hq, hr⟩ := inftyP_names
  refine ⟨by decide, by simp [inftyP], ?_, ?_⟩
  · intro p hp
    simp only [inftyP, List.mem_cons, List.not_mem_nil, or_false] at hp
    rcases hp with rfl | rfl <;> assumption
  · intro p hp'
    simp only [inftyP, List.mem_cons, List.not_mem_nil, or_false] at hp'
    rcases hp' with rfl | rfl
    · refine ⟨_, rfl, by simp, ?_⟩
      intro q hq'
      simp only [List.mem_cons, List.not_mem_nil, or_false] at hq'
      rcases hq' with rfl | rfl
      · exact ⟨trivial, by simp [Expr.vars], h1⟩
      · refine ⟨by simp [Expr.Fits, Expr.level], ?_, h2⟩
        intro x hx
        simp only [Expr.vars, List.mem_append, List.mem_cons, List.not_mem_nil, or_false] at hx
        rcases hx with (rfl | rfl) | rfl
        · exact ⟨hp, by decide⟩
        · exact ⟨hq, by decide⟩
        · exact ⟨hr, by decide⟩
    · refine ⟨_, rfl, by simp, ?_⟩
      intro q hq'
      simp only [List.mem_cons, List.not_mem_nil, or_false] at hq'
      subst hq'
      exact ⟨trivial, by simp [Expr.vars], h1⟩

theorem inftyP_state {x : List Char} (h : inftyP.State x) : x = c!"T0_init" ∨ x = c!"accept_S1" := by
  obtain ⟨p, hp, h⟩ := h
  simp only [inftyP, List.mem_cons, List.not_mem_nil, or_false] at hp
  rcases hp with rfl | rfl
  · rcases h with rfl | ⟨cases, g, hb, hg⟩
    · exact .inl rfl
    · cases hb
      simp only [List.mem_cons, List.not_mem_nil, or_false, Prod.mk.injEq] at hg
      rcases hg with ⟨-, rfl⟩ | ⟨-, rfl⟩
      · exact .inl rfl
      · exact .inr rfl
  · rcases h with rfl | ⟨cases, g, hb, hg⟩
    · exact .inr rfl
    · cases hb
      simp only [List.mem_cons, List.not_mem_nil, or_false, Prod.mk.injEq] at hg
      exact .inl hg.2

/-- The hypotheses of `claim_language` are met by a claim in the format of `ltl2ba`, and the automaton is as
expected. -/
example : (∃ a, parse inftyP.text = .ok a ∧ ∀ word, a.Accepts word ↔ inftyP.Accepts word) ∧
    parse inftyP.text = .ok
      { nodes := [c!"T0_init", c!"accept_S1"]
        edges := [(c!"T0_init", c!"T0_init", .str c!"(1)"), (c!"T0_init", c!"accept_S1", .str c!"(((p and (not q))) or (r))"),
          (c!"accept_S1", c!"T0_init", .str c!"(1)")]
        initial := [c!"T0_init"], accepting := [c!"accept_S1"], symbols := [c!"p", c!"q", c!"r"] } := by
  refine ⟨claim_language inftyP_ok ?_ ?_, ok_of (by decide +kernel)⟩
  · intro x hx
    rcases inftyP_state hx with rfl | rfl
    · exact ⟨fun _ => ⟨_, _, rfl⟩, fun _ => (isInfixOf_iff _).1 (by decide)⟩
    · constructor
      · intro h
        exact absurd ((isInfixOf_iff _).2 h) (by decide)
      · rintro ⟨b, rest, h⟩
        simp [inftyP] at h
  · intro x hx
    rcases inftyP_state hx with rfl | rfl
    · intro h
      exact absurd ((isInfixOf_iff _).2 h) (by decide)
    · intro _
      exact ⟨by decide, fun h => absurd ((isInfixOf_iff _).2 h) (by decide)⟩

/-- `ltl2ba` calls a state that is both initial and accepting `accept_init`. -/
def alwaysP : Claim := ⟨c!"[]p", [(c!"accept_init", .ifs [(.par (.var c!"p"), c!"accept_init")])]⟩

/-- The claim without its end. -/
example : parse c!"never { /* [] <> p */ T0_init: " = .error .attribute :=
  parse_truncated inftyP_ok (t := .ifw) (rest := (lex inftyP.text).drop 6) (by decide +kernel)

/-- **C106, restriction.** A state that is both initial and accepting is not accepting in the automaton, which
then accepts nothing, although the claim accepts words. -/
theorem accept_init_counterexample : ∃ a, parse alwaysP.text = .ok a ∧ a.accepting = [] ∧
    alwaysP.Accepts (fun _ _ => true) ∧ ∀ word, ¬ a.Accepts word := by
  refine ⟨{ nodes := [c!"accept_init"]
            edges := [(c!"accept_init", c!"accept_init", .str c!"(p)")]
            initial := [c!"accept_init"], accepting := [], symbols := [c!"p"] }, ok_of (by decide +kernel), rfl, ?_, ?_⟩
  · exact ⟨fun _ => c!"accept_init", ⟨_, _, rfl⟩,
      fun i => ⟨.ifs [(.par (.var c!"p"), c!"accept_init")], by simp [alwaysP], .par (.var c!"p"), by simp, rfl⟩,
      fun n => ⟨n, Nat.le_refl _, by simp⟩⟩
  · rintro word ⟨r, -, -, h⟩
    obtain ⟨m, -, h⟩ := h 0
    simp at h

/-- `ltl2ba` writes `skip` for a state that accepts everything. -/
def eventuallyP : Claim :=
  ⟨c!"<>p", [(c!"T0_init", .ifs [(.par (.num 1), c!"T0_init"), (.par (.var c!"p"), c!"accept_all")]), (c!"accept_all", .skip)]⟩

/-- **C106, restriction.** The statement `skip` is a syntax error, which is only logged; the state has no
transitions, so the automaton accepts nothing, although the claim accepts words. -/
theorem skip_counterexample : ∃ a, parse eventuallyP.text = .ok a ∧ (∀ e ∈ a.edges, e.1 ≠ c!"accept_all") ∧
    eventuallyP.Accepts (fun _ _ => true) ∧ ∀ word, ¬ a.Accepts word := by
  refine ⟨{ nodes := [c!"T0_init", c!"accept_all"]
            edges := [(c!"T0_init", c!"T0_init", .str c!"(1)"), (c!"T0_init", c!"accept_all", .str c!"(p)")]
            initial := [c!"T0_init"], accepting := [c!"accept_all"], symbols := [c!"p"] }, ok_of (by decide +kernel), by decide, ?_, ?_⟩
  · refine ⟨fun i => if i = 0 then c!"T0_init" else c!"accept_all", ⟨_, _, rfl⟩, fun i => ?_, fun n => ⟨n + 1, by omega, by simp⟩⟩
    by_cases hi : i = 0
    · subst hi
      exact ⟨.ifs [(.par (.num 1), c!"T0_init"), (.par (.var c!"p"), c!"accept_all")], by simp [eventuallyP],
        .par (.var c!"p"), by simp, rfl⟩
    · exact ⟨.skip, by simp [eventuallyP, hi], by simp [Body.Moves, hi]⟩
  · rintro word ⟨r, -, hm, h⟩
    obtain ⟨m, -, h⟩ := h 0
    obtain ⟨g, hg, -⟩ := hm m
    simp only [List.mem_cons, List.not_mem_nil, or_false] at h
    simp [h] at hg

end Ba
end Tulip
