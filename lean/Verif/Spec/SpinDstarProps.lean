import Verif.Spec.SpinDstar
import Verif.Spec.TransWringProps

/-!
# C135: the translation of formulas from the syntax of SPIN to that of `ltl2dstar`
-/

namespace Tulip
namespace Spin

/-! ## Specification -/

/-- Formulas of linear temporal logic. -/
inductive Ltl
  | name (w : List Char)
  | neg (a : Ltl) | next (a : Ltl) | always (a : Ltl) | eventually (a : Ltl)
  | untl (a b : Ltl) | and (a b : Ltl) | or (a b : Ltl) | imp (a b : Ltl) | iff (a b : Ltl)
  deriving DecidableEq

/-- The words of a formula in the prefix notation of `ltl2dstar`. -/
def prefixWords : Ltl → List (List Char)
  | .name w => [w]
  | .neg a => c!"!" :: prefixWords a
  | .next a => c!"X" :: prefixWords a
  | .always a => c!"G" :: prefixWords a
  | .eventually a => c!"F" :: prefixWords a
  | .untl a b => c!"U" :: (prefixWords a ++ prefixWords b)
  | .and a b => c!"&" :: (prefixWords a ++ prefixWords b)
  | .or a b => c!"|" :: (prefixWords a ++ prefixWords b)
  | .imp a b => c!"i" :: (prefixWords a ++ prefixWords b)
  | .iff a b => c!"e" :: (prefixWords a ++ prefixWords b)

/-- **C135.** The characters that the definitions below are about. -/
theorem spin_chars (c : Char) : (isWhite c = true ↔ c ∈ [' ', '\n', '\t', '\r']) ∧
    (isHead c = true ↔ ('a' ≤ c ∧ c ≤ 'z') ∨ ('A' ≤ c ∧ c ≤ 'Z') ∨ c = '_') ∧
    (isBody c = true ↔ isHead c = true ∨ ('0' ≤ c ∧ c ≤ '9')) := by
  have h : ∀ a b : Char, a ≤ b ↔ a.toNat ≤ b.toNat := fun a b => Iff.rfl
  refine ⟨by simp [isWhite, or_assoc], ?_, ?_⟩
  · have e : c = '_' ↔ c.toNat = 95 := ⟨fun e => by rw [e]; rfl, fun e => Char.toNat_inj.1 (by rw [e]; rfl)⟩
    have n : 'a'.toNat = 97 ∧ 'z'.toNat = 122 ∧ 'A'.toNat = 65 ∧ 'Z'.toNat = 90 := by decide
    simp only [isHead, h, e, n, Bool.or_eq_true, Bool.and_eq_true, decide_eq_true_eq, beq_iff_eq]
    omega
  · have n : '0'.toNat = 48 ∧ '9'.toNat = 57 := by decide
    simp only [isBody, h, n, Bool.or_eq_true, Bool.and_eq_true, decide_eq_true_eq]

/-- White space: blanks, tabs and ends of lines. -/
def Blank (b : List Char) : Prop := ∀ c ∈ b, isWhite c = true

/-- A name: letters, digits and underscores, no digit first, and no `X` first. -/
def Name (w : List Char) : Prop := ∃ c l, w = c :: l ∧ isHead c = true ∧ c ≠ 'X' ∧ ∀ d ∈ l, isBody d = true

/-- Nothing, or a text that does not start with a letter, a digit or an underscore. -/
def Apart (r : List Char) : Prop := ∀ c ∈ r.head?, isBody c = false

mutual
/-- The text is a name, or a unary operator and an operand, or a formula in parentheses. -/
inductive Operand : List Char → Ltl → Prop
  | name {b w} : Blank b → Name w → Operand (b ++ w) (.name w)
  | neg {b s a} : Blank b → Operand s a → Operand (b ++ c!"!" ++ s) (.neg a)
  | next {b s a} : Blank b → Apart s → Operand s a → Operand (b ++ c!"X" ++ s) (.next a)
  | always {b s a} : Blank b → Operand s a → Operand (b ++ c!"[]" ++ s) (.always a)
  | eventually {b s a} : Blank b → Operand s a → Operand (b ++ c!"<>" ++ s) (.eventually a)
  | paren {b s b' a} : Blank b → Formula s a → Blank b' → Operand (b ++ c!"(" ++ s ++ b' ++ c!")") a

/-- The text is an operand, or an operand, a binary operator and a formula: all binary operators group to the right.
There is white space before `U` and no name directly after it. -/
inductive Formula : List Char → Ltl → Prop
  | one {s a} : Operand s a → Formula s a
  | untl {s a b t c} : Operand s a → Blank b → b ≠ [] → Apart t → Formula t c →
      Formula (s ++ b ++ c!"U" ++ t) (.untl a c)
  | and {s a b t c} : Operand s a → Blank b → Formula t c → Formula (s ++ b ++ c!"&&" ++ t) (.and a c)
  | or {s a b t c} : Operand s a → Blank b → Formula t c → Formula (s ++ b ++ c!"||" ++ t) (.or a c)
  | imp {s a b t c} : Operand s a → Blank b → Formula t c → Formula (s ++ b ++ c!"->" ++ t) (.imp a c)
  | iff {s a b t c} : Operand s a → Blank b → Formula t c → Formula (s ++ b ++ c!"<->" ++ t) (.iff a c)
end

/-- The words that `ltl2dstar` reads as operators. -/
def reserved : List (List Char) := [c!"!", c!"X", c!"G", c!"F", c!"U", c!"&", c!"|", c!"i", c!"e"]

/-- The names of a formula. -/
def names : Ltl → List (List Char)
  | .name w => [w]
  | .neg a | .next a | .always a | .eventually a => names a
  | .untl a b | .and a b | .or a b | .imp a b | .iff a b => names a ++ names b

instance (b : List Char) : Decidable (Blank b) := by unfold Blank; infer_instance

instance (b : List Char) : Decidable (Apart b) := by unfold Apart; infer_instance

/-! ## Tokens -/

theorem skip_blank {b : List Char} (h : Blank b) (s : List Char) : skip (b ++ s) = skip s := by
  induction b with
  | nil => rfl
  | cons c b ih =>
    have hc := h c (by simp)
    show List.dropWhile isWhite (c :: (b ++ s)) = _
    rw [List.dropWhile_cons, if_pos hc]
    exact ih fun d hd => h d (by simp [hd])

theorem skip_cons {c : Char} (h : isWhite c = false) (s : List Char) : skip (c :: s) = c :: s := by
  simp [skip, h]

theorem literal_yes {b : List Char} (h : Blank b) {c : Char} (hc : isWhite c = false) (w s : List Char) :
    literal (c :: w) (b ++ (c :: w) ++ s) = some s := by
  unfold literal
  rw [List.append_assoc, skip_blank h, List.cons_append, skip_cons hc, if_pos]
  · rw [← List.cons_append, List.drop_left]
  · rw [List.isPrefixOf_iff_prefix, ← List.cons_append]
    exact List.prefix_append _ _

theorem literal_no {b : List Char} (h : Blank b) {c d : Char} (hc : isWhite c = false) (hd : d ≠ c) (w s : List Char) :
    literal (d :: w) (b ++ c :: s) = none := by
  unfold literal
  rw [skip_blank h, skip_cons hc, if_neg]
  simp [List.isPrefixOf, hd]

theorem head_white {c : Char} (h : isBody c = true) : isWhite c = false := by
  cases hw : isWhite c with
  | false => rfl
  | true =>
    exfalso
    simp only [isWhite, Bool.or_eq_true, beq_iff_eq] at hw
    rcases hw with ((rfl | rfl) | rfl) | rfl <;> revert h <;> decide

theorem isBody_of_head {c : Char} (h : isHead c = true) : isBody c = true := by simp [isBody, h]

theorem takeWhile_body {l r : List Char} (h : ∀ d ∈ l, isBody d = true) (hr : Apart r) :
    (l ++ r).takeWhile isBody = l ∧ (l ++ r).dropWhile isBody = r := by
  induction l with
  | nil =>
    cases r with
    | nil => simp
    | cons c r => simp [hr c (by simp)]
  | cons c l ih =>
    have := ih fun d hd => h d (by simp [hd])
    simp [h c (by simp), this]

/-! ## The parsers -/

/-- The tree that is built for a formula. -/
def tree : Ltl → AST
  | .name w => .leaf w
  | .neg a => .un c!"!" (tree a)
  | .next a => .un c!"X" (tree a)
  | .always a => .un c!"[]" (tree a)
  | .eventually a => .un c!"<>" (tree a)
  | .untl a b => .bin c!"U" (tree a) (tree b)
  | .and a b => .bin c!"&" (tree a) (tree b)
  | .or a b => .bin c!"|" (tree a) (tree b)
  | .imp a b => .bin c!"->" (tree a) (tree b)
  | .iff a b => .bin c!"<->" (tree a) (tree b)

theorem prefixed_no {n : Nat} (hn : 1 ≤ n) {w s : List Char} (h : literal w s = none) (st : List AST) :
    prefixed n w s st = (.fail, st) := by
  obtain ⟨n, rfl⟩ := Nat.exists_eq_add_of_le' hn
  rw [prefixed, h]

theorem prefixed_yes (n : Nat) {w s r : List Char} (h : literal w s = some r) (st : List AST) :
    prefixed (n + 1) w s st = act w (unary n r st) := by
  rw [prefixed, h]

/-- What may follow a formula: the end of the text or a closing parenthesis. -/
def Stop (r : List Char) : Prop := ∃ b r', r = b ++ r' ∧ Blank b ∧ (r' = [] ∨ ∃ q, r' = ')' :: q)

theorem Stop.apart {r : List Char} (h : Stop r) : Apart r := by
  obtain ⟨b, r', rfl, hb, h⟩ := h
  intro c hc
  cases hbody : isBody c with
  | false => rfl
  | true =>
    exfalso
    cases b with
    | nil =>
      rcases h with rfl | ⟨q, rfl⟩
      · cases hc
      · have : c = ')' := by simpa using hc.symm
        subst this
        revert hbody; decide
    | cons d b =>
      have : c = d := by simpa using hc.symm
      subst this
      have h1 := hb c (by simp)
      rw [head_white hbody] at h1
      cases h1

theorem firstOf_stop {r : List Char} (h : Stop r) :
    firstOf [c!"U", c!"&&", c!"||", c!"->", c!"<->"] r = none := by
  obtain ⟨b, r', rfl, hb, h⟩ := h
  rcases h with rfl | ⟨q, rfl⟩
  · have e : ∀ d w, literal (d :: w) (b ++ []) = none := by
      intro d w
      unfold literal
      rw [skip_blank hb]
      rfl
    simp only [firstOf, e]
  · have e : ∀ d w, d ≠ ')' → literal (d :: w) (b ++ ')' :: q) = none := fun d w hd =>
      literal_no hb (by decide) hd w q
    simp only [firstOf, e _ _ (show 'U' ≠ ')' by decide), e _ _ (show '&' ≠ ')' by decide),
      e _ _ (show '|' ≠ ')' by decide), e _ _ (show '-' ≠ ')' by decide), e _ _ (show '<' ≠ ')' by decide)]

theorem more_stop {n : Nat} (hn : 1 ≤ n) {r : List Char} (h : Stop r) (st : List AST) :
    more n r st = (.ok r, st) := by
  obtain ⟨n, rfl⟩ := Nat.exists_eq_add_of_le' hn
  rw [more, firstOf_stop h]

theorem apart_blank {b : List Char} (h : Blank b) (hne : b ≠ []) (s : List Char) : Apart (b ++ s) := by
  obtain ⟨c, b, rfl⟩ := List.exists_cons_of_ne_nil hne
  intro d hd
  have : c = d := by simpa using hd
  subst this
  cases hbody : isBody c with
  | false => rfl
  | true =>
    have h1 := h c (by simp)
    rw [head_white hbody] at h1
    cases h1

theorem apart_op {b : List Char} (h : Blank b) {c : Char} (hc : isBody c = false) (s : List Char) :
    Apart (b ++ c :: s) := by
  cases b with
  | nil =>
    intro d hd
    have : c = d := by simpa using hd
    rwa [← this]
  | cons x b => exact apart_blank h (by simp) _

/-- An operator and what follows, among the alternatives. -/
theorem form_bin {n : Nat} {s t r b : List Char} {a c : AST} {st : List AST} {w : List Char} {op : AST → AST → AST}
    (h1 : unary (n + 2) (s ++ (b ++ w ++ (t ++ r))) st = (.ok (b ++ w ++ (t ++ r)), a :: st))
    (h2 : firstOf [c!"U", c!"&&", c!"||", c!"->", c!"<->"] (b ++ w ++ (t ++ r)) = some (w, t ++ r))
    (h3 : form (n + 1) (t ++ r) (a :: st) = (.ok r, c :: a :: st))
    (h4 : pushOp w (c :: a :: st) = some (op a c :: st)) (hr : Stop r) :
    form (n + 3) (s ++ b ++ w ++ t ++ r) st = (.ok r, op a c :: st) := by
  have e : s ++ b ++ w ++ t ++ r = s ++ (b ++ w ++ (t ++ r)) := by simp
  rw [e, form, h1]
  simp only
  rw [more, h2]
  simp only [h3, act, h4]
  rw [more_stop (by omega) hr]
  rfl

mutual
theorem unary_spec {s : List Char} {a : Ltl} (h : Operand s a) :
    1 ≤ s.length ∧ ∀ (n : Nat) (r : List Char) (st : List AST), 2 * s.length ≤ n → Apart r →
      unary n (s ++ r) st = (.ok r, tree a :: st) := by
  cases h with
  | @name b w hb hw =>
    obtain ⟨c, l, rfl, hc, hX, hl⟩ := hw
    refine ⟨by simp; omega, fun n r st hn hr => ?_⟩
    simp only [List.length_append, List.length_cons] at hn
    obtain ⟨n, rfl⟩ := Nat.exists_eq_add_of_le' (show 1 ≤ n by omega)
    have hw := head_white (isBody_of_head hc)
    have ne : ∀ d, isHead d = false → d ≠ c := by
      rintro d hd rfl
      rw [hc] at hd
      cases hd
    have e : b ++ c :: l ++ r = b ++ c :: (l ++ r) := by simp
    rw [e, unary, prefixed_no (by omega) (literal_no hb hw (ne '!' (by decide)) _ _)]
    simp only [orElse]
    rw [prefixed_no (by omega) (literal_no hb hw (Ne.symm hX) _ _)]
    simp only [orElse]
    rw [prefixed_no (by omega) (literal_no hb hw (ne '[' (by decide)) _ _)]
    simp only [orElse]
    rw [prefixed_no (by omega) (literal_no hb hw (ne '<' (by decide)) _ _)]
    simp only [orElse, identP, identifier]
    rw [skip_blank hb, skip_cons hw]
    simp only [hc, if_true, takeWhile_body hl hr]
    rfl
  | @neg b s a hb ha =>
    obtain ⟨_, ih⟩ := unary_spec ha
    refine ⟨by simp; omega, fun n r st hn hr => ?_⟩
    simp only [List.length_append, List.length_cons] at hn
    obtain ⟨n, rfl⟩ := Nat.exists_eq_add_of_le' (show 2 ≤ n by omega)
    have e : b ++ c!"!" ++ s ++ r = b ++ c!"!" ++ (s ++ r) := by simp
    rw [e, unary, prefixed_yes _ (literal_yes hb (by decide) _ _), ih n r st (by omega) hr]
    rfl
  | @next b s a hb _ ha =>
    obtain ⟨_, ih⟩ := unary_spec ha
    refine ⟨by simp; omega, fun n r st hn hr => ?_⟩
    simp only [List.length_append, List.length_cons] at hn
    obtain ⟨n, rfl⟩ := Nat.exists_eq_add_of_le' (show 2 ≤ n by omega)
    have e : b ++ c!"X" ++ s ++ r = b ++ c!"X" ++ (s ++ r) := by simp
    have e' : b ++ c!"X" ++ (s ++ r) = b ++ 'X' :: (s ++ r) := by simp
    rw [e, unary, prefixed_no (by omega) (by rw [e']; exact literal_no hb (by decide) (by decide) _ _)]
    simp only [orElse]
    rw [prefixed_yes _ (literal_yes hb (by decide) _ _), ih n r st (by omega) hr]
    rfl
  | @always b s a hb ha =>
    obtain ⟨_, ih⟩ := unary_spec ha
    refine ⟨by simp; omega, fun n r st hn hr => ?_⟩
    simp only [List.length_append, List.length_cons] at hn
    obtain ⟨n, rfl⟩ := Nat.exists_eq_add_of_le' (show 2 ≤ n by omega)
    have e : b ++ c!"[]" ++ s ++ r = b ++ c!"[]" ++ (s ++ r) := by simp
    have e' : b ++ c!"[]" ++ (s ++ r) = b ++ '[' :: (']' :: (s ++ r)) := by simp
    rw [e, unary, prefixed_no (by omega) (by rw [e']; exact literal_no hb (by decide) (by decide) _ _)]
    simp only [orElse]
    rw [prefixed_no (by omega) (by rw [e']; exact literal_no hb (by decide) (by decide) _ _)]
    simp only [orElse]
    rw [prefixed_yes _ (literal_yes hb (by decide) _ _), ih n r st (by omega) hr]
    rfl
  | @eventually b s a hb ha =>
    obtain ⟨_, ih⟩ := unary_spec ha
    refine ⟨by simp; omega, fun n r st hn hr => ?_⟩
    simp only [List.length_append, List.length_cons] at hn
    obtain ⟨n, rfl⟩ := Nat.exists_eq_add_of_le' (show 2 ≤ n by omega)
    have e : b ++ c!"<>" ++ s ++ r = b ++ c!"<>" ++ (s ++ r) := by simp
    have e' : b ++ c!"<>" ++ (s ++ r) = b ++ '<' :: ('>' :: (s ++ r)) := by simp
    rw [e, unary, prefixed_no (by omega) (by rw [e']; exact literal_no hb (by decide) (by decide) _ _)]
    simp only [orElse]
    rw [prefixed_no (by omega) (by rw [e']; exact literal_no hb (by decide) (by decide) _ _)]
    simp only [orElse]
    rw [prefixed_no (by omega) (by rw [e']; exact literal_no hb (by decide) (by decide) _ _)]
    simp only [orElse]
    rw [prefixed_yes _ (literal_yes hb (by decide) _ _), ih n r st (by omega) hr]
    rfl
  | @paren b s b' a hb ha hb' =>
    obtain ⟨_, ih⟩ := form_spec ha
    refine ⟨by simp; omega, fun n r st hn hr => ?_⟩
    simp only [List.length_append, List.length_cons, List.length_nil] at hn
    obtain ⟨n, rfl⟩ := Nat.exists_eq_add_of_le' (show 1 ≤ n by omega)
    have e : b ++ c!"(" ++ s ++ b' ++ c!")" ++ r = b ++ c!"(" ++ (s ++ (b' ++ c!")" ++ r)) := by simp
    have e' : b ++ c!"(" ++ (s ++ (b' ++ c!")" ++ r)) = b ++ '(' :: (s ++ (b' ++ c!")" ++ r)) := by simp
    rw [e, unary, prefixed_no (by omega) (by rw [e']; exact literal_no hb (by decide) (by decide) _ _)]
    simp only [orElse]
    rw [prefixed_no (by omega) (by rw [e']; exact literal_no hb (by decide) (by decide) _ _)]
    simp only [orElse]
    rw [prefixed_no (by omega) (by rw [e']; exact literal_no hb (by decide) (by decide) _ _)]
    simp only [orElse]
    rw [prefixed_no (by omega) (by rw [e']; exact literal_no hb (by decide) (by decide) _ _)]
    have hid : identifier (b ++ '(' :: (s ++ (b' ++ c!")" ++ r))) = none := by
      unfold identifier
      rw [skip_blank hb, skip_cons (by decide)]
      rfl
    simp only [orElse, identP, e', hid]
    rw [← e', literal_yes hb (by decide)]
    simp only
    rw [ih n (b' ++ c!")" ++ r) st (by omega) ⟨b', ')' :: r, by simp, hb', .inr ⟨r, rfl⟩⟩]
    simp only [closeP]
    rw [literal_yes hb' (by decide)]
termination_by 2 * s.length
decreasing_by all_goals (subst_vars; simp_wf; (try simp only [List.length_append, List.length_cons]); (try omega))

theorem form_spec {s : List Char} {a : Ltl} (h : Formula s a) :
    1 ≤ s.length ∧ ∀ (n : Nat) (r : List Char) (st : List AST), 2 * s.length + 2 ≤ n → Stop r →
      form n (s ++ r) st = (.ok r, tree a :: st) := by
  cases h with
  | one h =>
    obtain ⟨h1, ih⟩ := unary_spec h
    refine ⟨h1, fun n r st hn hr => ?_⟩
    obtain ⟨n, rfl⟩ := Nat.exists_eq_add_of_le' (show 1 ≤ n by omega)
    rw [form, ih n r st (by omega) hr.apart]
    simp only
    rw [more_stop (by omega) hr]
    rfl
  | @untl s a b t c ha hb hne ht hc =>
    obtain ⟨h1, ih1⟩ := unary_spec ha
    obtain ⟨h2, ih2⟩ := form_spec hc
    refine ⟨by simp; omega, fun n r st hn hr => ?_⟩
    simp only [List.length_append, List.length_cons, List.length_nil] at hn
    obtain ⟨n, rfl⟩ := Nat.exists_eq_add_of_le' (show 3 ≤ n by omega)
    refine form_bin (op := AST.bin c!"U") (ih1 _ _ _ (by omega) ?_) ?_ (ih2 _ _ _ (by omega) hr) rfl hr
    · rw [List.append_assoc]
      exact apart_blank hb hne _
    · simp only [firstOf]
      rw [literal_yes hb (by decide)]
  | @and s a b t c ha hb hc =>
    obtain ⟨h1, ih1⟩ := unary_spec ha
    obtain ⟨h2, ih2⟩ := form_spec hc
    refine ⟨by simp; omega, fun n r st hn hr => ?_⟩
    simp only [List.length_append, List.length_cons, List.length_nil] at hn
    obtain ⟨n, rfl⟩ := Nat.exists_eq_add_of_le' (show 3 ≤ n by omega)
    have e : b ++ c!"&&" ++ (t ++ r) = b ++ '&' :: ('&' :: (t ++ r)) := by simp
    refine form_bin (op := AST.bin c!"&") (ih1 _ _ _ (by omega) ?_) ?_ (ih2 _ _ _ (by omega) hr) rfl hr
    · rw [e]
      exact apart_op hb (by decide) _
    · simp only [firstOf]
      rw [show literal c!"U" (b ++ c!"&&" ++ (t ++ r)) = none by
        rw [e]; exact literal_no hb (by decide) (by decide) _ _, literal_yes hb (by decide)]
  | @or s a b t c ha hb hc =>
    obtain ⟨h1, ih1⟩ := unary_spec ha
    obtain ⟨h2, ih2⟩ := form_spec hc
    refine ⟨by simp; omega, fun n r st hn hr => ?_⟩
    simp only [List.length_append, List.length_cons, List.length_nil] at hn
    obtain ⟨n, rfl⟩ := Nat.exists_eq_add_of_le' (show 3 ≤ n by omega)
    have e : b ++ c!"||" ++ (t ++ r) = b ++ '|' :: ('|' :: (t ++ r)) := by simp
    refine form_bin (op := AST.bin c!"|") (ih1 _ _ _ (by omega) ?_) ?_ (ih2 _ _ _ (by omega) hr) rfl hr
    · rw [e]
      exact apart_op hb (by decide) _
    · simp only [firstOf]
      rw [show literal c!"U" (b ++ c!"||" ++ (t ++ r)) = none by
        rw [e]; exact literal_no hb (by decide) (by decide) _ _]
      rw [show literal c!"&&" (b ++ c!"||" ++ (t ++ r)) = none by
        rw [e]; exact literal_no hb (by decide) (by decide) _ _, literal_yes hb (by decide)]
  | @imp s a b t c ha hb hc =>
    obtain ⟨h1, ih1⟩ := unary_spec ha
    obtain ⟨h2, ih2⟩ := form_spec hc
    refine ⟨by simp; omega, fun n r st hn hr => ?_⟩
    simp only [List.length_append, List.length_cons, List.length_nil] at hn
    obtain ⟨n, rfl⟩ := Nat.exists_eq_add_of_le' (show 3 ≤ n by omega)
    have e : b ++ c!"->" ++ (t ++ r) = b ++ '-' :: ('>' :: (t ++ r)) := by simp
    refine form_bin (op := AST.bin c!"->") (ih1 _ _ _ (by omega) ?_) ?_ (ih2 _ _ _ (by omega) hr) rfl hr
    · rw [e]
      exact apart_op hb (by decide) _
    · simp only [firstOf]
      rw [show literal c!"U" (b ++ c!"->" ++ (t ++ r)) = none by
        rw [e]; exact literal_no hb (by decide) (by decide) _ _]
      rw [show literal c!"&&" (b ++ c!"->" ++ (t ++ r)) = none by
        rw [e]; exact literal_no hb (by decide) (by decide) _ _]
      rw [show literal c!"||" (b ++ c!"->" ++ (t ++ r)) = none by
        rw [e]; exact literal_no hb (by decide) (by decide) _ _, literal_yes hb (by decide)]
  | @iff s a b t c ha hb hc =>
    obtain ⟨h1, ih1⟩ := unary_spec ha
    obtain ⟨h2, ih2⟩ := form_spec hc
    refine ⟨by simp; omega, fun n r st hn hr => ?_⟩
    simp only [List.length_append, List.length_cons, List.length_nil] at hn
    obtain ⟨n, rfl⟩ := Nat.exists_eq_add_of_le' (show 3 ≤ n by omega)
    have e : b ++ c!"<->" ++ (t ++ r) = b ++ '<' :: ('-' :: '>' :: (t ++ r)) := by simp
    refine form_bin (op := AST.bin c!"<->") (ih1 _ _ _ (by omega) ?_) ?_ (ih2 _ _ _ (by omega) hr) rfl hr
    · rw [e]
      exact apart_op hb (by decide) _
    · simp only [firstOf]
      rw [show literal c!"U" (b ++ c!"<->" ++ (t ++ r)) = none by
        rw [e]; exact literal_no hb (by decide) (by decide) _ _]
      rw [show literal c!"&&" (b ++ c!"<->" ++ (t ++ r)) = none by
        rw [e]; exact literal_no hb (by decide) (by decide) _ _]
      rw [show literal c!"||" (b ++ c!"<->" ++ (t ++ r)) = none by
        rw [e]; exact literal_no hb (by decide) (by decide) _ _]
      rw [show literal c!"->" (b ++ c!"<->" ++ (t ++ r)) = none by
        rw [e]; exact literal_no hb (by decide) (by decide) _ _, literal_yes hb (by decide)]
termination_by 2 * s.length + 1
decreasing_by all_goals (subst_vars; simp_wf; (try simp only [List.length_append, List.length_cons]); (try omega))
end

/-! ## The text of the result -/

theorem name_sym {w : List Char} (h : Name w) : dstarSym w = w := by
  obtain ⟨c, l, rfl, hc, hX, _⟩ := h
  have ne : ∀ d m, isHead d = false → d :: m ≠ c :: l := by
    intro d m hd e
    rw [← (List.cons.inj e).1, hd] at hc
    cases hc
  have hX' : ∀ m, 'X' :: m ≠ c :: l := fun m e => hX (List.cons.inj e).1.symm
  unfold dstarSym dstarSyn
  simp only [Dict.get?_cons, if_neg (ne '&' [] (by decide)), if_neg (ne '|' [] (by decide)),
    if_neg (ne '!' [] (by decide)), if_neg (ne '-' ['>'] (by decide)), if_neg (ne '<' ['-', '>'] (by decide)),
    if_neg (ne '[' [']'] (by decide)), if_neg (ne '<' ['>'] (by decide)), if_neg (hX' []), Dict.get?_nil]
  by_cases hU : ['U'] = c :: l
  · rw [if_pos hU, ← hU]
    rfl
  · rw [if_neg hU]
    rfl

mutual
theorem operand_names {s : List Char} {a : Ltl} (h : Operand s a) : ∀ w ∈ names a, Name w := by
  cases h with
  | name hb hw => simpa [names] using hw
  | neg hb ha => exact fun w hw => operand_names ha w hw
  | next hb _ ha => exact fun w hw => operand_names ha w hw
  | always hb ha => exact fun w hw => operand_names ha w hw
  | eventually hb ha => exact fun w hw => operand_names ha w hw
  | paren hb ha hb' => exact formula_names ha
termination_by 2 * s.length
decreasing_by all_goals (subst_vars; simp_wf; (try simp only [List.length_append, List.length_cons]); (try omega))

theorem formula_names {s : List Char} {a : Ltl} (h : Formula s a) : ∀ w ∈ names a, Name w := by
  cases h with
  | one h => exact operand_names h
  | untl ha hb hne ht hc =>
    intro w hw
    rcases List.mem_append.1 hw with hw | hw
    · exact operand_names ha w hw
    · exact formula_names hc w hw
  | and ha hb hc =>
    intro w hw
    rcases List.mem_append.1 hw with hw | hw
    · exact operand_names ha w hw
    · exact formula_names hc w hw
  | or ha hb hc =>
    intro w hw
    rcases List.mem_append.1 hw with hw | hw
    · exact operand_names ha w hw
    · exact formula_names hc w hw
  | imp ha hb hc =>
    intro w hw
    rcases List.mem_append.1 hw with hw | hw
    · exact operand_names ha w hw
    · exact formula_names hc w hw
  | iff ha hb hc =>
    intro w hw
    rcases List.mem_append.1 hw with hw | hw
    · exact operand_names ha w hw
    · exact formula_names hc w hw
termination_by 2 * s.length + 1
decreasing_by all_goals (subst_vars; simp_wf; (try simp only [List.length_append, List.length_cons]); (try omega))
end

theorem prefixWords_ne (a : Ltl) : prefixWords a ≠ [] := by cases a <;> simp [prefixWords]

theorem join_cons (x : List Char) {l : List (List Char)} (h : l ≠ []) :
    joinWith c!" " (x :: l) = x ++ c!" " ++ joinWith c!" " l := by
  obtain ⟨y, l, rfl⟩ := List.exists_cons_of_ne_nil h
  rfl

theorem join_bin (x : List Char) (a b : Ltl) : joinWith c!" " (x :: (prefixWords a ++ prefixWords b)) =
    x ++ c!" " ++ joinWith c!" " (prefixWords a) ++ c!" " ++ joinWith c!" " (prefixWords b) := by
  rw [join_cons _ (by simp [prefixWords_ne])]
  have key : ∀ (us vs : List (List Char)), us ≠ [] → vs ≠ [] →
      joinWith c!" " (us ++ vs) = joinWith c!" " us ++ c!" " ++ joinWith c!" " vs := by
    intro us vs hu hv
    induction us with
    | nil => exact absurd rfl hu
    | cons u us ih =>
      cases us with
      | nil => exact join_cons u hv
      | cons u' us =>
        rw [List.cons_append, join_cons u (by simp), ih (by simp), join_cons u (by simp)]
        simp
  rw [key _ _ (prefixWords_ne a) (prefixWords_ne b)]
  simp

theorem toDstar_tree (a : Ltl) (h : ∀ w ∈ names a, Name w) :
    toDstar (tree a) = joinWith c!" " (prefixWords a) := by
  induction a with
  | name w => exact name_sym (h w (by simp [names]))
  | neg a ih | next a ih | always a ih | eventually a ih =>
    rw [prefixWords, join_cons _ (prefixWords_ne a), ← ih h]
    rfl
  | untl a b iha ihb | and a b iha ihb | or a b iha ihb | imp a b iha ihb | iff a b iha ihb =>
    rw [prefixWords, join_bin, ← iha fun w hw => h w (by simp [names, hw]), ← ihb fun w hw => h w (by simp [names, hw])]
    rfl

/-- A formula in the syntax of SPIN is translated to its prefix notation, and the next call starts afresh. -/
theorem spinToDstar_prefix {s b : List Char} {a : Ltl} (h : Formula s a) (hb : Blank b) :
    spinToDstar [] (s ++ b) = (.ok (joinWith c!" " (prefixWords a)), []) := by
  obtain ⟨_, hf⟩ := form_spec h
  have hskip : skip b = [] := by
    have := skip_blank hb []
    rwa [List.append_nil] at this
  unfold spinToDstar spinToAST
  rw [hf _ b [] (by simp; omega) ⟨b, [], by simp, hb, .inl rfl⟩]
  simp only [hskip, if_true]
  rw [← toDstar_tree a (formula_names h)]
  rfl

/-! ## Different formulas have different translations -/

theorem prefixWords_append {a b : Ltl} (ha : ∀ w ∈ names a, w ∉ reserved) (hb : ∀ w ∈ names b, w ∉ reserved)
    {r r' : List (List Char)} (h : prefixWords a ++ r = prefixWords b ++ r') : a = b ∧ r = r' := by
  induction a generalizing b r r' with
  | name w =>
    have hw := ha w (by simp [names])
    cases b with
    | name v =>
      simp only [prefixWords, List.cons_append, List.nil_append, List.cons.injEq] at h
      exact ⟨by rw [h.1], h.2⟩
    | neg b | next b | always b | eventually b =>
      simp only [prefixWords, List.cons_append, List.nil_append, List.cons.injEq] at h
      exact absurd (by rw [h.1]; decide) hw
    | untl b c | and b c | or b c | imp b c | iff b c =>
      simp only [prefixWords, List.cons_append, List.nil_append, List.cons.injEq] at h
      exact absurd (by rw [h.1]; decide) hw
  | neg a ih | next a ih | always a ih | eventually a ih =>
    cases b with
    | name v =>
      have hv := hb v (by simp [names])
      simp only [prefixWords, List.cons_append, List.nil_append, List.cons.injEq] at h
      exact absurd (by rw [← h.1]; decide) hv
    | neg b | next b | always b | eventually b =>
      simp only [prefixWords, List.cons_append, List.cons.injEq] at h
      first
        | (obtain ⟨rfl, h2⟩ := ih (b := b) ha hb h.2; exact ⟨rfl, h2⟩)
        | (exfalso; have := h.1.1; revert this; decide)
        | (exfalso; have := h.1; revert this; decide)
    | untl b c | and b c | or b c | imp b c | iff b c =>
      simp only [prefixWords, List.cons_append, List.cons.injEq] at h
      exfalso
      first
        | (have := h.1.1; revert this; decide)
        | (have := h.1; revert this; decide)
  | untl a a' ih ih' | and a a' ih ih' | or a a' ih ih' | imp a a' ih ih' | iff a a' ih ih' =>
    cases b with
    | name v =>
      have hv := hb v (by simp [names])
      simp only [prefixWords, List.cons_append, List.nil_append, List.cons.injEq] at h
      exact absurd (by rw [← h.1]; decide) hv
    | neg b | next b | always b | eventually b =>
      simp only [prefixWords, List.cons_append, List.cons.injEq] at h
      exfalso
      first
        | (have := h.1.1; revert this; decide)
        | (have := h.1; revert this; decide)
    | untl b c | and b c | or b c | imp b c | iff b c =>
      simp only [prefixWords, List.cons_append, List.append_assoc, List.cons.injEq] at h
      first
        | (obtain ⟨rfl, h2⟩ := ih (fun w hw => ha w (by simp [names, hw])) (fun w hw => hb w (by simp [names, hw])) h.2
           obtain ⟨rfl, h3⟩ := ih' (fun w hw => ha w (by simp [names, hw])) (fun w hw => hb w (by simp [names, hw])) h2
           exact ⟨rfl, h3⟩)
        | (exfalso; have := h.1.1; revert this; decide)
        | (exfalso; have := h.1; revert this; decide)

theorem join_inj {us vs : List (List Char)} (hu : ∀ w ∈ us, w ≠ [] ∧ ' ' ∉ w) (hv : ∀ w ∈ vs, w ≠ [] ∧ ' ' ∉ w)
    (h : joinWith c!" " us = joinWith c!" " vs) : us = vs := by
  have step : ∀ (x y s t : List Char), ' ' ∉ x → ' ' ∉ y → x ++ ' ' :: s = y ++ ' ' :: t → x = y ∧ s = t := by
    intro x
    induction x with
    | nil =>
      intro y s t _ hy e
      cases y with
      | nil => exact ⟨rfl, (List.cons.inj e).2⟩
      | cons c y => exact absurd (by rw [← (List.cons.inj e).1]; simp) hy
    | cons c x ih =>
      intro y s t hx hy e
      cases y with
      | nil => exact absurd (by rw [(List.cons.inj e).1]; simp) hx
      | cons d y =>
        obtain ⟨rfl, e'⟩ := List.cons.inj e
        obtain ⟨rfl, h2⟩ := ih y s t (fun h => hx (by simp [h])) (fun h => hy (by simp [h])) e'
        exact ⟨rfl, h2⟩
  induction us generalizing vs with
  | nil =>
    cases vs with
    | nil => rfl
    | cons v vs =>
      exfalso
      cases vs with
      | nil => exact (hv v (by simp)).1 h.symm
      | cons v' vs => simp [joinWith] at h
  | cons u us ih =>
    cases vs with
    | nil =>
      exfalso
      cases us with
      | nil => exact (hu u (by simp)).1 h
      | cons v' vs => simp [joinWith] at h
    | cons v vs =>
      cases us with
      | nil =>
        cases vs with
        | nil => rw [show u = v from h]
        | cons v' vs =>
          exfalso
          rw [join_cons v (by simp)] at h
          have h : u = v ++ c!" " ++ joinWith c!" " (v' :: vs) := h
          exact (hu u (by simp)).2 (by rw [h]; simp)
      | cons u' us =>
        cases vs with
        | nil =>
          exfalso
          rw [join_cons u (by simp)] at h
          have h : u ++ c!" " ++ joinWith c!" " (u' :: us) = v := h
          exact (hv v (by simp)).2 (by rw [← h]; simp)
        | cons v' vs =>
          rw [join_cons u (by simp), join_cons v (by simp), List.append_assoc, List.append_assoc] at h
          obtain ⟨rfl, h2⟩ := step u v _ _ (hu u (by simp)).2 (hv v (by simp)).2 h
          rw [ih (fun w hw => hu w (by simp [hw])) (fun w hw => hv w (by simp [hw])) h2]

theorem prefixWords_word {a : Ltl} (h : ∀ w ∈ names a, Name w) : ∀ w ∈ prefixWords a, w ≠ [] ∧ ' ' ∉ w := by
  induction a with
  | name w =>
    intro v hv
    obtain rfl := List.mem_singleton.1 hv
    obtain ⟨c, l, rfl, hc, _, hl⟩ := h v (by simp [names])
    refine ⟨by simp, fun hm => ?_⟩
    rcases List.mem_cons.1 hm with rfl | hm
    · revert hc; decide
    · have := hl _ hm
      revert this; decide
  | neg a ih | next a ih | always a ih | eventually a ih =>
    intro v hv
    rcases List.mem_cons.1 hv with rfl | hv
    · exact ⟨by simp, by decide⟩
    · exact ih h v hv
  | untl a b iha ihb | and a b iha ihb | or a b iha ihb | imp a b iha ihb | iff a b iha ihb =>
    intro v hv
    rcases List.mem_cons.1 hv with rfl | hv
    · exact ⟨by simp, by decide⟩
    · rcases List.mem_append.1 hv with hv | hv
      · exact iha (fun w hw => h w (by simp [names, hw])) v hv
      · exact ihb (fun w hw => h w (by simp [names, hw])) v hv

/-- If no name is an operator of `ltl2dstar`, then texts with the same translation are the same formula. -/
theorem spinToDstar_injective {s t b b' : List Char} {a c : Ltl} (h1 : Formula s a) (h2 : Formula t c) (hb : Blank b)
    (hb' : Blank b') (ha : ∀ w ∈ names a, w ∉ reserved) (hc : ∀ w ∈ names c, w ∉ reserved)
    (h : spinToDstar [] (s ++ b) = spinToDstar [] (t ++ b')) : a = c := by
  rw [spinToDstar_prefix h1 hb, spinToDstar_prefix h2 hb'] at h
  have e : joinWith c!" " (prefixWords a) = joinWith c!" " (prefixWords c) := by
    have := (Prod.mk.inj h).1
    injection this
  have := join_inj (prefixWords_word (formula_names h1)) (prefixWords_word (formula_names h2)) e
  exact (prefixWords_append ha hc (r := []) (r' := []) (by simpa using this)).1

/-- With names that are operators of `ltl2dstar` the translation is ambiguous: `G && []c` and `([]G) && c`. -/
theorem spinToDstar_ambiguous_counterexample :
    (spinToDstar [] c!"G && []c").1.toOption = some c!"& G G c" ∧
    (spinToDstar [] c!"([]G) && c").1.toOption = some c!"& G G c" := by
  decide +kernel

/-- The precedence of the operators of SPIN is not observed: `a && b -> c` is read as `a && (b -> c)`. -/
theorem spinToDstar_precedence_counterexample :
    (spinToDstar [] c!"a && b -> c").1.toOption = some c!"& a i b c" := by
  decide +kernel

/-! ## One call after another -/

/-- The stack after a parser: what was there before remains, and there is something new if there is a match. -/
def Grows (st : List AST) (p : Res × List AST) : Prop :=
  ∃ new, p.2 = new ++ st ∧ ((∃ r, p.1 = .ok r) → new ≠ [])

theorem pushOp_grows {w : List Char} {x st' new st : List AST} (hx : x ≠ []) (hn : new ≠ [])
    (h : pushOp w (x ++ new ++ st) = some st') : ∃ y, y ≠ [] ∧ st' = y ++ st := by
  obtain ⟨c, x, rfl⟩ := List.exists_cons_of_ne_nil hx
  obtain ⟨d, new, rfl⟩ := List.exists_cons_of_ne_nil hn
  unfold pushOp at h
  simp only at h
  split at h
  · simp only [List.cons_append, Option.some.injEq] at h
    exact ⟨_ :: (x ++ d :: new), by simp, by rw [← h]; simp; rfl⟩
  · cases x with
    | nil =>
      simp only [List.cons_append, List.nil_append, Option.some.injEq] at h
      exact ⟨_ :: new, by simp, by rw [← h]; rfl⟩
    | cons e x =>
      simp only [List.cons_append, Option.some.injEq] at h
      exact ⟨_ :: (x ++ d :: new), by simp, by rw [← h]; simp; rfl⟩

theorem pushOp_unary {w : List Char} (hw : w ∈ [c!"!", c!"X", c!"[]", c!"<>"]) {new st : List AST} (hn : new ≠ []) :
    ∃ y, y ≠ [] ∧ pushOp w (new ++ st) = some (y ++ st) := by
  obtain ⟨d, new, rfl⟩ := List.exists_cons_of_ne_nil hn
  simp only [List.mem_cons, List.not_mem_nil, or_false] at hw
  rcases hw with rfl | rfl | rfl | rfl
  · exact ⟨.un c!"!" d :: new, by simp, rfl⟩
  · exact ⟨.un c!"X" d :: new, by simp, rfl⟩
  · exact ⟨.un c!"[]" d :: new, by simp, rfl⟩
  · exact ⟨.un c!"<>" d :: new, by simp, rfl⟩

theorem orElse_grows {st : List AST} {p : Res × List AST} {q : List AST → Res × List AST} (hp : Grows st p)
    (hq : ∀ st', Grows st' (q st')) : Grows st (orElse p q) := by
  obtain ⟨r, st'⟩ := p
  obtain ⟨new, e, h⟩ := hp
  cases r with
  | ok r => exact ⟨new, e, h⟩
  | raise => exact ⟨new, e, h⟩
  | fail =>
    obtain ⟨new', e', h'⟩ := hq st'
    have e : st' = new ++ st := e
    refine ⟨new' ++ new, ?_, fun hr => by simp [h' hr]⟩
    show (q st').2 = _
    rw [e', e]
    simp

theorem grows_fail (st : List AST) : Grows st (.fail, st) := ⟨[], rfl, by rintro ⟨r, h⟩; cases h⟩

theorem grows_raise (st : List AST) : Grows st (.raise, st) := ⟨[], rfl, by rintro ⟨r, h⟩; cases h⟩

theorem parsers_grow (n : Nat) : (∀ s st, Grows st (unary n s st)) ∧
    (∀ w s st, w ∈ [c!"!", c!"X", c!"[]", c!"<>"] → Grows st (prefixed n w s st)) ∧
    (∀ s st, Grows st (form n s st)) ∧
    (∀ s x st, x ≠ [] → ∃ y, y ≠ [] ∧ (more n s (x ++ st)).2 = y ++ st) := by
  induction n with
  | zero =>
    refine ⟨fun s st => ?_, fun w s st _ => ?_, fun s st => ?_, fun s x st hx => ⟨x, hx, ?_⟩⟩
    · rw [unary]; exact grows_raise st
    · rw [prefixed]; exact grows_raise st
    · rw [form]; exact grows_raise st
    · rw [more]
  | succ n ih =>
    obtain ⟨hu, hp, hf, hm⟩ := ih
    refine ⟨fun s st => ?_, fun w s st hw => ?_, fun s st => ?_, fun s x st hx => ?_⟩
    · rw [unary]
      refine orElse_grows (hp _ _ _ (by simp)) fun st => ?_
      refine orElse_grows (hp _ _ _ (by simp)) fun st => ?_
      refine orElse_grows (hp _ _ _ (by simp)) fun st => ?_
      refine orElse_grows (hp _ _ _ (by simp)) fun st => ?_
      refine orElse_grows ?_ fun st => ?_
      · unfold identP
        split
        · exact ⟨[_], rfl, fun _ => by simp⟩
        · exact grows_fail st
      · split
        · rename_i r _
          have h := hf r st
          generalize form n r st = p at h ⊢
          obtain ⟨res, st'⟩ := p
          obtain ⟨new, e, hne⟩ := h
          cases res with
          | fail => exact ⟨new, e, hne⟩
          | raise => exact ⟨new, e, hne⟩
          | ok r' =>
            simp only [closeP]
            split
            · exact ⟨new, e, fun _ => hne ⟨_, rfl⟩⟩
            · exact ⟨new, e, by rintro ⟨r, h⟩; cases h⟩
        · exact grows_fail st
    · rw [prefixed]
      split
      · rename_i r _
        have h := hu r st
        generalize unary n r st = p at h ⊢
        obtain ⟨res, st'⟩ := p
        obtain ⟨new, e, hne⟩ := h
        cases res with
        | fail => exact ⟨new, e, hne⟩
        | raise => exact ⟨new, e, hne⟩
        | ok r' =>
          have e : st' = new ++ st := e
          subst e
          obtain ⟨y, hy, e⟩ := pushOp_unary hw (st := st) (hne ⟨_, rfl⟩)
          simp only [act, e]
          exact ⟨y, rfl, fun _ => hy⟩
      · exact grows_fail st
    · rw [form]
      refine orElse_grows ?_ fun st => hu s st
      have h := hu s st
      generalize unary n s st = p at h ⊢
      obtain ⟨res, st'⟩ := p
      obtain ⟨new, e, hne⟩ := h
      cases res with
      | fail => exact ⟨new, e, hne⟩
      | raise => exact ⟨new, e, hne⟩
      | ok r' =>
        have e : st' = new ++ st := e
        subst e
        obtain ⟨y, hy, e⟩ := hm r' new st (hne ⟨_, rfl⟩)
        exact ⟨y, e, fun _ => hy⟩
    · rw [more]
      split
      · exact ⟨x, hx, rfl⟩
      · rename_i w r _
        have h := hf r (x ++ st)
        generalize form n r (x ++ st) = p at h ⊢
        obtain ⟨res, st'⟩ := p
        obtain ⟨new, e, hne⟩ := h
        have e : st' = new ++ (x ++ st) := e
        subst e
        cases res with
        | fail => exact ⟨new ++ x, by simp [hx], by simp [act]⟩
        | raise => exact ⟨new ++ x, by simp [hx], by simp [act]⟩
        | ok r' =>
          simp only [act]
          cases hpo : pushOp w (new ++ (x ++ st)) with
          | none => exact ⟨new ++ x, by simp [hx], by simp⟩
          | some st'' =>
            obtain ⟨y, hy, rfl⟩ := pushOp_grows (hne ⟨_, rfl⟩) hx (by rw [List.append_assoc]; exact hpo)
            exact hm r' y st hy

/-- If something is left from an earlier call, then the call fails and something is left after it. -/
theorem spinToDstar_left {st : List AST} (h : st ≠ []) (s : List Char) :
    (∃ e, (spinToDstar st s).1 = .error e) ∧ (spinToDstar st s).2 ≠ [] := by
  obtain ⟨_, _, hf, _⟩ := parsers_grow (4 * s.length + 4)
  have hg := hf s st
  unfold spinToDstar spinToAST
  generalize form (4 * s.length + 4) s st = p at hg ⊢
  obtain ⟨res, st'⟩ := p
  obtain ⟨new, e, hne⟩ := hg
  have e : st' = new ++ st := e
  subst e
  cases res with
  | fail => exact ⟨⟨_, rfl⟩, by simp [h]⟩
  | raise => exact ⟨⟨_, rfl⟩, by simp [h]⟩
  | ok r =>
    have hn := hne ⟨_, rfl⟩
    obtain ⟨c, new, rfl⟩ := List.exists_cons_of_ne_nil hn
    obtain ⟨d, st, rfl⟩ := List.exists_cons_of_ne_nil h
    simp only
    split
    · split
      · rename_i t heq
        exfalso
        have := congrArg List.length heq
        simp at this
      · exact ⟨⟨_, rfl⟩, by simp⟩
    · exact ⟨⟨_, rfl⟩, by simp⟩

/-- If a call fails on a text that starts with a name, then all later calls fail, whatever their texts. -/
theorem calls_fail {b w r : List Char} (hb : Blank b) (hw : Name w) (hr : Apart r) (e : PyErr)
    (h : (spinToDstar [] (b ++ w ++ r)).1 = .error e) (l : List (List Char)) :
    ∀ x ∈ calls (spinToDstar [] (b ++ w ++ r)).2 l, ∃ e', x = .error e' := by
  have later : ∀ (l : List (List Char)) (st : List AST), st ≠ [] → ∀ x ∈ calls st l, ∃ e', x = .error e' := by
    intro l
    induction l with
    | nil => intro st _ x hx; cases hx
    | cons s l ih =>
      intro st hst x hx
      obtain ⟨h1, h2⟩ := spinToDstar_left hst s
      rcases List.mem_cons.1 hx with rfl | hx
      · exact h1
      · exact ih _ h2 x hx
  apply later
  have hlen : 1 ≤ (b ++ w).length := (unary_spec (.name hb hw)).1
  obtain ⟨k, hk⟩ : ∃ k, 4 * (b ++ w ++ r).length + 4 = k + 1 := ⟨_, rfl⟩
  have hu := (unary_spec (.name hb hw)).2 k r [] (by simp only [List.length_append] at hk ⊢; omega) hr
  obtain ⟨_, _, _, hm⟩ := parsers_grow k
  obtain ⟨y, hy, hm⟩ := hm r [tree (.name w)] [] (by simp)
  rw [List.append_nil, List.append_nil] at hm
  have hu2 := (parsers_grow k).1 (b ++ w ++ r)
  unfold spinToDstar spinToAST at h ⊢
  rw [hk, form, hu] at h ⊢
  simp only at h ⊢
  generalize more k r [tree (.name w)] = p at hm h ⊢
  obtain ⟨res, st⟩ := p
  have hm : st = y := hm
  subst hm
  cases res with
  | raise => exact hy
  | fail =>
    simp only [orElse] at h ⊢
    obtain ⟨new, e2, _⟩ := hu2 st
    generalize unary k (b ++ w ++ r) st = q at e2 h ⊢
    obtain ⟨res, st'⟩ := q
    have hst : st' ≠ [] := by
      have e2 : st' = new ++ st := e2
      simp [e2, hy]
    cases res with
    | raise => exact hst
    | fail => exact hst
    | ok r' =>
      simp only at h ⊢
      split
      · rename_i hs
        rw [if_pos hs] at h
        split
        · simp [Except.map] at h
        · exact hst
      · exact hst
  | ok r' =>
    simp only [orElse] at h ⊢
    split
    · rename_i hs
      rw [if_pos hs] at h
      split
      · simp [Except.map] at h
      · exact hy
    · exact hy

section
private def exF : Ltl := .imp (.always (.eventually (.name c!"a"))) (.untl (.name c!"b1") (.next (.neg (.name c!"c"))))

private theorem ex_formula : Formula c!"([]<>a) -> b1 U X !c" exF := by
  have a : Operand c!"a" (.name c!"a") :=
    .name (b := []) (by simp [Blank]) ⟨'a', [], rfl, by decide, by decide, by simp⟩
  have b1 : Operand c!" b1" (.name c!"b1") :=
    .name (b := c!" ") (w := c!"b1") (by decide) ⟨'b', ['1'], rfl, by decide, by decide, by decide⟩
  have c : Operand c!"c" (.name c!"c") :=
    .name (b := []) (by simp [Blank]) ⟨'c', [], rfl, by decide, by decide, by simp⟩
  exact .imp (b := c!" ") (t := c!" b1 U X !c")
    (.paren (b := []) (b' := []) (by simp [Blank])
      (.one (.always (b := []) (by simp [Blank]) (.eventually (b := []) (by simp [Blank]) a))) (by simp [Blank]))
    (by decide)
    (.untl (b := c!" ") (t := c!" X !c") b1 (by decide) (by decide) (by decide)
      (.one (.next (b := c!" ") (s := c!" !c") (by decide) (by decide) (.neg (b := c!" ") (by decide) c))))

example : (spinToDstar [] c!"([]<>a) -> b1 U X !c").1.toOption = some c!"i G F a U b1 X ! c" := by decide +kernel

example : ∀ w ∈ names exF, w ∉ reserved := by decide

example : (calls [] [c!"a", c!"a &&", c!"a", c!"b || c"]).map Except.toOption = [some c!"a", none, none, none] := by
  decide +kernel

example : Blank c!" " ∧ Name c!"a" ∧ Apart c!" &&" ∧ (spinToDstar [] c!" a &&").1.toOption = none :=
  ⟨by decide, ⟨'a', [], rfl, by decide, by decide, by simp⟩, by decide, by decide +kernel⟩
end

end Spin
end Tulip
