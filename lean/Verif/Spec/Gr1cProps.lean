import Verif.Spec.TranslateProps

/-!
# Translation to gr1c and inference of constants (C41, C67)
-/

namespace Tulip

/-- The text `s`, followed by a delimiter, reads as the operand `t`. -/
def Prints (s : List Char) (t : Ast) : Prop :=
  '#' ∉ s ∧ ∃ ts, Reads ts t ∧ ∀ rest, Delim rest → lex (s ++ rest) = ts ++ lex rest

theorem Prints.parse {s : List Char} {t : Ast} (h : Prints s t) : parse s = some t := by
  obtain ⟨_, ts, h1, h2⟩ := h
  have := h2 [] delim_nil
  simp only [List.append_nil, lex_nil] at this
  have h3 := h1 [] [] trivial
  simp only [List.append_nil] at h3
  simp [Tulip.parse, parseToks, this, h3, prun, pfinish, reduceAll]

theorem Prints.unit {s : List Char} {t : Ast} (h : Prints s t) : UnitStr s t := by
  obtain ⟨hc, ts, h1, h2⟩ := h
  have := h2 [] delim_nil
  simp only [List.append_nil, lex_nil] at this
  exact ⟨hc, by rw [this]; exact h1.low⟩

theorem prints_printable {t : Ast} {s : List Char} (ht : UnitStr s t) (hp : Printable t)
    (hs : flatten t = some s) : Prints s t :=
  ⟨ht.clean, toks t, reads_toks hp, lex_flatten hp.words hs⟩

theorem prints_var {x : String} (h : IsIdent x) (hr : ¬ IsReserved x) :
    Prints x.toList (.var x) :=
  ⟨(unit_ident h hr).clean, _, reads_toks (t := .var x) ⟨h, hr⟩,
    lex_flatten (t := .var x) (isWord_of_isIdent h) rfl⟩

theorem prints_primed {x : String} (h : IsIdent x) (hr : ¬ IsReserved x) :
    Prints (x.toList ++ ['\'']) (.un .next (.var x)) := by
  refine ⟨?_, [.name x.toList, .prime], ?_, fun rest hd => ?_⟩
  · have := (unit_ident h hr).clean
    simp [this]
  · intro st rest hs
    have hred : ∀ (e : Ast) (st : List Item), reduceAll 14 e st = (e, st) := by
      intro e st
      cases st with
      | nil => rfl
      | cons i st =>
        cases i with
        | bin op x => cases op <;> simp [reduceAll, reduces, binLevel]
        | cmp op x => cases op <;> simp [reduceAll, reduces, cmpLevel]
        | ar op x => cases op <;> simp [reduceAll, reduces, arLevel]
        | un op => cases op <;> simp [reduceAll, reduces, unLevel]
        | _ => rfl
    have h2 : pstep ⟨st, some (.var (String.ofList x.toList))⟩ .prime =
        some ⟨st, some (.un .next (.var x))⟩ := by simp [pstep, hred]
    simp only [List.cons_append, List.nil_append, prun, pstep_name _ hs, h2, Option.bind_some]
  · obtain ⟨c, cs, e, h1, h2⟩ := isWord_of_isIdent h
    have hq : lex (x.toList ++ ('\'' :: rest)) = nameTok x.toList :: lex ('\'' :: rest) := by
      rw [e]
      exact lex_word h1 h2 (by simp [isNameChar])
    have : lex ('\'' :: rest) = .prime :: lex rest := by rw [lex_cons]; rfl
    simp [hq, this, nameTok_of_not_reserved hr]

theorem prints_bool (b : Bool) :
    Prints (if b then ['T', 'r', 'u', 'e'] else ['F', 'a', 'l', 's', 'e']) (.bool b) := by
  refine ⟨by cases b <;> decide, [.tf b], reads_toks (t := .bool b) trivial, fun rest hd => ?_⟩
  exact lex_bool b (by cases b <;> rfl) hd

theorem digits_clean (n : Nat) : '#' ∉ digitsOf n := by
  intro h
  have := List.all_eq_true.1 (digitsOf_spec n).1 _ h
  revert this; decide

theorem prints_num (n : Int) : Prints (intChars n) (.num n) := by
  refine ⟨?_, intToks n, reads_int n, fun rest hd => lex_int n hd⟩
  cases n <;> simp [intChars, digits_clean]

theorem prints_un {o s : List Char} {op : UnOp} {t : Ast} (ho : '#' ∉ o)
    (hl : ∀ r, lex (o ++ ' ' :: r) = .un op :: lex r) (h : Prints s t) :
    Prints (['(', ' '] ++ o ++ [' '] ++ s ++ [' ', ')']) (.un op t) := by
  obtain ⟨hc, ts, h1, h2⟩ := h
  refine ⟨by simp [hc, ho], _, reads_un h1, fun rest hd => ?_⟩
  have e : ['(', ' '] ++ o ++ [' '] ++ s ++ [' ', ')'] ++ rest =
      '(' :: ' ' :: (o ++ ' ' :: (s ++ ' ' :: ')' :: rest)) := by simp
  rw [e, lex_lparen, lex_space, hl, h2 _ (delim_space _)]
  simp

theorem prints_bin {o s u : List Char} {op : BinOp} {t v : Ast} (ho : '#' ∉ o)
    (hl : ∀ r, lex (o ++ ' ' :: r) = .bin op :: lex r) (h : Prints s t) (h' : Prints u v) :
    Prints (infixText s o u) (.bin op t v) := by
  obtain ⟨hc, ts, h1, h2⟩ := h
  obtain ⟨hc', ts', h1', h2'⟩ := h'
  refine ⟨by simp [infixText, hc, hc', ho], _, reads_bin h1 h1', fun rest hd => ?_⟩
  exact lex_infix rest h2 hl h2'

theorem prints_cmp {o s u : List Char} {op : CmpOp} {t v : Ast} (ho : cmpText op = some o)
    (h : Prints s t) (h' : Prints u v) : Prints (infixText s o u) (.cmp op t v) := by
  obtain ⟨hc, ts, h1, h2⟩ := h
  obtain ⟨hc', ts', h1', h2'⟩ := h'
  have hx : '#' ∉ o := by
    cases op <;> simp only [cmpText, Option.some.injEq, reduceCtorEq] at ho <;> subst ho <;> decide
  refine ⟨by simp [infixText, hc, hc', hx], _, reads_cmp h1 h1', fun rest hd => ?_⟩
  exact lex_infix rest h2 (fun r => lex_cmpText ho) h2'

/-! ## C41: gr1c -/

/-- Formulas of the gr1c input language: Boolean operators, comparisons, `[]`, `<>` and `X`. -/
def Gr1cFormula : Ast → Prop
  | .var x => IsIdent x ∧ ¬ IsReserved x
  | .bool _ | .num _ => True
  | .un op x => op ≠ .tilde ∧ Gr1cFormula x
  | .bin op x y => op ∈ [BinOp.and, .or, .imp, .bimp] ∧ Gr1cFormula x ∧ Gr1cFormula y
  | .cmp op x y => op ≠ .ne2 ∧ op ≠ .le2 ∧ Gr1cFormula x ∧ Gr1cFormula y
  | _ => False

/-- `X` is not nested: what is below an `X` has no temporal operator. -/
def SingleNext : Ast → Prop
  | .un .next x => NoTemp x
  | .un _ x => SingleNext x
  | .bin _ x y | .cmp _ x y | .ar _ x y => SingleNext x ∧ SingleNext y
  | .trunc x _ => SingleNext x
  | .ite c x y => SingleNext c ∧ SingleNext x ∧ SingleNext y
  | _ => True
where
  NoTemp : Ast → Prop
  | .un .not x => NoTemp x
  | .un _ _ => False
  | .bin op x y => op ∈ [BinOp.and, .or, .imp, .bimp] ∧ NoTemp x ∧ NoTemp y
  | .cmp _ x y => NoTemp x ∧ NoTemp y
  | .var _ | .bool _ | .num _ => True
  | _ => False

/-- The formula with `X` moved down to the variables. -/
def pushNext : Bool → Ast → Ast
  | p, .var x => if p then .un .next (.var x) else .var x
  | _, .un .next x => pushNext true x
  | p, .un op x => .un op (pushNext p x)
  | p, .bin op x y => .bin op (pushNext p x) (pushNext p y)
  | p, .cmp op x y => .cmp op (pushNext p x) (pushNext p y)
  | _, t => t

theorem gr1cText_prints {f : Ast} (h : Gr1cFormula f) (p : Bool) :
    ∃ s, gr1cText p f = some s ∧ Prints s (pushNext p f) := by
  induction f generalizing p with
  | var x =>
    cases p with
    | false => exact ⟨x.toList, by simp [gr1cText], prints_var h.1 h.2⟩
    | true => exact ⟨_, rfl, prints_primed h.1 h.2⟩
  | bool b => exact ⟨_, rfl, prints_bool b⟩
  | num n => exact ⟨_, rfl, prints_num n⟩
  | str => exact h.elim
  | un op a ih =>
    cases op with
    | tilde => exact absurd rfl h.1
    | next => exact ih h.2 true
    | not =>
      obtain ⟨s, h1, h2⟩ := ih h.2 p
      exact ⟨_, by simp [gr1cText, gr1cUn, h1],
        prints_un (o := ['!']) (by decide) (fun r => lex_unText rfl) h2⟩
    | always =>
      obtain ⟨s, h1, h2⟩ := ih h.2 p
      exact ⟨_, by simp [gr1cText, gr1cUn, h1],
        prints_un (o := ['[', ']']) (by decide) (fun r => by simp [lex_cons, lexStep]) h2⟩
    | eventually =>
      obtain ⟨s, h1, h2⟩ := ih h.2 p
      exact ⟨_, by simp [gr1cText, gr1cUn, h1],
        prints_un (o := ['<', '>']) (by decide) (fun r => by simp [lex_cons, lexStep]) h2⟩
  | bin op a b iha ihb =>
    obtain ⟨s, h1, h2⟩ := iha h.2.1 p
    obtain ⟨s', h1', h2'⟩ := ihb h.2.2 p
    have hop := h.1
    simp only [List.mem_cons, List.not_mem_nil, or_false] at hop
    rcases hop with rfl | rfl | rfl | rfl
    all_goals
      exact ⟨_, by simp [gr1cText, gr1cBin, h1, h1'],
        prints_bin (by decide) (fun r => lex_binText rfl) h2 h2'⟩
  | cmp op a b iha ihb =>
    obtain ⟨s, h1, h2⟩ := iha h.2.2.1 p
    obtain ⟨s', h1', h2'⟩ := ihb h.2.2.2 p
    have hop := h.1
    have hop' := h.2.1
    obtain ⟨o, ho⟩ : ∃ o, cmpText op = some o := by cases op <;> simp_all [cmpText]
    exact ⟨_, by simp [gr1cText, ho, h1, h1'], prints_cmp ho h2 h2'⟩
  | ar | trunc | ite => exact h.elim

theorem eval_noTemp {f : Ast} (h : SingleNext.NoTemp f) (σ : Trace) (i : Nat) :
    eval σ (pushNext true f) i = eval σ f (i + 1) := by
  induction f with
  | var x => simp [pushNext, eval]
  | bool | num => simp [pushNext, eval]
  | str => exact h.elim
  | un op a ih =>
    cases op <;> simp only [SingleNext.NoTemp] at h
    simp only [pushNext, eval, ih h]
  | bin op a b iha ihb =>
    obtain ⟨hop, h1, h2⟩ := h
    simp only [List.mem_cons, List.not_mem_nil, or_false] at hop
    rcases hop with rfl | rfl | rfl | rfl <;> simp only [pushNext, eval, iha h1, ihb h2]
  | cmp op a b iha ihb =>
    simp only [pushNext]
    have ha := iha h.1
    have hb := ihb h.2
    simp only [eval, Val.bool.injEq]
    rw [ha, hb]
  | ar | trunc | ite => exact h.elim

theorem eval_pushNext {f : Ast} (h : SingleNext f) (σ : Trace) (i : Nat) :
    eval σ (pushNext false f) i = eval σ f i := by
  induction f generalizing i with
  | var x => simp [pushNext]
  | bool | num | str => rfl
  | un op a ih =>
    cases op with
    | next => simp only [pushNext, eval]; exact eval_noTemp h σ i
    | _ => simp only [pushNext, eval]; rw [funext (ih h)]
  | bin op a b iha ihb => simp only [pushNext, eval]; rw [funext (iha h.1), funext (ihb h.2)]
  | cmp op a b iha ihb => simp only [pushNext, eval]; rw [funext (iha h.1), funext (ihb h.2)]
  | ar | trunc | ite => rfl

/-- **C41.** The clause written for gr1c, with `'` marking next-state variables, parses, and means
the same as the original formula if `X` is not nested. -/
theorem gr1cText_correct {f : Ast} (h : Gr1cFormula f) (hx : SingleNext f) :
    ∃ s, gr1cText false f = some s ∧ ∀ σ i, Holds σ i s ↔ Sat σ i f := by
  obtain ⟨s, h1, h2⟩ := gr1cText_prints h false
  refine ⟨s, h1, fun σ i => ?_⟩
  rw [holds_iff h2.parse]
  simp only [Sat, eval_pushNext hx]

/-- Nested `X` collapses: `X X p` is written `p'`. -/
theorem gr1cText_nested_counterexample :
    ∃ s σ, gr1cText false (.X (.X (.var "p"))) = some s ∧ Holds σ 0 s ∧
      ¬ Sat σ 0 (.X (.X (.var "p"))) := by
  have hp : IsIdent "p" ∧ ¬ IsReserved "p" :=
    ⟨isIdent_of_check (by decide), by simp [IsReserved, Char.toUpper]⟩
  refine ⟨_, fun i _ => .bool (i == 1), rfl, ?_, by simp⟩
  have := (prints_primed hp.1 hp.2).parse
  exact (holds_iff this).2 (by simp)

theorem ends_paren_lex {s : List Char} (hs : '#' ∉ s) (r : List Char) :
    lex (s ++ ')' :: r) = lex (s ++ [')']) ++ lex r := by
  rw [lex_append r hs (Or.inl rfl), lex_append [] hs (Or.inl rfl)]; simp

/-- A chain of `&` over lines. -/
theorem chain_lines {pre : List Char} {w : Ast → Ast}
    (hpre : ∀ s t, UnitStr s t → UnitStr (pre ++ s) (w t))
    {x : List Char} {t : Ast} {xs : List (List Char)} {ts : List Ast}
    (hx : Prints x t) (h : List.Forall₂ Prints xs ts) :
    ChainStr 5 (gr1cFormula pre (x :: xs)) (foldBin .and (w t) (ts.map w)) := by
  have unit : ∀ {x t}, Prints x t → UnitStr (pre ++ ['('] ++ x ++ [')']) (w t) := by
    intro x t hx
    have := hpre _ _ (unit_paren hx.1 hx.parse)
    simpa using this
  have key : ∀ {s : List Char} {a : Ast} {xs : List (List Char)} {ts : List Ast},
      ChainStr 5 (s ++ [')']) a → List.Forall₂ Prints xs ts →
      ChainStr 5 (s ++ [')'] ++ (xs.map (fun x => ['\n', '&', ' '] ++ (pre ++ ['('] ++ x ++ [')']))).flatten)
        (foldBin .and a (ts.map w)) := by
    intro s a xs ts hs h
    induction h generalizing s a with
    | nil => simpa [foldBin] using hs
    | @cons y u ys us hy _ ih =>
      have hy' := unit hy
      have step : ChainStr 5 ((s ++ [')'] ++ ['\n', '&', ' '] ++ pre ++ ['('] ++ y) ++ [')'])
          (.bin .and a (w u)) := by
        obtain ⟨hc, e, st', h1, h2⟩ := hs
        have hc' : '#' ∉ s := fun hm => hc (by simp [hm])
        have hcl := hy'.clean
        simp only [List.mem_append, List.mem_singleton, not_or] at hcl
        refine ⟨by simp [hc', hcl], ?_⟩
        have hl : lex ((s ++ [')'] ++ ['\n', '&', ' '] ++ pre ++ ['('] ++ y) ++ [')']) =
            lex (s ++ [')']) ++ .bin .and :: lex (pre ++ ['('] ++ y ++ [')']) := by
          have e : (s ++ [')'] ++ ['\n', '&', ' '] ++ pre ++ ['('] ++ y) ++ [')'] =
              s ++ ')' :: ('\n' :: '&' :: ' ' :: (pre ++ ['('] ++ y ++ [')'])) := by simp
          rw [e, ends_paren_lex hc']
          congr 1
          rw [lex_cons]; simp only [lexStep]
          rw [lex_cons]; simp only [lexStep]
          simp [lexStep, lex_space]
        obtain ⟨e2, st2, h3, h4⟩ := hy'.reads (.bin .and a :: []) trivial
        refine ⟨e2, st2, ?_, fun l hl' => ?_⟩
        · rw [hl, prun_append, h1]
          have hb : binLevel .and = 5 := rfl
          simp only [Option.bind_some, prun, pstep, hb, h2 _ (Nat.le_refl _), h3]
        · rw [h4 l hl', reduceAll]
          have : reduces (binLevel .and) true l = true := by
            have hb : binLevel .and = 5 := rfl
            simp only [reduces, hb, Bool.and_true, Bool.or_eq_true, decide_eq_true_eq, beq_iff_eq]
            omega
          simp [this, reduceAll]
      have := ih (s := s ++ [')'] ++ ['\n', '&', ' '] ++ pre ++ ['('] ++ y) step
      simpa [foldBin] using this
  rw [gr1cFormula, List.map_cons, joinWith_cons_eq]
  have h0 := (unit hx).chain (L := 5) (Nat.le_refl _)
  have := key (s := pre ++ ['('] ++ x) h0 h
  simpa [List.map_map, Function.comp_def] using this

/-- **C41 (sections).** The formula in a section of the gr1c input means the conjunction of the
clauses, each under the operators of that section: nothing for the initial conditions, `[]` for
safety and `[]<>` for progress. -/
theorem gr1cFormula_correct {fs : List Ast} {ss : List (List Char)}
    (hf : ∀ f ∈ fs, Gr1cFormula f ∧ SingleNext f) (hne : fs ≠ [])
    (hs : fs.mapM (gr1cText false) = some ss) (σ : Trace) :
    (Holds σ 0 (gr1cFormula [] ss) ↔ ∀ f ∈ fs, Sat σ 0 f) ∧
    (Holds σ 0 (gr1cFormula ['[', ']'] ss) ↔ ∀ f ∈ fs, ∀ i, Sat σ i f) ∧
    (Holds σ 0 (gr1cFormula ['[', ']', '<', '>'] ss) ↔ ∀ f ∈ fs, ∀ i, ∃ j, i ≤ j ∧ Sat σ j f) := by
  have hall : List.Forall₂ Prints ss (fs.map (pushNext false)) := by
    clear hne
    induction fs generalizing ss with
    | nil =>
      simp only [List.mapM_nil, pure, Option.some.injEq] at hs
      subst hs; exact .nil
    | cons f fs ih =>
      simp only [List.mapM_cons, Option.bind_eq_bind, Option.bind_eq_some_iff, pure,
        Option.some.injEq] at hs
      obtain ⟨s, h1, r, h2, rfl⟩ := hs
      obtain ⟨s', h3, h4⟩ := gr1cText_prints (hf f (by simp)).1 false
      rw [h1] at h3; cases h3
      exact .cons h4 (ih (fun g hg => hf g (by simp [hg])) h2)
  have hsat : ∀ f ∈ fs, ∀ i, Sat σ i (pushNext false f) ↔ Sat σ i f := fun f h i => by
    simp only [Sat, eval_pushNext (hf f h).2]
  cases fs with
  | nil => exact absurd rfl hne
  | cons f fs =>
    cases hall with
    | @cons s _ ss _ hx hxs =>
      refine ⟨?_, ?_, ?_⟩
      · have hc := chain_lines (pre := []) (w := id) (fun s t h => h) hx hxs
        rw [holds_iff hc.parse, sat_foldBin_and]
        simp only [id, List.map_id, List.mem_map, forall_exists_index, and_imp,
          forall_apply_eq_imp_iff₂, List.mem_cons, forall_eq_or_imp]
        rw [hsat f (by simp)]
        refine and_congr Iff.rfl (forall₂_congr fun g hg => hsat g (by simp [hg]) 0)
      · have hc := chain_lines (pre := ['[', ']']) (w := .un .always) (fun s t h => unit_always h)
          hx hxs
        rw [holds_iff hc.parse, sat_foldBin_and]
        simp only [List.mem_map, exists_exists_and_eq_and, forall_exists_index, and_imp,
          forall_apply_eq_imp_iff₂, List.mem_cons, forall_eq_or_imp, sat_always, Nat.zero_le,
          true_implies]
        refine and_congr (forall_congr' fun i => hsat f (by simp) i)
          (forall₂_congr fun g hg => forall_congr' fun i => hsat g (by simp [hg]) i)
      · have hc := chain_lines (pre := ['[', ']', '<', '>']) (w := fun t => .un .always (.un .eventually t))
          (fun s t h => unit_always (unit_eventually h)) hx hxs
        rw [holds_iff hc.parse, sat_foldBin_and]
        simp only [List.mem_map, exists_exists_and_eq_and, forall_exists_index, and_imp,
          forall_apply_eq_imp_iff₂, List.mem_cons, forall_eq_or_imp, sat_always, sat_eventually,
          Nat.zero_le, true_implies]
        refine and_congr (forall_congr' fun i => exists_congr fun j => and_congr Iff.rfl
            (hsat f (by simp) j))
          (forall₂_congr fun g hg => forall_congr' fun i => exists_congr fun j =>
            and_congr Iff.rfl (hsat g (by simp [hg]) j))

example : Gr1cFormula (.imp (.var "p") (.X (.or (.var "q") (.cmp .lt (.var "n") (.num 3))))) ∧
    SingleNext (.imp (.var "p") (.X (.or (.var "q") (.cmp .lt (.var "n") (.num 3))))) := by
  have : ∀ x ∈ ["p", "q", "n"], IsIdent x ∧ ¬ IsReserved x := by
    intro x hx
    simp only [List.mem_cons, List.not_mem_nil, or_false] at hx
    rcases hx with rfl | rfl | rfl <;>
      exact ⟨isIdent_of_check (by decide), by simp [IsReserved, Char.toUpper]⟩
  simp [Gr1cFormula, SingleNext, SingleNext.NoTemp, this]

/-! ## C67: inference of constants -/

/-- The formula in which every name that is not a variable is a string constant. -/
def constantsOf (vars : List String) : Ast → Ast
  | .var x => if x ∈ vars then .var x else .str x
  | .un op x => .un op (constantsOf vars x)
  | .bin op x y => .bin op (constantsOf vars x) (constantsOf vars y)
  | .cmp op x y => .cmp op (constantsOf vars x) (constantsOf vars y)
  | .ar op x y => .ar op (constantsOf vars x) (constantsOf vars y)
  | .trunc x n => .trunc (constantsOf vars x) n
  | .ite c x y => .ite (constantsOf vars c) (constantsOf vars x) (constantsOf vars y)
  | t => t

theorem prints_quoted {x : String} (h : IsIdent x) (hr : ¬ IsReserved x) :
    Prints ("\"" ++ x ++ "\"").toList (.str x) := by
  have e : ("\"" ++ x ++ "\"").toList = '"' :: (x.toList ++ ['"']) := by
    simp [String.toList_append]
  rw [e]
  refine ⟨?_, [.dquotes, .name x.toList, .dquotes], ?_, fun rest hd => ?_⟩
  · have := (unit_ident h hr).clean
    simp [this]
  · intro st rest hs
    simp only [List.cons_append, List.nil_append, prun, pstep_dquotes hs, Option.bind_some]
    simp [pstep]
  · obtain ⟨c, cs, e, h1, h2⟩ := isWord_of_isIdent h
    have hq : lex (x.toList ++ ('"' :: rest)) = nameTok x.toList :: lex ('"' :: rest) := by
      rw [e]
      exact lex_word h1 h2 (by simp [isNameChar])
    have h3 : ∀ r, lex ('"' :: r) = .dquotes :: lex r := fun r => by rw [lex_cons]; rfl
    simp [hq, h3, nameTok_of_not_reserved hr]

theorem prints_ar {o s u : List Char} {op : ArOp} {t v : Ast} (ho : arText op = some o)
    (h : Prints s t) (h' : Prints u v) : Prints (infixText s o u) (.ar op t v) := by
  obtain ⟨hc, ts, h1, h2⟩ := h
  obtain ⟨hc', ts', h1', h2'⟩ := h'
  have hx : '#' ∉ o := by
    cases op <;> simp only [arText, Option.some.injEq] at ho <;> subst ho <;> decide
  refine ⟨by simp [infixText, hc, hc', hx], _, reads_ar h1 h1', fun rest hd => ?_⟩
  exact lex_infix rest h2 (fun r => lex_arText ho) h2'

theorem prints_trunc {s : List Char} {t : Ast} (n : Nat) (h : Prints s t) :
    Prints (infixText s ['<', '<', '>', '>'] (intChars n)) (.trunc t n) := by
  obtain ⟨hc, ts, h1, h2⟩ := h
  refine ⟨?_, _, reads_trunc (n := n) h1, fun rest hd => ?_⟩
  · simp [infixText, hc, intChars, digits_clean]
  · exact lex_infix rest h2 lex_truncText (fun r hr => lex_int n hr)

theorem prints_ite {a b d : List Char} {c x y : Ast} (hc : Prints a c) (hx : Prints b x)
    (hy : Prints d y) :
    Prints (['(', ' ', 'i', 't', 'e', ' '] ++ a ++ [',', ' '] ++ b ++ [',', ' '] ++ d ++ [' ', ')'])
      (.ite c x y) := by
  obtain ⟨c1, ts1, r1, l1⟩ := hc
  obtain ⟨c2, ts2, r2, l2⟩ := hx
  obtain ⟨c3, ts3, r3, l3⟩ := hy
  refine ⟨by simp [c1, c2, c3], _, reads_ite r1 r2 r3, fun rest hd => ?_⟩
  have e : ['(', ' ', 'i', 't', 'e', ' '] ++ a ++ [',', ' '] ++ b ++ [',', ' '] ++ d ++
      [' ', ')'] ++ rest =
      '(' :: ' ' :: (['i', 't', 'e'] ++ (' ' :: (a ++ ',' :: ' ' :: (b ++ ',' :: ' ' ::
        (d ++ ' ' :: ')' :: rest))))) := by simp
  have hi : ∀ r, lex (['i', 't', 'e'] ++ ' ' :: r) = .ite :: lex r := by
    intro r
    rw [lex_word (by decide) (by decide) (delim_space r).nameChar, lex_space]; rfl
  rw [e, lex_lparen, lex_space, hi, l1 _ (delim_comma _), lex_comma, lex_space,
    l2 _ (delim_comma _), lex_comma, lex_space, l3 _ (delim_space _)]
  simp

theorem quoteConstants_prints {f : Ast} (h : Printable f) (vars : List String) :
    ∃ s, flatten (quoteConstants vars f) = some s ∧ Prints s (constantsOf vars f) := by
  induction f with
  | var x =>
    simp only [quoteConstants, constantsOf]
    split
    · exact ⟨_, rfl, prints_var h.1 h.2⟩
    · exact ⟨_, rfl, prints_quoted h.1 h.2⟩
  | bool b =>
    refine ⟨_, ?_, prints_bool b⟩
    cases b <;> rfl
  | num n => exact ⟨_, rfl, prints_num n⟩
  | str => exact h.elim
  | un op a ih =>
    obtain ⟨s, h1, h2⟩ := ih h.2
    have h3 := h.1
    obtain ⟨o, ho⟩ : ∃ o, unText op = some o := by cases op <;> simp_all [unText]
    have hx : '#' ∉ o := by
      cases op <;> simp only [unText, Option.some.injEq, reduceCtorEq] at ho <;> subst ho <;> decide
    exact ⟨_, by simp [quoteConstants, flatten, ho, h1], prints_un hx (fun r => lex_unText ho) h2⟩
  | bin op a b iha ihb =>
    obtain ⟨s, h1, h2⟩ := iha h.2.2.1
    obtain ⟨s', h1', h2'⟩ := ihb h.2.2.2
    have h3 := h.1
    have h4 := h.2.1
    obtain ⟨o, ho⟩ : ∃ o, binText op = some o := by cases op <;> simp_all [binText]
    have hx : '#' ∉ o := by
      cases op <;> simp only [binText, Option.some.injEq, reduceCtorEq] at ho <;> subst ho <;>
        decide
    exact ⟨_, by simp [quoteConstants, flatten, ho, h1, h1'],
      prints_bin hx (fun r => lex_binText ho) h2 h2'⟩
  | cmp op a b iha ihb =>
    obtain ⟨s, h1, h2⟩ := iha h.2.2.1
    obtain ⟨s', h1', h2'⟩ := ihb h.2.2.2
    have h3 := h.1
    have h4 := h.2.1
    obtain ⟨o, ho⟩ : ∃ o, cmpText op = some o := by cases op <;> simp_all [cmpText]
    exact ⟨_, by simp [quoteConstants, flatten, ho, h1, h1'], prints_cmp ho h2 h2'⟩
  | ar op a b iha ihb =>
    obtain ⟨s, h1, h2⟩ := iha h.1
    obtain ⟨s', h1', h2'⟩ := ihb h.2
    obtain ⟨o, ho⟩ : ∃ o, arText op = some o := by cases op <;> simp [arText]
    exact ⟨_, by simp [quoteConstants, flatten, ho, h1, h1'], prints_ar ho h2 h2'⟩
  | trunc a n ih =>
    obtain ⟨s, h1, h2⟩ := ih h.1
    obtain ⟨m, rfl⟩ : ∃ m : Nat, n = m := ⟨n.toNat, by have := h.2; omega⟩
    exact ⟨_, by simp [quoteConstants, flatten, h1], prints_trunc m h2⟩
  | ite c a b ihc iha ihb =>
    obtain ⟨s, h1, h2⟩ := ihc h.1
    obtain ⟨s', h1', h2'⟩ := iha h.2.1
    obtain ⟨s'', h1'', h2''⟩ := ihb h.2.2
    exact ⟨_, by simp [quoteConstants, flatten, h1, h1', h1''], prints_ite h2 h2' h2''⟩

/-- **C67.** `infer_constants` returns a formula that parses to the given one with every name that
is not a variable turned into a string constant. The formula must not be a single name and must
not contain string constants already. -/
theorem inferConstants_correct {s : List Char} {f : Ast} {vars : List String}
    (hs : parse s = some f) (hp : Printable f) (hv : ∀ x, f ≠ .var x) :
    ∃ r, inferConstants s vars = some r ∧ parse r = some (constantsOf vars f) := by
  obtain ⟨r, h1, h2⟩ := quoteConstants_prints hp vars
  refine ⟨r, ?_, h2.parse⟩
  simpa only [inferConstants, hs, Option.bind_eq_bind, Option.bind_some] using h1

/-- A constant that is already quoted loses its quotes. -/
theorem inferConstants_quoted_counterexample :
    inferConstants "x = \"a\"".toList ["x"] = some "( x = a )".toList := by decide +kernel

/-- A formula that is a single name is returned without quotes. -/
theorem inferConstants_root_counterexample :
    inferConstants "a".toList [] = some "a".toList := by decide +kernel

/-- Non-vacuity. -/
example : parse "loc = home -> X (loc = lot)".toList =
    some (.imp (.cmp .eq (.var "loc") (.var "home")) (.X (.cmp .eq (.var "loc") (.var "lot")))) := by
  decide +kernel

/-- With a dictionary of domains the conflict check rejects exactly the tables in which a variable
is a value of another one. -/
theorem inferCheck_iff (doms : Dict String (Option (List String))) :
    inferCheck doms = .ok () ↔
      ∀ p ∈ doms, ∀ q ∈ doms, p.1 ≠ q.1 → ∀ l, q.2 = some l → p.1 ∉ l := by
  have : inferCheck doms = .ok () ↔ doms.any (fun p => doms.any (fun q =>
      p.1 != q.1 && (q.2.getD []).contains p.1)) = false := by
    unfold inferCheck
    cases doms.any (fun p => doms.any (fun q => p.1 != q.1 && (q.2.getD []).contains p.1)) <;> simp
  rw [this, List.any_eq_false]
  refine forall₂_congr fun p _ => ?_
  rw [Bool.not_eq_true, List.any_eq_false]
  refine forall₂_congr fun q _ => ?_
  cases q.2 <;> simp

/-- `sub_values` raises `TypeError` whenever a Boolean or integer value is given for a variable that
occurs (before any variable without a value). -/
theorem subValues_int_counterexample (x : String) (v : PyConst) (hv : ∀ s, v ≠ .str s) :
    subValues [(x, v)] (.var x) = .error .typeError := by
  cases v with
  | str s => exact absurd rfl (hv s)
  | _ => simp [subValues, subValuesRec, Dict.get?_cons]

end Tulip
