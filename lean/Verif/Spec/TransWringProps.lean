import Verif.Spec.TransJtlvProps

/-!
# The formula for Wring means the specification (C87, second part)

In the language of Wring, `*` and `+` are the conjunction and the disjunction, `1` and `0` the constants,
and a Boolean variable is compared with `1`.
-/

namespace Tulip
namespace Trans

open Cache Omega

/-! ## Spec: reading Wring formulas -/

/-- The spelling of the connectives in `tulip.spec`. -/
def wringChar (c : Char) : Char := if c = '*' then '&' else if c = '+' then '|' else c

/-- Comparisons `x = 1` are Boolean variables, `1` and `0` constants; other comparisons, numbers and
variables do not belong to the language. -/
def wringTree : Ast → Option Ast
  | .cmp .eq (.var x) (.num 1) => some (.var x)
  | .num 1 => some (.bool true)
  | .num 0 => some (.bool false)
  | .un op a => (wringTree a).map (.un op)
  | .bin op a b => (wringTree a).bind fun a => (wringTree b).map (.bin op a)
  | _ => none

/-- A formula of Wring on a trace. -/
def WringHolds (σ : Trace) (i : Nat) (s : List Char) : Prop :=
  ∃ t u, Tulip.parse (s.map wringChar) = some t ∧ wringTree t = some u ∧ Sat σ i u

/-- The clauses that Wring can express: the variables are Boolean. -/
def WringClause (g : GRSpec) (x : List Char) : Prop :=
  ∃ b, ClauseTree g x b ∧ Within [.not, .always, .eventually, .next]
    [.and, .or, .imp, .bimp, .strongUntil, .release] [] []
    (fun v => g.envVars.get? v = some .boolean ∨ v ∉ g.envVars.keys ∧ g.sysVars.get? v = some .boolean) b

/-- No numbers and strings. -/
def Logical : Ast → Prop
  | .var _ | .bool _ => True
  | .num _ | .str _ => False
  | .un _ a | .trunc a _ => Logical a
  | .bin _ a b | .cmp _ a b | .ar _ a b => Logical a ∧ Logical b
  | .ite c a b => Logical c ∧ Logical a ∧ Logical b

/-! ## The language -/

theorem wringChar_ident {x : String} (h : IsIdent x) : x.toList.map wringChar = x.toList := by
  obtain ⟨c, cs, e, h1, h2⟩ := isWord_of_isIdent h
  rw [List.map_congr_left (g := id), List.map_id]
  intro d hd
  have : isNameChar d = true := by
    rw [e] at hd
    rcases List.mem_cons.1 hd with rfl | hd
    · simp only [isNameStart, Bool.or_eq_true, Bool.and_eq_true, decide_eq_true_eq, beq_iff_eq] at h1
      simp only [isNameChar, Bool.or_eq_true, Bool.and_eq_true, decide_eq_true_eq, beq_iff_eq]
      omega
    · exact List.all_eq_true.1 h2 d hd
  unfold wringChar
  split
  · rename_i hh; subst hh; exact absurd this (by decide)
  · split
    · rename_i hh; subst hh; exact absurd this (by decide)
    · rfl

theorem wringChar_num (n : Int) : (intChars n).map wringChar = intChars n := by
  rw [List.map_congr_left (g := id), List.map_id]
  intro d hd
  have h1 : d ≠ '*' := by rintro rfl; exact intChars_clean n (c := '*') (by decide) (by decide) hd
  have h2 : d ≠ '+' := by rintro rfl; exact intChars_clean n (c := '+') (by decide) (by decide) hd
  simp [wringChar, h1, h2]

/-- The tree of the text of a variable. -/
def wringVar (x : String) : Ast := .cmp .eq (.var x) (.num 1)

theorem parse_is_one {x : String} (h : IsIdent x) (hr : ¬ IsReserved x) :
    '#' ∉ x.toList ++ c!"=1" ∧ Tulip.parse (x.toList ++ c!"=1") = some (wringVar x) := by
  refine ⟨by simp [(unit_ident h hr).clean], ?_⟩
  obtain ⟨c, cs, e, h1, h2⟩ := isWord_of_isIdent h
  have hl : lex (x.toList ++ c!"=1") = [.name x.toList, .cmp .eq, .number 1] := by
    rw [e, lex_word h1 h2 (by simp; decide), ← e, nameTok_of_not_reserved hr]
    rw [show lex c!"=1" = [.cmp .eq, .number 1] by decide +kernel]
  simp only [Tulip.parse, hl]
  simp [parseToks, prun, pstep, pfinish, reduceAll, wringVar, reduces, show 0 < cmpLevel CmpOp.eq by decide]

theorem wring_readable (g : GRSpec) :
    Readable (wring g) wringChar (fun _ x => wringVar x) (fun b => .num (if b then 1 else 0)) where
  un op o h hp := by
    cases op <;> simp only [wring, Option.some.injEq, reduceCtorEq] at h <;> subst h
    · exact ⟨by decide, fun r => lex_unText rfl⟩
    · refine ⟨by decide, fun r => ?_⟩
      exact (lex_word (c := 'X') (w := []) (rest := ' ' :: r) (by decide) (by decide)
        (by simp; decide)).trans (by rw [lex_space]; rfl)
    · refine ⟨by decide, fun r => ?_⟩
      exact (lex_word (c := 'G') (w := []) (rest := ' ' :: r) (by decide) (by decide)
        (by simp; decide)).trans (by rw [lex_space]; rfl)
    · refine ⟨by decide, fun r => ?_⟩
      exact (lex_word (c := 'F') (w := []) (rest := ' ' :: r) (by decide) (by decide)
        (by simp; decide)).trans (by rw [lex_space]; rfl)
  bin op o h := by
    cases op <;> simp only [wring, Option.some.injEq, reduceCtorEq] at h <;> subst h
    all_goals exact ⟨by decide, fun r => lex_binText rfl⟩
  cmp op o h := by cases h
  ar op o h := by cases h
  bool b := by
    cases b
    · have := prints_num 0
      rw [show intChars 0 = c!"0" by decide +kernel] at this
      exact this
    · have := prints_num 1
      rw [show intChars 1 = c!"1" by decide +kernel] at this
      exact this
  var p x s h1 h2 h := by
    have hs : s = c!"(" ++ (x.toList ++ c!"=1") ++ c!")" := by
      simp only [wring] at h
      split at h <;> cases h
      simp
    obtain ⟨k1, k2⟩ := parse_is_one h1 h2
    have := prints_paren k1 k2
    rw [hs]
    simp only [List.map_append, wringChar_ident h1]
    exact this
  space := rfl
  lpar := rfl
  rpar := rfl
  num n := wringChar_num n

theorem wring_iff (g : GRSpec) {b : Ast} (hb : NoStrConst b) : (∃ s, text (wring g) false b = .ok s) ↔
    Within [.not, .always, .eventually, .next] [.and, .or, .imp, .bimp, .strongUntil, .release] [] []
      (fun v => g.envVars.get? v = some .boolean ∨ v ∉ g.envVars.keys ∧ g.sysVars.get? v = some .boolean) b :=
  text_iff (fun op => by cases op <;> simp [wring]) (fun op => by cases op <;> simp [wring])
    (fun op => by simp [wring]) (fun op => by simp [wring])
    (fun p x => by
      have h1 := (Dict.has_iff g.envVars x)
      rw [Dict.mem_keys_iff]
      simp only [wring]
      cases he : g.envVars.get? x with
      | none =>
        have : g.envVars.has x = false := by
          cases hh : g.envVars.has x with
          | false => rfl
          | true => obtain ⟨v, hv⟩ := h1.1 hh; rw [he] at hv; cases hv
        rw [this]
        simp only [Bool.false_eq_true, if_false]
        cases hs : g.sysVars.get? x with
        | none => simp
        | some d => cases d <;> simp
      | some d =>
        rw [h1.2 ⟨d, he⟩]
        simp only [if_true]
        cases d <;> simp) hb false

/-- Clauses read back. -/
theorem wringTree_read {var : String → Prop} {b : Ast} (h : Within [.not, .always, .eventually, .next]
    [.and, .or, .imp, .bimp, .strongUntil, .release] [] [] var b) (hl : Logical b) :
    wringTree (readTree false (fun _ x => wringVar x) (fun b => .num (if b then 1 else 0)) false b) = some b := by
  induction b with
  | var x => rfl
  | bool b => cases b <;> rfl
  | num => exact hl.elim
  | str => exact hl.elim
  | un op a ih => simp only [readTree, Bool.false_and, Bool.false_eq_true, if_false, wringTree, ih h.2 hl]; rfl
  | bin op a c iha ihc =>
    simp only [readTree, wringTree, iha h.2.1 hl.1, ihc h.2.2 hl.2]; rfl
  | cmp => exact absurd h.1 (by simp)
  | ar => exact absurd h.1 (by simp)
  | trunc => exact h.elim
  | ite => exact h.elim

theorem sub_logical {D : Dict String (List String)} {ctx : Above} {a b : Ast} (hl : Logical a)
    (h : subConstants D ctx a = .ok b) : b = a := by
  induction a generalizing ctx b with
  | var x => cases h; rfl
  | bool | num => cases h; rfl
  | str s => exact hl.elim
  | un op a ih =>
    simp only [subConstants, bind_ok_iff, pure_eq_ok, Except.ok.injEq] at h
    obtain ⟨u, hu, rfl⟩ := h
    rw [ih hl hu]
  | bin op a c iha ihc =>
    simp only [subConstants, bind_ok_iff, pure_eq_ok, Except.ok.injEq] at h
    obtain ⟨u, hu, v, hv, rfl⟩ := h
    rw [iha hl.1 hu, ihc hl.2 hv]
  | cmp op a c iha ihc =>
    simp only [subConstants, bind_ok_iff, pure_eq_ok, Except.ok.injEq] at h
    obtain ⟨u, hu, v, hv, rfl⟩ := h
    rw [iha hl.1 hu, ihc hl.2 hv]
  | ar op a c iha ihc =>
    simp only [subConstants, bind_ok_iff, pure_eq_ok, Except.ok.injEq] at h
    obtain ⟨u, hu, v, hv, rfl⟩ := h
    rw [iha hl.1 hu, ihc hl.2 hv]
  | trunc a n ih =>
    simp only [subConstants, bind_ok_iff, pure_eq_ok, Except.ok.injEq] at h
    obtain ⟨u, hu, rfl⟩ := h
    rw [ih hl hu]
  | ite c a d ihc iha ihd =>
    simp only [subConstants, bind_ok_iff, pure_eq_ok, Except.ok.injEq] at h
    obtain ⟨u, hu, v, hv, w, hw, rfl⟩ := h
    rw [ihc hl.1 hu, iha hl.2.1 hv, ihd hl.2.2 hw]

/-! ## Composing formulas -/

theorem unit_word {c : Char} (op : UnOp) (hc : (c = 'G' ∧ op = .always) ∨ (c = 'F' ∧ op = .eventually))
    {s : List Char} {t : Ast} (h : UnitStr ('(' :: s) t) : UnitStr (c :: '(' :: s) (.un op t) := by
  have hcl := h.clean
  have hl : lex (c :: '(' :: s) = .un op :: lex ('(' :: s) := by
    rcases hc with ⟨rfl, rfl⟩ | ⟨rfl, rfl⟩
    · exact lex_word (c := 'G') (w := []) (rest := '(' :: s) (by decide) (by decide) (by simp; decide)
    · exact lex_word (c := 'F') (w := []) (rest := '(' :: s) (by decide) (by decide) (by simp; decide)
  refine ⟨?_, by rw [hl]; exact h.reads.un _⟩
  rw [List.mem_cons, not_or]
  exact ⟨by rcases hc with ⟨rfl, _⟩ | ⟨rfl, _⟩ <;> decide, hcl⟩

/-- A text that is an operand, and what it means. -/
structure WringUnit (s : List Char) (u : Ast) : Prop where
  unit : ∃ t, UnitStr (s.map wringChar) t ∧ wringTree t = some u

theorem wring_paren {s : List Char} {t u : Ast} (hs : '#' ∉ s.map wringChar)
    (h : Tulip.parse (s.map wringChar) = some t) (hu : wringTree t = some u) :
    WringUnit (c!"(" ++ s ++ c!")") u := by
  refine ⟨t, ?_, hu⟩
  have := unit_paren hs h
  simpa [wringChar] using this

theorem wring_always {s : List Char} {t u : Ast} (hs : '#' ∉ s.map wringChar)
    (h : Tulip.parse (s.map wringChar) = some t) (hu : wringTree t = some u) :
    WringUnit (c!"G(" ++ s ++ c!")") (.un .always u) := by
  refine ⟨.un .always t, ?_, by simp [wringTree, hu]⟩
  have := unit_word (c := 'G') .always (.inl ⟨rfl, rfl⟩) (unit_paren hs h)
  simpa [wringChar] using this

theorem wring_recurs {s : List Char} {t u : Ast} (hs : '#' ∉ s.map wringChar)
    (h : Tulip.parse (s.map wringChar) = some t) (hu : wringTree t = some u) :
    WringUnit (c!"G(F(" ++ s ++ c!"))") (.un .always (.un .eventually u)) := by
  refine ⟨.un .always (.un .eventually t), ?_, by simp [wringTree, hu]⟩
  have h1 := unit_word (c := 'F') .eventually (.inr ⟨rfl, rfl⟩) (unit_paren hs h)
  have h2 := unit_word (c := 'G') .always (.inl ⟨rfl, rfl⟩) (unit_paren h1.clean h1.parse)
  simpa [wringChar] using h2

theorem wringTree_fold {t u : Ast} {ts us : List Ast} (h : wringTree t = some u)
    (hs : List.Forall₂ (fun t u => wringTree t = some u) ts us) :
    wringTree (foldBin .and t ts) = some (foldBin .and u us) := by
  induction hs generalizing t u with
  | nil => exact h
  | cons h1 _ ih => exact ih (by simp [wringTree, h, h1])

/-- Conjunctions of operands. -/
theorem wring_join {ss : List (List Char)} {us : List Ast} (hne : ss ≠ []) (h : List.Forall₂ WringUnit ss us) :
    '#' ∉ (joinWith c!" * " ss).map wringChar ∧ ∃ t u, Tulip.parse ((joinWith c!" * " ss).map wringChar) = some t ∧
      wringTree t = some u ∧ ∀ σ i, Sat σ i u ↔ ∀ v ∈ us, Sat σ i v := by
  cases h with
  | nil => exact absurd rfl hne
  | @cons s u ss us h1 h2 =>
    obtain ⟨t, ht, hu⟩ := h1.unit
    have : ∃ ts, List.Forall₂ UnitStr (ss.map (·.map wringChar)) ts ∧
        List.Forall₂ (fun t u => wringTree t = some u) ts us := by
      clear h1 hne
      induction h2 with
      | nil => exact ⟨[], .nil, .nil⟩
      | cons h _ ih =>
        obtain ⟨t, k1, k2⟩ := h.unit
        obtain ⟨ts, l1, l2⟩ := ih
        exact ⟨t :: ts, .cons k1 l1, .cons k2 l2⟩
    obtain ⟨ts, k1, k2⟩ := this
    have hj : (joinWith c!" * " (s :: ss)).map wringChar = joinWith c!" & " ((s :: ss).map (·.map wringChar)) := by
      rw [joinWith_cons_eq, List.map_cons, joinWith_cons_eq]
      simp only [List.map_append, List.map_flatten, List.map_map]
      congr 3
    have hc := chain_join_sep separator_and ht k1
    rw [hj]
    refine ⟨hc.clean, _, _, hc.parse, wringTree_fold hu k2, fun σ i => ?_⟩
    rw [sat_foldBin_and]
    simp

/-- The operands of one player. -/
def wringUnits (init safety prog : List (List Char)) : List (List Char) :=
  init.map (fun f => c!"(" ++ f ++ c!")") ++ safety.map (fun f => c!"G(" ++ f ++ c!")") ++
    prog.map fun f => c!"G(F(" ++ f ++ c!"))"

theorem joinWith_append {sep : List Char} (us vs : List (List Char)) (hus : us ≠ []) (hvs : vs ≠ []) :
    joinWith sep (us ++ vs) = joinWith sep us ++ sep ++ joinWith sep vs := by
  cases us with
  | nil => exact absurd rfl hus
  | cons u us =>
    cases vs with
    | nil => exact absurd rfl hvs
    | cons v vs => simp [joinWith_cons_eq]

theorem wringConj_eq (init safety prog : List (List Char)) :
    wringConj init safety prog = joinWith c!" * " (wringUnits init safety prog) := by
  have hjoin : ∀ (us vs : List (List Char)), (∀ u ∈ us, u ≠ []) → joinWith c!" * " (us ++ vs) =
      if vs.isEmpty then joinWith c!" * " us
      else joinWith c!" * " us ++ (if (joinWith c!" * " us).isEmpty then [] else c!" * ") ++ joinWith c!" * " vs := by
    intro us vs hus
    by_cases hv : vs = []
    · simp [hv]
    · rw [if_neg (by simpa using hv)]
      cases us with
      | nil => simp [joinWith]
      | cons u us =>
        have : (joinWith c!" * " (u :: us)).isEmpty = false := by
          rw [joinWith_cons_eq]
          have := hus u (by simp)
          cases u <;> simp_all
        rw [this, joinWith_append _ _ (by simp) hv]
        simp
  have n1 : ∀ u ∈ init.map (fun f => c!"(" ++ f ++ c!")"), u ≠ [] := by simp
  have n2 : ∀ u ∈ init.map (fun f => c!"(" ++ f ++ c!")") ++ safety.map (fun f => c!"G(" ++ f ++ c!")"), u ≠ [] := by
    intro u hu
    rcases List.mem_append.1 hu with hu | hu <;> obtain ⟨f, _, rfl⟩ := List.mem_map.1 hu <;> simp
  unfold wringUnits
  rw [hjoin _ _ n2, hjoin _ _ n1]
  unfold wringConj
  have e1 : (if init.isEmpty then [] else joinWith c!" * " (init.map fun f => c!"(" ++ f ++ c!")")) =
      joinWith c!" * " (init.map fun f => c!"(" ++ f ++ c!")") := by
    cases init <;> simp [joinWith]
  simp only [e1, List.isEmpty_map]

/-- One player's formula. -/
theorem wringConj_means {init safety prog : List (List Char)} {ui us up : List Ast}
    (h1 : List.Forall₂ (fun s u => '#' ∉ s.map wringChar ∧ ∃ t, Tulip.parse (s.map wringChar) = some t ∧
      wringTree t = some u) init ui)
    (h2 : List.Forall₂ (fun s u => '#' ∉ s.map wringChar ∧ ∃ t, Tulip.parse (s.map wringChar) = some t ∧
      wringTree t = some u) safety us)
    (h3 : List.Forall₂ (fun s u => '#' ∉ s.map wringChar ∧ ∃ t, Tulip.parse (s.map wringChar) = some t ∧
      wringTree t = some u) prog up)
    (hne : init ++ safety ++ prog ≠ []) :
    '#' ∉ (wringConj init safety prog).map wringChar ∧
    ∃ t u, Tulip.parse ((wringConj init safety prog).map wringChar) = some t ∧ wringTree t = some u ∧
      ∀ σ, Sat σ 0 u ↔ (∀ v ∈ ui, Sat σ 0 v) ∧ (∀ v ∈ us, ∀ i, Sat σ i v) ∧
        ∀ v ∈ up, ∀ i, ∃ j, i ≤ j ∧ Sat σ j v := by
  have k1 : List.Forall₂ WringUnit (init.map fun f => c!"(" ++ f ++ c!")") ui := by
    clear hne
    induction h1 with
    | nil => exact .nil
    | cons h _ ih => obtain ⟨a, t, b, c⟩ := h; exact .cons (wring_paren a b c) ih
  have k2 : List.Forall₂ WringUnit (safety.map fun f => c!"G(" ++ f ++ c!")") (us.map (.un .always)) := by
    clear hne
    induction h2 with
    | nil => exact .nil
    | cons h _ ih => obtain ⟨a, t, b, c⟩ := h; exact .cons (wring_always a b c) ih
  have k3 : List.Forall₂ WringUnit (prog.map fun f => c!"G(F(" ++ f ++ c!"))")
      (up.map fun u => .un .always (.un .eventually u)) := by
    clear hne
    induction h3 with
    | nil => exact .nil
    | cons h _ ih => obtain ⟨a, t, b, c⟩ := h; exact .cons (wring_recurs a b c) ih
  have := wring_join (ss := wringUnits init safety prog) (by
    intro e
    apply hne
    simpa [wringUnits] using e) (List.rel_append (List.rel_append k1 k2) k3)
  rw [wringConj_eq]
  refine ⟨this.1, ?_⟩
  obtain ⟨t, u, e1, e2, e3⟩ := this.2
  refine ⟨t, u, e1, e2, fun σ => ?_⟩
  rw [e3]
  simp only [List.mem_append, or_imp, forall_and, and_assoc, List.mem_map, forall_exists_index, and_imp,
    forall_apply_eq_imp_iff₂, sat_always, sat_eventually, Nat.zero_le, true_implies]

theorem clause_wring {g : GRSpec} {x s : List Char} (h : ClauseText g (wring g) x s)
    (hl : ∀ a, Tulip.parse x = some a → Logical a) :
    ∃ b, Tulip.parse x = some b ∧ '#' ∉ s.map wringChar ∧
      ∃ t, Tulip.parse (s.map wringChar) = some t ∧ wringTree t = some b := by
  obtain ⟨b, h1, h2⟩ := h
  have hp := text_prints (wring_readable g) h1.named.1 h1.named.2 h2
  have hw := (wring_iff g h1.named.2).1 ⟨s, h2⟩
  obtain ⟨a, f, k1, k2, k3, k4⟩ := h1
  have := sub_logical (hl a k1) k3
  subst this
  exact ⟨b, k1, hp.1, _, hp.parse, wringTree_read hw (hl b k1)⟩

/-- **C87 (Wring).** After any history as in C84, `translate(spec, 'wring')` returns if and only if primed
variables are where they may be and every clause can be expressed. The specification does not change. If no
clause has a number, the formula means that the assumption implies the guarantee. -/
theorem translateWring_correct {order : List Part} (horder : ∀ p, p ∈ order) (g0 : GRSpec) {ops : List Op}
    (hops : KeepsVars order (new g0) ops) :
    let st := run order (new g0) ops
    let g := st.spec
    (translateWring order st).1.spec = g ∧
    ((∃ r, (translateWring order st).2 = .ok r) ↔ PrimesOk g ∧ ∀ p, ∀ x ∈ part g p, WringClause g x) ∧
    ∀ s, (translateWring order st).2 = .ok s →
      (∀ p, ∀ x ∈ part g p, ∀ a, Tulip.parse x = some a → Logical a) →
      ∀ σ, WringHolds σ 0 s ↔ g.Meaning σ := by
  intro st g
  have hgood : Good st := good_run (good_new g0) hops
  obtain ⟨_, t2, t3, t4⟩ := translate_spec horder (L := wring g) (assemble := fun _ => toWring) hgood
  refine ⟨t2, ⟨?_, ?_⟩, ?_⟩
  · rintro ⟨r, hr⟩
    obtain ⟨h1, d, T, hd, hT, ha⟩ := t3 r hr
    exact ⟨h1, (clauses_iff (W := _) fun b hb => wring_iff g hb).1 ⟨T, hT⟩⟩
  · rintro ⟨h1, h2⟩
    obtain ⟨T, hT⟩ := (clauses_iff (L := wring g) fun b hb => wring_iff g hb).2 h2
    obtain ⟨d, hd, he⟩ := t4 h1 T hT
    have : ∃ s, toWring d = .ok s := by
      simp only [toWring, dget, hd, look, ok_bind, pure_eq_ok]
      exact ⟨_, rfl⟩
    obtain ⟨s, hs⟩ := this
    exact ⟨s, he.trans hs⟩
  · intro s hs hlog σ
    obtain ⟨h1, d, T, hd, hT, ha⟩ := t3 _ hs
    simp only [toWring, dget, hd, look, ok_bind, pure_eq_ok, Except.ok.injEq] at ha
    have trees : ∀ p, ∃ us : List Ast, List.Forall₂ (fun s u => '#' ∉ s.map wringChar ∧
        ∃ t, Tulip.parse (s.map wringChar) = some t ∧ wringTree t = some u) (T p) us ∧
        List.Forall₂ (fun x u => Tulip.parse x = some u) (part g p) us := by
      intro p
      have hp := hT p
      have hl : ∀ x ∈ part st.spec p, ∀ a, Tulip.parse x = some a → Logical a := hlog p
      show ∃ us : List Ast, _ ∧ List.Forall₂ _ (part st.spec p) us
      generalize part st.spec p = xs at hp hl
      generalize T p = ss at hp
      induction hp with
      | nil => exact ⟨[], .nil, .nil⟩
      | cons k _ ih =>
        obtain ⟨us, l1, l2⟩ := ih fun x hx => hl x (by simp [hx])
        obtain ⟨b, m1, m2, m3⟩ := clause_wring k (hl _ (by simp))
        exact ⟨b :: us, .cons ⟨m2, m3⟩ l1, .cons m1 l2⟩
    have lens : ∀ p, T p = [] ↔ part g p = [] := by
      intro p
      have := (hT p).length_eq
      rw [← List.length_eq_zero_iff, ← List.length_eq_zero_iff, ← this]
    have conv : ∀ p us, List.Forall₂ (fun x u => Tulip.parse x = some u) (part g p) us →
        ∀ (P : (Nat → Prop) → Prop), (∀ u ∈ us, P fun i => Sat σ i u) ↔ ∀ x ∈ part g p, P fun i => Holds σ i x := by
      intro p us h P
      refine forall_mem_of_forall₂ h fun x _ u hu => ?_
      rw [show (fun i => Sat σ i u) = fun i => Holds σ i x from funext fun i => propext (holds_iff hu).symm]
    have side : ∀ p1 p2 p3 : Part, T p1 ++ T p2 ++ T p3 ≠ [] →
        '#' ∉ (wringConj (T p1) (T p2) (T p3)).map wringChar ∧
        ∃ t u, Tulip.parse ((wringConj (T p1) (T p2) (T p3)).map wringChar) = some t ∧ wringTree t = some u ∧
          (Sat σ 0 u ↔ SideMeaning (part g p1) (part g p2) (part g p3) σ) := by
      intro p1 p2 p3 hne
      obtain ⟨u1, a1, b1⟩ := trees p1
      obtain ⟨u2, a2, b2⟩ := trees p2
      obtain ⟨u3, a3, b3⟩ := trees p3
      obtain ⟨c0, t, u, c1, c2, c3⟩ := wringConj_means a1 a2 a3 hne
      refine ⟨c0, t, u, c1, c2, (c3 σ).trans ?_⟩
      exact and_congr (conv p1 u1 b1 fun f => f 0) (and_congr (conv p2 u2 b2 fun f => ∀ i, f i)
        (conv p3 u3 b3 fun f => ∀ i, ∃ j, i ≤ j ∧ f j))
    have empty : ∀ p1 p2 p3 : Part, (wringConj (T p1) (T p2) (T p3)).isEmpty = true →
        T p1 ++ T p2 ++ T p3 = [] := by
      intro p1 p2 p3 he
      by_contra hne
      obtain ⟨_, t, _, c1, _⟩ := side p1 p2 p3 hne
      rw [List.isEmpty_iff.1 he, List.map_nil, show Tulip.parse [] = none by decide +kernel] at c1
      cases c1
    have triv : ∀ p1 p2 p3 : Part, T p1 ++ T p2 ++ T p3 = [] →
        SideMeaning (part g p1) (part g p2) (part g p3) σ := by
      intro p1 p2 p3 h
      simp only [List.append_eq_nil_iff] at h
      unfold SideMeaning
      rw [(lens p1).1 h.1.1, (lens p2).1 h.1.2, (lens p3).1 h.2]
      simp
    have full : ∀ p1 p2 p3 : Part, (wringConj (T p1) (T p2) (T p3)).isEmpty = false →
        T p1 ++ T p2 ++ T p3 ≠ [] := by
      intro p1 p2 p3 he hn
      simp only [List.append_eq_nil_iff] at hn
      rw [hn.1.1, hn.1.2, hn.2] at he
      cases he
    show _ ↔ (g.Assumption σ → g.Guarantee σ)
    split at ha
    · rename_i hg
      subst ha
      have hG : g.Guarantee σ := triv .sysInit .sysSafety .sysProg (empty _ _ _ hg)
      refine ⟨fun _ _ => hG, fun _ => ⟨.un .always (.num 1), .un .always (.bool true), by decide +kernel, rfl, ?_⟩⟩
      rw [sat_always]
      intro j _
      simp [Sat, eval]
    · rename_i hg
      simp only [Bool.not_eq_true] at hg
      obtain ⟨g0, gt, gu, g1, g2, g3⟩ := side .sysInit .sysSafety .sysProg (full _ _ _ hg)
      split at ha
      · rename_i hA
        subst ha
        have hA' : g.Assumption σ := triv .envInit .envSafety .envProg (empty _ _ _ hA)
        obtain ⟨t, k1, k2⟩ := (wring_paren g0 g1 g2).unit
        constructor
        · rintro ⟨t', u', l1, l2, l3⟩ _
          rw [k1.parse] at l1; cases l1
          rw [k2] at l2; cases l2
          exact g3.1 l3
        · intro h
          exact ⟨t, gu, k1.parse, k2, g3.2 (h hA')⟩
      · rename_i hA
        simp only [Bool.not_eq_true] at hA
        subst ha
        obtain ⟨a0, at', au, a1, a2, a3⟩ := side .envInit .envSafety .envProg (full _ _ _ hA)
        obtain ⟨t1, k1, k2⟩ := (wring_paren g0 g1 g2).unit
        obtain ⟨t2, l1, l2⟩ := (wring_paren a0 a1 a2).unit
        have hc := chain_bin connective_imp l1 k1
        have hw : wringTree (.bin .imp t2 t1) = some (.bin .imp au gu) := by simp [wringTree, k2, l2]
        have hu := unit_paren hc.clean hc.parse
        have e : (c!"((" ++ wringConj (T .envInit) (T .envSafety) (T .envProg) ++ c!") -> (" ++
            wringConj (T .sysInit) (T .sysSafety) (T .sysProg) ++ c!"))").map wringChar =
            c!"(" ++ ((c!"(" ++ wringConj (T .envInit) (T .envSafety) (T .envProg) ++ c!")").map wringChar ++ c!" " ++
              c!"->" ++ c!" " ++ (c!"(" ++ wringConj (T .sysInit) (T .sysSafety) (T .sysProg) ++ c!")").map wringChar) ++
              c!")" := by
          simp [wringChar]
        have hsat : Sat σ 0 (.bin .imp au gu) ↔ (g.Assumption σ → g.Guarantee σ) := by
          rw [sat_imp, a3, g3]; rfl
        unfold WringHolds
        rw [e, hu.parse]
        constructor
        · rintro ⟨t', u', m1, m2, m3⟩
          cases m1
          rw [hw] at m2; cases m2
          exact hsat.1 m3
        · intro h
          exact ⟨_, _, rfl, hw, hsat.2 h⟩

/-! ## Non-vacuity -/

section
/-- A Boolean specification. -/
def light : GRSpec :=
  { gate with sysVars := [("on", .boolean)]
              sysInit := [c!"!on"]
              sysSafety := [c!"park -> X(on)", c!"on || park || True"]
              sysProg := [c!"on"] }

example : (translateWring parts (run parts (new light) [.parse])).2.toOption = some (
    c!"((G(( (park=1) -> ( X ( ! (park=1) ) ) )) * G(F(( ! (park=1) )))) -> " ++
    c!"((( ! (on=1) )) * G(( (park=1) -> ( X (on=1) ) )) * G(( ( (on=1) + (park=1) ) + 1 )) * G(F((on=1)))))") := by
  decide +kernel

/-- The exception raised. -/
def raised {α : Type} : Except PyErr α → Option PyErr
  | .error e => some e
  | .ok _ => none

/-- The exclusive or of `tulip.spec` is not in the table for Wring. -/
theorem wring_xor_counterexample :
    raised (translateWring parts (new { light with sysSafety := [c!"on ^ park"] })).2 = some .keyError := by
  decide +kernel

/-- A clause about an integer is reported with the wrong exception. -/
theorem wring_integer_counterexample :
    raised (translateWring parts (new { light with sysVars := [("on", .range 0 2)] })).2 = some .attribute := by
  decide +kernel
end

end Trans
end Tulip
