import Verif.Synth.FormulasProps
import Mathlib.Data.List.Nodup
import Mathlib.Order.Basic
import Mathlib.Order.MinMax

/-!
# Encoding of finite domains by `iter2var` (C28)
-/

namespace Tulip

namespace Synth

/-! ## Specification -/

/-- The value that a single variable takes to represent a domain element. -/
def Elem.val : Elem → Val
  | .int n => .int n
  | .str s => .str s

/-- Domain element `x` is selected at position `i`. With Booleans, the variable named `x` is true;
otherwise the variable `var` equals `x`. -/
def Selected (bools : Bool) (var : String) (σ : Trace) (i : Nat) (x : Elem) : Prop :=
  if bools then ∃ s, x = .str s ∧ σ i s = .bool true else σ i var = x.val

/-- What `must` demands of the selected elements of a domain, when one Boolean stands for each
(nothing is demanded of a domain with a single element). -/
def MustOk (bools : Bool) (must : Must) (var : String) (dom : List Elem) (σ : Trace) (i : Nat) :
    Prop :=
  bools = true → 2 ≤ dom.length →
    match must with
    | .mutex => ∀ x ∈ dom, ∀ y ∈ dom, Selected true var σ i x → Selected true var σ i y → x = y
    | .xor => ∃ x ∈ dom, Selected true var σ i x ∧ ∀ y ∈ dom, Selected true var σ i y → y = x
    | .none => True

/-- A value is allowed by a declaration of a variable. -/
def InDom : Dom → Val → Prop
  | .boolean, v => ∃ b, v = .bool b
  | .range lo hi, v => ∃ n, v = .int n ∧ lo ≤ n ∧ n ≤ hi
  | .strs l, v => ∃ s ∈ l, v = .str s

/-- A trace takes, at position `i`, values that the declarations allow. -/
def Declared (vars : Dict String Dom) (σ : Trace) (i : Nat) : Prop :=
  ∀ x d, Dict.get? vars x = some d → InDom d (σ i x)

/-- Names that can be used in formulas. -/
def IsName (x : String) : Prop := IsIdent x ∧ ¬ IsReserved x

instance (x : String) : Decidable (IsReserved x) := by unfold IsReserved; infer_instance

/-- A decidable sufficient condition for `IsName`. -/
theorem isName_of_check {x : String} (h : ((match x.toList with
      | [] => false
      | c :: cs => isNameStart c && cs.all isNameChar) && !decide (IsReserved x)) = true) :
    IsName x := by
  simp only [Bool.and_eq_true, Bool.not_eq_true', decide_eq_false_iff_not] at h
  exact ⟨isIdent_of_check h.1, h.2⟩

/-- Every string in the domain is a name. -/
def NamesOk (states : List Elem) : Prop := ∀ s, Elem.str s ∈ states → IsName s

/-! ## Formulas of values -/

theorem parse_eq_str {v x : String} (hv : IsName v) (hx : IsName x) :
    FormFor (v.toList ++ c!" = \"" ++ x.toList ++ c!"\"") (fun σ i => σ i v = .str x) := by
  have hl : lex (v.toList ++ c!" = \"" ++ x.toList ++ c!"\"") =
      [.name v.toList, .cmp .eq, .dquotes, .name x.toList, .dquotes] := by
    have h1 := lex_isWord (isWord_of_isIdent hv.1)
      (rest := ' ' :: '=' :: ' ' :: '"' :: (x.toList ++ ['"'])) (delim_space _)
    have h2 : ∀ r, lex ('=' :: ' ' :: r) = .cmp .eq :: lex r := fun r =>
      lex_cmpText (op := .eq) (o := ['=']) rfl
    have h3 : ∀ r, lex ('"' :: r) = .dquotes :: lex r := by
      intro r; rw [lex_cons]; rfl
    have h4 : lex (x.toList ++ ['"']) = [.name x.toList, .dquotes] := by
      obtain ⟨c, cs, e, h1, h2⟩ := isWord_of_isIdent hx.1
      have hq : lex (x.toList ++ ('"' :: [])) = nameTok x.toList :: lex ('"' :: []) := by
        rw [e]
        exact lex_word h1 h2 (by simp [isNameChar])
      rw [hq, h3, nameTok_of_not_reserved hx.2]; simp
    simp only [List.append_assoc, List.cons_append, List.nil_append] at h1 ⊢
    rw [h1, lex_space, h2, h3, h4, nameTok_of_not_reserved hv.2]
  have hc : '#' ∉ v.toList := (unit_ident hv.1 hv.2).clean
  have hc2 : '#' ∉ x.toList := (unit_ident hx.1 hx.2).clean
  refine ⟨by simp [hc, hc2], .cmp .eq (.var v) (.str x), ?_, fun σ i => ?_⟩
  · rw [parse, hl]
    simp [parseToks, prun, pstep, pfinish, reduceAll, reduces, cmpLevel]
  · simp only [sat_cmp, eval, Val.compare]
    constructor
    · exact fun h => h.1
    · intro h; rw [h]; simp

theorem parse_eq_int {v : String} (hv : IsName v) (n : Int) :
    FormFor (v.toList ++ c!" = " ++ intChars n) (fun σ i => σ i v = .int n) := by
  have hl : lex (v.toList ++ c!" = " ++ intChars n) =
      .name v.toList :: .cmp .eq :: intToks n := by
    have h1 := lex_isWord (isWord_of_isIdent hv.1)
      (rest := ' ' :: '=' :: ' ' :: intChars n) (delim_space _)
    have h2 : ∀ r, lex ('=' :: ' ' :: r) = .cmp .eq :: lex r := fun r =>
      lex_cmpText (op := .eq) (o := ['=']) rfl
    have h3 := lex_int n (rest := []) delim_nil
    simp only [List.append_nil, lex_nil] at h3
    simp only [List.append_assoc, List.cons_append, List.nil_append] at h1 ⊢
    rw [h1, lex_space, h2, h3, nameTok_of_not_reserved hv.2]
  have hc : '#' ∉ v.toList := (unit_ident hv.1 hv.2).clean
  have hd : ∀ m, '#' ∉ digitsOf m := by
    intro m h
    have := List.all_eq_true.1 (digitsOf_spec m).1 _ h
    revert this; decide
  have hc2 : '#' ∉ intChars n := by cases n <;> simp [intChars, hd]
  refine ⟨by simp [hc, hc2], .cmp .eq (.var v) (.num n), ?_, fun σ i => ?_⟩
  · rw [parse, hl]
    cases n <;> simp [intToks, parseToks, prun, pstep, pfinish, reduceAll, reduces, cmpLevel]
    rfl
  · simp only [sat_cmp, eval, Val.compare]
    constructor
    · exact fun h => h.1
    · intro h; rw [h]; simp

/-! ## The dictionary of formulas -/

theorem get?_map_self {α β : Type _} [DecidableEq α] (l : List α) (f : α → β) (x : α) :
    Dict.get? (l.map (fun x => (x, f x))) x = if x ∈ l then some (f x) else none := by
  induction l with
  | nil => rfl
  | cons y ys ih =>
    rw [List.map_cons, Dict.get?_cons]
    by_cases h : y = x
    · subst h; simp
    · have h' : ¬ x = y := fun e => h e.symm
      simp [ih, h, h']

theorem isStr_iff {x : Elem} : x.isStr = true ↔ ∃ s, x = .str s := by cases x <;> simp [Elem.isStr]
theorem isInt_iff {x : Elem} : x.isInt = true ↔ ∃ n, x = .int n := by cases x <;> simp [Elem.isInt]

/-- Whether Booleans are used. -/
def usesBools (boolStates : Bool) (must : Must) : Bool := boolStates || decide (must = .none)

theorem iter2var_cases {states : List Elem} {vars : Dict String Dom} {var : String}
    {b : Bool} {must : Must} {r : VarRep} (h : iter2var states vars var b must = .ok r)
    (hne : states ≠ []) :
    (usesBools b must = true ∧ iter2bools states vars must = .ok r) ∨
      (usesBools b must = false ∧ ∃ x xs, states = x :: xs ∧
        iter2value x xs vars var must = .ok r) := by
  obtain ⟨x, xs, rfl⟩ := List.exists_cons_of_ne_nil hne
  simp only [iter2var] at h
  cases hb : usesBools b must
  · rw [usesBools] at hb
    rw [hb] at h
    exact Or.inr ⟨rfl, x, xs, rfl, by simpa using h⟩
  · rw [usesBools] at hb
    rw [hb] at h
    exact Or.inl ⟨rfl, by simpa using h⟩

/-- What the Boolean branch returns. -/
theorem iter2bools_ok {states : List Elem} {vars : Dict String Dom} {must : Must} {r : VarRep}
    (h : iter2bools states vars must = .ok r) :
    (∀ x ∈ states, ∃ s, x = .str s) ∧ r.ids = states.map (fun x => (x, x.text)) ∧
    r.variables' = vars.update (states.map (fun x => (x.toStr, Dom.boolean))) ∧
    ((mutex (states.map Elem.text) = [] ∧ r.constraint = none) ∨
     (∃ m ms, mutex (states.map Elem.text) = m :: ms ∧
      match must with
      | .mutex => r.constraint = some m
      | .xor => ∃ e es, exactlyOne (states.map Elem.text) = e :: es ∧ r.constraint = some e
      | .none => r.constraint = some c!"True")) := by
  unfold iter2bools at h
  split at h
  · cases h
  · rename_i hall
    have hall : ∀ x ∈ states, ∃ s, x = .str s := by
      simp only [Bool.not_eq_true, Bool.not_eq_false', List.all_eq_true, isStr_iff] at hall
      exact hall
    refine ⟨hall, ?_⟩
    have hv : (states.map (fun x => (x, x.text))).map (·.2) = states.map Elem.text := by simp
    simp only [hv] at h
    split at h
    · rename_i hm
      cases h
      exact ⟨rfl, rfl, Or.inl ⟨hm, rfl⟩⟩
    · rename_i m ms hm
      cases must with
      | mutex => cases h; exact ⟨rfl, rfl, Or.inr ⟨m, ms, hm, rfl⟩⟩
      | xor =>
        simp only at h
        split at h
        · rename_i e es he
          cases h
          exact ⟨rfl, rfl, Or.inr ⟨m, ms, hm, e, es, he, rfl⟩⟩
        · cases h
      | none => cases h; exact ⟨rfl, rfl, Or.inr ⟨m, ms, hm, rfl⟩⟩

/-- What the branch with a single variable returns. -/
theorem iter2value_ok {x : Elem} {xs : List Elem} {vars : Dict String Dom} {var : String}
    {must : Must} {r : VarRep} (h : iter2value x xs vars var must = .ok r) :
    Dict.get? vars var = none ∧ r.constraint = none ∧
    (((∀ y ∈ x :: xs, ∃ n, y = .int n) ∧
      r.ids = (x :: xs).map (fun y => (y, var.toList ++ c!" = " ++ y.text)) ∧
      r.variables' = vars.set var (.range (minOf x.toInt (xs.map Elem.toInt))
        (if must = .xor then maxOf x.toInt (xs.map Elem.toInt)
         else maxOf x.toInt (xs.map Elem.toInt) + 1))) ∨
     ((∀ y ∈ x :: xs, ∃ s, y = .str s) ∧
      r.ids = (x :: xs).map (fun y => (y, var.toList ++ c!" = \"" ++ y.text ++ c!"\"")) ∧
      r.variables' = vars.set var (.strs (if must = .xor then (x :: xs).map Elem.toStr
        else (x :: xs).map Elem.toStr ++ [var ++ "none"])))) := by
  unfold iter2value at h
  simp only at h
  split at h
  · cases h
  · rename_i hv
    have hv : Dict.get? vars var = none := by
      rw [← Dict.has_false_iff]; simpa using hv
    refine ⟨hv, ?_⟩
    split at h
    · rename_i hi
      cases h
      refine ⟨rfl, Or.inl ⟨?_, rfl, rfl⟩⟩
      simpa only [List.all_eq_true, isInt_iff] using hi
    · split at h
      · rename_i hs
        cases h
        refine ⟨rfl, Or.inr ⟨?_, rfl, rfl⟩⟩
        simpa only [List.all_eq_true, isStr_iff] using hs
      · cases h

/-- **C28.** Each domain element is mapped to a formula that the parser accepts, and that holds
exactly in the positions where that element is selected. -/
theorem iter2var_ids {states : List Elem} {vars : Dict String Dom} {var : String} {b : Bool}
    {must : Must} {r : VarRep} (h : iter2var states vars var b must = .ok r)
    (hnames : NamesOk states) (hvar : usesBools b must = false → IsName var) :
    r.ids.keys = states ∧
      ∀ x ∈ states, ∃ f, Dict.get? r.ids x = some f ∧ IsFormula f ∧
        ∀ σ i, Holds σ i f ↔ Selected (usesBools b must) var σ i x := by
  by_cases hne : states = []
  · subst hne
    simp only [iter2var, Except.ok.injEq] at h
    subst h
    exact ⟨rfl, by simp⟩
  rcases iter2var_cases h hne with ⟨hb, h'⟩ | ⟨hb, y, ys, rfl, h'⟩
  · obtain ⟨hstr, hids, -, -⟩ := iter2bools_ok h'
    rw [hids, hb]
    refine ⟨by simp [Dict.keys, Function.comp_def], fun x hx => ⟨x.text, by
      rw [get?_map_self]; simp [hx], ?_⟩⟩
    obtain ⟨s, rfl⟩ := hstr x hx
    have hf := (UnitFor.ident (hnames s hx).1 (hnames s hx).2).form
    exact ⟨hf.isFormula, fun σ i => by simpa [Selected, Elem.text] using hf.holds σ i⟩
  · obtain ⟨-, -, h⟩ := iter2value_ok h'
    rcases h with ⟨hty, hids, -⟩ | ⟨hty, hids, -⟩
    · rw [hids, hb]
      refine ⟨by simp [Dict.keys, Function.comp_def], fun x hx =>
        ⟨var.toList ++ c!" = " ++ x.text, by
          have := get?_map_self (y :: ys) (fun y => var.toList ++ c!" = " ++ y.text) x
          rw [this, if_pos hx], ?_⟩⟩
      obtain ⟨n, rfl⟩ := hty x hx
      have hf := parse_eq_int (hvar hb) n
      exact ⟨hf.isFormula, fun σ i => hf.holds σ i⟩
    · rw [hids, hb]
      refine ⟨by simp [Dict.keys, Function.comp_def], fun x hx =>
        ⟨var.toList ++ c!" = \"" ++ x.text ++ c!"\"", by
          have := get?_map_self (y :: ys) (fun y => var.toList ++ c!" = \"" ++ y.text ++ c!"\"") x
          rw [this, if_pos hx], ?_⟩⟩
      obtain ⟨s, rfl⟩ := hty x hx
      have hf := parse_eq_str (hvar hb) (hnames s hx)
      exact ⟨hf.isFormula, fun σ i => hf.holds σ i⟩

theorem Elem.val_inj {x y : Elem} (h : x.val = y.val) : x = y := by
  cases x <;> cases y <;> simp_all [Elem.val]

/-- With a single variable, at most one element is selected. -/
theorem selected_unique {var : String} {σ : Trace} {i : Nat} {x y : Elem}
    (hx : Selected false var σ i x) (hy : Selected false var σ i y) : x = y := by
  simp only [Selected] at hx hy
  exact Elem.val_inj (hx.symm.trans hy)

theorem text_holds {states : List Elem} (hnames : NamesOk states)
    (hstr : ∀ x ∈ states, ∃ s, x = .str s) {x : Elem} (hx : x ∈ states) :
    IsFormula x.text ∧ ∀ var σ i, Holds σ i x.text ↔ Selected true var σ i x := by
  obtain ⟨s, rfl⟩ := hstr x hx
  have hf := (UnitFor.ident (hnames s hx).1 (hnames s hx).2).form
  exact ⟨hf.isFormula, fun var σ i => by simpa [Selected, Elem.text] using hf.holds σ i⟩

theorem text_inj {states : List Elem} (hstr : ∀ x ∈ states, ∃ s, x = .str s) {x y : Elem}
    (hx : x ∈ states) (hy : y ∈ states) (h : x.text = y.text) : x = y := by
  obtain ⟨s, rfl⟩ := hstr x hx
  obtain ⟨t, rfl⟩ := hstr y hy
  simp only [Elem.text, String.toList_inj] at h
  rw [h]

/-- Meaning of the constraint returned by `iter2var`. -/
theorem iter2var_constraint {states : List Elem} {vars : Dict String Dom} {var : String} {b : Bool}
    {must : Must} {r : VarRep} (h : iter2var states vars var b must = .ok r)
    (hnames : NamesOk states) (hn : states.Nodup) :
    (∀ f ∈ r.constraint, IsFormula f) ∧ ∀ σ i, (∀ f ∈ r.constraint, Holds σ i f) ↔
      MustOk (usesBools b must) must var states σ i := by
  unfold MustOk
  by_cases hne : states = []
  · subst hne
    simp only [iter2var, Except.ok.injEq] at h
    subst h
    simp
  rcases iter2var_cases h hne with ⟨hb, h'⟩ | ⟨hb, y, ys, rfl, h'⟩
  · obtain ⟨hstr, -, -, hc⟩ := iter2bools_ok h'
    have hf : ∀ x ∈ states.map Elem.text, IsFormula x := by
      intro x hx
      obtain ⟨y, hy, rfl⟩ := List.mem_map.1 hx
      exact (text_holds hnames hstr hy).1
    have hnd : (states.map Elem.text).Nodup := by
      exact List.Nodup.map_on (fun x hx y hy he => text_inj hstr hx hy he) hn
    have hm := mutex_spec hf hnd
    by_cases hl : 2 ≤ states.length
    · obtain ⟨m, hm1, hm2⟩ := mutex_form hf hnd (by rw [List.length_map]; omega)
      rcases hc with ⟨h0, _⟩ | ⟨m', ms, h0, hc⟩
      · rw [hm1] at h0; cases h0
      · rw [hm1] at h0
        cases h0
        cases must with
        | mutex =>
          simp only at hc
          rw [hc]
          refine ⟨by simpa using hm2.isFormula, fun σ i => ?_⟩
          simp only [Option.mem_some_iff, forall_eq', hb, hl, forall_true_left]
          rw [hm2.holds]
          simp only [AtMostOne, List.mem_map, forall_exists_index, and_imp,
            forall_apply_eq_imp_iff₂]
          constructor
          · intro h x hx y hy h1 h2
            exact text_inj hstr hx hy (h x hx y hy ((text_holds hnames hstr hx).2 var σ i |>.2 h1)
              ((text_holds hnames hstr hy).2 var σ i |>.2 h2))
          · intro h x hx y hy h1 h2
            rw [h x hx y hy ((text_holds hnames hstr hx).2 var σ i |>.1 h1)
              ((text_holds hnames hstr hy).2 var σ i |>.1 h2)]
        | xor =>
          obtain ⟨e, es, he, hc⟩ := hc
          obtain ⟨e', he1, he2⟩ := exactlyOne_form hf hnd (by simpa using hne)
          rw [he1] at he
          cases he
          rw [hc]
          refine ⟨by simpa using he2.isFormula, fun σ i => ?_⟩
          simp only [Option.mem_some_iff, forall_eq', hb, hl, forall_true_left]
          rw [he2.holds]
          simp only [ExactlyOne, List.mem_map]
          constructor
          · rintro ⟨_, ⟨x, hx, rfl⟩, h1, h2⟩
            exact ⟨x, hx, ((text_holds hnames hstr hx).2 var σ i).1 h1, fun y hy h3 =>
              text_inj hstr hy hx (h2 _ ⟨y, hy, rfl⟩ (((text_holds hnames hstr hy).2 var σ i).2 h3))⟩
          · rintro ⟨x, hx, h1, h2⟩
            refine ⟨_, ⟨x, hx, rfl⟩, ((text_holds hnames hstr hx).2 var σ i).2 h1, ?_⟩
            rintro _ ⟨y, hy, rfl⟩ h3
            rw [h2 y hy (((text_holds hnames hstr hy).2 var σ i).1 h3)]
        | none =>
          simp only at hc
          rw [hc]
          refine ⟨by simpa using form_true.isFormula, fun σ i => ?_⟩
          simp only [Option.mem_some_iff, forall_eq', hb, hl, forall_true_left, iff_true]
          exact (form_true.holds σ i).2 trivial
    · have hm0 : mutex (states.map Elem.text) = [] := by
        have hle : ((states.map Elem.text).filter (fun x => !x.isEmpty)).length ≤ 1 := by
          have := List.length_filter_le (fun x : List Char => !x.isEmpty) (states.map Elem.text)
          simp only [List.length_map] at this
          omega
        simp only [mutex, hle, if_true]
      rcases hc with ⟨_, hc⟩ | ⟨m', ms, h0, _⟩
      · rw [hc]; simp [hl]
      · rw [hm0] at h0; cases h0
  · obtain ⟨-, hc, -⟩ := iter2value_ok h'
    rw [hc, hb]; simp

theorem minOf_le (x : Int) (xs : List Int) : minOf x xs ≤ x ∧ ∀ y ∈ xs, minOf x xs ≤ y := by
  induction xs generalizing x with
  | nil => simp [minOf]
  | cons y ys ih =>
    have := ih (min x y)
    simp only [minOf, List.foldl_cons, List.mem_cons, forall_eq_or_imp] at this ⊢
    refine ⟨by omega, by omega, this.2⟩

theorem le_maxOf (x : Int) (xs : List Int) : x ≤ maxOf x xs ∧ ∀ y ∈ xs, y ≤ maxOf x xs := by
  induction xs generalizing x with
  | nil => simp [maxOf]
  | cons y ys ih =>
    have := ih (max x y)
    simp only [maxOf, List.foldl_cons, List.mem_cons, forall_eq_or_imp] at this ⊢
    refine ⟨by omega, by omega, this.2⟩

theorem maxOf_mem (x : Int) (xs : List Int) : maxOf x xs ∈ x :: xs := by
  induction xs generalizing x with
  | nil => simp [maxOf]
  | cons y ys ih =>
    have := ih (max x y)
    simp only [maxOf, List.foldl_cons, List.mem_cons] at this ⊢
    rcases this with h | h
    · rcases max_choice x y with h2 | h2 <;> rw [h2] at h ⊢ <;> simp [h]
    · simp [h]

theorem minOf_mem (x : Int) (xs : List Int) : minOf x xs ∈ x :: xs := by
  induction xs generalizing x with
  | nil => simp [minOf]
  | cons y ys ih =>
    have := ih (min x y)
    simp only [minOf, List.foldl_cons, List.mem_cons] at this ⊢
    rcases this with h | h
    · rcases min_choice x y with h2 | h2 <;> rw [h2] at h ⊢ <;> simp [h]
    · simp [h]

/-- The elements of a domain of integers are all integers between its least and its greatest. -/
def Contiguous (states : List Elem) : Prop :=
  ∀ a b n : Int, Elem.int a ∈ states → Elem.int b ∈ states → a ≤ n → n ≤ b → Elem.int n ∈ states

/-- **C28.** With a single variable, its declaration admits every element of the domain and, unless
the domain is a set of integers with gaps, nothing else but the value that stands for "none", and
the latter only if the domain need not be covered (`must` is not `'xor'`). Other declarations are
kept. -/
theorem iter2var_declares {states : List Elem} {vars : Dict String Dom} {var : String} {b : Bool}
    {must : Must} {r : VarRep} (h : iter2var states vars var b must = .ok r)
    (hb : usesBools b must = false) (hne : states ≠ []) :
    (∀ x, x ≠ var → Dict.get? r.variables' x = Dict.get? vars x) ∧
    ∃ d, Dict.get? r.variables' var = some d ∧ (∀ x ∈ states, InDom d x.val) ∧
      (Contiguous states → ∀ v, InDom d v ↔
        (∃ x ∈ states, v = x.val) ∨
        (must ≠ .xor ∧ ((∃ s, Elem.str s ∈ states) ∧ v = .str (var ++ "none") ∨
          ∃ m, v = .int (m + 1) ∧ Elem.int m ∈ states ∧ ∀ n, Elem.int n ∈ states → n ≤ m))) := by
  rcases iter2var_cases h hne with ⟨hb', _⟩ | ⟨_, y, ys, rfl, h'⟩
  · rw [hb] at hb'; cases hb'
  obtain ⟨_, _, h⟩ := iter2value_ok h'
  rcases h with ⟨hty, -, hv⟩ | ⟨hty, -, hv⟩
  · rw [hv]
    refine ⟨fun x hx => by rw [Dict.get?_set]; simp [hx.symm], ?_⟩
    refine ⟨_, by rw [Dict.get?_set]; simp only [if_true]; rfl, ?_⟩
    have hmem : ∀ n, Elem.int n ∈ y :: ys ↔ n ∈ y.toInt :: ys.map Elem.toInt := by
      intro n
      rw [← List.map_cons (f := Elem.toInt), List.mem_map]
      constructor
      · exact fun h => ⟨_, h, rfl⟩
      · rintro ⟨e, he, rfl⟩
        obtain ⟨m, rfl⟩ := hty e he
        exact he
    have hmin := minOf_le y.toInt (ys.map Elem.toInt)
    have hmax := le_maxOf y.toInt (ys.map Elem.toInt)
    have hminm := (hmem _).2 (minOf_mem y.toInt (ys.map Elem.toInt))
    have hmaxm := (hmem _).2 (maxOf_mem y.toInt (ys.map Elem.toInt))
    have hbd : ∀ n, Elem.int n ∈ y :: ys → minOf y.toInt (ys.map Elem.toInt) ≤ n ∧
        n ≤ maxOf y.toInt (ys.map Elem.toInt) := by
      intro n hn
      rw [hmem, List.mem_cons] at hn
      rcases hn with rfl | hn
      · exact ⟨hmin.1, hmax.1⟩
      · exact ⟨hmin.2 _ hn, hmax.2 _ hn⟩
    generalize minOf y.toInt (ys.map Elem.toInt) = lo at *
    generalize maxOf y.toInt (ys.map Elem.toInt) = hi at *
    refine ⟨fun x hx => ?_, fun hcont v => ?_⟩
    · obtain ⟨n, rfl⟩ := hty x hx
      have := hbd n hx
      refine ⟨n, rfl, this.1, ?_⟩
      split <;> omega
    · constructor
      · rintro ⟨n, rfl, h1, h2⟩
        split at h2
        · exact Or.inl ⟨.int n, hcont _ _ n hminm hmaxm h1 h2, rfl⟩
        · rename_i hm
          by_cases h3 : n ≤ hi
          · exact Or.inl ⟨.int n, hcont _ _ n hminm hmaxm h1 h3, rfl⟩
          · refine Or.inr ⟨hm, Or.inr ⟨hi, ?_, hmaxm, fun n hn => (hbd n hn).2⟩⟩
            congr 1; omega
      · rintro (⟨x, hx, rfl⟩ | ⟨hm, ⟨⟨s, hs⟩, rfl⟩ | ⟨m, rfl, hm1, hm2⟩⟩)
        · obtain ⟨n, rfl⟩ := hty x hx
          have := hbd n hx
          refine ⟨n, rfl, this.1, ?_⟩
          split <;> omega
        · obtain ⟨n, hn⟩ := hty _ hs
          cases hn
        · have h1 := hbd m hm1
          have h2 := hm2 hi hmaxm
          refine ⟨m + 1, rfl, by omega, ?_⟩
          rw [if_neg hm]; omega
  · rw [hv]
    refine ⟨fun x hx => by rw [Dict.get?_set]; simp [hx.symm], ?_⟩
    refine ⟨_, by rw [Dict.get?_set]; simp only [if_true]; rfl, ?_⟩
    have hmem : ∀ s, s ∈ (y :: ys).map Elem.toStr ↔ Elem.str s ∈ y :: ys := by
      intro s
      rw [List.mem_map]
      constructor
      · rintro ⟨e, he, rfl⟩
        obtain ⟨m, rfl⟩ := hty e he
        exact he
      · exact fun h => ⟨_, h, rfl⟩
    have hfirst : ∃ s, Elem.str s ∈ y :: ys := by
      obtain ⟨s, hs⟩ := hty y (by simp)
      exact ⟨s, by simp [← hs]⟩
    have hd : ∀ v, InDom (.strs (if must = .xor then (y :: ys).map Elem.toStr
        else (y :: ys).map Elem.toStr ++ [var ++ "none"])) v ↔
        (∃ s, Elem.str s ∈ y :: ys ∧ v = .str s) ∨ (must ≠ .xor ∧ v = .str (var ++ "none")) := by
      intro v
      simp only [InDom]
      split
      · rename_i hm
        simp only [hmem, hm]; simp
      · rename_i hm
        simp only [List.mem_append, hmem, List.mem_singleton]
        constructor
        · rintro ⟨s, h1 | h1, rfl⟩
          · exact Or.inl ⟨s, h1, rfl⟩
          · exact Or.inr ⟨hm, by rw [h1]⟩
        · rintro (⟨s, h1, rfl⟩ | ⟨_, rfl⟩)
          · exact ⟨s, Or.inl h1, rfl⟩
          · exact ⟨_, Or.inr rfl, rfl⟩
    refine ⟨fun x hx => ?_, fun _ v => ?_⟩
    · obtain ⟨s, rfl⟩ := hty x hx
      exact (hd _).2 (Or.inl ⟨s, hx, rfl⟩)
    · rw [hd]
      constructor
      · rintro (⟨s, h1, rfl⟩ | ⟨hm, rfl⟩)
        · exact Or.inl ⟨_, h1, rfl⟩
        · exact Or.inr ⟨hm, Or.inl ⟨hfirst, rfl⟩⟩
      · rintro (⟨x, hx, rfl⟩ | ⟨hm, ⟨_, rfl⟩ | ⟨m, rfl, hm1, _⟩⟩)
        · obtain ⟨s, rfl⟩ := hty x hx
          exact Or.inl ⟨s, hx, rfl⟩
        · exact Or.inr ⟨hm, rfl⟩
        · obtain ⟨s, hs⟩ := hty _ hm1
          cases hs

/-- **C28.** With Booleans, every element of the domain is declared as a Boolean variable, and the
other declarations are kept. -/
theorem iter2var_declares_bools {states : List Elem} {vars : Dict String Dom} {var : String}
    {b : Bool} {must : Must} {r : VarRep} (h : iter2var states vars var b must = .ok r)
    (hb : usesBools b must = true) (hn : states.Nodup) (x : String) :
    Dict.get? r.variables' x =
      if Elem.str x ∈ states then some .boolean else Dict.get? vars x := by
  by_cases hne : states = []
  · subst hne
    simp only [iter2var, Except.ok.injEq] at h
    subst h; simp
  rcases iter2var_cases h hne with ⟨_, h'⟩ | ⟨hb', _⟩
  · obtain ⟨hstr, -, hv, -⟩ := iter2bools_ok h'
    have hinj : ∀ x ∈ states, ∀ y ∈ states, x.toStr = y.toStr → x = y := by
      intro x hx y hy he
      obtain ⟨s, rfl⟩ := hstr x hx
      obtain ⟨t, rfl⟩ := hstr y hy
      simp only [Elem.toStr] at he
      rw [he]
    have hwf : Dict.Wf (states.map (fun x => (x.toStr, Dom.boolean))) := by
      have : (states.map Elem.toStr).Nodup := List.Nodup.map_on hinj hn
      simpa [Dict.Wf, Dict.keys, Function.comp_def] using this
    rw [hv, Dict.get?_update_wf hwf]
    have hg : ∀ l : List Elem, (∀ x ∈ l, ∃ s, x = .str s) →
        Dict.get? (l.map (fun x => (x.toStr, Dom.boolean))) x =
          if Elem.str x ∈ l then some .boolean else none := by
      intro l
      induction l with
      | nil => simp
      | cons y ys ih =>
        intro hl
        obtain ⟨s, rfl⟩ := hl y (by simp)
        rw [List.map_cons, Dict.get?_cons, ih (fun z hz => hl z (by simp [hz]))]
        by_cases hsx : s = x
        · subst hsx; simp [Elem.toStr]
        · have : ¬ x = s := fun e => hsx e.symm
          simp [Elem.toStr, hsx, this]
    rw [hg states hstr]
    split <;> simp
  · rw [hb] at hb'; cases hb'

/-- **C28.** A valuation that respects the declarations and the constraint selects at most one
element of the domain (`'mutex'`) or exactly one element (`'xor'`, except for a single element
represented by a Boolean, and for integers with gaps). -/
theorem iter2var_faithful {states : List Elem} {vars : Dict String Dom} {var : String} {b : Bool}
    {must : Must} {r : VarRep} (h : iter2var states vars var b must = .ok r)
    (hnames : NamesOk states) (hn : states.Nodup) (hne : states ≠ [])
    {σ : Trace} {i : Nat} (hd : Declared r.variables' σ i) (hc : ∀ f ∈ r.constraint, Holds σ i f) :
    (must ≠ .none → ∀ x ∈ states, ∀ y ∈ states, Selected (usesBools b must) var σ i x →
      Selected (usesBools b must) var σ i y → x = y) ∧
    (must = .xor → (b = true → 2 ≤ states.length) → (b = false → Contiguous states) →
      ∃ x ∈ states, Selected (usesBools b must) var σ i x) := by
  have hcon := ((iter2var_constraint h hnames hn).2 σ i).1 hc
  cases hb : usesBools b must
  · refine ⟨fun _ x _ y _ hx hy => selected_unique hx hy, fun hm _ hcont => ?_⟩
    have hb' : b = false := by
      simp only [usesBools, Bool.or_eq_false_iff] at hb; exact hb.1
    obtain ⟨-, d, h1, -, h3⟩ := iter2var_declares h hb hne
    rcases (h3 (hcont hb') (σ i var)).1 (hd var d h1) with ⟨x, hx, hv⟩ | ⟨h4, _⟩
    · exact ⟨x, hx, hv⟩
    · exact absurd hm h4
  · rw [hb] at hcon
    refine ⟨fun hm x hx y hy h1 h2 => ?_, fun hm hl _ => ?_⟩
    · by_cases hl : 2 ≤ states.length
      · have hcon := hcon rfl hl
        cases must with
        | mutex => exact hcon x hx y hy h1 h2
        | xor =>
          obtain ⟨z, _, _, hz⟩ := hcon
          rw [hz x hx h1, hz y hy h2]
        | none => exact absurd rfl hm
      · match states, hl with
        | [], _ => simp at hx
        | [a], _ => simp at hx hy; rw [hx, hy]
        | _ :: _ :: _, hl => simp at hl
    · subst hm
      have hbt : b = true := by simpa [usesBools] using hb
      obtain ⟨x, hx, h1, _⟩ := hcon rfl (hl hbt)
      exact ⟨x, hx, h1⟩

/-- **C28.** Every element of the domain can be selected: there is a valuation that respects the
declarations and the constraint, and selects that element and no other. -/
theorem iter2var_complete {states : List Elem} {var : String} {b : Bool}
    {must : Must} {r : VarRep} (h : iter2var states [] var b must = .ok r)
    (hnames : NamesOk states) (hn : states.Nodup) {x : Elem} (hx : x ∈ states) :
    ∃ σ : Trace, ∀ i, Declared r.variables' σ i ∧ (∀ f ∈ r.constraint, Holds σ i f) ∧
      Selected (usesBools b must) var σ i x ∧
      ∀ y ∈ states, Selected (usesBools b must) var σ i y → y = x := by
  have hne : states ≠ [] := by rintro rfl; simp at hx
  cases hb : usesBools b must
  · refine ⟨fun _ _ => x.val, fun i => ⟨?_, ?_, ?_, ?_⟩⟩
    · obtain ⟨h0, d, h1, h2, -⟩ := iter2var_declares h hb hne
      intro y d' hd'
      by_cases hy : y = var
      · subst hy
        rw [h1] at hd'; cases hd'
        exact h2 x hx
      · rw [h0 y hy] at hd'; simp at hd'
    · rw [(iter2var_constraint h hnames hn).2, hb]; simp [MustOk]
    · simp [Selected]
    · intro y _ hy
      simp only [Selected] at hy
      exact (Elem.val_inj hy).symm
  · have hstr : ∀ y ∈ states, ∃ s, y = .str s := by
      rcases iter2var_cases h hne with ⟨_, h'⟩ | ⟨hb', _⟩
      · exact (iter2bools_ok h').1
      · rw [hb] at hb'; cases hb'
    obtain ⟨s, rfl⟩ := hstr x hx
    refine ⟨fun _ y => .bool (decide (y = s)), fun i => ?_⟩
    have hs : Selected true var (fun _ y => .bool (decide (y = s))) i (.str s) :=
      ⟨s, rfl, by simp⟩
    have hu : ∀ y ∈ states, Selected true var (fun _ y => .bool (decide (y = s))) i y →
        y = .str s := by
      rintro y _ ⟨t, rfl, ht⟩
      simp only [Val.bool.injEq, decide_eq_true_eq] at ht
      rw [ht]
    refine ⟨?_, ?_, hs, hu⟩
    · intro y d hd
      rw [iter2var_declares_bools h hb hn] at hd
      split at hd
      · cases hd; exact ⟨_, rfl⟩
      · simp at hd
    · rw [(iter2var_constraint h hnames hn).2, hb]
      intro _ hl
      cases must with
      | mutex => exact fun y hy z hz h1 h2 => (hu y hy h1).trans (hu z hz h2).symm
      | xor => exact ⟨.str s, hx, hs, hu⟩
      | none => trivial

/-- A single Boolean that must be selected need not be: `iter2var` returns no constraint. -/
theorem iter2var_single_counterexample :
    iter2var [.str "a"] [] "v" true .xor =
        .ok ⟨[(.str "a", c!"a")], none, [("a", .boolean)]⟩ ∧
      Declared [("a", .boolean)] (fun _ _ => .bool false) 0 ∧
      ¬ ∃ x ∈ [Elem.str "a"], Selected true "v" (fun _ _ => .bool false) 0 x := by
  refine ⟨rfl, ?_, ?_⟩
  · intro x d hd
    simp only [Dict.get?_cons] at hd
    split at hd
    · cases hd; exact ⟨_, rfl⟩
    · simp at hd
  · simp [Selected]

/-- Integers with gaps: the declaration `(1, 3)` for the states 1 and 3 admits 2. -/
theorem iter2var_gap_counterexample :
    iter2var [.int 1, .int 3] [] "v" false .xor =
        .ok ⟨[(.int 1, c!"v = 1"), (.int 3, c!"v = 3")], none, [("v", .range 1 3)]⟩ ∧
      Declared [("v", .range 1 3)] (fun _ _ => .int 2) 0 ∧
      ¬ ∃ x ∈ [Elem.int 1, Elem.int 3], Selected false "v" (fun _ _ => .int 2) 0 x := by
  refine ⟨by decide +kernel, ?_, ?_⟩
  · intro x d hd
    simp only [Dict.get?_cons] at hd
    split at hd
    · cases hd; exact ⟨2, rfl, by decide, by decide⟩
    · simp at hd
  · simp [Selected, Elem.val]

/-- Non-vacuity: strings with one variable, strings with Booleans, integers. -/
example : iter2var [.str "go", .str "stop"] [("p", .boolean)] "act" false .mutex =
    .ok ⟨[(.str "go", c!"act = \"go\""), (.str "stop", c!"act = \"stop\"")], none,
      [("p", .boolean), ("act", .strs ["go", "stop", "actnone"])]⟩ := rfl

example : iter2var [.str "go", .str "stop"] [] "act" true .xor =
    .ok ⟨[(.str "go", c!"go"), (.str "stop", c!"stop")],
      some c!"(((go) && !(stop)) || ((stop) && !(go)))",
      [("go", .boolean), ("stop", .boolean)]⟩ := rfl

example : (iter2var [.int (-1), .int 0, .int 1] [] "n" false .mutex).toOption =
    some ⟨[(.int (-1), c!"n = -1"), (.int 0, c!"n = 0"), (.int 1, c!"n = 1")], none,
      [("n", .range (-1) 2)]⟩ := by decide +kernel

example : NamesOk [.str "go", .str "stop"] ∧ IsName "act" ∧
    Contiguous [.int (-1), .int 0, .int 1] := by
  refine ⟨?_, isName_of_check (by decide +kernel), ?_⟩
  · intro s hs
    simp only [List.mem_cons, Elem.str.injEq, List.not_mem_nil, or_false] at hs
    rcases hs with rfl | rfl <;>
      exact isName_of_check (by decide +kernel)
  · intro a b n ha hb h1 h2
    simp only [List.mem_cons, Elem.int.injEq, List.not_mem_nil, or_false] at ha hb ⊢
    omega

end Synth

end Tulip
