import Verif.Synth.Dependent
import Verif.Synth.ToSpecProps
import Verif.Synth.EncodingProps
import Verif.Spec.TransformProps
import Verif.Spec.Reparse

/-!
# Dependent variables (C82)

The propositions of a transition system are replaced, in the clauses of a specification, by what
they say about the current state.
-/

namespace Tulip

namespace Synth

/-! ## Specification -/

/-- The state of the transition system that the variable `var` holds at position `i` is labelled
with the proposition `p`. -/
def LabelledAt (F : FTS) (var : String) (σ : Trace) (i : Nat) (p : String) : Prop :=
  ∃ u ∈ F.states, σ i var = u.val ∧ ∃ label, F.ap u = some label ∧ p ∈ label

open Classical in
/-- The trace with the propositions of `F` set to what the current state is labelled with. -/
noncomputable def labelTrace (F : FTS) (var : String) (σ : Trace) : Trace := fun i x =>
  if x ∈ F.aps then .bool (decide (LabelledAt F var σ i x)) else σ i x

/-- The labels of the states are sets of atomic propositions. -/
def LabelsOk (F : FTS) : Prop :=
  ∀ u ∈ F.states, ∃ label, F.ap u = some label ∧ ∀ p ∈ label, p ∈ F.aps

/-! ## `map_ap_to_states` -/

theorem addTo_ok {u : Elem} {t : Dict String (List Elem)} {p : String} (hp : p ∈ t.keys) :
    ∃ t', addTo u t p = .ok t' ∧ t'.keys = t.keys ∧ ∀ q us, Dict.get? t q = some us →
      ∃ us', Dict.get? t' q = some us' ∧ ∀ v, v ∈ us' ↔ v ∈ us ∨ (v = u ∧ q = p) := by
  obtain ⟨us, hus⟩ := (Dict.mem_keys_iff t p).1 hp
  refine ⟨_, by rw [addTo, hus], by rw [Dict.keys_set, if_pos hp], fun q ws hq => ?_⟩
  rw [Dict.get?_set]
  by_cases hpq : p = q
  · subst hpq
    rw [hus] at hq; cases hq
    refine ⟨if u ∈ us then us else us ++ [u], by simp, fun v => ?_⟩
    split
    · constructor
      · exact Or.inl
      · rintro (h | ⟨rfl, _⟩)
        · exact h
        · assumption
    · simp
  · have hpq' : ¬ q = p := fun e => hpq e.symm
    refine ⟨ws, by simp [hpq, hq], fun v => by simp [hpq']⟩

theorem addAll_ok {u : Elem} {label : List String} {t : Dict String (List Elem)}
    (hp : ∀ p ∈ label, p ∈ t.keys) :
    ∃ t', foldE (addTo u) t label = .ok t' ∧ t'.keys = t.keys ∧
      ∀ q us, Dict.get? t q = some us → ∃ us', Dict.get? t' q = some us' ∧
        ∀ v, v ∈ us' ↔ v ∈ us ∨ (v = u ∧ q ∈ label) := by
  induction label generalizing t with
  | nil => exact ⟨t, rfl, rfl, fun q us h => ⟨us, h, by simp⟩⟩
  | cons p ps ih =>
    obtain ⟨t1, h1, h2, h3⟩ := addTo_ok (u := u) (hp p (by simp))
    obtain ⟨t2, h4, h5, h6⟩ := ih (t := t1) (fun q hq => by rw [h2]; exact hp q (by simp [hq]))
    refine ⟨t2, by simp only [foldE, h1, ok_bind, h4], h5.trans h2, fun q us hq => ?_⟩
    obtain ⟨us1, h7, h8⟩ := h3 q us hq
    obtain ⟨us2, h9, h10⟩ := h6 q us1 h7
    refine ⟨us2, h9, fun v => ?_⟩
    rw [h10, h8]
    simp only [List.mem_cons]
    constructor
    · rintro ((h | ⟨h, h'⟩) | ⟨h, h'⟩)
      · exact Or.inl h
      · exact Or.inr ⟨h, Or.inl h'⟩
      · exact Or.inr ⟨h, Or.inr h'⟩
    · rintro (h | ⟨h, h' | h'⟩)
      · exact Or.inl (Or.inl h)
      · exact Or.inl (Or.inr ⟨h, h'⟩)
      · exact Or.inr ⟨h, h'⟩

theorem mapAp_loop {ap : Elem → Option (List String)} {states : List Elem}
    {t : Dict String (List Elem)}
    (hl : ∀ u ∈ states, ∃ label, ap u = some label ∧ ∀ p ∈ label, p ∈ t.keys) :
    ∃ t', foldE (fun table u =>
        match ap u with
        | some label => foldE (addTo u) table label
        | none => .error .keyError) t states = .ok t' ∧ t'.keys = t.keys ∧
      ∀ q us, Dict.get? t q = some us → ∃ us', Dict.get? t' q = some us' ∧
        ∀ v, v ∈ us' ↔ v ∈ us ∨ (v ∈ states ∧ ∃ label, ap v = some label ∧ q ∈ label) := by
  induction states generalizing t with
  | nil => exact ⟨t, rfl, rfl, fun q us h => ⟨us, h, by simp⟩⟩
  | cons u us ih =>
    obtain ⟨label, hu, hlab⟩ := hl u (by simp)
    obtain ⟨t1, h1, h2, h3⟩ := addAll_ok (u := u) hlab
    obtain ⟨t2, h4, h5, h6⟩ := ih (t := t1) (fun v hv => by rw [h2]; exact hl v (by simp [hv]))
    refine ⟨t2, by simp only [foldE, hu, h1, ok_bind]; exact h4, h5.trans h2, fun q ws hq => ?_⟩
    obtain ⟨us1, h7, h8⟩ := h3 q ws hq
    obtain ⟨us2, h9, h10⟩ := h6 q us1 h7
    refine ⟨us2, h9, fun v => ?_⟩
    rw [h10, h8]
    simp only [List.mem_cons]
    constructor
    · rintro ((h | ⟨rfl, h'⟩) | ⟨h, h'⟩)
      · exact Or.inl h
      · exact Or.inr ⟨Or.inl rfl, label, hu, h'⟩
      · exact Or.inr ⟨Or.inr h, h'⟩
    · rintro (h | ⟨rfl | h, l, hl', h'⟩)
      · exact Or.inl (Or.inl h)
      · rw [hu] at hl'; cases hl'
        exact Or.inl (Or.inr ⟨rfl, h'⟩)
      · exact Or.inr ⟨h, l, hl', h'⟩

/-- **C82.** `map_ap_to_states` has an entry for each atomic proposition, the set of the states
labelled with it. -/
theorem mapApToStates_spec {F : FTS} (hl : LabelsOk F) :
    ∃ t, mapApToStates F = .ok t ∧ t.keys = F.aps ∧
      ∀ p ∈ F.aps, ∃ us, Dict.get? t p = some us ∧
        ∀ u, u ∈ us ↔ u ∈ F.states ∧ ∃ label, F.ap u = some label ∧ p ∈ label := by
  have hk : Dict.keys (F.aps.map (fun p => (p, ([] : List Elem)))) = F.aps := by
    simp [Dict.keys, Function.comp_def]
  obtain ⟨t, h1, h2, h3⟩ := mapAp_loop (ap := F.ap) (states := F.states)
    (t := F.aps.map (fun p => (p, []))) (fun u hu => by rw [hk]; exact hl u hu)
  refine ⟨t, h1, h2.trans hk, fun p hp => ?_⟩
  obtain ⟨us, h4, h5⟩ := h3 p [] (by rw [get?_map_self, if_pos hp])
  exact ⟨us, h4, fun u => by rw [h5]; simp⟩

/-! ## The formulas of the table -/

/-- Characters that occur in no alternative spelling. -/
def PlainChar (c : Char) : Prop := c ≠ '"' ∧ c ≠ '~' ∧ c ≠ '>' ∧ c ≠ '<' ∧ c ≠ '/'

theorem plainText_of_chars {s : List Char} (h : ∀ c ∈ s, PlainChar c) : PlainText s :=
  ⟨fun hm => (h _ hm).1 rfl, fun hm => (h _ hm).2.1 rfl,
    fun hi => (h '>' (hi.subset (by simp))).2.2.1 rfl,
    fun hi => (h '/' (hi.subset (by simp))).2.2.2.2 rfl,
    fun hi => (h '<' (hi.subset (by simp))).2.2.2.1 rfl⟩

theorem plainChar_ident {x : String} (h : IsIdent x) : ∀ c ∈ x.toList, PlainChar c := by
  obtain ⟨d, ds, e, h1, h2⟩ := isWord_of_isIdent h
  have key : ∀ c, isNameChar c = true → PlainChar c := by
    intro c hc
    refine ⟨?_, ?_, ?_, ?_, ?_⟩ <;> rintro rfl <;> revert hc <;> decide
  have key' : ∀ c, isNameStart c = true → PlainChar c := by
    intro c hc
    refine ⟨?_, ?_, ?_, ?_, ?_⟩ <;> rintro rfl <;> revert hc <;> decide
  intro c hc
  rw [e] at hc
  rcases List.mem_cons.1 hc with rfl | hc
  · exact key' _ h1
  · exact key _ (List.all_eq_true.1 h2 c hc)

theorem plainChar_int (n : Int) : ∀ c ∈ intChars n, PlainChar c := by
  have hd : ∀ m, ∀ c ∈ digitsOf m, PlainChar c := by
    intro m c hc
    have := List.all_eq_true.1 (digitsOf_spec m).1 _ hc
    refine ⟨?_, ?_, ?_, ?_, ?_⟩ <;> rintro rfl <;> revert this <;> decide
  cases n with
  | ofNat m => simpa [intChars] using hd m
  | negSucc m =>
    intro c hc
    simp only [intChars, List.mem_cons] at hc
    rcases hc with rfl | hc
    · refine ⟨?_, ?_, ?_, ?_, ?_⟩ <;> decide
    · exact hd _ c hc

theorem plainChar_join {sep : List Char} (hsep : ∀ c ∈ sep, PlainChar c) {xs : List (List Char)}
    (h : ∀ x ∈ xs, ∀ c ∈ x, PlainChar c) : ∀ c ∈ joinWith sep xs, PlainChar c := by
  cases xs with
  | nil => simp [joinWith]
  | cons x xs =>
    rw [joinWith_cons_eq]
    intro c hc
    simp only [List.mem_append, List.mem_flatten, List.mem_map] at hc
    rcases hc with hc | ⟨l, ⟨y, hy, rfl⟩, hc⟩
    · exact h x (by simp) c hc
    · rcases List.mem_append.1 hc with hc | hc
      · exact hsep c hc
      · exact h y (by simp [hy]) c hc

theorem parse_int_eq {v : String} (hv : IsName v) (n : Int) :
    parse (v.toList ++ c!" = " ++ intChars n) = some (.cmp .eq (.var v) (.num n)) := by
  have hl : lex (v.toList ++ c!" = " ++ intChars n) =
      .name v.toList :: .cmp .eq :: intToks n := by
    have h1 := lex_isWord (isWord_of_isIdent hv.1)
      (rest := ' ' :: '=' :: ' ' :: intChars n) (delim_space _)
    have h2 : ∀ r, lex ('=' :: ' ' :: r) = .cmp .eq :: lex r := fun r =>
      lex_cmpText (op := .eq) (o := ['=']) rfl
    have h3 := lex_int n (rest := []) delim_nil
    simp only [List.append_nil, lex_nil] at h3
    simp only [List.append_assoc, List.cons_append, List.nil_append] at h1 ⊢
    rw [h1, lex_space, h2, h3, nameTok_of_not_reserved hv.2]
  rw [parse, hl]
  cases n <;> simp [intToks, parseToks, prun, pstep, pfinish, reduceAll, reduces, cmpLevel]
  rfl

/-- The comparison of the state variable with an integer. -/
def eqInt (v : String) (n : Int) : Ast := .cmp .eq (.var v) (.num n)

theorem sat_eqInt {v : String} {n : Int} {σ : Trace} {i : Nat} :
    Sat σ i (eqInt v n) ↔ σ i v = .int n := by
  simp only [eqInt, sat_cmp, eval, Val.compare]
  constructor
  · exact fun h => h.1
  · intro h; rw [h]; simp

theorem eval_foldBin_or_bool {σ : Trace} {i : Nat} {t : Ast} (ts : List Ast)
    (ht : ∃ b, eval σ t i = .bool b) : ∃ b, eval σ (foldBin .or t ts) i = .bool b := by
  induction ts generalizing t with
  | nil => exact ht
  | cons u us ih => exact ih ⟨_, rfl⟩

theorem vars_foldBin_or {x : String} (t : Ast) (ts : List Ast) :
    x ∈ (foldBin .or t ts).vars ↔ x ∈ t.vars ∨ ∃ u ∈ ts, x ∈ u.vars := by
  induction ts generalizing t with
  | nil => simp [foldBin]
  | cons u us ih => simp [foldBin, ih, Ast.vars, or_assoc]

/-- The disjunction of comparisons with integers. -/
theorem disj_ints {v : String} (hv : IsName v) {ns : List Int} (hne : ns ≠ []) :
    ∃ t, parse (disj (ns.map (fun n => v.toList ++ c!" = " ++ intChars n))) = some t ∧
      PlainText (disj (ns.map (fun n => v.toList ++ c!" = " ++ intChars n))) ∧
      (∀ σ i, Sat σ i t ↔ ∃ n ∈ ns, σ i v = .int n) ∧
      (∀ σ i, ∃ b, eval σ t i = .bool b) ∧ ∀ x ∈ t.vars, x = v := by
  obtain ⟨m, ms, rfl⟩ := List.exists_cons_of_ne_nil hne
  have hunit : ∀ n, UnitStr (pstr (v.toList ++ c!" = " ++ intChars n)) (eqInt v n) := by
    intro n
    have := unit_paren (parse_eq_int hv n).isFormula.1 (parse_int_eq hv n)
    simpa [pstr, eqInt] using this
  have hall : List.Forall₂ UnitStr
      ((ms.map (fun n => v.toList ++ c!" = " ++ intChars n)).map pstr) (ms.map (eqInt v)) := by
    induction ms with
    | nil => exact .nil
    | cons n ns ih => exact .cons (hunit n) (ih (by simp))
  have hc := chain_join connective_or2 (hunit m) hall
  refine ⟨foldBin .or (eqInt v m) (ms.map (eqInt v)), hc.parse, ?_, ?_, ?_, ?_⟩
  · refine plainText_of_chars (plainChar_join ?_ ?_)
    · intro c hc
      simp only [List.mem_cons, List.not_mem_nil, or_false] at hc
      rcases hc with rfl | rfl | rfl | rfl <;> refine ⟨?_, ?_, ?_, ?_, ?_⟩ <;> decide
    · intro x hx
      simp only [List.map_map, List.mem_map] at hx
      obtain ⟨n, -, rfl⟩ := hx
      intro c hc
      simp only [Function.comp, pstr, List.mem_cons, List.mem_append, List.not_mem_nil,
        or_false, List.cons_append, List.nil_append] at hc
      rcases hc with rfl | (((hc | rfl | rfl | rfl) | hc) | rfl)
      all_goals first
        | exact plainChar_ident hv.1 c hc
        | exact plainChar_int n c hc
        | (refine ⟨?_, ?_, ?_, ?_, ?_⟩ <;> decide)
  · intro σ i
    simp [sat_foldBin_or, sat_eqInt]
  · intro σ i
    exact eval_foldBin_or_bool _ ⟨_, rfl⟩
  · intro x hx
    rw [vars_foldBin_or] at hx
    simp only [List.mem_map, eqInt, Ast.vars] at hx
    rcases hx with hx | ⟨u, ⟨n, -, rfl⟩, hx⟩
    · simpa [Ast.vars] using hx
    · simpa [Ast.vars] using hx

theorem mapE_ok {ε α β : Type} {f : α → Except ε β} {g : α → β} {l : List α}
    (h : ∀ x ∈ l, f x = .ok (g x)) : mapE f l = .ok (l.map g) := by
  induction l with
  | nil => rfl
  | cons x xs ih =>
    simp only [mapE, h x (by simp), ih (fun y hy => h y (by simp [hy])), ok_bind, pure_eq_ok,
      List.map_cons]

theorem iter2var_ints {states : List Elem} {var : String}
    (hint : ∀ u ∈ states, ∃ n, u = .int n) :
    ∃ r, iter2var states [] var false .xor = .ok r ∧
      ∀ u ∈ states, Dict.get? r.ids u = some (var.toList ++ c!" = " ++ u.text) := by
  cases states with
  | nil => exact ⟨_, rfl, by simp⟩
  | cons x xs =>
    have hall : (x :: xs).all Elem.isInt = true := by
      rw [List.all_eq_true]
      intro u hu
      obtain ⟨n, rfl⟩ := hint u hu
      rfl
    have : iter2value x xs [] var .xor = .ok
        ⟨(x :: xs).map (fun x => (x, var.toList ++ c!" = " ++ x.text)), none,
          Dict.set [] var (.range (minOf x.toInt (xs.map Elem.toInt))
            (maxOf x.toInt (xs.map Elem.toInt)))⟩ := by
      rw [iter2value]
      simp only [Dict.has, List.any_nil, Bool.false_eq_true, if_false, hall, if_true]
    refine ⟨_, this, fun u hu => ?_⟩
    rw [get?_map_self, if_pos hu]

theorem get?_map_val {κ α β : Type} [DecidableEq κ] (d : Dict κ α) (f : κ → α → β) (k : κ) :
    Dict.get? (d.map (fun p => (p.1, f p.1 p.2))) k = (Dict.get? d k).map (f k) := by
  induction d with
  | nil => rfl
  | cons p d ih =>
    rw [List.map_cons, Dict.get?_cons, Dict.get?_cons, ih]
    by_cases h : p.1 = k
    · simp [h]
    · simp [h]

/-- **C82.** The table that `build_dependent_var_table` returns has an entry for each atomic
proposition: a formula over the state variable alone, true exactly when the current state is
labelled with the proposition. -/
theorem buildTable_spec {order : List Elem → List Elem} (horder : ∀ l x, x ∈ order l ↔ x ∈ l)
    {F : FTS} {var : String} (hv : IsName var) (hint : ∀ u ∈ F.states, ∃ n, u = .int n)
    (hn : F.aps.Nodup) (hl : LabelsOk F)
    (huse : ∀ p ∈ F.aps, ∃ u ∈ F.states, ∃ label, F.ap u = some label ∧ p ∈ label) :
    ∃ tab, buildTable order F var = .ok tab ∧ tab.keys = F.aps ∧
      ∀ p s, Dict.get? tab p = some s → ∃ t, parse s = some t ∧ PlainText s ∧
        (∀ σ i, Sat σ i t ↔ LabelledAt F var σ i p) ∧
        (∀ σ i, ∃ b, eval σ t i = .bool b) ∧ ∀ x ∈ t.vars, x = var := by
  obtain ⟨r, hr, hids⟩ := iter2var_ints (var := var) hint
  obtain ⟨table, h1, h2, h3⟩ := mapApToStates_spec hl
  have hwf : Dict.Wf table := by rw [Dict.Wf, h2]; exact hn
  have hget : ∀ p us, Dict.get? table p = some us → p ∈ F.aps ∧
      ∀ u, u ∈ us ↔ u ∈ F.states ∧ ∃ label, F.ap u = some label ∧ p ∈ label := by
    intro p us h
    have hp : p ∈ F.aps := by rw [← h2]; exact (Dict.mem_keys_iff _ _).2 ⟨us, h⟩
    obtain ⟨us', h4, h5⟩ := h3 p hp
    rw [h] at h4; cases h4
    exact ⟨hp, h5⟩
  have hrow : ∀ q ∈ table, (do
      let fs ← mapE (lookupId r.ids) (order q.2)
      return (q.1, disj fs) : Except PyErr (String × List Char)) =
      .ok (q.1, disj ((order q.2).map (fun u => var.toList ++ c!" = " ++ u.text))) := by
    intro q hq
    have hq' := get?_of_mem_wf hwf (k := q.1) (v := q.2) hq
    have : mapE (lookupId r.ids) (order q.2) =
        .ok ((order q.2).map (fun u => var.toList ++ c!" = " ++ u.text)) := by
      refine mapE_ok (fun u hu => ?_)
      have hu' := ((hget _ _ hq').2 u).1 ((horder _ _).1 hu)
      rw [lookupId, hids u hu'.1]
    rw [this]; rfl
  have htab : buildTable order F var = .ok (table.map (fun q => (q.1, disj ((order q.2).map
      (fun u => var.toList ++ c!" = " ++ u.text))))) := by
    rw [buildTable, hr, ok_bind, h1, ok_bind]
    exact mapE_ok hrow
  refine ⟨_, htab, ?_, ?_⟩
  · rw [← h2]; simp [Dict.keys, Function.comp_def]
  · intro p s hs
    rw [get?_map_val table (fun _ us => disj ((order us).map
      (fun u => var.toList ++ c!" = " ++ u.text)))] at hs
    obtain ⟨us, h4, rfl⟩ := Option.map_eq_some_iff.1 hs
    obtain ⟨hp, h5⟩ := hget p us h4
    have hints : ∀ u ∈ order us, u = .int u.toInt := by
      intro u hu
      obtain ⟨n, rfl⟩ := hint u ((h5 u).1 ((horder _ _).1 hu)).1
      rfl
    have hmap : (order us).map (fun u => var.toList ++ c!" = " ++ u.text) =
        ((order us).map Elem.toInt).map (fun n => var.toList ++ c!" = " ++ intChars n) := by
      rw [List.map_map]
      refine List.map_congr_left (fun u hu => ?_)
      conv_lhs => rw [hints u hu]
      rfl
    have hne : (order us).map Elem.toInt ≠ [] := by
      obtain ⟨u, hu, hlab⟩ := huse p hp
      have : u ∈ order us := (horder _ _).2 ((h5 u).2 ⟨hu, hlab⟩)
      exact List.ne_nil_of_mem (List.mem_map_of_mem this)
    obtain ⟨t, k1, k2, k3, k4, k5⟩ := disj_ints hv hne
    rw [hmap]
    refine ⟨t, k1, k2, fun σ i => ?_, k4, k5⟩
    rw [k3]
    constructor
    · rintro ⟨n, hn', hσ⟩
      obtain ⟨u, hu, rfl⟩ := List.mem_map.1 hn'
      have hu' := (h5 u).1 ((horder _ _).1 hu)
      exact ⟨u, hu'.1, by rw [hσ, hints u hu]; rfl, hu'.2⟩
    · rintro ⟨u, hu, hσ, hlab⟩
      have hu' : u ∈ order us := (horder _ _).2 ((h5 u).2 ⟨hu, hlab⟩)
      exact ⟨u.toInt, List.mem_map_of_mem hu', by rw [hσ, hints u hu']; rfl⟩

end Synth

open Synth

/-! ## `replace_dependent_vars` -/

theorem dependentTrees_get {vs : Dict String Dom} {tab : Dict String (List Char)}
    {D : Dict String Ast} (h : dependentTrees vs tab = .ok D) (x : String) :
    Dict.get? D x = (Dict.get? tab x).bind parse ∧
      ∀ s, Dict.get? tab x = some s → ∃ t, parse s = some t := by
  induction tab generalizing D with
  | nil => cases h; exact ⟨rfl, by simp [Dict.get?]⟩
  | cons p tab ih =>
    simp only [dependentTrees, mapE] at h
    obtain ⟨q, hq, h⟩ := bind_ok h
    obtain ⟨D', hD', h⟩ := bind_ok h
    cases h
    have hpq : ∃ t, parse p.2 = some t ∧ q = (p.1, t) := by
      cases e1 : Dict.get? vs p.1 with
      | none =>
        cases e2 : parse p.2 with
        | none => simp [e1, e2] at hq
        | some t => simp only [e1, e2] at hq; cases hq; exact ⟨t, rfl, rfl⟩
      | some d =>
        simp only [e1] at hq
        split at hq
        · cases e2 : parse p.2 with
          | none => simp [e2] at hq
          | some t => simp only [e2] at hq; cases hq; exact ⟨t, rfl, rfl⟩
        · cases hq
    obtain ⟨t, ht, rfl⟩ := hpq
    rw [Dict.get?_cons, Dict.get?_cons]
    by_cases hx : p.1 = x
    · simp [hx, ht]
    · simpa [hx] using ih hD'

theorem replaceClause_ok {names : List String} {D : Dict String Ast}
    (hD : ∀ x t, Dict.get? D x = some t → Printable t) {c s : List Char} (hc : PlainText c)
    (h : replaceClause names D c = .ok s) :
    ∃ t, parse c = some t ∧ parse s = some (subBool D t) := by
  simp only [replaceClause, parseClause] at h
  cases e : parse c with
  | none => simp [e] at h
  | some t =>
    simp only [e] at h
    obtain ⟨t', h1, h⟩ := bind_ok h
    obtain ⟨_, _, h1⟩ := bind_ok h1
    cases h1
    have hp := printable_subBool hD (printable_of_parse e hc)
    obtain ⟨u, hu⟩ := hp.flatten_some
    have h2 := parse_flatten _ hp
    rw [hu] at h2
    simp only [replaceDependentClause, hu] at h
    cases h
    exact ⟨t, rfl, by simpa using h2⟩

theorem replacePart_ok {names : List String} {D : Dict String Ast}
    (hD : ∀ x t, Dict.get? D x = some t → Printable t) {cs ss : List (List Char)}
    (hc : ∀ c ∈ cs, PlainText c) (h : mapE (replaceClause names D) cs = .ok ss) :
    List.Forall₂ (fun c s => ∃ t, parse c = some t ∧ parse s = some (subBool D t)) cs ss := by
  have := mapE_forall₂ h
  clear h
  induction this with
  | nil => exact .nil
  | cons h _ ih =>
    exact .cons (replaceClause_ok hD (hc _ (by simp)) h) (ih (fun c h => hc c (by simp [h])))

theorem forall_of_forall₂ {α β : Type} {R : α → β → Prop} {P : α → Prop} {Q : β → Prop}
    (hR : ∀ a b, R a b → (P a ↔ Q b)) {as : List α} {bs : List β}
    (h : List.Forall₂ R as bs) : (∀ a ∈ as, P a) ↔ ∀ b ∈ bs, Q b := by
  induction h with
  | nil => simp
  | cons h _ ih => simp only [List.forall_mem_cons, ih, hR _ _ h]

theorem sideMeaning_of_parts {D : Dict String Ast} {a b c a' b' c' : List (List Char)}
    (ha : List.Forall₂ (fun c s => ∃ t, parse c = some t ∧ parse s = some (subBool D t)) a a')
    (hb : List.Forall₂ (fun c s => ∃ t, parse c = some t ∧ parse s = some (subBool D t)) b b')
    (hc : List.Forall₂ (fun c s => ∃ t, parse c = some t ∧ parse s = some (subBool D t)) c c')
    (σ : Trace) : SideMeaning a' b' c' σ ↔ SideMeaning a b c (define D σ) := by
  have key : ∀ (i : Nat) c s, (∃ t, parse c = some t ∧ parse s = some (subBool D t)) →
      (Tulip.Holds (define D σ) i c ↔ Tulip.Holds σ i s) := by
    rintro i c s ⟨t, h1, h2⟩
    rw [holds_iff h1, holds_iff h2, subBool_correct]
  refine (and_congr (forall_of_forall₂ (key 0) ha) (and_congr
    (forall_of_forall₂ (fun c s h => forall_congr' (fun i => key i c s h)) hb)
    (forall_of_forall₂ (P := fun c => ∀ i, ∃ j, i ≤ j ∧ Tulip.Holds (define D σ) j c)
      (Q := fun c => ∀ i, ∃ j, i ≤ j ∧ Tulip.Holds σ j c)
      (fun c s h => forall_congr' (fun i => exists_congr (fun j =>
        and_congr_right (fun _ => key j c s h)))) hc))).symm

/-- **C82.** After `replace_dependent_vars` the assumption and the guarantee hold on the traces on
which they held before when each dependent variable has the value of its formula; the variables
of the new clauses are those that are not replaced, and those of the formulas. -/
theorem replaceDependentVars_correct {g g' : GRSpec} {tab : Dict String (List Char)}
    (h : replaceDependentVars g tab = .ok g') (hc : ∀ c ∈ g.clauses, PlainText c)
    (ht : ∀ x s, Dict.get? tab x = some s → PlainText s) :
    ∃ D : Dict String Ast, (∀ x, Dict.get? D x = (Dict.get? tab x).bind parse) ∧
      g'.envVars = g.envVars ∧ g'.sysVars = g.sysVars ∧
      (∀ σ, (g'.Assumption σ ↔ g.Assumption (define D σ)) ∧
        (g'.Guarantee σ ↔ g.Guarantee (define D σ))) ∧
      ∀ c ∈ g'.clauses, ∃ t, parse c = some t ∧ ∀ x ∈ t.vars,
        Dict.get? tab x = none ∨
          ∃ y s u, Dict.get? tab y = some s ∧ parse s = some u ∧ x ∈ u.vars := by
  simp only [replaceDependentVars] at h
  obtain ⟨D, hD, h⟩ := bind_ok h
  obtain ⟨p1, h1, h⟩ := bind_ok h
  obtain ⟨p2, h2, h⟩ := bind_ok h
  obtain ⟨p3, h3, h⟩ := bind_ok h
  obtain ⟨p4, h4, h⟩ := bind_ok h
  obtain ⟨p5, h5, h⟩ := bind_ok h
  obtain ⟨p6, h6, h⟩ := bind_ok h
  cases h
  have hget := fun x => (dependentTrees_get hD x).1
  have hdef := fun x => (dependentTrees_get hD x).2
  have hpr : ∀ x t, Dict.get? D x = some t → Printable t := by
    intro x t hx
    rw [hget] at hx
    obtain ⟨s, hs, hp⟩ := Option.bind_eq_some_iff.1 hx
    exact printable_of_parse hp (ht x s hs)
  simp only [GRSpec.clauses, List.mem_append] at hc
  replace h1 := replacePart_ok hpr (fun c h => hc c (by simp [h])) h1
  replace h2 := replacePart_ok hpr (fun c h => hc c (by simp [h])) h2
  replace h3 := replacePart_ok hpr (fun c h => hc c (by simp [h])) h3
  replace h4 := replacePart_ok hpr (fun c h => hc c (by simp [h])) h4
  replace h5 := replacePart_ok hpr (fun c h => hc c (by simp [h])) h5
  replace h6 := replacePart_ok hpr (fun c h => hc c (by simp [h])) h6
  refine ⟨D, hget, rfl, rfl, fun σ => ⟨sideMeaning_of_parts h1 h3 h5 σ,
    sideMeaning_of_parts h2 h4 h6 σ⟩, ?_⟩
  have key : ∀ {cs ss : List (List Char)}, List.Forall₂ (fun c s => ∃ t, parse c = some t ∧
      parse s = some (subBool D t)) cs ss → ∀ c ∈ ss, ∃ t, parse c = some t ∧ ∀ x ∈ t.vars,
        Dict.get? tab x = none ∨
          ∃ y s u, Dict.get? tab y = some s ∧ parse s = some u ∧ x ∈ u.vars := by
    intro cs ss hcs
    induction hcs with
    | nil => simp
    | cons h _ ih =>
      obtain ⟨t, k1, k2⟩ := h
      intro c hc
      rcases List.mem_cons.1 hc with rfl | hc
      · refine ⟨_, k2, fun x hx => ?_⟩
        rcases (subBool_vars D t x).1 hx with ⟨_, hx⟩ | ⟨y, _, u, hu, hx⟩
        · left
          rw [hget] at hx
          cases e : Dict.get? tab x with
          | none => rfl
          | some s =>
            obtain ⟨v, hv⟩ := hdef x s e
            rw [e] at hx
            simp [hv] at hx
        · right
          rw [hget] at hu
          obtain ⟨s, hs, hp⟩ := Option.bind_eq_some_iff.1 hu
          exact ⟨y, s, u, hs, hp, hx⟩
      · exact ih c hc
  intro c hc'
  simp only [GRSpec.clauses, List.mem_append] at hc'
  rcases hc' with ((((h | h) | h) | h) | h) | h
  · exact key h1 c h
  · exact key h2 c h
  · exact key h3 c h
  · exact key h4 c h
  · exact key h5 c h
  · exact key h6 c h

/-- **C82.** Replacing the propositions of a transition system in a specification, by the table
built for it: the new specification holds on the traces on which the old one holds with the
propositions set to the label of the current state, and mentions none of the propositions. In
particular nothing changes on traces on which the propositions already have these values. -/
theorem dependent_correct {order : List Synth.Elem → List Synth.Elem} (horder : ∀ l x, x ∈ order l ↔ x ∈ l)
    {F : FTS} {var : String} (hv : IsName var) (hint : ∀ u ∈ F.states, ∃ n, u = .int n)
    (hn : F.aps.Nodup) (hl : LabelsOk F) (hva : var ∉ F.aps)
    (huse : ∀ p ∈ F.aps, ∃ u ∈ F.states, ∃ label, F.ap u = some label ∧ p ∈ label)
    {g : GRSpec} (hc : ∀ c ∈ g.clauses, PlainText c) :
    ∃ tab, buildTable order F var = .ok tab ∧ ∀ g', replaceDependentVars g tab = .ok g' →
      g'.envVars = g.envVars ∧ g'.sysVars = g.sysVars ∧
      (∀ σ, (g'.Assumption σ ↔ g.Assumption (labelTrace F var σ)) ∧
        (g'.Guarantee σ ↔ g.Guarantee (labelTrace F var σ))) ∧
      (∀ σ, (∀ i, ∀ p ∈ F.aps, (σ i p = .bool true ↔ LabelledAt F var σ i p) ∧
          ∃ b, σ i p = .bool b) →
        (g'.Assumption σ ↔ g.Assumption σ) ∧ (g'.Guarantee σ ↔ g.Guarantee σ)) ∧
      ∀ c ∈ g'.clauses, ∃ t, parse c = some t ∧ ∀ p ∈ F.aps, p ∉ t.vars := by
  obtain ⟨tab, h1, h2, h3⟩ := buildTable_spec horder hv hint hn hl huse
  refine ⟨tab, h1, fun g' h => ?_⟩
  obtain ⟨D, k1, k2, k3, k4, k5⟩ := replaceDependentVars_correct h hc (fun x s hs => by
    obtain ⟨t, _, hp, _⟩ := h3 x s hs; exact hp)
  have hdef : ∀ σ, define D σ = labelTrace F var σ := by
    intro σ
    funext i x
    simp only [define, labelTrace]
    rw [k1]
    by_cases hx : x ∈ F.aps
    · rw [← h2] at hx
      obtain ⟨s, hs⟩ := (Dict.mem_keys_iff _ _).1 hx
      obtain ⟨t, ht, _, hsat, hb, _⟩ := h3 x s hs
      rw [h2] at hx
      simp only [hs, Option.bind_some, ht, if_pos hx]
      obtain ⟨b, hb⟩ := hb σ i
      have := hsat σ i
      rw [Sat, hb] at this
      rw [hb]
      cases b <;> simp_all
    · have : Dict.get? tab x = none := by
        cases e : Dict.get? tab x with
        | none => rfl
        | some s => exact absurd ((Dict.mem_keys_iff _ _).2 ⟨s, e⟩) (by rw [h2]; exact hx)
      simp [this, hx]
  refine ⟨k2, k3, fun σ => ?_, fun σ hσ => ?_, fun c hc' => ?_⟩
  · rw [← hdef]; exact k4 σ
  · have : labelTrace F var σ = σ := by
      funext i x
      simp only [labelTrace]
      split
      · rename_i hx
        obtain ⟨a, b, hb⟩ := hσ i x hx
        rw [hb] at a ⊢
        cases b <;> simp_all
      · rfl
    have h4 := k4 σ
    rw [hdef, this] at h4
    exact h4
  · obtain ⟨t, ht, hvars⟩ := k5 c hc'
    refine ⟨t, ht, fun p hp hpt => ?_⟩
    rcases hvars p hpt with h | ⟨y, s, u, hy, hu, hx⟩
    · rw [← h2] at hp
      obtain ⟨s, hs⟩ := (Dict.mem_keys_iff _ _).1 hp
      rw [h] at hs; cases hs
    · obtain ⟨t', ht', _, _, _, hvs⟩ := h3 y s hy
      rw [hu] at ht'; cases ht'
      exact hva (hvs p hx ▸ hp)

/-- **C82.** The call succeeds if the replaced variables are Boolean or not declared, and the
clauses of the specification are formulas over declared variables. -/
theorem replaceDependentVars_succeeds {g : GRSpec} {tab : Dict String (List Char)}
    (hc : ∀ c ∈ g.clauses, PlainText c ∧ ∃ t, parse c = some t ∧
      checkIdents (g.envVars.update g.sysVars).keys none t = .ok ())
    (ht : ∀ q ∈ tab, PlainText q.2 ∧ (∃ t, parse q.2 = some t) ∧
      ∀ d, Dict.get? (g.envVars.update g.sysVars) q.1 = some d → d = .boolean) :
    ∃ g', replaceDependentVars g tab = .ok g' := by
  have hD : ∃ D, dependentTrees (g.envVars.update g.sysVars) tab = .ok D := by
    refine ⟨tab.map (fun q => (q.1, (parse q.2).getD (.bool true))), mapE_ok (fun q hq => ?_)⟩
    obtain ⟨_, ⟨t, hp⟩, hd⟩ := ht q hq
    cases e : Dict.get? (g.envVars.update g.sysVars) q.1 with
    | none => simp [hp]
    | some d => simp [hp, hd d e]
  obtain ⟨D, hD⟩ := hD
  have hpr : ∀ x t, Dict.get? D x = some t → Printable t := by
    intro x t hx
    rw [(dependentTrees_get hD x).1] at hx
    obtain ⟨s, hs, hp⟩ := Option.bind_eq_some_iff.1 hx
    exact printable_of_parse hp (ht _ (get?_mem hs)).1
  have key : ∀ c ∈ g.clauses, ∃ s,
      replaceClause (g.envVars.update g.sysVars).keys D c = .ok s := by
    intro c hc'
    obtain ⟨hpl, t, hp, hi⟩ := hc c hc'
    obtain ⟨u, hu⟩ := (printable_subBool hpr (printable_of_parse hp hpl)).flatten_some
    exact ⟨u, by simp only [replaceClause, parseClause, hp, hi, ok_bind, replaceDependentClause,
      hu, pure_eq_ok]⟩
  have part : ∀ cs : List (List Char), (∀ c ∈ cs, c ∈ g.clauses) →
      ∃ ss, mapE (replaceClause (g.envVars.update g.sysVars).keys D) cs = .ok ss := by
    intro cs hcs
    induction cs with
    | nil => exact ⟨[], rfl⟩
    | cons c cs ih =>
      obtain ⟨s, h1⟩ := key c (hcs c (by simp))
      obtain ⟨ss, h2⟩ := ih (fun c h => hcs c (by simp [h]))
      exact ⟨s :: ss, by simp only [mapE, h1, h2, ok_bind, pure_eq_ok]⟩
  obtain ⟨p1, h1⟩ := part g.envInit (fun c h => by simp [GRSpec.clauses, h])
  obtain ⟨p2, h2⟩ := part g.sysInit (fun c h => by simp [GRSpec.clauses, h])
  obtain ⟨p3, h3⟩ := part g.envSafety (fun c h => by simp [GRSpec.clauses, h])
  obtain ⟨p4, h4⟩ := part g.sysSafety (fun c h => by simp [GRSpec.clauses, h])
  obtain ⟨p5, h5⟩ := part g.envProg (fun c h => by simp [GRSpec.clauses, h])
  obtain ⟨p6, h6⟩ := part g.sysProg (fun c h => by simp [GRSpec.clauses, h])
  simp only [replaceDependentVars, hD, h1, h2, h3, h4, h5, h6, ok_bind, pure_eq_ok]
  exact ⟨_, rfl⟩

/-! ## Examples -/

namespace Dependent

/-- Three states in a row; the first is labelled `a`, the last two `b`. -/
def row : FTS where
  states := [.int 0, .int 1, .int 2]
  initial := [.int 0]
  aps := ["a", "b"]
  ap u := if u = .int 0 then some ["a"] else if u = .int 1 then some ["b"] else some ["b"]
  edges := []
  actions := []
  sysMust := .xor
  envMust := .xor
  owner := .sys

/-- A specification over the propositions. -/
def spec : GRSpec where
  envVars := []
  sysVars := [("loc", .range 0 2), ("a", .boolean), ("b", .boolean)]
  envInit := []
  sysInit := [c!"a"]
  envSafety := []
  sysSafety := [c!"a -> X b"]
  envProg := []
  sysProg := [c!"b"]
  moore := false
  plusOne := false
  qinit := c!"\\A \\E"
  formula := []

/-- Non-vacuity: the hypotheses of `dependent_correct` and the result. -/
example : LabelsOk row ∧ (∀ p ∈ row.aps, ∃ u ∈ row.states, ∃ label, row.ap u = some label ∧
    p ∈ label) ∧ (∀ u ∈ row.states, ∃ n, u = Synth.Elem.int n) ∧ row.aps.Nodup ∧
    ∀ c ∈ spec.clauses, PlainText c := by
  refine ⟨?_, ?_, ?_, by decide, ?_⟩
  · intro u hu
    simp only [row, List.mem_cons, List.not_mem_nil, or_false] at hu
    rcases hu with rfl | rfl | rfl
    · exact ⟨["a"], by decide, by decide⟩
    · exact ⟨["b"], by decide, by decide⟩
    · exact ⟨["b"], by decide, by decide⟩
  · intro p hp
    simp only [row, List.mem_cons, List.not_mem_nil, or_false] at hp
    rcases hp with rfl | rfl
    · exact ⟨.int 0, by decide, ["a"], by decide, by decide⟩
    · exact ⟨.int 1, by decide, ["b"], by decide, by decide⟩
  · intro u hu
    simp only [row, List.mem_cons, List.not_mem_nil, or_false] at hu
    rcases hu with rfl | rfl | rfl <;> exact ⟨_, rfl⟩
  · intro c hc
    simp only [spec, GRSpec.clauses, List.nil_append, List.append_nil, List.mem_append,
      List.mem_cons, List.not_mem_nil, or_false] at hc
    rcases hc with (rfl | rfl) | rfl <;> refine ⟨?_, ?_, ?_, ?_, ?_⟩ <;> decide

/-- The table of the example. -/
example : (buildTable id row "loc").toOption = some
    [("a", c!"(loc = 0)"), ("b", c!"(loc = 1) || (loc = 2)")] := by decide +kernel

/-- The clauses after replacement. -/
example : ((buildTable id row "loc" >>= replaceDependentVars spec).toOption.map
    (fun g => (g.sysInit, g.sysSafety, g.sysProg))) = some
    ([c!"( loc = 0 )"], [c!"( ( loc = 0 ) -> ( X ( ( loc = 1 ) | ( loc = 2 ) ) ) )"],
      [c!"( ( loc = 1 ) | ( loc = 2 ) )"]) := by decide +kernel

/-- The same system with states that are strings. -/
def rowStr : FTS := { row with
  states := [.str "s0", .str "s1"]
  ap := fun u => if u = .str "s0" then some ["a"] else some ["b"] }

/-- **C82, disagreement.** With string states the new clauses compare the state variable with a
variable named like the state: printing a formula drops the quotes. The new specification does
not mean what the old one does. -/
theorem string_states_counterexample :
    ((buildTable id rowStr "loc" >>= replaceDependentVars
      { spec with sysVars := [("loc", .strs ["s0", "s1"]), ("a", .boolean), ("b", .boolean)] }
      ).toOption.map (fun g => g.sysInit)) = some [c!"( loc = s0 )"] ∧
    parse c!"( loc = s0 )" = some (.cmp .eq (.var "loc") (.var "s0")) := by
  constructor <;> decide +kernel

/-- **C82, disagreement.** A proposition that labels no state gets the empty formula, which does
not parse: `replace_dependent_vars` raises. -/
theorem unused_proposition_counterexample :
    (buildTable id { row with aps := ["a", "b", "c"] } "loc").toOption.map
      (fun t => Dict.get? t "c") = some (some []) ∧
    (buildTable id { row with aps := ["a", "b", "c"] } "loc" >>=
      replaceDependentVars spec).toOption.isNone = true := by
  constructor <;> decide +kernel

/-- A label outside the atomic propositions raises `KeyError`. -/
theorem unknown_label_counterexample :
    mapApToStates { row with aps := ["a"] } = .error .keyError := by rfl

end Dependent

end Tulip
