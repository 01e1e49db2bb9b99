import Verif.Synth.ToSpecExamples

/-!
# When `iter2var`, `sys_to_spec` and `env_to_spec` return (C28, C29, C30)
-/

namespace Tulip

namespace Synth

/-! ## Specification -/

/-- The values are all strings, or all integers and not represented by Booleans. -/
def OneSort (bools : Bool) (l : List Elem) : Prop :=
  (∀ x ∈ l, ∃ s, x = .str s) ∨ (bools = false ∧ ∀ x ∈ l, ∃ n, x = .int n)

/-- A variable that represents the values: a Boolean with the name of a value, or `var`. -/
def IsVarOf (bools : Bool) (var : String) (l : List Elem) (x : String) : Prop :=
  (bools = true ∧ .str x ∈ l) ∨ (bools = false ∧ l ≠ [] ∧ x = var)

/-- A transition system that refers only to what it declares, and in which propositions, states, types of actions,
actions and the variable of the state have different names. -/
structure FTS.Closed (F : FTS) (boolStates boolActions : Bool) (statevar : String) : Prop where
  initial : ∀ s ∈ F.initial, s ∈ F.states
  endpoints : ∀ e ∈ F.edges, e.src ∈ F.states ∧ e.dst ∈ F.states
  labels : ∀ e ∈ F.edges, ∀ k v, (k, v) ∈ e.label → isSys k = true ∨ isEnv k = true →
    ¬ (isSys k = true ∧ isEnv k = true) ∧ ∃ dom, (k, dom) ∈ F.actions ∧ v ∈ dom
  typesWf : F.actions.Wf
  statesSort : OneSort boolStates F.states
  typesSort : ∀ k dom, (k, dom) ∈ F.actions → OneSort (usesBools boolActions (F.mustOf k)) dom
  apsStates : ∀ p ∈ F.aps, .str p ∉ F.states
  keys : ∀ k dom, (k, dom) ∈ F.actions → .str k ∉ F.states ∧ k ∉ F.aps ∧ k ≠ statevar
  values : ∀ k dom, (k, dom) ∈ F.actions → ∀ x ∈ dom, x ∉ F.states ∧ (∀ p ∈ F.aps, x ≠ .str p) ∧
    x ≠ .str statevar ∧ ∀ k' dom', (k', dom') ∈ F.actions → x ≠ .str k' ∧
      (isSys k ≠ isSys k' → ∀ s, x = .str s → x ∉ dom')
  var : statevar ∉ F.aps

/-! ## One domain -/

theorem mem_keys_set {α : Type} (d : Dict String α) (k x : String) (v : α) :
    x ∈ (d.set k v).keys ↔ x ∈ d.keys ∨ x = k := by
  rw [Dict.keys_set]
  split
  · exact ⟨Or.inl, fun h => h.elim id fun e => by rw [e]; assumption⟩
  · simp

theorem mem_keys_update {α : Type} (d e : Dict String α) (x : String) :
    x ∈ (d.update e).keys ↔ x ∈ d.keys ∨ x ∈ e.keys := by
  unfold Dict.update
  induction e generalizing d with
  | nil => simp [Dict.keys]
  | cons p e ih =>
    rw [List.foldl_cons, ih, mem_keys_set]
    simp only [Dict.keys, List.map_cons, List.mem_cons]
    tauto

/-- **C28.** `iter2var` returns for values of one sort, strings if they are represented by Booleans, whenever the
variable is not declared already; it then declares the variables of the values and no others. -/
theorem iter2var_returns {states : List Elem} {vars : Dict String Dom} {var : String} {b : Bool} {must : Must}
    (hs : OneSort (usesBools b must) states)
    (hv : usesBools b must = false → states ≠ [] → var ∉ vars.keys) :
    ∃ r, iter2var states vars var b must = .ok r ∧ r.ids.keys = states ∧
      ∀ x, x ∈ r.variables'.keys ↔ x ∈ vars.keys ∨ IsVarOf (usesBools b must) var states x := by
  cases states with
  | nil => exact ⟨_, rfl, rfl, fun x => by simp [IsVarOf]⟩
  | cons y ys =>
    have hk : ∀ f : Elem → List Char, Dict.keys ((y :: ys).map fun x => (x, f x)) = y :: ys := by
      intro f
      simp [Dict.keys, Function.comp_def]
    unfold iter2var
    rw [show (b || decide (must = .none)) = usesBools b must from rfl]
    cases hb : usesBools b must with
    | true =>
      rw [hb] at hs
      have hstr : ∀ x ∈ y :: ys, ∃ s, x = .str s := by
        rcases hs with h | ⟨h, _⟩
        · exact h
        · cases h
      have hall : (y :: ys).all Elem.isStr = true := by
        simpa only [List.all_eq_true, isStr_iff] using hstr
      have hx : ∀ x, x ∈ (vars.update ((y :: ys).map fun x => (x.toStr, Dom.boolean))).keys ↔
          x ∈ vars.keys ∨ IsVarOf true var (y :: ys) x := by
        intro x
        rw [mem_keys_update]
        refine or_congr_right ?_
        simp only [IsVarOf, Dict.keys, List.map_map, Function.comp_def, List.mem_map]
        constructor
        · rintro ⟨e, he, rfl⟩
          obtain ⟨s, rfl⟩ := hstr e he
          exact Or.inl ⟨trivial, he⟩
        · rintro (⟨_, h⟩ | ⟨h, _⟩)
          · exact ⟨_, h, rfl⟩
          · cases h
      simp only [if_true, iter2bools, hall, Bool.not_true, Bool.false_eq_true, if_false]
      split
      · exact ⟨_, rfl, hk _, hx⟩
      · split
        · exact ⟨_, rfl, hk _, hx⟩
        · split
          · exact ⟨_, rfl, hk _, hx⟩
          · rename_i he
            exfalso
            unfold exactlyOne at he
            split at he <;> simp at he
        · exact ⟨_, rfl, hk _, hx⟩
    | false =>
      have hn : vars.has var = false := by
        rw [Dict.has_false_iff]
        cases h : Dict.get? vars var with
        | none => rfl
        | some d => exact absurd ((Dict.mem_keys_iff _ _).2 ⟨d, h⟩) (hv hb (by simp))
      have hx : ∀ d x, x ∈ (vars.set var d).keys ↔ x ∈ vars.keys ∨ IsVarOf false var (y :: ys) x := by
        intro d x
        rw [mem_keys_set]
        simp [IsVarOf]
      simp only [Bool.false_eq_true, if_false, iter2value, hn]
      rcases hs with h | ⟨_, h⟩
      · have hall : (y :: ys).all Elem.isStr = true := by
          simpa only [List.all_eq_true, isStr_iff] using h
        split
        · exact ⟨_, rfl, hk _, hx _⟩
        · exact ⟨_, rfl, hk _, hx _⟩
      · have hall : (y :: ys).all Elem.isInt = true := by
          simpa only [List.all_eq_true, isInt_iff] using h
        rw [if_pos hall]
        exact ⟨_, rfl, hk _, hx _⟩

/-! ## The action types -/

/-- The declared variables and the solver expressions after the action types `done`. -/
structure AccDone (F : FTS) (ba : Bool) (done : List (String × List Elem)) (sv ev : Dict String Dom) (a : Acc) :
    Prop where
  sysVars : ∀ x, x ∈ a.sysVars.keys ↔ x ∈ sv.keys ∨ ∃ p ∈ done, isSys p.1 = true ∧
    IsVarOf (usesBools ba (F.mustOf p.1)) p.1 p.2 x
  envVars : ∀ x, x ∈ a.envVars.keys ↔ x ∈ ev.keys ∨ ∃ p ∈ done, isEnvOnly p.1 = true ∧
    IsVarOf (usesBools ba (F.mustOf p.1)) p.1 p.2 x
  sysIds : ∀ p ∈ done, isSys p.1 = true → ∃ ids, Dict.get? a.sysIds p.1 = some ids ∧ Dict.keys ids = p.2
  envIds : ∀ p ∈ done, isEnvOnly p.1 = true → ∃ ids, Dict.get? a.envIds p.1 = some ids ∧ Dict.keys ids = p.2

theorem addTypes_returns {F : FTS} {bs ba : Bool} {var : String} (hF : F.Closed bs ba var) {sv ev : Dict String Dom}
    (hsv : ∀ x ∈ sv.keys, x ∈ F.aps) (hev : ∀ x ∈ ev.keys, x ∈ F.aps)
    {done rest : List (String × List Elem)} (hall : F.actions = done ++ rest) {a : Acc}
    (ha : AccDone F ba done sv ev a) : ∃ a', addTypes F ba a rest = .ok a' ∧ AccDone F ba F.actions sv ev a' := by
  induction rest generalizing done a with
  | nil => rw [List.append_nil] at hall; rw [hall]; exact ⟨a, rfl, ha⟩
  | cons p rest ih =>
    obtain ⟨k, dom⟩ := p
    have hmem : (k, dom) ∈ F.actions := by rw [hall]; simp
    have hdone : ∀ p ∈ done, p ∈ F.actions := fun p hp => by rw [hall]; exact List.mem_append_left _ hp
    have hkd : ∀ p ∈ done, p.1 ≠ k := by
      have := hF.typesWf
      simp only [Dict.Wf, Dict.keys, hall, List.map_append, List.map_cons, List.nodup_append, List.mem_cons] at this
      intro p hp h
      exact this.2.2 p.1 (List.mem_map_of_mem hp) k (Or.inl rfl) h
    have hc : clashes F k dom = false := by
      obtain ⟨h1, h2, _⟩ := hF.keys k dom hmem
      simp only [clashes, Bool.or_eq_false_iff, List.any_eq_false, decide_eq_true_eq, decide_eq_false_iff_not]
      refine ⟨⟨⟨?_, fun x hx => (hF.values k dom hmem x hx).1⟩, h1⟩, h2⟩
      intro x hx h
      rw [List.any_eq_true] at h
      obtain ⟨p, hp, h⟩ := h
      exact (hF.values k dom hmem x hx).2.1 p hp (of_decide_eq_true h)
    have hfree : ∀ (t : String → Bool) (ks vs : List String), (∀ x ∈ ks, x ∈ F.aps) →
        (∀ x, x ∈ vs ↔ x ∈ ks ∨ ∃ p ∈ done, t p.1 = true ∧ IsVarOf (usesBools ba (F.mustOf p.1)) p.1 p.2 x) →
        k ∉ vs := by
      intro t ks vs hks hvs h
      rw [hvs] at h
      rcases h with h | ⟨p, hp, _, ⟨_, h⟩ | ⟨_, _, h⟩⟩
      · exact (hF.keys k dom hmem).2.1 (hks k h)
      · exact ((hF.values p.1 p.2 (hdone p hp) _ h).2.2.2 k dom hmem).1 rfl
      · exact hkd p hp h.symm
    simp only [addTypes]
    rw [show addType F ba a k dom = (if isSys k then do
        let r ← iter2var dom a.sysVars k ba F.sysMust
        let (init', trans') := addActions r.constraint a.sysInit a.sysTrans
        return { a with sysVars := r.variables', sysInit := init', sysTrans := trans',
                        sysIds := a.sysIds.set k r.ids }
      else if isEnv k then do
        let r ← iter2var dom a.envVars k ba F.envMust
        let (init', trans') := addActions r.constraint a.envInit a.envTrans
        return { a with envVars := r.variables', envInit := init', envTrans := trans',
                        envIds := a.envIds.set k r.ids }
      else .ok a) from by rw [addType, hc]; rfl]
    have hsort := hF.typesSort k dom hmem
    cases hs : isSys k with
    | true =>
      have hm : F.mustOf k = F.sysMust := by simp [FTS.mustOf, hs]
      have he : isEnvOnly k = false := by simp [isEnvOnly, hs]
      rw [hm] at hsort
      obtain ⟨r, hr, hr1, hr2⟩ := iter2var_returns hsort fun _ _ => hfree isSys sv.keys a.sysVars.keys hsv ha.sysVars
      simp only [if_true, hr, ok_bind, addActions_eq, pure_eq_ok]
      refine ih (done := done ++ [(k, dom)]) (by simp [hall]) ⟨?_, ?_, ?_, ?_⟩
      · intro x
        simp only [hr2, ha.sysVars, List.mem_append, List.mem_singleton, or_and_right, exists_or, exists_eq_left, hs,
          true_and, hm, or_assoc]
      · intro x
        simp only [ha.envVars, List.mem_append, List.mem_singleton, or_and_right, exists_or, exists_eq_left, he,
          Bool.false_eq_true, false_and, or_false]
      · intro p hp ht
        simp only [Dict.get?_set]
        rcases List.mem_append.1 hp with hp | hp
        · rw [if_neg (fun h => hkd p hp h.symm)]
          exact ha.sysIds p hp ht
        · rw [List.mem_singleton] at hp
          subst hp
          exact ⟨_, if_pos rfl, hr1⟩
      · intro p hp ht
        rcases List.mem_append.1 hp with hp | hp
        · exact ha.envIds p hp ht
        · rw [List.mem_singleton] at hp
          subst hp
          rw [he] at ht
          cases ht
    | false =>
      have hm : F.mustOf k = F.envMust := by simp [FTS.mustOf, hs]
      cases he : isEnv k with
      | true =>
        have he' : isEnvOnly k = true := by simp [isEnvOnly, hs, he]
        rw [hm] at hsort
        obtain ⟨r, hr, hr1, hr2⟩ :=
          iter2var_returns hsort fun _ _ => hfree isEnvOnly ev.keys a.envVars.keys hev ha.envVars
        simp only [if_true, Bool.false_eq_true, if_false, hr, ok_bind, addActions_eq, pure_eq_ok]
        refine ih (done := done ++ [(k, dom)]) (by simp [hall]) ⟨?_, ?_, ?_, ?_⟩
        · intro x
          simp only [ha.sysVars, List.mem_append, List.mem_singleton, or_and_right, exists_or, exists_eq_left, hs,
            Bool.false_eq_true, false_and, or_false]
        · intro x
          simp only [hr2, ha.envVars, List.mem_append, List.mem_singleton, or_and_right, exists_or, exists_eq_left, he',
            true_and, hm, or_assoc]
        · intro p hp ht
          rcases List.mem_append.1 hp with hp | hp
          · exact ha.sysIds p hp ht
          · rw [List.mem_singleton] at hp
            subst hp
            rw [hs] at ht
            cases ht
        · intro p hp ht
          simp only [Dict.get?_set]
          rcases List.mem_append.1 hp with hp | hp
          · rw [if_neg (fun h => hkd p hp h.symm)]
            exact ha.envIds p hp ht
          · rw [List.mem_singleton] at hp
            subst hp
            exact ⟨_, if_pos rfl, hr1⟩
      | false =>
        have he' : isEnvOnly k = false := by simp [isEnvOnly, he]
        simp only [Bool.false_eq_true, if_false, ok_bind]
        refine ih (done := done ++ [(k, dom)]) (by simp [hall]) ⟨?_, ?_, ?_, ?_⟩
        · intro x
          simp only [ha.sysVars, List.mem_append, List.mem_singleton, or_and_right, exists_or, exists_eq_left, hs,
            Bool.false_eq_true, false_and, or_false]
        · intro x
          simp only [ha.envVars, List.mem_append, List.mem_singleton, or_and_right, exists_or, exists_eq_left, he',
            Bool.false_eq_true, false_and, or_false]
        · intro p hp ht
          rcases List.mem_append.1 hp with hp | hp
          · exact ha.sysIds p hp ht
          · rw [List.mem_singleton] at hp
            subst hp
            rw [hs] at ht
            cases ht
        · intro p hp ht
          rcases List.mem_append.1 hp with hp | hp
          · exact ha.envIds p hp ht
          · rw [List.mem_singleton] at hp
            subst hp
            rw [he'] at ht
            cases ht

/-! ## The formulas -/

theorem mapE_returns {ε α β : Type} {f : α → Except ε β} {l : List α} (h : ∀ x ∈ l, ∃ y, f x = .ok y) :
    ∃ ys, mapE f l = .ok ys := by
  induction l with
  | nil => exact ⟨[], rfl⟩
  | cons x l ih =>
    obtain ⟨y, hy⟩ := h x (by simp)
    obtain ⟨ys, hys⟩ := ih fun z hz => h z (by simp [hz])
    exact ⟨y :: ys, by simp [mapE, hy, hys, ok_bind, pure_eq_ok]⟩

theorem lookupId_returns {ids : Dict Elem (List Char)} {x : Elem} (h : x ∈ ids.keys) :
    ∃ f, lookupId ids x = .ok f := by
  obtain ⟨f, hf⟩ := (Dict.mem_keys_iff _ _).1 h
  exact ⟨f, by simp [lookupId, hf]⟩

theorem conjActions_returns {exprs : ActionIds} {acts : Dict String Elem} {nxt : Bool}
    (h : ∀ p ∈ acts, ∃ ids, Dict.get? exprs p.1 = some ids ∧ p.2 ∈ Dict.keys ids) :
    ∃ s, conjActions acts exprs nxt = .ok s := by
  have hl : ∃ fs, lookupActions exprs acts = .ok fs := by
    induction acts with
    | nil => exact ⟨[], rfl⟩
    | cons p l ih =>
      obtain ⟨ids, h1, h2⟩ := h p (by simp)
      obtain ⟨f, h3⟩ := (Dict.mem_keys_iff _ _).1 h2
      obtain ⟨fs, h4⟩ := ih fun q hq => h q (by simp [hq])
      exact ⟨f :: fs, by simp [lookupActions, h1, h3, h4, ok_bind, pure_eq_ok]⟩
  obtain ⟨fs, hfs⟩ := hl
  unfold conjActions
  split
  · exact ⟨_, rfl⟩
  · simp only [hfs, ok_bind]
    split <;> exact ⟨_, rfl⟩

section
variable {F : FTS} {bs ba : Bool} {var : String} {sv ev : Dict String Dom} {a : Acc}

theorem FTS.Closed.sysActs (hF : F.Closed bs ba var) (ha : AccDone F ba F.actions sv ev a) {e : Edge} (he : e ∈ F.edges)
    (t : String → Bool) (nxt : Bool) :
    ∃ s, conjActions ((e.label.filter fun p => isSys p.1).filter fun p => t p.1) a.sysIds nxt = .ok s := by
  refine conjActions_returns fun p hp => ?_
  obtain ⟨hp, hs⟩ := List.mem_filter.1 (List.mem_filter.1 hp).1
  obtain ⟨_, dom, h1, h2⟩ := hF.labels e he p.1 p.2 hp (Or.inl hs)
  obtain ⟨ids, h3, h4⟩ := ha.sysIds (p.1, dom) h1 hs
  exact ⟨ids, h3, by rw [h4]; exact h2⟩

theorem FTS.Closed.envActs (hF : F.Closed bs ba var) (ha : AccDone F ba F.actions sv ev a) {e : Edge} (he : e ∈ F.edges)
    (t : String → Bool) (nxt : Bool) :
    ∃ s, conjActions ((e.label.filter fun p => isEnv p.1).filter fun p => t p.1) a.envIds nxt = .ok s := by
  refine conjActions_returns fun p hp => ?_
  obtain ⟨hp, hs⟩ := List.mem_filter.1 (List.mem_filter.1 hp).1
  obtain ⟨h0, dom, h1, h2⟩ := hF.labels e he p.1 p.2 hp (Or.inr hs)
  have ht : isEnvOnly p.1 = true := by
    cases h : isSys p.1 with
    | true => exact absurd ⟨h, hs⟩ h0
    | false => simp [isEnvOnly, h, hs]
  obtain ⟨ids, h3, h4⟩ := ha.envIds (p.1, dom) h1 ht
  exact ⟨ids, h3, by rw [h4]; exact h2⟩

theorem FTS.Closed.sysActs' (hF : F.Closed bs ba var) (ha : AccDone F ba F.actions sv ev a) {e : Edge} (he : e ∈ F.edges)
    (nxt : Bool) : ∃ s, conjActions (e.label.filter fun p => isSys p.1) a.sysIds nxt = .ok s := by
  have := hF.sysActs ha he (fun _ => true) nxt
  simpa using this

theorem FTS.Closed.envActs' (hF : F.Closed bs ba var) (ha : AccDone F ba F.actions sv ev a) {e : Edge} (he : e ∈ F.edges)
    (nxt : Bool) : ∃ s, conjActions (e.label.filter fun p => isEnv p.1) a.envIds nxt = .ok s := by
  have := hF.envActs ha he (fun _ => true) nxt
  simpa using this

theorem sysInit_returns (hF : F.Closed bs ba var) {ids : Dict Elem (List Char)} (hk : ids.keys = F.states) {ignore : Bool}
    (hi : ignore = false → F.initial ≠ []) : ∃ fs, sysInitFromTs F ids ignore = .ok fs := by
  unfold sysInitFromTs
  cases ignore with
  | true => exact ⟨_, rfl⟩
  | false =>
    have h0 : F.initial.isEmpty = false := by simpa using hi rfl
    obtain ⟨fs, h⟩ := mapE_returns (f := lookupId ids) (l := F.initial) fun x hx =>
      lookupId_returns (by rw [hk]; exact hF.initial x hx)
    simp only [h0, h, ok_bind, pure_eq_ok, Bool.false_eq_true, if_false]
    exact ⟨_, rfl⟩

theorem sysTrans_returns (hF : F.Closed bs ba var) (ha : AccDone F ba F.actions sv ev a) {ids : Dict Elem (List Char)}
    (hk : ids.keys = F.states) : ∃ fs, sysTransFromTs F ids a.sysIds a.envIds = .ok fs := by
  refine mapE_returns fun s hs => ?_
  obtain ⟨id, hid⟩ := lookupId_returns (ids := ids) (x := s) (by rw [hk]; exact hs)
  simp only [sysStateTrans, hid, ok_bind]
  split
  · exact ⟨_, rfl⟩
  · obtain ⟨strs, h⟩ := mapE_returns (f := sysEdgeText ids a.sysIds a.envIds) (l := F.find s) (by
      intro e he
      have he := (mem_find.1 he).1
      obtain ⟨d, hd⟩ := lookupId_returns (ids := ids) (x := e.dst) (by rw [hk]; exact (hF.endpoints e he).2)
      obtain ⟨s1, h1⟩ := hF.envActs ha he (fun k => decide (k ∈ e.previous)) false
      obtain ⟨s2, h2⟩ := hF.envActs ha he (fun k => !decide (k ∈ e.previous)) true
      obtain ⟨s3, h3⟩ := hF.sysActs ha he (fun k => decide (k ∈ e.previous)) false
      obtain ⟨s4, h4⟩ := hF.sysActs ha he (fun k => !decide (k ∈ e.previous)) true
      simp only [sysEdgeText, hd, h1, h2, h3, h4, ok_bind, pure_eq_ok]
      exact ⟨_, rfl⟩)
    simp only [h, ok_bind, pure_eq_ok]
    exact ⟨_, rfl⟩

theorem envTrans_returns (hF : F.Closed bs ba var) (ha : AccDone F ba F.actions sv ev a) {ids : Dict Elem (List Char)}
    (hk : ids.keys = F.states) : ∃ fs, envTransFromEnvTs F ids a.sysIds a.envIds = .ok fs := by
  refine mapE_returns fun s hs => ?_
  obtain ⟨id, hid⟩ := lookupId_returns (ids := ids) (x := s) (by rw [hk]; exact hs)
  simp only [envStateTrans, hid, ok_bind]
  split
  · exact ⟨_, rfl⟩
  · obtain ⟨strs, h⟩ := mapE_returns (f := envEdgeText ids a.sysIds a.envIds) (l := F.find s) (by
      intro e he
      have he := (mem_find.1 he).1
      obtain ⟨d, hd⟩ := lookupId_returns (ids := ids) (x := e.dst) (by rw [hk]; exact (hF.endpoints e he).2)
      obtain ⟨s1, h1⟩ := hF.envActs' ha he true
      obtain ⟨s2, h2⟩ := hF.sysActs' ha he false
      simp only [envEdgeText, hd, h1, h2, ok_bind, pure_eq_ok]
      exact ⟨_, rfl⟩)
    simp only [h, ok_bind, pure_eq_ok]
    exact ⟨_, rfl⟩

theorem envFromSys_returns (hF : F.Closed bs ba var) (ha : AccDone F ba F.actions sv ev a)
    (order : List (List Char) → List (List Char)) {ids : Dict Elem (List Char)}
    (hk : ids.keys = F.states) : ∃ fs, envTransFromSysTs order F ids a.envIds = .ok fs := by
  unfold envTransFromSysTs
  split
  · exact ⟨_, rfl⟩
  · obtain ⟨fs, h⟩ := mapE_returns (f := envFromSysState order F ids a.envIds) (l := F.states) (by
      intro s hs
      obtain ⟨id, hid⟩ := lookupId_returns (ids := ids) (x := s) (by rw [hk]; exact hs)
      simp only [envFromSysState, hid, ok_bind]
      split
      · exact ⟨_, rfl⟩
      · obtain ⟨cs, hc⟩ : ∃ cs, envCombs a.envIds (F.find s) = .ok cs := by
          refine mapE_returns fun e he => ?_
          exact hF.envActs' ha (mem_find.1 (List.mem_filter.1 he).1).1 false
        simp only [hc, ok_bind]
        split <;> exact ⟨_, rfl⟩)
    simp only [h, ok_bind, pure_eq_ok]
    exact ⟨_, rfl⟩

theorem apTrans_returns {ids : Dict Elem (List Char)} (hk : ids.keys = F.states) :
    ∃ p, apTransFromTs F ids = .ok p := by
  unfold apTransFromTs
  split
  · exact ⟨_, rfl⟩
  · obtain ⟨fs, h⟩ := mapE_returns (f := fun s => do
      let id ← lookupId ids s
      return (id, sprintAps (F.ap s) F.aps)) (l := F.states) (by
      intro s hs
      obtain ⟨id, hid⟩ := lookupId_returns (ids := ids) (x := s) (by rw [hk]; exact hs)
      simp only [hid, ok_bind]
      exact ⟨_, rfl⟩)
    simp only [h, ok_bind]
    exact ⟨_, rfl⟩

/-- The variables of the propositions, of the actions and of the states have different names. -/
theorem FTS.Closed.disjoint (hF : F.Closed bs ba var) {x : String} {p q : String × List Elem}
    (hp : p ∈ F.actions) (hq : q ∈ F.actions) (h1 : isSys p.1 = true) (h2 : isEnvOnly q.1 = true)
    (hx : IsVarOf (usesBools ba (F.mustOf p.1)) p.1 p.2 x) (hy : IsVarOf (usesBools ba (F.mustOf q.1)) q.1 q.2 x) : False := by
  have hne : isSys p.1 ≠ isSys q.1 := by
    simp only [isEnvOnly, Bool.and_eq_true, Bool.not_eq_true'] at h2
    rw [h1, h2.1]
    simp
  rcases hx with ⟨_, hx⟩ | ⟨_, _, rfl⟩
  · rcases hy with ⟨_, hy⟩ | ⟨_, _, rfl⟩
    · exact ((hF.values p.1 p.2 hp _ hx).2.2.2 q.1 q.2 hq).2 hne x rfl hy
    · exact ((hF.values p.1 p.2 hp _ hx).2.2.2 q.1 q.2 hq).1 rfl
  · rcases hy with ⟨_, hy⟩ | ⟨_, _, h⟩
    · exact ((hF.values q.1 q.2 hq _ hy).2.2.2 p.1 p.2 hp).1 rfl
    · rw [h] at hne
      exact hne rfl

theorem FTS.Closed.fresh (hF : F.Closed bs ba var) {x : String} {p : String × List Elem} (hp : p ∈ F.actions)
    (hx : IsVarOf (usesBools ba (F.mustOf p.1)) p.1 p.2 x) : x ∉ F.aps ∧ ¬ IsVarOf bs var F.states x := by
  rcases hx with ⟨_, hx⟩ | ⟨_, _, rfl⟩
  · obtain ⟨h1, h2, h3, _⟩ := hF.values p.1 p.2 hp _ hx
    refine ⟨fun h => h2 x h rfl, ?_⟩
    rintro (⟨_, h⟩ | ⟨_, _, rfl⟩)
    · exact h1 h
    · exact h3 rfl
  · obtain ⟨h1, h2, h3⟩ := hF.keys p.1 p.2 hp
    refine ⟨h2, ?_⟩
    rintro (⟨_, h⟩ | ⟨_, _, h⟩)
    · exact h1 h
    · exact h3 h
end

theorem checkVars_of {env sys : Dict String Dom} (h : ∀ x ∈ env.keys, x ∉ sys.keys) : checkVars env sys = true := by
  simp only [checkVars, Bool.not_eq_true', List.any_eq_false]
  intro x hx hs
  exact h x hx ((Dict.mem_keys_iff _ _).2 ((Dict.has_iff _ _).1 hs))

theorem make_returns {env sys : Dict String Dom} (h : ∀ x ∈ env.keys, x ∉ sys.keys)
    (l1 l2 l3 l4 l5 l6 : List (List Char)) :
    ∃ g, GRSpec.make env sys l1 l2 l3 l4 l5 l6 = .ok g ∧ g.envVars = env ∧ g.sysVars = sys := by
  exact ⟨_, by rw [GRSpec.make, if_pos (checkVars_of h)], rfl, rfl⟩

theorem apsClash_of {F : FTS} (h : ∀ p ∈ F.aps, .str p ∉ F.states) : apsClash F = false := by
  simp only [apsClash, List.any_eq_false, decide_eq_true_eq]
  exact h

/-- **C29.** `sys_to_spec` returns for every transition system of the system that refers only to what it declares and
that has initial states, unless they are ignored. The variables of the system are the propositions and those of the
states and of the actions of the system; the variables of the environment are those of its actions. -/
theorem sysToSpec_returns (order : List (List Char) → List (List Char)) {F : FTS} {ignore bs ba : Bool} {var : String}
    (hF : F.Closed bs ba var) (ho : F.owner = .sys) (hi : ignore = false → F.initial ≠ []) :
    ∃ g, sysToSpec order F ignore var bs ba = .ok g ∧
      (∀ x, x ∈ g.sysVars.keys ↔ x ∈ F.aps ∨ IsVarOf bs var F.states x ∨
        ∃ k dom, (k, dom) ∈ F.actions ∧ isSys k = true ∧ IsVarOf (usesBools ba F.sysMust) k dom x) ∧
      ∀ x, x ∈ g.envVars.keys ↔ ∃ k dom, (k, dom) ∈ F.actions ∧ isSys k = false ∧ isEnv k = true ∧
        IsVarOf (usesBools ba F.envMust) k dom x := by
  have hks : Dict.keys (F.aps.map fun p => (p, Dom.boolean)) = F.aps := by simp [Dict.keys, Function.comp_def]
  obtain ⟨a, h1, ha⟩ := addTypes_returns hF (sv := F.aps.map fun p => (p, Dom.boolean)) (ev := [])
    (fun x hx => by rwa [hks] at hx) (fun x hx => by cases hx) (done := []) (rest := F.actions) rfl
    (a := { sysVars := F.aps.map (fun p => (p, Dom.boolean)), envVars := [] })
    ⟨fun x => by simp, fun x => by simp, fun p hp => absurd hp List.not_mem_nil, fun p hp => absurd hp List.not_mem_nil⟩
  have hvs := ha.sysVars
  have hve := ha.envVars
  rw [hks] at hvs
  obtain ⟨r, h2, hk, hr⟩ := iter2var_returns (states := F.states) (vars := a.sysVars) (var := var) (b := bs)
    (must := .xor) (by rw [usesBools_xor]; exact hF.statesSort) (by
      rw [usesBools_xor]
      intro hb hne hv
      rw [hvs] at hv
      rcases hv with hv | ⟨p, hp, _, hv⟩
      · exact hF.var hv
      · exact (hF.fresh hp hv).2 (Or.inr ⟨hb, hne, rfl⟩))
  rw [usesBools_xor] at hr
  obtain ⟨f1, h3⟩ := sysInit_returns hF hk hi
  obtain ⟨f2, h4⟩ := sysTrans_returns hF ha hk
  obtain ⟨⟨f3, f4⟩, h5⟩ := apTrans_returns (F := F) hk
  obtain ⟨f5, h6⟩ := envFromSys_returns hF ha order hk
  have hdisj : ∀ x ∈ a.envVars.keys, x ∉ r.variables'.keys := by
    intro x hx hy
    rw [hve] at hx
    rw [hr, hvs] at hy
    rcases hx with hx | ⟨q, hq, hq1, hq2⟩
    · cases hx
    · obtain ⟨g1, g2⟩ := hF.fresh hq hq2
      rcases hy with (hy | ⟨p, hp, hp1, hp2⟩) | hy
      · exact g1 hy
      · exact hF.disjoint hp hq hp1 hq1 hp2 hq2
      · exact g2 hy
  obtain ⟨g, h7, h8, h9⟩ := make_returns hdisj a.envInit (a.sysInit ++ f1 ++ f3) (a.envTrans ++ f5)
    (a.sysTrans ++ r.constraint.toList ++ f2 ++ f4) [] []
  refine ⟨g, ?_, ?_, ?_⟩
  · simp only [sysToSpec, ho, ne_eq, not_true_eq_false, if_false, apsClash_of hF.apsStates, Bool.false_eq_true, h1, h2,
      h3, h4, h5, h6, ok_bind, h7]
  · intro x
    rw [h9, hr, hvs]
    constructor
    · rintro ((h | ⟨p, hp, h1, h2⟩) | h)
      · exact Or.inl h
      · simp only [FTS.mustOf, h1, if_true] at h2
        exact Or.inr (Or.inr ⟨p.1, p.2, hp, h1, h2⟩)
      · exact Or.inr (Or.inl h)
    · rintro (h | h | ⟨k, dom, hp, h1, h2⟩)
      · exact Or.inl (Or.inl h)
      · exact Or.inr h
      · exact Or.inl (Or.inr ⟨(k, dom), hp, h1, by simpa only [FTS.mustOf, h1, if_true] using h2⟩)
  · intro x
    rw [h8, hve]
    constructor
    · rintro (h | ⟨p, hp, h1, h2⟩)
      · cases h
      · simp only [isEnvOnly, Bool.and_eq_true, Bool.not_eq_true'] at h1
        simp only [FTS.mustOf, h1.1, Bool.false_eq_true, if_false] at h2
        exact ⟨p.1, p.2, hp, h1.1, h1.2, h2⟩
    · rintro ⟨k, dom, hp, h1, h2, h3⟩
      exact Or.inr ⟨(k, dom), hp, by simp [isEnvOnly, h1, h2], by
        simpa only [FTS.mustOf, h1, Bool.false_eq_true, if_false] using h3⟩

/-- **C30.** `env_to_spec` returns for every transition system of the environment that refers only to what it declares
and that has initial states, unless they are ignored; now the propositions and the states are variables of the
environment. -/
theorem envToSpec_returns {F : FTS} {ignore bs ba : Bool} {var : String}
    (hF : F.Closed bs ba var) (ho : F.owner = .env) (hi : ignore = false → F.initial ≠ []) :
    ∃ g, envToSpec F ignore var bs ba = .ok g ∧
      (∀ x, x ∈ g.envVars.keys ↔ x ∈ F.aps ∨ IsVarOf bs var F.states x ∨
        ∃ k dom, (k, dom) ∈ F.actions ∧ isSys k = false ∧ isEnv k = true ∧ IsVarOf (usesBools ba F.envMust) k dom x) ∧
      ∀ x, x ∈ g.sysVars.keys ↔ ∃ k dom, (k, dom) ∈ F.actions ∧ isSys k = true ∧
        IsVarOf (usesBools ba F.sysMust) k dom x := by
  have hks : Dict.keys (F.aps.map fun p => (p, Dom.boolean)) = F.aps := by simp [Dict.keys, Function.comp_def]
  obtain ⟨a, h1, ha⟩ := addTypes_returns hF (ev := F.aps.map fun p => (p, Dom.boolean)) (sv := [])
    (fun x hx => by cases hx) (fun x hx => by rwa [hks] at hx) (done := []) (rest := F.actions) rfl
    (a := { envVars := F.aps.map (fun p => (p, Dom.boolean)), sysVars := [] })
    ⟨fun x => by simp, fun x => by simp, fun p hp => absurd hp List.not_mem_nil, fun p hp => absurd hp List.not_mem_nil⟩
  have hvs := ha.sysVars
  have hve := ha.envVars
  rw [hks] at hve
  obtain ⟨r, h2, hk, hr⟩ := iter2var_returns (states := F.states) (vars := a.envVars) (var := var) (b := bs)
    (must := .xor) (by rw [usesBools_xor]; exact hF.statesSort) (by
      rw [usesBools_xor]
      intro hb hne hv
      rw [hve] at hv
      rcases hv with hv | ⟨p, hp, _, hv⟩
      · exact hF.var hv
      · exact (hF.fresh hp hv).2 (Or.inr ⟨hb, hne, rfl⟩))
  rw [usesBools_xor] at hr
  obtain ⟨f1, h3⟩ := sysInit_returns hF hk hi
  obtain ⟨f2, h4⟩ := envTrans_returns hF ha hk
  obtain ⟨⟨f3, f4⟩, h5⟩ := apTrans_returns (F := F) hk
  have hdisj : ∀ x ∈ r.variables'.keys, x ∉ a.sysVars.keys := by
    intro x hy hx
    rw [hvs] at hx
    rw [hr, hve] at hy
    rcases hx with hx | ⟨q, hq, hq1, hq2⟩
    · cases hx
    · obtain ⟨g1, g2⟩ := hF.fresh hq hq2
      rcases hy with (hy | ⟨p, hp, hp1, hp2⟩) | hy
      · exact g1 hy
      · exact hF.disjoint hq hp hq1 hp1 hq2 hp2
      · exact g2 hy
  obtain ⟨g, h7, h8, h9⟩ := make_returns hdisj (a.envInit ++ f1 ++ f3) a.sysInit
    (a.envTrans ++ r.constraint.toList ++ f2 ++ f4) a.sysTrans [] []
  refine ⟨g, ?_, ?_, ?_⟩
  · simp only [envToSpec, ho, ne_eq, not_true_eq_false, if_false, apsClash_of hF.apsStates, Bool.false_eq_true, h1, h2,
      h3, h4, h5, ok_bind, h7]
  · intro x
    rw [h8, hr, hve]
    constructor
    · rintro ((h | ⟨p, hp, h1, h2⟩) | h)
      · exact Or.inl h
      · simp only [isEnvOnly, Bool.and_eq_true, Bool.not_eq_true'] at h1
        simp only [FTS.mustOf, h1.1, Bool.false_eq_true, if_false] at h2
        exact Or.inr (Or.inr ⟨p.1, p.2, hp, h1.1, h1.2, h2⟩)
      · exact Or.inr (Or.inl h)
    · rintro (h | h | ⟨k, dom, hp, h1, h2, h3⟩)
      · exact Or.inl (Or.inl h)
      · exact Or.inr h
      · exact Or.inl (Or.inr ⟨(k, dom), hp, by simp [isEnvOnly, h1, h2], by
          simpa only [FTS.mustOf, h1, Bool.false_eq_true, if_false] using h3⟩)
  · intro x
    rw [h9, hvs]
    constructor
    · rintro (h | ⟨p, hp, h1, h2⟩)
      · cases h
      · simp only [FTS.mustOf, h1, if_true] at h2
        exact ⟨p.1, p.2, hp, h1, h2⟩
    · rintro ⟨k, dom, hp, h1, h2⟩
      exact Or.inr ⟨(k, dom), hp, h1, by simpa only [FTS.mustOf, h1, if_true] using h2⟩

theorem apsClash_true {F : FTS} (h : ∃ p ∈ F.aps, .str p ∈ F.states) : apsClash F = true := by
  simpa [apsClash] using h

/-- **C29, C30.** Both functions raise `AssertionError` for a transition system of the other player and for one with a
proposition that is named like a state. -/
theorem toSpec_raises (order : List (List Char) → List (List Char)) (F : FTS) (ignore bs ba : Bool) (var : String) :
    (F.owner = .env ∨ (∃ p ∈ F.aps, .str p ∈ F.states) → sysToSpec order F ignore var bs ba = .error .assertion) ∧
    (F.owner = .sys ∨ (∃ p ∈ F.aps, .str p ∈ F.states) → envToSpec F ignore var bs ba = .error .assertion) := by
  constructor
  · rintro (h | h)
    · simp [sysToSpec, h]
    · simp only [sysToSpec, apsClash_true h, if_true]
      split <;> rfl
  · rintro (h | h)
    · simp [envToSpec, h]
    · simp only [envToSpec, apsClash_true h, if_true]
      split <;> rfl

/-- **C29.** A system without initial states that are not to be ignored raises `Exception`. -/
theorem sysToSpec_noInitial (order : List (List Char) → List (List Char)) {F : FTS} {bs ba : Bool} {var : String}
    (hF : F.Closed bs ba var) (ho : F.owner = .sys) (hi : F.initial = []) :
    sysToSpec order F false var bs ba = .error .exception := by
  have hks : Dict.keys (F.aps.map fun p => (p, Dom.boolean)) = F.aps := by simp [Dict.keys, Function.comp_def]
  obtain ⟨a, h1, ha⟩ := addTypes_returns hF (sv := F.aps.map fun p => (p, Dom.boolean)) (ev := [])
    (fun x hx => by rwa [hks] at hx) (fun x hx => by cases hx) (done := []) (rest := F.actions) rfl
    (a := { sysVars := F.aps.map (fun p => (p, Dom.boolean)), envVars := [] })
    ⟨fun x => by simp, fun x => by simp, fun p hp => absurd hp List.not_mem_nil, fun p hp => absurd hp List.not_mem_nil⟩
  have hvs := ha.sysVars
  rw [hks] at hvs
  obtain ⟨r, h2, hk, hr⟩ := iter2var_returns (states := F.states) (vars := a.sysVars) (var := var) (b := bs)
    (must := .xor) (by rw [usesBools_xor]; exact hF.statesSort) (by
      rw [usesBools_xor]
      intro hb hne hv
      rw [hvs] at hv
      rcases hv with hv | ⟨p, hp, _, hv⟩
      · exact hF.var hv
      · exact (hF.fresh hp hv).2 (Or.inr ⟨hb, hne, rfl⟩))
  simp [sysToSpec, ho, apsClash_of hF.apsStates, h1, h2, ok_bind, sysInitFromTs, hi, error_bind]

/-- Non-vacuity of `sysToSpec_returns` and `envToSpec_returns`: the door. -/
example (owner : Owner) (bs ba : Bool) : (door owner).Closed bs ba "loc" where
  initial := by simp [door]
  endpoints := by simp [door]
  labels := by
    intro e he k v hkv _
    simp only [door, List.mem_cons, List.not_mem_nil, or_false] at he
    rcases he with rfl | rfl | rfl <;>
      simp only [List.mem_cons, List.not_mem_nil, or_false, Prod.mk.injEq] at hkv
    · obtain ⟨rfl, rfl⟩ := hkv
      exact ⟨by decide +kernel, _, List.mem_cons_self .., by simp⟩
    · obtain ⟨rfl, rfl⟩ := hkv
      exact ⟨by decide +kernel, _, List.mem_cons_self .., by simp⟩
  typesWf := by unfold Dict.Wf; simp [door, Dict.keys]
  statesSort := Or.inl (by simp [door])
  typesSort := by
    intro k dom h
    simp only [door, List.mem_cons, List.not_mem_nil, or_false, Prod.mk.injEq] at h
    obtain ⟨rfl, rfl⟩ := h
    exact Or.inl (by simp)
  apsStates := by simp [door]
  keys := by
    intro k dom h
    simp only [door, List.mem_cons, List.not_mem_nil, or_false, Prod.mk.injEq] at h
    obtain ⟨rfl, rfl⟩ := h
    simp [door]
  values := by
    intro k dom h x hx
    simp only [door, List.mem_cons, List.not_mem_nil, or_false, Prod.mk.injEq] at h
    obtain ⟨rfl, rfl⟩ := h
    simp only [List.mem_cons, List.not_mem_nil, or_false] at hx
    refine ⟨by rcases hx with rfl | rfl <;> simp [door], by rcases hx with rfl | rfl <;> simp [door],
      by rcases hx with rfl | rfl <;> simp, ?_⟩
    intro k' dom' h'
    simp only [door, List.mem_cons, List.not_mem_nil, or_false, Prod.mk.injEq] at h'
    obtain ⟨rfl, rfl⟩ := h'
    exact ⟨by rcases hx with rfl | rfl <;> simp, fun h => absurd rfl h⟩
  var := by simp [door]

end Synth

end Tulip
