import Verif.Synth.ToSpec
import Verif.Synth.EncodingProps

/-!
# Transition systems as formulas (C29, C30)
-/

namespace Tulip

namespace Synth

/-! ## Specification -/

/-- The constraint on an action type. -/
def FTS.mustOf (F : FTS) (k : String) : Must := if isSys k then F.sysMust else F.envMust

/-- Action `v` of type `k` is taken at position `i`. -/
def ActionAt (F : FTS) (boolActions : Bool) (k : String) (v : Elem) (σ : Trace) (i : Nat) : Prop :=
  Selected (usesBools boolActions (F.mustOf k)) k σ i v

/-- The propositions of state `s` are those that are true at position `i`. -/
def ApsAt (F : FTS) (s : Elem) (σ : Trace) (i : Nat) : Prop :=
  ∀ p ∈ F.aps, (σ i p = .bool true ↔ p ∈ (F.ap s).getD [])

/-- A trace follows the sequence of states `r`, through transitions whose actions satisfy `acts`
(given the position and the transition). -/
structure Follows (F : FTS) (boolStates : Bool) (statevar : String)
    (acts : Trace → Nat → Edge → Prop) (σ : Trace) (r : Nat → Elem) : Prop where
  /-- At each time, `r i` is the one state that is selected. -/
  state : ∀ i, r i ∈ F.states ∧ Selected boolStates statevar σ i (r i) ∧
    ∀ x ∈ F.states, Selected boolStates statevar σ i x → x = r i
  /-- Each step is a transition. -/
  step : ∀ i, ∃ e ∈ F.edges, e.src = r i ∧ e.dst = r (i + 1) ∧ acts σ i e
  /-- The propositions are those of the state. -/
  aps : ∀ i, ApsAt F (r i) σ i

/-- The actions of a transition of a system: those of the types listed in `previous` are taken now,
the others in the next step. -/
def SysActs (F : FTS) (boolActions : Bool) (σ : Trace) (i : Nat) (e : Edge) : Prop :=
  ∀ k v, (k, v) ∈ e.label → isSys k = true ∨ isEnv k = true →
    ActionAt F boolActions k v σ (if k ∈ e.previous then i else i + 1)

/-- The actions of a transition of an environment: those of the system are taken now, those of the
environment in the next step. -/
def EnvActs (F : FTS) (boolActions : Bool) (σ : Trace) (i : Nat) (e : Edge) : Prop :=
  ∀ k v, (k, v) ∈ e.label →
    (isSys k = true → ActionAt F boolActions k v σ i) ∧
    (isEnv k = true → ActionAt F boolActions k v σ (i + 1))

/-- Well-formed inputs: names can be used in formulas, containers of distinct elements have no
repetitions, no transition has an entry `'actions'`. -/
structure FTS.Good (F : FTS) (boolStates boolActions : Bool) (statevar : String) : Prop where
  states : NamesOk F.states
  statesNodup : F.states.Nodup
  var : boolStates = false → IsName statevar
  aps : ∀ p ∈ F.aps, IsName p
  types : ∀ k dom, (k, dom) ∈ F.actions →
    NamesOk dom ∧ dom.Nodup ∧ (usesBools boolActions (F.mustOf k) = false → IsName k)
  typesWf : F.actions.Wf
  noActions : ∀ e ∈ F.edges, Dict.get? e.label "actions" = none

/-! ## Lists of formulas -/

/-- The formulas `fs` hold together in the positions given by `P`. -/
structure Means (fs : List (List Char)) (P : Trace → Nat → Prop) : Prop where
  formulas : ∀ f ∈ fs, IsFormula f
  holds : ∀ σ i, (∀ f ∈ fs, Holds σ i f) ↔ P σ i

theorem Means.append {fs gs : List (List Char)} {P Q : Trace → Nat → Prop} (hf : Means fs P)
    (hg : Means gs Q) : Means (fs ++ gs) (fun σ i => P σ i ∧ Q σ i) :=
  ⟨fun f h => (List.mem_append.1 h).elim (hf.formulas f) (hg.formulas f), fun σ i => by
    rw [← hf.holds, ← hg.holds]
    simp only [List.mem_append]
    exact ⟨fun h => ⟨fun f hf => h f (Or.inl hf), fun f hf => h f (Or.inr hf)⟩,
      fun h f hf => hf.elim (h.1 f) (h.2 f)⟩⟩

theorem Means.congr {fs : List (List Char)} {P Q : Trace → Nat → Prop} (hf : Means fs P)
    (h : ∀ σ i, P σ i ↔ Q σ i) : Means fs Q :=
  ⟨hf.formulas, fun σ i => (hf.holds σ i).trans (h σ i)⟩

theorem means_nil : Means [] (fun _ _ => True) := ⟨by simp, by simp⟩

theorem FormFor.means {f : List Char} {P : Trace → Nat → Prop} (h : FormFor f P) : Means [f] P :=
  ⟨by simpa using h.isFormula, fun σ i => by simpa using h.holds σ i⟩

theorem mapE_forall₂ {ε α β : Type} {f : α → Except ε β} {l : List α} {r : List β}
    (h : mapE f l = .ok r) : List.Forall₂ (fun x y => f x = .ok y) l r := by
  induction l generalizing r with
  | nil => cases h; exact .nil
  | cons x xs ih =>
    simp only [mapE] at h
    cases hx : f x with
    | error e => simp [hx] at h
    | ok y =>
      cases hxs : mapE f xs with
      | error e => simp [hx, hxs] at h
      | ok ys =>
        simp only [hx, hxs, ok_bind, pure_eq_ok, Except.ok.injEq] at h
        subst h
        exact .cons hx (ih hxs)

theorem forall₂_pairs {α β : Type _} {R : α → β → Prop} {xs : List α} {ys : List β}
    (h : List.Forall₂ R xs ys) :
    ∃ ps : List (α × β), ps.map (·.1) = xs ∧ ps.map (·.2) = ys ∧ ∀ p ∈ ps, R p.1 p.2 := by
  induction h with
  | nil => exact ⟨[], rfl, rfl, by simp⟩
  | @cons a b _ _ h _ ih =>
    obtain ⟨ps, h1, h2, h3⟩ := ih
    exact ⟨(a, b) :: ps, by simp [h1], by simp [h2], by simpa using ⟨h, fun a b hab => h3 _ hab⟩⟩

theorem means_of_forall₂ {α : Type _} {P : α → Trace → Nat → Prop} {xs : List α}
    {fs : List (List Char)} (h : List.Forall₂ (fun x f => FormFor f (P x)) xs fs) :
    Means fs (fun σ i => ∀ x ∈ xs, P x σ i) := by
  induction h with
  | nil => exact means_nil.congr (by simp)
  | cons h _ ih => exact (h.means.append ih).congr (by simp)

theorem disj_of_forall₂ {α : Type _} {P : α → Trace → Nat → Prop} {xs : List α}
    {fs : List (List Char)} (hne : xs ≠ [])
    (h : List.Forall₂ (fun x f => FormFor f (P x)) xs fs) :
    FormFor (disj fs) (fun σ i => ∃ x ∈ xs, P x σ i) := by
  obtain ⟨ps, h1, h2, h3⟩ := forall₂_pairs h
  have hps : ps ≠ [] := by rintro rfl; exact hne h1.symm
  have := form_disj (f := fun p : α × List Char => p.2) (P := fun p => P p.1) hps h3
  rw [h2] at this
  refine this.congr (fun σ i => ?_)
  rw [← h1]
  simp

/-- A conjunct that may be left out. -/
def OptFor (s : List Char) (P : Trace → Nat → Prop) : Prop :=
  (s = [] ∧ ∀ σ i, P σ i) ∨ FormFor s P

theorem conj_of_opts {ps : List (List Char × (Trace → Nat → Prop))}
    (h : ∀ p ∈ ps, OptFor p.1 p.2) (hne : ∃ p ∈ ps, p.1 ≠ []) :
    FormFor (conj (ps.map (·.1))) (fun σ i => ∀ p ∈ ps, p.2 σ i) := by
  have hf : (ps.map (·.1)).filter (fun x => !x.isEmpty) =
      (ps.filter (fun p => !p.1.isEmpty)).map (·.1) := by
    rw [List.filter_map]; rfl
  have hforms : ∀ p ∈ ps.filter (fun p => !p.1.isEmpty), UnitFor (pstr p.1) p.2 := by
    intro p hp
    rw [List.mem_filter] at hp
    rcases h p hp.1 with ⟨h1, _⟩ | h1
    · simp [h1] at hp
    · exact h1.paren
  have hne' : ps.filter (fun p => !p.1.isEmpty) ≠ [] := by
    obtain ⟨p, hp, h1⟩ := hne
    exact List.ne_nil_of_mem (List.mem_filter.2 ⟨hp, by simp [h1]⟩)
  have := form_join_and (f := fun p : List Char × (Trace → Nat → Prop) => pstr p.1)
    (P := fun p => p.2) hne' hforms
  rw [conj, hf, List.map_map]
  refine FormFor.congr this (fun σ i => ⟨fun h1 p hp => ?_, fun h1 p hp => h1 p (List.mem_filter.1 hp).1⟩)
  rcases h p hp with ⟨_, h2⟩ | h2
  · exact h2 σ i
  · exact h1 p (List.mem_filter.2 ⟨hp, by simp [h2.isFormula.ne_nil]⟩)

/-! ## Actions -/

/-- The formulas of the values of one action type. -/
def ExprsFor (exprs : ActionIds) (A : String → Elem → Trace → Nat → Prop) : Prop :=
  ∀ k ids v f, Dict.get? exprs k = some ids → Dict.get? ids v = some f → FormFor f (A k v)

theorem lookupActions_ok {exprs : ActionIds} {acts : List (String × Elem)} {fs : List (List Char)}
    (h : lookupActions exprs acts = .ok fs) :
    List.Forall₂ (fun p f => ∃ ids, Dict.get? exprs p.1 = some ids ∧
      Dict.get? ids p.2 = some f) acts fs := by
  induction acts generalizing fs with
  | nil => cases h; exact .nil
  | cons p ps ih =>
    obtain ⟨k, v⟩ := p
    simp only [lookupActions] at h
    cases hk : Dict.get? exprs k with
    | none => simp [hk] at h
    | some ids =>
      simp only [hk] at h
      cases hv : Dict.get? ids v with
      | none => simp [hv] at h
      | some f =>
        simp only [hv] at h
        cases hr : lookupActions exprs ps with
        | error e => simp [hr] at h
        | ok gs =>
          simp only [hr, ok_bind, pure_eq_ok, Except.ok.injEq] at h
          subst h
          exact .cons ⟨ids, hk, hv⟩ (ih hr)

theorem conjActions_ok {exprs : ActionIds} {A : String → Elem → Trace → Nat → Prop}
    (hx : ExprsFor exprs A) {acts : Dict String Elem} {nxt : Bool} {s : List Char}
    (h : conjActions acts exprs nxt = .ok s) :
    (∀ p ∈ acts, ∃ ids, Dict.get? exprs p.1 = some ids) ∧
    (s = [] ↔ acts = []) ∧
    OptFor s (fun σ i => ∀ p ∈ acts, A p.1 p.2 σ (if nxt then i + 1 else i)) := by
  unfold conjActions at h
  by_cases he : acts = []
  · subst he
    simp only [List.isEmpty_nil, if_true, Except.ok.injEq] at h
    subst h
    exact ⟨by simp, by simp, Or.inl ⟨rfl, by simp⟩⟩
  · have he' : acts.isEmpty = false := by simpa using he
    rw [he'] at h
    simp only [Bool.false_eq_true, if_false] at h
    cases hl : lookupActions exprs acts with
    | error e => simp [hl] at h
    | ok fs =>
      have hfa := lookupActions_ok hl
      obtain ⟨ps, h1, h2, h3⟩ := forall₂_pairs hfa
      have hps : ps ≠ [] := by rintro rfl; exact he h1.symm
      have hc := form_conj (f := fun p : (String × Elem) × List Char => p.2)
        (P := fun p => A p.1.1 p.1.2) hps (fun p hp => by
          obtain ⟨ids, h4, h5⟩ := h3 p hp
          exact hx _ _ _ _ h4 h5)
      rw [h2] at hc
      have hmem : ∀ σ i, (∀ x ∈ ps, A x.1.1 x.1.2 σ i) ↔ ∀ p ∈ acts, A p.1 p.2 σ i := by
        intro σ i
        rw [← h1]; simp
      refine ⟨?_, ?_⟩
      · intro p hp
        rw [← h1] at hp
        obtain ⟨q, hq, rfl⟩ := List.mem_map.1 hp
        obtain ⟨ids, h4, _⟩ := h3 q hq
        exact ⟨ids, h4⟩
      · simp only [hl, ok_bind, pure_eq_ok] at h
        cases nxt
        · simp only [Bool.false_eq_true, if_false, Except.ok.injEq] at h
          subst h
          refine ⟨by simp [pstr, he], Or.inr (hc.paren.form.congr (fun σ i => ?_))⟩
          simpa using hmem σ i
        · simp only [if_true, Except.ok.injEq] at h
          subst h
          refine ⟨by simp [he], Or.inr (hc.next_paren.form.space.congr (fun σ i => ?_))⟩
          simpa using hmem σ (i + 1)

/-! ## Transitions -/

/-- The formulas of the states. -/
def IdsFor (ids : Dict Elem (List Char)) (S : Elem → Trace → Nat → Prop) : Prop :=
  ∀ x f, Dict.get? ids x = some f → FormFor f (S x)

theorem lookupId_ok {ids : Dict Elem (List Char)} {x : Elem} {f : List Char}
    (h : lookupId ids x = .ok f) : Dict.get? ids x = some f := by
  unfold lookupId at h
  split at h
  · rename_i g hg; cases h; exact hg
  · cases h

theorem bind_ok {ε α β : Type} {x : Except ε α} {f : α → Except ε β} {r : β}
    (h : (x >>= f) = .ok r) : ∃ a, x = .ok a ∧ f a = .ok r := by
  cases x with
  | error e => simp at h
  | ok a => exact ⟨a, rfl, h⟩

theorem conjAction_none {label : Dict String Elem} (h : Dict.get? label "actions" = none)
    (nxt : Bool) : conjAction label "actions" nxt = [] := by simp [conjAction, h]

theorem mem_filter_both {label : Dict String Elem} {prev : List String} {t : String → Bool}
    (P : String × Elem → Prop) (Q : String × Elem → Prop) :
    ((∀ p ∈ (label.filter (fun p => t p.1)).filter (fun p => decide (p.1 ∈ prev)), P p) ∧
      ∀ p ∈ (label.filter (fun p => t p.1)).filter (fun p => !decide (p.1 ∈ prev)), Q p) ↔
    ∀ p ∈ label, t p.1 = true → if p.1 ∈ prev then P p else Q p := by
  simp only [List.mem_filter, decide_eq_true_eq, Bool.not_eq_true', decide_eq_false_iff_not,
    and_imp]
  constructor
  · rintro ⟨h1, h2⟩ p hp ht
    split
    · exact h1 p hp ht ‹_›
    · exact h2 p hp ht ‹_›
  · intro h
    refine ⟨fun p hp ht hm => ?_, fun p hp ht hm => ?_⟩
    · simpa [hm] using h p hp ht
    · simpa [hm] using h p hp ht

/-- Types of actions in the two dictionaries. -/
structure TypesFor (sysIds envIds : ActionIds) (A : String → Elem → Trace → Nat → Prop) : Prop where
  sys : ExprsFor sysIds A
  env : ExprsFor envIds A
  sysKeys : ∀ k ids, Dict.get? sysIds k = some ids → isSys k = true
  envKeys : ∀ k ids, Dict.get? envIds k = some ids → isSys k = false ∧ isEnv k = true

theorem sysEdgeText_ok {ids : Dict Elem (List Char)} {S : Elem → Trace → Nat → Prop}
    (hS : IdsFor ids S) {sysIds envIds : ActionIds} {A : String → Elem → Trace → Nat → Prop}
    (hA : TypesFor sysIds envIds A) {e : Edge} {s : List Char}
    (hact : Dict.get? e.label "actions" = none) (h : sysEdgeText ids sysIds envIds e = .ok s) :
    (∃ f, Dict.get? ids e.dst = some f) ∧
    FormFor s (fun σ i => S e.dst σ (i + 1) ∧ ∀ k v, (k, v) ∈ e.label →
      isSys k = true ∨ isEnv k = true → A k v σ (if k ∈ e.previous then i else i + 1)) := by
  unfold sysEdgeText at h
  obtain ⟨dst, h1, h⟩ := bind_ok h
  obtain ⟨pe, h2, h⟩ := bind_ok h
  obtain ⟨ne, h3, h⟩ := bind_ok h
  obtain ⟨ps, h4, h⟩ := bind_ok h
  obtain ⟨ns, h5, h⟩ := bind_ok h
  simp only [conjAction_none hact, pure_eq_ok, Except.ok.injEq] at h
  subst h
  have hd := lookupId_ok h1
  refine ⟨⟨_, hd⟩, ?_⟩
  obtain ⟨-, -, h2⟩ := conjActions_ok hA.env h2
  obtain ⟨-, -, h3⟩ := conjActions_ok hA.env h3
  obtain ⟨-, -, h4⟩ := conjActions_ok hA.sys h4
  obtain ⟨-, -, h5⟩ := conjActions_ok hA.sys h5
  have hto := (hS _ _ hd).next_paren.form
  have := conj_of_opts (ps := [(_, _), (_, _), (_, _), (_, _), (_, _), ([], fun _ _ => True)]) (by
    simp only [List.mem_cons, List.not_mem_nil, or_false, forall_eq_or_imp, forall_eq]
    exact ⟨Or.inr hto, h2, h3, h4, h5, Or.inl ⟨rfl, fun _ _ => trivial⟩⟩)
    ⟨_, List.mem_cons_self, hto.isFormula.ne_nil⟩
  refine FormFor.congr this (fun σ i => ?_)
  simp only [List.mem_cons, List.not_mem_nil, or_false, forall_eq_or_imp, forall_eq, and_true]
  have he := mem_filter_both (label := e.label) (prev := e.previous) (t := isEnv)
    (fun p => A p.1 p.2 σ i) (fun p => A p.1 p.2 σ (i + 1))
  have hs := mem_filter_both (label := e.label) (prev := e.previous) (t := isSys)
    (fun p => A p.1 p.2 σ i) (fun p => A p.1 p.2 σ (i + 1))
  simp only [Bool.false_eq_true, if_false, if_true]
  refine and_congr_right (fun _ => ?_)
  rw [← and_assoc, he, hs]
  constructor
  · rintro ⟨h6, h7⟩ k v hkv ht
    rcases ht with ht | ht
    · have := h7 _ hkv ht
      split at this <;> simp_all
    · have := h6 _ hkv ht
      split at this <;> simp_all
  · intro h6
    constructor <;> rintro ⟨k, v⟩ hkv ht
    · have := h6 k v hkv (Or.inr ht)
      split <;> simp_all
    · have := h6 k v hkv (Or.inl ht)
      split <;> simp_all

theorem forall₂_imp_mem {α β : Type _} {R Q : α → β → Prop} {xs : List α} {ys : List β}
    (h : List.Forall₂ R xs ys) (hi : ∀ x ∈ xs, ∀ y, R x y → Q x y) : List.Forall₂ Q xs ys := by
  induction h with
  | nil => exact .nil
  | cons h _ ih =>
    exact .cons (hi _ (by simp) _ h) (ih (fun x hx => hi x (by simp [hx])))

theorem imp_form {id body : List Char} {P Q : Trace → Nat → Prop} (h1 : FormFor id P)
    (h2 : FormFor body Q) :
    FormFor (pstr id ++ c!" -> (" ++ body ++ c!")") (fun σ i => P σ i → Q σ i) := by
  have := h1.paren.imp h2.paren
  simpa [pstr] using this

theorem dead_form {id : List Char} {P : Trace → Nat → Prop} (h1 : FormFor id P) :
    FormFor (pstr id ++ c!" -> X(False)") (fun σ i => P σ i → False) := by
  have := h1.paren.imp form_false.next_paren
  simpa [pstr] using this

theorem mem_find {F : FTS} {s : Elem} {e : Edge} : e ∈ F.find s ↔ e ∈ F.edges ∧ e.src = s := by
  simp [FTS.find]

theorem sysTransFromTs_ok {F : FTS} {ids : Dict Elem (List Char)}
    {S : Elem → Trace → Nat → Prop} (hS : IdsFor ids S) {sysIds envIds : ActionIds}
    {A : String → Elem → Trace → Nat → Prop} (hA : TypesFor sysIds envIds A)
    (hact : ∀ e ∈ F.edges, Dict.get? e.label "actions" = none) {fs : List (List Char)}
    (h : sysTransFromTs F ids sysIds envIds = .ok fs) :
    (∀ e ∈ F.edges, e.src ∈ F.states → ∃ f, Dict.get? ids e.dst = some f) ∧
    Means fs (fun σ i => ∀ s ∈ F.states, S s σ i → ∃ e ∈ F.edges, e.src = s ∧
      S e.dst σ (i + 1) ∧ ∀ k v, (k, v) ∈ e.label →
      isSys k = true ∨ isEnv k = true → A k v σ (if k ∈ e.previous then i else i + 1)) := by
  have hf := mapE_forall₂ h
  have key : ∀ s ∈ F.states, ∀ f, sysStateTrans F ids sysIds envIds s = .ok f →
      (∀ e ∈ F.edges, e.src = s → ∃ f, Dict.get? ids e.dst = some f) ∧
      FormFor f (fun σ i => S s σ i → ∃ e ∈ F.edges, e.src = s ∧
      S e.dst σ (i + 1) ∧ ∀ k v, (k, v) ∈ e.label →
      isSys k = true ∨ isEnv k = true → A k v σ (if k ∈ e.previous then i else i + 1)) := by
    intro s _ f hs
    unfold sysStateTrans at hs
    obtain ⟨id, h1, hs⟩ := bind_ok hs
    have hid := hS _ _ (lookupId_ok h1)
    simp only at hs
    by_cases hc : F.find s = []
    · rw [hc] at hs
      simp only [List.isEmpty_nil, if_true, pure_eq_ok, Except.ok.injEq] at hs
      subst hs
      have hno : ∀ e ∈ F.edges, ¬ e.src = s := by
        intro e he hse
        have := mem_find.2 ⟨he, hse⟩
        rw [hc] at this; simp at this
      refine ⟨fun e he hse => absurd hse (hno e he), (dead_form hid).congr fun σ i => ?_⟩
      refine imp_congr_right fun _ => ⟨False.elim, ?_⟩
      rintro ⟨e, he, hse, _⟩
      exact hno e he hse
    · have hc' : (F.find s).isEmpty = false := by simpa using hc
      rw [hc'] at hs
      simp only [Bool.false_eq_true, if_false] at hs
      obtain ⟨strs, h2, hs⟩ := bind_ok hs
      simp only [pure_eq_ok, Except.ok.injEq] at hs
      subst hs
      have h3 := forall₂_imp_mem (mapE_forall₂ h2)
        (fun e he f hf => sysEdgeText_ok hS hA (hact e (mem_find.1 he).1) hf)
      refine ⟨fun e he hse => ?_, ?_⟩
      · obtain ⟨ps, h4, h5, h6⟩ := forall₂_pairs h3
        have := mem_find.2 ⟨he, hse⟩
        rw [← h4] at this
        obtain ⟨p, hp, rfl⟩ := List.mem_map.1 this
        exact (h6 p hp).1
      · have h4 := disj_of_forall₂ hc (forall₂_imp_mem h3 (fun _ _ _ h => h.2))
        refine (imp_form hid h4).congr fun σ i => imp_congr_right fun _ => ?_
        simp only [mem_find, and_assoc]
  refine ⟨fun e he hs => ?_, means_of_forall₂ (forall₂_imp_mem hf (fun s hs f h => (key s hs f h).2))⟩
  obtain ⟨ps, h4, h5, h6⟩ := forall₂_pairs hf
  rw [← h4] at hs
  obtain ⟨p, hp, hpe⟩ := List.mem_map.1 hs
  exact (key p.1 (by rw [← h4]; exact List.mem_map_of_mem hp) _ (h6 p hp)).1 e he hpe.symm

/-! ## Propositions -/

theorem joinWith_append (sep : List Char) {xs ys : List (List Char)} (hx : xs ≠ []) (hy : ys ≠ []) :
    joinWith sep (xs ++ ys) = joinWith sep xs ++ sep ++ joinWith sep ys := by
  induction xs with
  | nil => exact absurd rfl hx
  | cons x xs ih =>
    cases xs with
    | nil => simp [joinWith_cons_ne _ _ hy, joinWith]
    | cons z zs =>
      have := ih (by simp)
      rw [List.cons_append, joinWith_cons_ne _ _ (by simp), this, joinWith_cons_ne sep x (by simp)]
      simp

theorem toList_mem_map {p : String} {l : List String} :
    p.toList ∈ l.map String.toList ↔ p ∈ l := by
  simp [String.toList_inj]

theorem sprintAps_form {aps : List String} (hne : aps ≠ []) (hn : ∀ p ∈ aps, IsName p)
    (label : Option (List String)) :
    FormFor (sprintAps label aps)
      (fun σ i => ∀ p ∈ aps, (σ i p = .bool true ↔ p ∈ label.getD [])) := by
  let l := label.getD []
  have hpos : ∀ p ∈ aps.filter (fun p => decide (p ∈ l)),
      UnitFor (String.toList p) (fun σ i => σ i p = .bool true) := fun p hp =>
    UnitFor.ident (hn p (List.mem_filter.1 hp).1).1 (hn p (List.mem_filter.1 hp).1).2
  have hneg : ∀ p ∈ aps.filter (fun p => !decide (p ∈ l)),
      UnitFor (c!"!" ++ String.toList p) (fun σ i => σ i p ≠ .bool true) := fun p hp =>
    UnitFor.not_ident (hn p (List.mem_filter.1 hp).1).1 (hn p (List.mem_filter.1 hp).1).2
  have e0 : sprintPos label (aps.map String.toList) =
      joinWith c!" && " ((aps.filter (fun p => decide (p ∈ l))).map String.toList) := by
    cases label with
    | none => simp [l, joinWith, sprintPos]
    | some l' =>
      simp only [sprintPos, conjIntersection, Bool.false_eq_true, if_false, List.filter_map, l,
        Option.getD_some]
      congr 2
      refine List.filter_congr (fun p _ => ?_)
      simp only [Function.comp_apply, toList_mem_map]
  have e1 : sprintNeg label (aps.map String.toList) =
      joinWith c!" && " ((aps.filter (fun p => !decide (p ∈ l))).map
        (fun p => c!"!" ++ String.toList p)) := by
    cases label with
    | none => simp [l, conjNeg, Function.comp_def, sprintNeg]
    | some l' =>
      simp only [sprintNeg, conjNegDiff, Bool.false_eq_true, if_false, List.filter_map, l,
        Option.getD_some, List.map_map]
      congr 2
      refine List.filter_congr (fun p _ => ?_)
      simp only [Function.comp_apply, toList_mem_map]
  simp only [sprintAps]
  rw [e0, e1]
  have hsplit : ∀ σ : Trace, ∀ i, (∀ p ∈ aps, (σ i p = .bool true ↔ p ∈ l)) ↔
      (∀ p ∈ aps.filter (fun p => decide (p ∈ l)), σ i p = .bool true) ∧
      (∀ p ∈ aps.filter (fun p => !decide (p ∈ l)), σ i p ≠ .bool true) := by
    intro σ i
    simp only [List.mem_filter, decide_eq_true_eq, Bool.not_eq_true', decide_eq_false_iff_not,
      and_imp]
    constructor
    · exact fun h => ⟨fun p hp hl => (h p hp).2 hl, fun p hp hl h1 => hl ((h p hp).1 h1)⟩
    · rintro ⟨h1, h2⟩ p hp
      refine ⟨fun h3 => ?_, h1 p hp⟩
      by_contra hl
      exact h2 p hp hl h3
  by_cases hp : aps.filter (fun p => decide (p ∈ l)) = []
  · by_cases hq : aps.filter (fun p => !decide (p ∈ l)) = []
    · exfalso
      obtain ⟨p, ps, rfl⟩ := List.exists_cons_of_ne_nil hne
      have h1 := List.filter_eq_nil_iff.1 hp p (by simp)
      have h2 := List.filter_eq_nil_iff.1 hq p (by simp)
      simp_all
    · have hf := form_join_and hq hneg
      have h0 : joinWith c!" && " ((aps.filter (fun p => decide (p ∈ l))).map String.toList) = [] := by
        rw [hp]; rfl
      rw [h0]
      simp only [List.isEmpty_nil, Bool.not_true, Bool.false_and, Bool.false_eq_true, if_false,
        List.nil_append]
      refine hf.congr fun σ i => ?_
      rw [hsplit, hp]; simp
  · have hf := form_join_and hp hpos
    by_cases hq : aps.filter (fun p => !decide (p ∈ l)) = []
    · have h0 : joinWith c!" && " ((aps.filter (fun p => !decide (p ∈ l))).map
          (fun p => c!"!" ++ String.toList p)) = [] := by
        rw [hq]; rfl
      rw [h0]
      simp only [List.isEmpty_nil, Bool.not_true, Bool.and_false, Bool.false_eq_true, if_false,
        List.append_nil]
      refine hf.congr fun σ i => ?_
      rw [hsplit, hq]; simp
    · have hg := form_join_and hq hneg
      have h1 := hf.isFormula.ne_nil
      have h2 := hg.isFormula.ne_nil
      have h3 : (!(joinWith c!" && " ((aps.filter (fun p => decide (p ∈ l))).map
          String.toList)).isEmpty && !(joinWith c!" && " ((aps.filter (fun p => !decide (p ∈ l))).map
          (fun p => c!"!" ++ String.toList p))).isEmpty) = true := by
        simpa using ⟨h1, h2⟩
      rw [if_pos h3, ← joinWith_append _ (by simpa using hp) (by simpa using hq)]
      have hall := form_join_and (α := String × Bool)
        (f := fun p => if p.2 then String.toList p.1 else c!"!" ++ String.toList p.1)
        (P := fun p σ i => if p.2 then σ i p.1 = .bool true else σ i p.1 ≠ .bool true)
        (xs := (aps.filter (fun p => decide (p ∈ l))).map (fun p => (p, true)) ++
          (aps.filter (fun p => !decide (p ∈ l))).map (fun p => (p, false)))
        (by simp [hp]) (by
          intro p h
          rcases List.mem_append.1 h with h | h
          · obtain ⟨q, hq, rfl⟩ := List.mem_map.1 h
            simpa using hpos q hq
          · obtain ⟨q, hq, rfl⟩ := List.mem_map.1 h
            simpa using hneg q hq)
      rw [List.map_append, List.map_map, List.map_map] at hall
      refine FormFor.congr (P := _) hall fun σ i => ?_
      rw [hsplit]
      constructor
      · intro h
        exact ⟨fun p hp => by simpa using h (p, true) (by simp_all),
          fun p hp => by simpa using h (p, false) (by simp_all)⟩
      · rintro ⟨h4, h5⟩ p h
        rcases List.mem_append.1 h with h | h
        · obtain ⟨q, hq, rfl⟩ := List.mem_map.1 h
          simpa using h4 q hq
        · obtain ⟨q, hq, rfl⟩ := List.mem_map.1 h
          simpa using h5 q hq

theorem apTransFromTs_ok {F : FTS} {ids : Dict Elem (List Char)} {S : Elem → Trace → Nat → Prop}
    (hS : IdsFor ids S) (hn : ∀ p ∈ F.aps, IsName p) {r : List (List Char) × List (List Char)}
    (h : apTransFromTs F ids = .ok r) :
    Means r.1 (fun σ i => ∀ s ∈ F.states, S s σ i → ApsAt F s σ i) ∧
    Means r.2 (fun σ i => ∀ s ∈ F.states, S s σ (i + 1) → ApsAt F s σ (i + 1)) := by
  unfold apTransFromTs at h
  by_cases hne : F.aps = []
  · simp only [hne, List.isEmpty_nil, if_true, Except.ok.injEq] at h
    subst h
    constructor <;> refine means_nil.congr fun σ i => ?_ <;> simp [ApsAt, hne]
  · have hne' : F.aps.isEmpty = false := by simpa using hne
    rw [hne'] at h
    simp only [Bool.false_eq_true, if_false] at h
    obtain ⟨parts, h1, h⟩ := bind_ok h
    simp only [pure_eq_ok, Except.ok.injEq] at h
    have hf := forall₂_imp_mem (mapE_forall₂ h1) (Q := fun s p => FormFor p.1 (S s) ∧
        FormFor p.2 (ApsAt F s)) (by
      intro s _ p hp
      obtain ⟨id, h2, hp⟩ := bind_ok hp
      simp only [pure_eq_ok, Except.ok.injEq] at hp
      subst hp
      exact ⟨hS _ _ (lookupId_ok h2), sprintAps_form hne hn _⟩)
    have hfilter : parts.filter (fun p => !p.2.isEmpty) = parts := by
      rw [List.filter_eq_self]
      intro p hp
      obtain ⟨ps, h4, h5, h6⟩ := forall₂_pairs hf
      rw [← h5] at hp
      obtain ⟨q, hq, rfl⟩ := List.mem_map.1 hp
      simp [(h6 q hq).2.isFormula.ne_nil]
    rw [hfilter] at h
    subst h
    constructor
    · refine means_of_forall₂ ?_
      rw [List.forall₂_map_right_iff]
      refine forall₂_imp_mem hf (fun s _ p hp => ?_)
      have := hp.1.paren.form.not_paren.or hp.2.paren
      refine FormFor.congr (P := fun σ i => ¬ S s σ i ∨ ApsAt F s σ i)
        (by simpa [pstr] using this) fun σ i => ?_
      tauto
    · refine means_of_forall₂ ?_
      rw [List.forall₂_map_right_iff]
      refine forall₂_imp_mem hf (fun s _ p hp => ?_)
      have := (imp_form hp.1 hp.2).next_paren.form
      simpa [pstr] using this

/-! ## Initial states -/

theorem sysInitFromTs_ok {F : FTS} {ids : Dict Elem (List Char)} {S : Elem → Trace → Nat → Prop}
    (hS : IdsFor ids S) {ignore : Bool} {fs : List (List Char)}
    (h : sysInitFromTs F ids ignore = .ok fs) :
    (ignore = false → ∀ s ∈ F.initial, ∃ f, Dict.get? ids s = some f) ∧
    Means fs (fun σ i => ignore = false → ∃ s ∈ F.initial, S s σ i) := by
  unfold sysInitFromTs at h
  cases ignore with
  | true =>
    simp only [if_true, Except.ok.injEq] at h
    subst h
    exact ⟨by simp, means_nil.congr (by simp)⟩
  | false =>
    simp only [Bool.false_eq_true, if_false] at h
    by_cases hne : F.initial = []
    · simp [hne] at h
    · have hne' : F.initial.isEmpty = false := by simpa using hne
      rw [hne'] at h
      simp only [Bool.false_eq_true, if_false] at h
      obtain ⟨gs, h1, h⟩ := bind_ok h
      simp only [pure_eq_ok, Except.ok.injEq] at h
      subst h
      have hf := mapE_forall₂ h1
      refine ⟨fun _ s hs => ?_, ?_⟩
      · obtain ⟨ps, h4, h5, h6⟩ := forall₂_pairs hf
        rw [← h4] at hs
        obtain ⟨p, hp, rfl⟩ := List.mem_map.1 hs
        exact ⟨_, lookupId_ok (h6 p hp)⟩
      · have := disj_of_forall₂ hne (forall₂_imp_mem hf (fun s _ f h => hS _ _ (lookupId_ok h)))
        exact this.means.congr (by simp)

/-! ## Action types -/

theorem set_append {κ α : Type} [DecidableEq κ] {d : Dict κ α} {k : κ} (v : α)
    (h : k ∉ d.keys) : d.set k v = d ++ [(k, v)] := by
  induction d with
  | nil => rfl
  | cons p d ih =>
    have h1 : ¬ p.1 = k := fun e => h (by simp [Dict.keys, e])
    have h2 : k ∉ Dict.keys d := fun hm => h (by simp only [Dict.keys, List.map_cons, List.mem_cons]; exact Or.inr hm)
    simp only [Dict.set]
    rw [if_neg (by simpa using h1)]
    rw [show Dict.set d k v = d ++ [(k, v)] from ih h2]
    rfl

/-- An entry of the dictionaries of solver expressions. -/
structure TypeOk (F : FTS) (boolActions : Bool) (p : String × List Elem)
    (q : String × Dict Elem (List Char)) : Prop where
  key : q.1 = p.1
  keys : Dict.keys q.2 = p.2
  form : ∀ v f, Dict.get? q.2 v = some f → FormFor f (ActionAt F boolActions p.1 v)

/-- What the action types `done` demand, of those selected by `t`. -/
def TypesOk (F : FTS) (boolActions : Bool) (t : String → Bool) (done : List (String × List Elem))
    (σ : Trace) (i : Nat) : Prop :=
  ∀ p ∈ done, t p.1 = true →
    MustOk (usesBools boolActions (F.mustOf p.1)) (F.mustOf p.1) p.1 p.2 σ i

/-- Action types of the environment. -/
def isEnvOnly (k : String) : Bool := !isSys k && isEnv k

structure AccOk (F : FTS) (boolActions : Bool) (done : List (String × List Elem)) (a : Acc) :
    Prop where
  sysIds : List.Forall₂ (TypeOk F boolActions) (done.filter (fun p => isSys p.1)) a.sysIds
  envIds : List.Forall₂ (TypeOk F boolActions) (done.filter (fun p => isEnvOnly p.1)) a.envIds
  sysInit : Means a.sysInit (TypesOk F boolActions isSys done)
  envInit : Means a.envInit (TypesOk F boolActions isEnvOnly done)
  sysTrans : Means a.sysTrans (fun σ i => TypesOk F boolActions isSys done σ (i + 1))
  envTrans : Means a.envTrans (fun σ i => TypesOk F boolActions isEnvOnly done σ (i + 1))

theorem forall₂_keys {F : FTS} {b : Bool} {l : List (String × List Elem)} {d : ActionIds}
    (h : List.Forall₂ (TypeOk F b) l d) : d.keys = l.map (·.1) := by
  induction h with
  | nil => rfl
  | cons h _ ih => simp only [Dict.keys, List.map_cons, h.key] at ih ⊢; rw [ih]

theorem iter2var_form {states : List Elem} {vars : Dict String Dom} {var : String} {b : Bool}
    {must : Must} {r : VarRep} (h : iter2var states vars var b must = .ok r)
    (hnames : NamesOk states) (hvar : usesBools b must = false → IsName var) :
    r.ids.keys = states ∧ ∀ x f, Dict.get? r.ids x = some f →
      FormFor f (fun σ i => Selected (usesBools b must) var σ i x) := by
  obtain ⟨h1, h2⟩ := iter2var_ids h hnames hvar
  refine ⟨h1, fun x f hf => ?_⟩
  have hx : x ∈ states := by
    rw [← h1]; exact (Dict.mem_keys_iff _ _).2 ⟨f, hf⟩
  obtain ⟨g, h3, h4, h5⟩ := h2 x hx
  rw [hf] at h3
  cases h3
  exact h4.formFor.congr h5

theorem constraint_means {states : List Elem} {vars : Dict String Dom} {var : String} {b : Bool}
    {must : Must} {r : VarRep} (h : iter2var states vars var b must = .ok r)
    (hnames : NamesOk states) (hn : states.Nodup) :
    Means r.constraint.toList (MustOk (usesBools b must) must var states) ∧
    Means (r.constraint.toList.map (fun c => c!"X (" ++ c ++ c!")"))
      (fun σ i => MustOk (usesBools b must) must var states σ (i + 1)) := by
  obtain ⟨h1, h2⟩ := iter2var_constraint h hnames hn
  have h2 : ∀ σ i, (∀ f ∈ r.constraint, Holds σ i f) ↔
    MustOk (usesBools b must) must var states σ i := h2
  cases hc : r.constraint with
  | none =>
    rw [hc] at h2
    constructor
    · exact means_nil.congr fun σ i => by rw [← h2]; simp
    · exact means_nil.congr fun σ i => by rw [← h2]; simp
  | some c =>
    rw [hc] at h1 h2
    simp only [Option.mem_some_iff, forall_eq'] at h1 h2
    constructor
    · exact (h1.formFor.congr h2).means
    · have := (h1.formFor.congr h2).next_space_paren.form.means
      simpa [pstr] using this

theorem addActions_eq (c : Option (List Char)) (init trans : List (List Char)) :
    addActions c init trans =
      (init ++ c.toList, trans ++ c.toList.map (fun c => c!"X (" ++ c ++ c!")")) := by
  cases c <;> simp [addActions]

theorem typesOk_append {F : FTS} {b : Bool} {t : String → Bool} {done : List (String × List Elem)}
    {p : String × List Elem} {σ : Trace} {i : Nat} :
    TypesOk F b t (done ++ [p]) σ i ↔ TypesOk F b t done σ i ∧
      (t p.1 = true → MustOk (usesBools b (F.mustOf p.1)) (F.mustOf p.1) p.1 p.2 σ i) := by
  simp only [TypesOk, List.mem_append, List.mem_singleton]
  constructor
  · exact fun h => ⟨fun q hq => h q (Or.inl hq), h p (Or.inr rfl)⟩
  · rintro ⟨h1, h2⟩ q (hq | rfl)
    · exact h1 q hq
    · exact h2

theorem addType_ok {F : FTS} {bs ba : Bool} {var : String} (hF : F.Good bs ba var)
    {done : List (String × List Elem)} {a a' : Acc} {k : String} {dom : List Elem}
    (hk : (k, dom) ∈ F.actions) (hfresh : k ∉ done.map (·.1)) (ha : AccOk F ba done a)
    (h : addType F ba a k dom = .ok a') : AccOk F ba (done ++ [(k, dom)]) a' := by
  obtain ⟨hnames, hnodup, hvar⟩ := hF.types k dom hk
  have fresh : ∀ {t : String → Bool} {d : ActionIds},
      List.Forall₂ (TypeOk F ba) (done.filter (fun p => t p.1)) d → k ∉ d.keys := by
    intro t d hd hm
    rw [forall₂_keys hd] at hm
    obtain ⟨p, hp, rfl⟩ := List.mem_map.1 hm
    exact hfresh (List.mem_map_of_mem (List.mem_filter.1 hp).1)
  unfold addType at h
  split at h
  · cases h
  · split at h
    · rename_i _ hs
      have hm : F.mustOf k = F.sysMust := by simp [FTS.mustOf, hs]
      have he : isEnvOnly k = false := by simp [isEnvOnly, hs]
      obtain ⟨r, hr, h⟩ := bind_ok h
      rw [addActions_eq] at h
      simp only [pure_eq_ok, Except.ok.injEq] at h
      subst h
      rw [← hm] at hr
      obtain ⟨hkeys, hforms⟩ := iter2var_form hr hnames hvar
      obtain ⟨hc1, hc2⟩ := constraint_means hr hnames hnodup
      refine ⟨?_, ?_, ?_, ?_, ?_, ?_⟩
      · rw [set_append _ (fresh ha.sysIds), List.filter_append]
        refine List.rel_append ha.sysIds ?_
        rw [List.filter_cons_of_pos (by simpa using hs)]
        exact .cons ⟨rfl, hkeys, hforms⟩ .nil
      · rw [List.filter_append, List.filter_cons_of_neg (by simp [he])]
        simpa using ha.envIds
      · refine (ha.sysInit.append hc1).congr fun σ i => ?_
        rw [typesOk_append]; simp [hs]
      · refine ha.envInit.congr fun σ i => ?_
        rw [typesOk_append]; simp [he]
      · refine (ha.sysTrans.append hc2).congr fun σ i => ?_
        rw [typesOk_append]; simp [hs]
      · refine ha.envTrans.congr fun σ i => ?_
        rw [typesOk_append]; simp [he]
    · split at h
      · rename_i _ hs he
        have hs : isSys k = false := by simpa using hs
        have hm : F.mustOf k = F.envMust := by simp [FTS.mustOf, hs]
        have he : isEnvOnly k = true := by simp [isEnvOnly, hs, he]
        obtain ⟨r, hr, h⟩ := bind_ok h
        rw [addActions_eq] at h
        simp only [pure_eq_ok, Except.ok.injEq] at h
        subst h
        rw [← hm] at hr
        obtain ⟨hkeys, hforms⟩ := iter2var_form hr hnames hvar
        obtain ⟨hc1, hc2⟩ := constraint_means hr hnames hnodup
        refine ⟨?_, ?_, ?_, ?_, ?_, ?_⟩
        · rw [List.filter_append, List.filter_cons_of_neg (by simp [hs])]
          simpa using ha.sysIds
        · rw [set_append _ (fresh ha.envIds), List.filter_append]
          refine List.rel_append ha.envIds ?_
          rw [List.filter_cons_of_pos (by simpa using he)]
          exact .cons ⟨rfl, hkeys, hforms⟩ .nil
        · refine ha.sysInit.congr fun σ i => ?_
          rw [typesOk_append]; simp [hs]
        · refine (ha.envInit.append hc1).congr fun σ i => ?_
          rw [typesOk_append]; simp [he]
        · refine ha.sysTrans.congr fun σ i => ?_
          rw [typesOk_append]; simp [hs]
        · refine (ha.envTrans.append hc2).congr fun σ i => ?_
          rw [typesOk_append]; simp [he]
      · rename_i _ hs he
        have hs : isSys k = false := by simpa using hs
        have he : isEnvOnly k = false := by simp [isEnvOnly, he]
        cases h
        refine ⟨?_, ?_, ?_, ?_, ?_, ?_⟩
        · rw [List.filter_append, List.filter_cons_of_neg (by simp [hs])]
          simpa using ha.sysIds
        · rw [List.filter_append, List.filter_cons_of_neg (by simp [he])]
          simpa using ha.envIds
        · refine ha.sysInit.congr fun σ i => ?_
          rw [typesOk_append]; simp [hs]
        · refine ha.envInit.congr fun σ i => ?_
          rw [typesOk_append]; simp [he]
        · refine ha.sysTrans.congr fun σ i => ?_
          rw [typesOk_append]; simp [hs]
        · refine ha.envTrans.congr fun σ i => ?_
          rw [typesOk_append]; simp [he]

theorem addTypes_ok {F : FTS} {bs ba : Bool} {var : String} (hF : F.Good bs ba var)
    {done rest : List (String × List Elem)} {a a' : Acc} (hall : F.actions = done ++ rest)
    (ha : AccOk F ba done a) (h : addTypes F ba a rest = .ok a') : AccOk F ba F.actions a' := by
  induction rest generalizing done a with
  | nil =>
    cases h
    rw [hall, List.append_nil]; exact ha
  | cons p rest ih =>
    obtain ⟨k, dom⟩ := p
    simp only [addTypes] at h
    obtain ⟨a1, h1, h⟩ := bind_ok h
    refine ih (done := done ++ [(k, dom)]) (by simp [hall]) ?_ h
    refine addType_ok hF (by simp [hall]) ?_ ha h1
    have := hF.typesWf
    simp only [Dict.Wf, Dict.keys, hall, List.map_append, List.map_cons, List.nodup_append,
      List.mem_cons] at this
    intro hm
    exact this.2.2 k hm k (Or.inl rfl) rfl

theorem accOk_start (F : FTS) (b : Bool) (sv ev : Dict String Dom) :
    AccOk F b [] { sysVars := sv, envVars := ev } :=
  ⟨.nil, .nil, means_nil.congr (by simp [TypesOk]), means_nil.congr (by simp [TypesOk]),
    means_nil.congr (by simp [TypesOk]), means_nil.congr (by simp [TypesOk])⟩

theorem get?_mem {κ α : Type} [DecidableEq κ] {d : Dict κ α} {k : κ} {v : α}
    (h : d.get? k = some v) : (k, v) ∈ d := by
  simp only [Dict.get?, Option.map_eq_some_iff] at h
  obtain ⟨p, h1, rfl⟩ := h
  have h2 := List.find?_some h1
  have h3 := List.mem_of_find?_eq_some h1
  simp only [beq_iff_eq] at h2
  rw [← h2]; exact h3

theorem forall₂_mem_right {α β : Type _} {R : α → β → Prop} {xs : List α} {ys : List β}
    (h : List.Forall₂ R xs ys) {y : β} (hy : y ∈ ys) : ∃ x ∈ xs, R x y := by
  obtain ⟨ps, h1, h2, h3⟩ := forall₂_pairs h
  rw [← h2] at hy
  obtain ⟨p, hp, rfl⟩ := List.mem_map.1 hy
  exact ⟨p.1, by rw [← h1]; exact List.mem_map_of_mem hp, h3 p hp⟩

theorem forall₂_mem_left {α β : Type _} {R : α → β → Prop} {xs : List α} {ys : List β}
    (h : List.Forall₂ R xs ys) {x : α} (hx : x ∈ xs) : ∃ y ∈ ys, R x y := by
  obtain ⟨ps, h1, h2, h3⟩ := forall₂_pairs h
  rw [← h1] at hx
  obtain ⟨p, hp, rfl⟩ := List.mem_map.1 hx
  exact ⟨p.2, by rw [← h2]; exact List.mem_map_of_mem hp, h3 p hp⟩

theorem AccOk.typesFor {F : FTS} {b : Bool} {done : List (String × List Elem)} {a : Acc}
    (h : AccOk F b done a) :
    TypesFor a.sysIds a.envIds (fun k v σ i => ActionAt F b k v σ i) := by
  have aux : ∀ {t : String → Bool} {d : ActionIds},
      List.Forall₂ (TypeOk F b) (done.filter (fun p => t p.1)) d →
      ∀ k ids, Dict.get? d k = some ids → t k = true ∧
        ∀ v f, Dict.get? ids v = some f → FormFor f (ActionAt F b k v) := by
    intro t d hd k ids hk
    obtain ⟨p, hp, h1⟩ := forall₂_mem_right hd (get?_mem hk)
    have := h1.key
    simp only at this
    rw [this]
    exact ⟨by simpa using (List.mem_filter.1 hp).2, h1.form⟩
  refine ⟨fun k ids v f h1 h2 => (aux h.sysIds k ids h1).2 v f h2,
    fun k ids v f h1 h2 => (aux h.envIds k ids h1).2 v f h2,
    fun k ids h1 => (aux h.sysIds k ids h1).1, fun k ids h1 => ?_⟩
  have := (aux h.envIds k ids h1).1
  simpa [isEnvOnly] using this

/-! ## Executions -/

theorem unique_of_must {bs : Bool} {var : String} {states : List Elem} {σ : Trace} {i : Nat}
    (h : MustOk bs .xor var states σ i) {x y : Elem} (hx : x ∈ states) (hy : y ∈ states)
    (h1 : Selected bs var σ i x) (h2 : Selected bs var σ i y) : x = y := by
  cases bs with
  | false => exact selected_unique h1 h2
  | true =>
    by_cases hl : 2 ≤ states.length
    · obtain ⟨z, _, _, hz⟩ := h rfl hl
      rw [hz x hx h1, hz y hy h2]
    · match states, hl with
      | [], _ => simp at hx
      | [a], _ => simp at hx hy; rw [hx, hy]
      | _ :: _ :: _, hl => simp at hl

/-- A trace follows an execution iff, at each time, the local conditions hold. -/
theorem follows_iff {F : FTS} {bs : Bool} {var : String} {acts : Trace → Nat → Edge → Prop}
    {σ : Trace} {P : Elem → Prop}
    (closed : ∀ e ∈ F.edges, e.src ∈ F.states → e.dst ∈ F.states) :
    ((∃ s ∈ F.states, P s ∧ Selected bs var σ 0 s) ∧ (∀ i, MustOk bs .xor var F.states σ i) ∧
      (∀ i, ∀ s ∈ F.states, Selected bs var σ i s → ∃ e ∈ F.edges, e.src = s ∧
        Selected bs var σ (i + 1) e.dst ∧ acts σ i e) ∧
      (∀ i, ∀ s ∈ F.states, Selected bs var σ i s → ApsAt F s σ i)) ↔
    ∃ r, Follows F bs var acts σ r ∧ P (r 0) := by
  constructor
  · rintro ⟨⟨s0, hs0, hP, hsel0⟩, hmust, htrans, haps⟩
    have hex : ∀ i, ∃ s ∈ F.states, Selected bs var σ i s := by
      intro i
      induction i with
      | zero => exact ⟨s0, hs0, hsel0⟩
      | succ i ih =>
        obtain ⟨s, hs, h1⟩ := ih
        obtain ⟨e, he, hse, h2, _⟩ := htrans i s hs h1
        exact ⟨e.dst, closed e he (hse ▸ hs), h2⟩
    choose r hr hsel using hex
    have huniq : ∀ i x, x ∈ F.states → Selected bs var σ i x → x = r i := fun i x hx h1 =>
      unique_of_must (hmust i) hx (hr i) h1 (hsel i)
    refine ⟨r, ⟨fun i => ⟨hr i, hsel i, huniq i⟩, fun i => ?_, fun i => haps i _ (hr i) (hsel i)⟩, ?_⟩
    · obtain ⟨e, he, hse, h2, h3⟩ := htrans i (r i) (hr i) (hsel i)
      exact ⟨e, he, hse, huniq (i + 1) e.dst (closed e he (hse ▸ hr i)) h2, h3⟩
    · rw [← huniq 0 s0 hs0 hsel0]; exact hP
  · rintro ⟨r, hr, hP⟩
    refine ⟨⟨r 0, (hr.state 0).1, hP, (hr.state 0).2.1⟩, fun i hb _ => ?_, fun i s hs h1 => ?_,
      fun i s hs h1 => ?_⟩
    · subst hb
      exact ⟨r i, (hr.state i).1, (hr.state i).2.1, fun y hy h1 => (hr.state i).2.2 y hy h1⟩
    · obtain ⟨e, he, h2, h3, h4⟩ := hr.step i
      refine ⟨e, he, h2.trans ((hr.state i).2.2 s hs h1).symm, ?_, h4⟩
      rw [h3]; exact (hr.state (i + 1)).2.1
    · rw [(hr.state i).2.2 s hs h1]; exact hr.aps i

/-- Formulas at time 0 together with formulas `X φ` at all times. -/
theorem always_iff {Q : Nat → Prop} : (Q 0 ∧ ∀ i, Q (i + 1)) ↔ ∀ i, Q i := by
  constructor
  · rintro ⟨h0, h1⟩ i
    cases i with
    | zero => exact h0
    | succ i => exact h1 i
  · exact fun h => ⟨h 0, fun i => h (i + 1)⟩

theorem usesBools_xor (b : Bool) : usesBools b .xor = b := by simp [usesBools]

/-! ## Environment actions of a system -/

theorem sysEdgeText_env {ids : Dict Elem (List Char)} {sysIds envIds : ActionIds} {e : Edge}
    {A : String → Elem → Trace → Nat → Prop} (hA : TypesFor sysIds envIds A)
    {s : List Char} (h : sysEdgeText ids sysIds envIds e = .ok s) :
    ∀ p ∈ e.label, isEnv p.1 = true → ∃ ids, Dict.get? envIds p.1 = some ids := by
  unfold sysEdgeText at h
  obtain ⟨dst, h1, h⟩ := bind_ok h
  obtain ⟨pe, h2, h⟩ := bind_ok h
  obtain ⟨ne, h3, h⟩ := bind_ok h
  obtain ⟨h2, -, -⟩ := conjActions_ok hA.env h2
  obtain ⟨h3, -, -⟩ := conjActions_ok hA.env h3
  intro p hp he
  by_cases hprev : p.1 ∈ e.previous
  · exact h2 p (by simp [List.mem_filter, hp, he, hprev])
  · exact h3 p (by simp [List.mem_filter, hp, he, hprev])

theorem sysTransFromTs_env {F : FTS} {ids : Dict Elem (List Char)} {sysIds envIds : ActionIds}
    {A : String → Elem → Trace → Nat → Prop} (hA : TypesFor sysIds envIds A)
    {fs : List (List Char)} (h : sysTransFromTs F ids sysIds envIds = .ok fs) {e : Edge}
    (he : e ∈ F.edges) (hs : e.src ∈ F.states) :
    ∀ p ∈ e.label, isEnv p.1 = true → ∃ ids, Dict.get? envIds p.1 = some ids := by
  obtain ⟨f, _, h⟩ := forall₂_mem_left (mapE_forall₂ h) hs
  unfold sysStateTrans at h
  obtain ⟨id, h1, h⟩ := bind_ok h
  have hm := mem_find.2 ⟨he, rfl⟩
  have hne : (F.find e.src).isEmpty = false := by
    cases hc : F.find e.src with
    | nil => rw [hc] at hm; simp at hm
    | cons => rfl
  simp only [hne, Bool.false_eq_true, if_false] at h
  obtain ⟨strs, h2, h⟩ := bind_ok h
  obtain ⟨s, _, h3⟩ := forall₂_mem_left (mapE_forall₂ h2) hm
  exact sysEdgeText_env hA h3

/-- The transition carries an action of the environment. -/
def HasEnv (e : Edge) : Prop := ∃ p ∈ e.label, isEnv p.1 = true

theorem hasEnv_iff {e : Edge} :
    (!(e.label.filter (fun p => isEnv p.1)).isEmpty) = true ↔ HasEnv e := by
  simp [HasEnv]

/-- What the environment is asked to do by the transitions of a system: in the next step, to take
the environment actions of one of the transitions from the current state, among those that carry
environment actions, if there are any. -/
def EnvAllows (F : FTS) (boolStates boolActions : Bool) (statevar : String) (σ : Trace) (i : Nat) :
    Prop :=
  ∀ s ∈ F.states, Selected boolStates statevar σ i s →
    (∃ e ∈ F.edges, e.src = s ∧ HasEnv e) →
    ∃ e ∈ F.edges, e.src = s ∧ HasEnv e ∧
      ∀ k v, (k, v) ∈ e.label → isEnv k = true → ActionAt F boolActions k v σ (i + 1)

theorem means_flatten {α : Type _} {P : α → Trace → Nat → Prop} {xs : List α}
    {fs : List (List (List Char))} (h : List.Forall₂ (fun x f => Means f (P x)) xs fs) :
    Means fs.flatten (fun σ i => ∀ x ∈ xs, P x σ i) := by
  induction h with
  | nil => exact means_nil.congr (by simp)
  | cons h _ ih =>
    rw [List.flatten_cons]
    exact (h.append ih).congr (by simp)

theorem disj_of_set {α : Type _} {P : α → Trace → Nat → Prop} {xs : List α}
    {fs gs : List (List Char)} (hne : xs ≠ [])
    (h : List.Forall₂ (fun x f => FormFor f (P x)) xs fs) (hg : ∀ f, f ∈ gs ↔ f ∈ fs) :
    FormFor (disj gs) (fun σ i => ∃ x ∈ xs, P x σ i) := by
  have hfs : ∀ f ∈ gs, FormFor f (fun σ i => Holds σ i f) := by
    intro f hf
    obtain ⟨x, _, hx⟩ := forall₂_mem_right h ((hg f).1 hf)
    exact hx.isFormula.formFor
  have hne' : gs ≠ [] := by
    obtain ⟨x, xs', rfl⟩ := List.exists_cons_of_ne_nil hne
    obtain ⟨f, hf, _⟩ := forall₂_mem_left h (x := x) (by simp)
    exact List.ne_nil_of_mem ((hg f).2 hf)
  have := form_disj (f := fun s => s) hne' hfs
  rw [List.map_id'] at this
  refine this.congr fun σ i => ⟨?_, ?_⟩
  · rintro ⟨f, hf, hh⟩
    obtain ⟨x, hx, h1⟩ := forall₂_mem_right h ((hg f).1 hf)
    exact ⟨x, hx, (h1.holds σ i).1 hh⟩
  · rintro ⟨x, hx, hp⟩
    obtain ⟨f, hf, h1⟩ := forall₂_mem_left h hx
    exact ⟨f, (hg f).2 hf, (h1.holds σ i).2 hp⟩

theorem envTransFromSysTs_ok {order : List (List Char) → List (List Char)}
    (horder : ∀ l x, x ∈ order l ↔ x ∈ l) {F : FTS} {ids : Dict Elem (List Char)}
    {S : Elem → Trace → Nat → Prop} (hS : IdsFor ids S) {sysIds envIds : ActionIds}
    {A : String → Elem → Trace → Nat → Prop} (hA : TypesFor sysIds envIds A)
    {fs gs : List (List Char)} (ht : sysTransFromTs F ids sysIds envIds = .ok gs)
    (h : envTransFromSysTs order F ids envIds = .ok fs) :
    Means fs (fun σ i => ∀ s ∈ F.states, S s σ i →
      (∃ e ∈ F.edges, e.src = s ∧ HasEnv e) →
      ∃ e ∈ F.edges, e.src = s ∧ HasEnv e ∧
        ∀ k v, (k, v) ∈ e.label → isEnv k = true → A k v σ (i + 1)) := by
  unfold envTransFromSysTs at h
  by_cases he : envIds = []
  · subst he
    simp only [List.isEmpty_nil, if_true, Except.ok.injEq] at h
    subst h
    refine means_nil.congr fun σ i => ⟨fun _ s hs _ ⟨e, he, hse, p, hp, hpe⟩ => ?_, fun _ => trivial⟩
    obtain ⟨ids, h1⟩ := sysTransFromTs_env hA ht he (hse ▸ hs) p hp hpe
    simp at h1
  · have he' : envIds.isEmpty = false := by simpa using he
    rw [he'] at h
    simp only [Bool.false_eq_true, if_false] at h
    obtain ⟨ll, h1, h⟩ := bind_ok h
    simp only [pure_eq_ok, Except.ok.injEq] at h
    subst h
    refine means_flatten (forall₂_imp_mem (mapE_forall₂ h1) ?_)
    intro s hs f hf
    unfold envFromSysState at hf
    obtain ⟨id, h2, hf⟩ := bind_ok hf
    have hid := hS _ _ (lookupId_ok h2)
    simp only at hf
    by_cases hc : F.find s = []
    · rw [hc] at hf
      simp only [List.isEmpty_nil, if_true, pure_eq_ok, Except.ok.injEq] at hf
      subst hf
      refine means_nil.congr fun σ i => ⟨fun _ _ ⟨e, he, hse, _⟩ => ?_, fun _ => trivial⟩
      have := mem_find.2 ⟨he, hse⟩
      rw [hc] at this; simp at this
    · have hc' : (F.find s).isEmpty = false := by simpa using hc
      rw [hc'] at hf
      simp only [Bool.false_eq_true, if_false] at hf
      obtain ⟨combs, h3, hf⟩ := bind_ok hf
      have h4 : List.Forall₂ (fun (e : Edge) f => FormFor f (fun σ i =>
          ∀ k v, (k, v) ∈ e.label → isEnv k = true → A k v σ i))
          ((F.find s).filter (fun e => !(e.label.filter (fun p => isEnv p.1)).isEmpty)) combs := by
        refine forall₂_imp_mem (mapE_forall₂ h3) (fun e he f hf => ?_)
        obtain ⟨-, h5, h6⟩ := conjActions_ok hA.env hf
        have hne : f ≠ [] := by
          rw [Ne, h5]
          intro h7
          have := (List.mem_filter.1 he).2
          rw [h7] at this; simp at this
        rcases h6 with ⟨h6, _⟩ | h6
        · exact absurd h6 hne
        · refine h6.congr fun σ i => ?_
          simp only [List.mem_filter, Bool.false_eq_true, if_false, and_imp]
          exact ⟨fun h k v hkv hk => h (k, v) hkv hk, fun h p hp hk => h p.1 p.2 hp hk⟩
      have hmem : ∀ e, e ∈ (F.find s).filter
          (fun e => !(e.label.filter (fun p => isEnv p.1)).isEmpty) ↔
          e ∈ F.edges ∧ e.src = s ∧ HasEnv e := by
        intro e
        rw [List.mem_filter, hasEnv_iff, mem_find, and_assoc]
      by_cases hnil : (F.find s).filter
          (fun e => !(e.label.filter (fun p => isEnv p.1)).isEmpty) = []
      · rw [hnil] at h4
        cases h4
        have ho : order [] = [] := by
          rw [List.eq_nil_iff_forall_not_mem]
          intro x hx
          rw [horder] at hx; simp at hx
        rw [ho] at hf
        simp only [disj, List.map_nil, joinWith, List.isEmpty_nil, if_true, pure_eq_ok,
          Except.ok.injEq] at hf
        subst hf
        refine means_nil.congr fun σ i => ⟨fun _ _ ⟨e, he⟩ => ?_, fun _ => trivial⟩
        have := (hmem e).2 he
        rw [hnil] at this; simp at this
      · have h5 := disj_of_set hnil h4 (horder combs)
        have hne := h5.isFormula.ne_nil
        have hne' : (disj (order combs)).isEmpty = false := by simpa using hne
        rw [hne'] at hf
        simp only [Bool.false_eq_true, if_false, pure_eq_ok, Except.ok.injEq] at hf
        subst hf
        have h6 := hid.paren.imp h5.next_paren
        refine Means.congr (P := _) (FormFor.means (by simpa [pstr] using h6)) fun σ i => ?_
        refine imp_congr_right fun _ => ?_
        constructor
        · rintro ⟨e, he, h7⟩ _
          obtain ⟨h8, h9, h10⟩ := (hmem e).1 (by simpa using he)
          exact ⟨e, h8, h9, h10, fun k v hkv hk => h7 k v hkv hk⟩
        · intro h7
          obtain ⟨e0, h00⟩ := List.exists_mem_of_ne_nil _ hnil
          obtain ⟨e, h8, h9, h10, h11⟩ := h7 ⟨e0, (hmem e0).1 h00⟩
          exact ⟨e, by simpa using (hmem e).2 ⟨h8, h9, h10⟩, fun k v hkv hk => h11 k v hkv hk⟩

/-! ## C29 -/

/-- **C29.** The specification returned by `sys_to_spec` consists of formulas. A trace satisfies
its initial conditions and transition relation of the system iff it follows an execution of the
transition system (from an initial state, unless initial states are to be ignored: then it must
be in some state at the start), and the system actions respect `sys_actions_must`. -/
theorem sysToSpec_sys {order : List (List Char) → List (List Char)} {F : FTS}
    {ignore bs ba : Bool} {var : String} {g : GRSpec}
    (hF : F.Good bs ba var)
    (h : sysToSpec order F ignore var bs ba = .ok g) :
    (∀ f ∈ g.sysInit ++ g.sysSafety, IsFormula f) ∧
    ∀ σ : Trace, (ignore = true → ∃ s ∈ F.states, Selected bs var σ 0 s) →
      (((∀ f ∈ g.sysInit, Holds σ 0 f) ∧ ∀ i, ∀ f ∈ g.sysSafety, Holds σ i f) ↔
        (∃ r, Follows F bs var (SysActs F ba) σ r ∧ (ignore = false → r 0 ∈ F.initial)) ∧
        ∀ i, TypesOk F ba isSys F.actions σ i) := by
  unfold sysToSpec at h
  split at h
  · cases h
  split at h
  · cases h
  obtain ⟨a, h1, h⟩ := bind_ok h
  obtain ⟨r, h2, h⟩ := bind_ok h
  obtain ⟨init, h3, h⟩ := bind_ok h
  obtain ⟨trans, h4, h⟩ := bind_ok h
  obtain ⟨ap, h5, h⟩ := bind_ok h
  obtain ⟨env, h6, h⟩ := bind_ok h
  obtain ⟨apInit, apTrans⟩ := ap
  simp only [GRSpec.make] at h
  split at h
  swap
  · cases h
  cases h
  have ha := addTypes_ok hF (done := []) rfl (accOk_start F ba _ _) h1
  obtain ⟨hkeys, hids⟩ := iter2var_form h2 hF.states (by rw [usesBools_xor]; exact hF.var)
  obtain ⟨hcon, -⟩ := constraint_means h2 hF.states hF.statesNodup
  rw [usesBools_xor] at hids hcon
  have hS : IdsFor r.ids (fun x σ i => Selected bs var σ i x) := hids
  have hin : ∀ x, (∃ f, Dict.get? r.ids x = some f) → x ∈ F.states := by
    intro x hx
    rw [← hkeys]
    exact (Dict.mem_keys_iff _ _).2 hx
  obtain ⟨hini, mini⟩ := sysInitFromTs_ok hS h3
  obtain ⟨hclosed, mtrans⟩ := sysTransFromTs_ok hS ha.typesFor hF.noActions h4
  obtain ⟨map1, map2⟩ := apTransFromTs_ok hS hF.aps h5
  simp only at map1 map2
  have mI := (ha.sysInit.append mini).append map1
  have mT := ((ha.sysTrans.append hcon).append mtrans).append map2
  refine ⟨fun f hf => (List.mem_append.1 hf).elim (mI.formulas f) (mT.formulas f),
    fun σ hign => ?_⟩
  have hclosed' : ∀ e ∈ F.edges, e.src ∈ F.states → e.dst ∈ F.states := fun e he hs =>
    hin _ (hclosed e he hs)
  have hfol := follows_iff (F := F) (bs := bs) (var := var) (acts := SysActs F ba) (σ := σ)
    (P := fun s => ignore = false → s ∈ F.initial) hclosed'
  rw [← hfol]
  have hI := mI.holds σ 0
  have hT := fun i => mT.holds σ i
  simp only [hI, hT]
  constructor
  · rintro ⟨⟨⟨q1, q2⟩, q3⟩, q4⟩
    refine ⟨⟨?_, fun i => (q4 i).1.1.2, fun i => (q4 i).1.2,
      always_iff.1 ⟨q3, fun i => (q4 i).2⟩⟩, always_iff.1 ⟨q1, fun i => (q4 i).1.1.1⟩⟩
    cases hi : ignore with
    | true =>
      obtain ⟨s, hs, h7⟩ := hign hi
      exact ⟨s, hs, by simp, h7⟩
    | false =>
      obtain ⟨s, hs, h7⟩ := q2 hi
      exact ⟨s, hin _ (hini hi s hs), fun _ => hs, h7⟩
  · rintro ⟨⟨q1, q2, q3, q4⟩, q5⟩
    refine ⟨⟨⟨q5 0, fun hi => ?_⟩, q4 0⟩, fun i => ⟨⟨⟨q5 (i + 1), q2 i⟩, q3 i⟩, q4 (i + 1)⟩⟩
    obtain ⟨s, _, h7, h8⟩ := q1
    exact ⟨s, h7 hi, h8⟩

/-- **C29.** The environment part of the specification returned by `sys_to_spec` consists of
formulas. A trace satisfies it iff the environment actions respect `env_actions_must` and, in each
step from a state with transitions that carry environment actions, are those of one of these
transitions. -/
theorem sysToSpec_env {order : List (List Char) → List (List Char)} {F : FTS}
    {ignore bs ba : Bool} {var : String} {g : GRSpec}
    (horder : ∀ l x, x ∈ order l ↔ x ∈ l) (hF : F.Good bs ba var)
    (h : sysToSpec order F ignore var bs ba = .ok g) :
    (∀ f ∈ g.envInit ++ g.envSafety, IsFormula f) ∧
    ∀ σ : Trace, (((∀ f ∈ g.envInit, Holds σ 0 f) ∧ ∀ i, ∀ f ∈ g.envSafety, Holds σ i f) ↔
        ∀ i, TypesOk F ba isEnvOnly F.actions σ i ∧ EnvAllows F bs ba var σ i) := by
  unfold sysToSpec at h
  split at h
  · cases h
  split at h
  · cases h
  obtain ⟨a, h1, h⟩ := bind_ok h
  obtain ⟨r, h2, h⟩ := bind_ok h
  obtain ⟨init, h3, h⟩ := bind_ok h
  obtain ⟨trans, h4, h⟩ := bind_ok h
  obtain ⟨ap, h5, h⟩ := bind_ok h
  obtain ⟨env, h6, h⟩ := bind_ok h
  obtain ⟨apInit, apTrans⟩ := ap
  simp only [GRSpec.make] at h
  split at h
  swap
  · cases h
  cases h
  have ha := addTypes_ok hF (done := []) rfl (accOk_start F ba _ _) h1
  obtain ⟨hkeys, hids⟩ := iter2var_form h2 hF.states (by rw [usesBools_xor]; exact hF.var)
  rw [usesBools_xor] at hids
  have hS : IdsFor r.ids (fun x σ i => Selected bs var σ i x) := hids
  have menv := envTransFromSysTs_ok horder hS ha.typesFor h4 h6
  have mT := ha.envTrans.append menv
  refine ⟨fun f hf => (List.mem_append.1 hf).elim (ha.envInit.formulas f) (mT.formulas f),
    fun σ => ?_⟩
  have hI := ha.envInit.holds σ 0
  have hT := fun i => mT.holds σ i
  simp only [hI, hT]
  constructor
  · rintro ⟨q1, q2⟩ i
    exact ⟨always_iff.1 ⟨q1, fun i => (q2 i).1⟩ i, (q2 i).2⟩
  · intro q
    exact ⟨(q 0).1, fun i => ⟨(q (i + 1)).1, (q i).2⟩⟩

/-! ## C30 -/

/-- In an environment, a state is blocked when each of its transitions depends on a system action
and, for some type of system actions, the system takes none. -/
def Blocked (F : FTS) (boolActions : Bool) (s : Elem) (σ : Trace) (i : Nat) : Prop :=
  (∃ e ∈ F.edges, e.src = s) ∧
  (∀ e ∈ F.edges, e.src = s → ∃ k v, (k, v) ∈ e.label ∧ isSys k = true) ∧
  ∃ k dom, (k, dom) ∈ F.actions ∧ isSys k = true ∧ ∀ v ∈ dom, ¬ ActionAt F boolActions k v σ i

theorem envEdgeText_ok {ids : Dict Elem (List Char)} {S : Elem → Trace → Nat → Prop}
    (hS : IdsFor ids S) {sysIds envIds : ActionIds} {A : String → Elem → Trace → Nat → Prop}
    (hA : TypesFor sysIds envIds A) {e : Edge} {s : List Char}
    (hact : Dict.get? e.label "actions" = none) (h : envEdgeText ids sysIds envIds e = .ok s) :
    (∃ f, Dict.get? ids e.dst = some f) ∧
    FormFor s (fun σ i => S e.dst σ (i + 1) ∧ ∀ k v, (k, v) ∈ e.label →
      (isSys k = true → A k v σ i) ∧ (isEnv k = true → A k v σ (i + 1))) := by
  unfold envEdgeText at h
  obtain ⟨dst, h1, h⟩ := bind_ok h
  obtain ⟨pe, h2, h⟩ := bind_ok h
  obtain ⟨ps, h4, h⟩ := bind_ok h
  simp only [conjAction_none hact, pure_eq_ok, Except.ok.injEq] at h
  subst h
  have hd := lookupId_ok h1
  refine ⟨⟨_, hd⟩, ?_⟩
  obtain ⟨-, -, h2⟩ := conjActions_ok hA.env h2
  obtain ⟨-, -, h4⟩ := conjActions_ok hA.sys h4
  have hto := (hS _ _ hd).next_paren.form
  have := conj_of_opts (ps := [(_, _), (_, _), (_, _), ([], fun _ _ => True)]) (by
    simp only [List.mem_cons, List.not_mem_nil, or_false, forall_eq_or_imp, forall_eq]
    exact ⟨Or.inr hto, h2, h4, Or.inl ⟨rfl, fun _ _ => trivial⟩⟩)
    ⟨_, List.mem_cons_self, hto.isFormula.ne_nil⟩
  refine FormFor.congr this (fun σ i => ?_)
  simp only [List.mem_cons, List.not_mem_nil, or_false, forall_eq_or_imp, forall_eq, and_true,
    Bool.false_eq_true, if_false, if_true, List.mem_filter, and_imp]
  refine and_congr_right (fun _ => ?_)
  constructor
  · rintro ⟨h6, h7⟩ k v hkv
    exact ⟨h7 (k, v) hkv, h6 (k, v) hkv⟩
  · intro h6
    exact ⟨fun p hp => (h6 p.1 p.2 hp).2, fun p hp => (h6 p.1 p.2 hp).1⟩

theorem get?_of_mem_wf {κ α : Type} [DecidableEq κ] {d : Dict κ α} (hw : d.Wf) {k : κ} {v : α}
    (h : (k, v) ∈ d) : Dict.get? d k = some v := by
  induction d with
  | nil => simp at h
  | cons p d ih =>
    rw [Dict.get?_cons]
    have hw' : p.1 ∉ Dict.keys d ∧ Dict.Wf d := by
      simpa [Dict.Wf, Dict.keys] using hw
    rcases List.mem_cons.1 h with rfl | h
    · simp
    · rw [if_neg ?_]
      · exact ih hw'.2 h
      · rintro rfl
        exact hw'.1 (List.mem_map_of_mem (f := (·.1)) h)

theorem conjNeg_form {α : Type _} {P : α → Trace → Nat → Prop} {xs : List α}
    {f : α → List Char} (hne : xs ≠ []) (h : ∀ x ∈ xs, FormFor (f x) (P x)) :
    FormFor (conjNeg (xs.map f)) (fun σ i => ∀ x ∈ xs, ¬ P x σ i) := by
  have := form_join_and (f := fun x => c!"!" ++ pstr (f x)) hne (fun x hx => (h x hx).not_paren)
  simpa [conjNeg, pstr, Function.comp_def] using this

theorem typeOk_conjNeg {F : FTS} {ba : Bool} {p : String × List Elem}
    {q : String × Dict Elem (List Char)} (h : TypeOk F ba p q) (hn : p.2.Nodup) (hne : p.2 ≠ []) :
    FormFor (conjNeg (q.2.map (·.2)))
      (fun σ i => ∀ v ∈ p.2, ¬ ActionAt F ba p.1 v σ i) := by
  have hw : Dict.Wf q.2 := by unfold Dict.Wf; rw [h.keys]; exact hn
  have := conjNeg_form (f := fun r : Elem × List Char => r.2) (xs := q.2)
    (P := fun r => ActionAt F ba p.1 r.1)
    (by intro h0; apply hne; rw [← h.keys, h0]; rfl)
    (fun r hr => h.form _ _ (get?_of_mem_wf hw (k := r.1) (v := r.2) hr))
  refine this.congr fun σ i => ?_
  rw [← h.keys]
  simp [Dict.keys]

theorem envTransFromEnvTs_ok {F : FTS} {bs ba : Bool} {var : String} (hF : F.Good bs ba var)
    (hdom : ∀ k dom, (k, dom) ∈ F.actions → isSys k = true → dom ≠ [])
    {ids : Dict Elem (List Char)}
    {S : Elem → Trace → Nat → Prop} (hS : IdsFor ids S) {sysIds envIds : ActionIds}
    (hA : TypesFor sysIds envIds (ActionAt F ba))
    (hsys : List.Forall₂ (TypeOk F ba) (F.actions.filter (fun p => isSys p.1)) sysIds)
    {fs : List (List Char)} (h : envTransFromEnvTs F ids sysIds envIds = .ok fs) :
    (∀ e ∈ F.edges, e.src ∈ F.states → ∃ f, Dict.get? ids e.dst = some f) ∧
    Means fs (fun σ i => ∀ s ∈ F.states, S s σ i → (∃ e ∈ F.edges, e.src = s ∧
      S e.dst σ (i + 1) ∧ EnvActs F ba σ i e) ∨ Blocked F ba s σ i) := by
  have hf := mapE_forall₂ h
  have key : ∀ s ∈ F.states, ∀ f, envStateTrans F ids sysIds envIds s = .ok f →
      (∀ e ∈ F.edges, e.src = s → ∃ f, Dict.get? ids e.dst = some f) ∧
      FormFor f (fun σ i => S s σ i → (∃ e ∈ F.edges, e.src = s ∧
      S e.dst σ (i + 1) ∧ EnvActs F ba σ i e) ∨ Blocked F ba s σ i) := by
    intro s _ f hs
    unfold envStateTrans at hs
    obtain ⟨id, h1, hs⟩ := bind_ok hs
    have hid := hS _ _ (lookupId_ok h1)
    simp only at hs
    by_cases hc : F.find s = []
    · rw [hc] at hs
      simp only [List.isEmpty_nil, if_true, pure_eq_ok, Except.ok.injEq] at hs
      subst hs
      have hno : ∀ e ∈ F.edges, ¬ e.src = s := by
        intro e he hse
        have := mem_find.2 ⟨he, hse⟩
        rw [hc] at this; simp at this
      refine ⟨fun e he hse => absurd hse (hno e he), (dead_form hid).congr fun σ i => ?_⟩
      refine imp_congr_right fun _ => ⟨False.elim, ?_⟩
      rintro (⟨e, he, hse, _⟩ | ⟨⟨e, he, hse⟩, _⟩)
      · exact hno e he hse
      · exact hno e he hse
    · have hc' : (F.find s).isEmpty = false := by simpa using hc
      rw [hc'] at hs
      simp only [Bool.false_eq_true, if_false] at hs
      obtain ⟨strs, h2, hs⟩ := bind_ok hs
      simp only [pure_eq_ok, Except.ok.injEq] at hs
      subst hs
      have h3 := forall₂_imp_mem (mapE_forall₂ h2)
        (fun e he f hf => envEdgeText_ok hS hA (hF.noActions e (mem_find.1 he).1) hf)
      obtain ⟨e0, he0⟩ := List.exists_mem_of_ne_nil _ hc
      have hfree : ((F.find s).any (fun e => (e.label.filter (fun p => isSys p.1)).isEmpty)) = false ↔
          ∀ e ∈ F.edges, e.src = s → ∃ k v, (k, v) ∈ e.label ∧ isSys k = true := by
        rw [List.any_eq_false]
        simp only [mem_find, List.isEmpty_iff, List.filter_eq_nil_iff, and_imp]
        refine forall_congr' fun e => imp_congr_right fun _ => imp_congr_right fun _ => ?_
        simp
      refine ⟨fun e he hse => (forall₂_mem_left h3 (mem_find.2 ⟨he, hse⟩)).elim fun _ h => h.2.1, ?_⟩
      have h3' := forall₂_imp_mem h3 (fun _ _ _ h => h.2)
      by_cases hb : (!((F.find s).any (fun e => (e.label.filter (fun p => isSys p.1)).isEmpty)) &&
          !sysIds.isEmpty) = true
      · rw [if_pos hb]
        simp only [Bool.and_eq_true, Bool.not_eq_true', hfree] at hb
        have h4 : List.Forall₂ (fun (p : String × List Elem) f => FormFor f (fun σ i =>
            ∀ v ∈ p.2, ¬ ActionAt F ba p.1 v σ i)) (F.actions.filter (fun p => isSys p.1))
            (sysIds.map (fun p => conjNeg (p.2.map (·.2)))) := by
          rw [List.forall₂_map_right_iff]
          refine forall₂_imp_mem hsys (fun p hp q hq => ?_)
          rw [List.mem_filter] at hp
          exact typeOk_conjNeg hq (hF.types p.1 p.2 hp.1).2.1 (hdom p.1 p.2 hp.1 hp.2)
        have h5 : FormFor (disj (strs ++ sysIds.map (fun p => conjNeg (p.2.map (·.2)))))
            (fun σ i => ∃ x ∈ (F.find s).map Sum.inl ++
              (F.actions.filter (fun p => isSys p.1)).map Sum.inr,
              Sum.elim (fun e : Edge => S e.dst σ (i + 1) ∧ ∀ k v, (k, v) ∈ e.label →
                (isSys k = true → ActionAt F ba k v σ i) ∧
                (isEnv k = true → ActionAt F ba k v σ (i + 1)))
              (fun p : String × List Elem => ∀ v ∈ p.2, ¬ ActionAt F ba p.1 v σ i) x) := by
          refine disj_of_forall₂ (P := fun x σ i => Sum.elim (fun e : Edge => S e.dst σ (i + 1) ∧
              ∀ k v, (k, v) ∈ e.label → (isSys k = true → ActionAt F ba k v σ i) ∧
                (isEnv k = true → ActionAt F ba k v σ (i + 1)))
              (fun p : String × List Elem => ∀ v ∈ p.2, ¬ ActionAt F ba p.1 v σ i) x)
            (by simp [hc]) (List.rel_append (R := fun x f => FormFor f _) ?_ ?_)
          · rw [List.forall₂_map_left_iff]
            exact h3'
          · rw [List.forall₂_map_left_iff]
            exact h4
        refine (imp_form hid.paren.form h5).congr fun σ i => imp_congr_right fun _ => ?_
        constructor
        · rintro ⟨x, hx, h6⟩
          rcases List.mem_append.1 hx with hx | hx
          · obtain ⟨e, he, rfl⟩ := List.mem_map.1 hx
            exact Or.inl ⟨e, (mem_find.1 he).1, (mem_find.1 he).2, h6⟩
          · obtain ⟨p, hp, rfl⟩ := List.mem_map.1 hx
            rw [List.mem_filter] at hp
            exact Or.inr ⟨⟨e0, mem_find.1 he0⟩, hb.1, p.1, p.2, hp.1, hp.2, h6⟩
        · rintro (⟨e, he, hse, h6⟩ | ⟨-, -, k, dom, h6, h7, h8⟩)
          · exact ⟨.inl e, by simp [mem_find, he, hse], h6⟩
          · exact ⟨.inr (k, dom), by simp [h6, h7], h8⟩
      · rw [if_neg hb]
        have h4 := disj_of_forall₂ hc h3'
        refine (imp_form hid.paren.form h4).congr fun σ i => imp_congr_right fun _ => ?_
        constructor
        · rintro ⟨e, he, h6⟩
          exact Or.inl ⟨e, (mem_find.1 he).1, (mem_find.1 he).2, h6⟩
        · rintro (⟨e, he, hse, h6⟩ | ⟨-, h6, k, dom, h7, h8, -⟩)
          · exact ⟨e, mem_find.2 ⟨he, hse⟩, h6⟩
          · exfalso
            apply hb
            simp only [Bool.and_eq_true, Bool.not_eq_true', hfree]
            refine ⟨h6, ?_⟩
            obtain ⟨q, hq, _⟩ := forall₂_mem_left hsys (x := (k, dom)) (by simp [h7, h8])
            cases sysIds with
            | nil => simp at hq
            | cons => rfl
  refine ⟨fun e he hs => ?_, means_of_forall₂ (forall₂_imp_mem hf (fun s hs f h => (key s hs f h).2))⟩
  obtain ⟨f, _, h1⟩ := forall₂_mem_left hf hs
  exact (key e.src hs f h1).1 e he rfl

/-- **C30.** The environment part of the specification returned by `env_to_spec` consists of
formulas. A trace on which no state is blocked satisfies it iff the trace follows an execution of
the transition system (from an initial state, unless initial states are to be ignored: then it
must be in some state at the start), and the environment actions respect `env_actions_must`. -/
theorem envToSpec_env {F : FTS} {ignore bs ba : Bool} {var : String} {g : GRSpec}
    (hF : F.Good bs ba var)
    (hdom : ∀ k dom, (k, dom) ∈ F.actions → isSys k = true → dom ≠ [])
    (h : envToSpec F ignore var bs ba = .ok g) :
    (∀ f ∈ g.envInit ++ g.envSafety, IsFormula f) ∧
    ∀ σ : Trace, (ignore = true → ∃ s ∈ F.states, Selected bs var σ 0 s) →
      (∀ i, ∀ s ∈ F.states, Selected bs var σ i s → ¬ Blocked F ba s σ i) →
      (((∀ f ∈ g.envInit, Holds σ 0 f) ∧ ∀ i, ∀ f ∈ g.envSafety, Holds σ i f) ↔
        (∃ r, Follows F bs var (EnvActs F ba) σ r ∧ (ignore = false → r 0 ∈ F.initial)) ∧
        ∀ i, TypesOk F ba isEnvOnly F.actions σ i) := by
  unfold envToSpec at h
  split at h
  · cases h
  split at h
  · cases h
  obtain ⟨a, h1, h⟩ := bind_ok h
  obtain ⟨r, h2, h⟩ := bind_ok h
  obtain ⟨init, h3, h⟩ := bind_ok h
  obtain ⟨trans, h4, h⟩ := bind_ok h
  obtain ⟨ap, h5, h⟩ := bind_ok h
  obtain ⟨apInit, apTrans⟩ := ap
  simp only [GRSpec.make] at h
  split at h
  swap
  · cases h
  cases h
  have ha := addTypes_ok hF (done := []) rfl (accOk_start F ba _ _) h1
  obtain ⟨hkeys, hids⟩ := iter2var_form h2 hF.states (by rw [usesBools_xor]; exact hF.var)
  obtain ⟨hcon, -⟩ := constraint_means h2 hF.states hF.statesNodup
  rw [usesBools_xor] at hids hcon
  have hS : IdsFor r.ids (fun x σ i => Selected bs var σ i x) := hids
  have hin : ∀ x, (∃ f, Dict.get? r.ids x = some f) → x ∈ F.states := by
    intro x hx
    rw [← hkeys]
    exact (Dict.mem_keys_iff _ _).2 hx
  obtain ⟨hini, mini⟩ := sysInitFromTs_ok hS h3
  obtain ⟨hclosed, mtrans⟩ := envTransFromEnvTs_ok hF hdom hS ha.typesFor ha.sysIds h4
  obtain ⟨map1, map2⟩ := apTransFromTs_ok hS hF.aps h5
  simp only at map1 map2
  have mI := (ha.envInit.append mini).append map1
  have mT := ((ha.envTrans.append hcon).append mtrans).append map2
  refine ⟨fun f hf => (List.mem_append.1 hf).elim (mI.formulas f) (mT.formulas f),
    fun σ hign hnb => ?_⟩
  have hclosed' : ∀ e ∈ F.edges, e.src ∈ F.states → e.dst ∈ F.states := fun e he hs =>
    hin _ (hclosed e he hs)
  have hfol := follows_iff (F := F) (bs := bs) (var := var) (acts := EnvActs F ba) (σ := σ)
    (P := fun s => ignore = false → s ∈ F.initial) hclosed'
  rw [← hfol]
  have hI := mI.holds σ 0
  have hT := fun i => mT.holds σ i
  simp only [hI, hT]
  constructor
  · rintro ⟨⟨⟨q1, q2⟩, q3⟩, q4⟩
    refine ⟨⟨?_, fun i => (q4 i).1.1.2, fun i s hs h7 => ((q4 i).1.2 s hs h7).resolve_right
      (hnb i s hs h7),
      always_iff.1 ⟨q3, fun i => (q4 i).2⟩⟩, always_iff.1 ⟨q1, fun i => (q4 i).1.1.1⟩⟩
    cases hi : ignore with
    | true =>
      obtain ⟨s, hs, h7⟩ := hign hi
      exact ⟨s, hs, by simp, h7⟩
    | false =>
      obtain ⟨s, hs, h7⟩ := q2 hi
      exact ⟨s, hin _ (hini hi s hs), fun _ => hs, h7⟩
  · rintro ⟨⟨q1, q2, q3, q4⟩, q5⟩
    refine ⟨⟨⟨q5 0, fun hi => ?_⟩, q4 0⟩, fun i => ⟨⟨⟨q5 (i + 1), q2 i⟩,
      fun s hs h7 => Or.inl (q3 i s hs h7)⟩, q4 (i + 1)⟩⟩
    obtain ⟨s, _, h7, h8⟩ := q1
    exact ⟨s, h7 hi, h8⟩

/-- **C30.** Every execution of the environment satisfies the assumptions, whether or not the
system blocks it; and in a state that is blocked, the assumptions do not constrain which state
comes next, nor the actions of the environment. -/
theorem envToSpec_step {F : FTS} {ignore bs ba : Bool} {var : String} {g : GRSpec}
    (hF : F.Good bs ba var)
    (hdom : ∀ k dom, (k, dom) ∈ F.actions → isSys k = true → dom ≠ [])
    (h : envToSpec F ignore var bs ba = .ok g) (σ : Trace) (i : Nat) :
    (∀ f ∈ g.envSafety, Holds σ i f) ↔
      TypesOk F ba isEnvOnly F.actions σ (i + 1) ∧
      MustOk bs .xor var F.states σ i ∧
      (∀ s ∈ F.states, Selected bs var σ i s →
        (∃ e ∈ F.edges, e.src = s ∧ Selected bs var σ (i + 1) e.dst ∧ EnvActs F ba σ i e) ∨
        Blocked F ba s σ i) ∧
      ∀ s ∈ F.states, Selected bs var σ (i + 1) s → ApsAt F s σ (i + 1) := by
  unfold envToSpec at h
  split at h
  · cases h
  split at h
  · cases h
  obtain ⟨a, h1, h⟩ := bind_ok h
  obtain ⟨r, h2, h⟩ := bind_ok h
  obtain ⟨init, h3, h⟩ := bind_ok h
  obtain ⟨trans, h4, h⟩ := bind_ok h
  obtain ⟨ap, h5, h⟩ := bind_ok h
  obtain ⟨apInit, apTrans⟩ := ap
  simp only [GRSpec.make] at h
  split at h
  swap
  · cases h
  cases h
  have ha := addTypes_ok hF (done := []) rfl (accOk_start F ba _ _) h1
  obtain ⟨hkeys, hids⟩ := iter2var_form h2 hF.states (by rw [usesBools_xor]; exact hF.var)
  obtain ⟨hcon, -⟩ := constraint_means h2 hF.states hF.statesNodup
  rw [usesBools_xor] at hids hcon
  have hS : IdsFor r.ids (fun x σ i => Selected bs var σ i x) := hids
  obtain ⟨hclosed, mtrans⟩ := envTransFromEnvTs_ok hF hdom hS ha.typesFor ha.sysIds h4
  obtain ⟨map1, map2⟩ := apTransFromTs_ok hS hF.aps h5
  simp only at map2
  have mT := ((ha.envTrans.append hcon).append mtrans).append map2
  refine (mT.holds σ i).trans ?_
  simp only [and_assoc]

/-- **C30.** The system part of the specification returned by `env_to_spec` says only that the
system actions respect `sys_actions_must`. -/
theorem envToSpec_sys {F : FTS} {ignore bs ba : Bool} {var : String} {g : GRSpec}
    (hF : F.Good bs ba var) (h : envToSpec F ignore var bs ba = .ok g) :
    (∀ f ∈ g.sysInit ++ g.sysSafety, IsFormula f) ∧
    ∀ σ : Trace, (((∀ f ∈ g.sysInit, Holds σ 0 f) ∧ ∀ i, ∀ f ∈ g.sysSafety, Holds σ i f) ↔
      ∀ i, TypesOk F ba isSys F.actions σ i) := by
  unfold envToSpec at h
  split at h
  · cases h
  split at h
  · cases h
  obtain ⟨a, h1, h⟩ := bind_ok h
  obtain ⟨r, h2, h⟩ := bind_ok h
  obtain ⟨init, h3, h⟩ := bind_ok h
  obtain ⟨trans, h4, h⟩ := bind_ok h
  obtain ⟨ap, h5, h⟩ := bind_ok h
  obtain ⟨apInit, apTrans⟩ := ap
  simp only [GRSpec.make] at h
  split at h
  swap
  · cases h
  cases h
  have ha := addTypes_ok hF (done := []) rfl (accOk_start F ba _ _) h1
  refine ⟨fun f hf => (List.mem_append.1 hf).elim (ha.sysInit.formulas f) (ha.sysTrans.formulas f),
    fun σ => ?_⟩
  have hI := ha.sysInit.holds σ 0
  have hT := fun i => ha.sysTrans.holds σ i
  simp only [hI, hT]
  exact always_iff

end Synth

end Tulip
