import Verif.Interfaces.StormProps
import Mathlib.Data.Rat.Lemmas
import Mathlib.Tactic.IntervalCases
import Mathlib.Algebra.Order.Ring.Unbundled.Rat
import Mathlib.Algebra.Order.Group.Unbundled.Abs

/-!
# Properties of model checking: probabilities and policies
-/

namespace Tulip
namespace Storm
open Comp Prism

section
variable {σ α : Type} [DecidableEq σ] [DecidableEq α]

/-! ## Spec -/

/-- State number `i` of the model of `stormpy` is the state `f i` of the system, and has its labels; other labels of it are
not atomic propositions of the system. -/
structure Represents (M : SModel) (m : Mod σ α) (f : Nat → σ) : Prop where
  inj : ∀ i j, i < M.states.length → j < M.states.length → f i = f j → i = j
  state : ∀ i s, M.states[i]? = some s → f i ∈ m.states
  labels : ∀ i s, M.states[i]? = some s → ∀ l, l ∈ m.ap (f i) ↔ l ∈ s.labels ∧ l ∈ m.aps

/-- No other state of the system has the labels of `q`. -/
def OnlyOne (m : Mod σ α) (q : σ) : Prop := ∀ q' ∈ m.states, (∀ l, l ∈ m.ap q' ↔ l ∈ m.ap q) → q' = q

/-- A transition of the system with the action `a` differs from what the model of `stormpy` says of the action named
`name`: both lead from a state to the same state, but the probabilities differ by more than a millionth. -/
def Contradicted (M : SModel) (m : Mod σ α) (f : Nat → σ) (name : String) (a : α) : Prop :=
  ∃ i s ts t e p, M.states[i]? = some s ∧ (name, ts) ∈ s.actions ∧ t ∈ ts ∧
    e ∈ m.edges ∧ e.1 = f i ∧ e.2.1 = f t.1 ∧ e.2.2.action = some a ∧ e.2.2.prob = some p ∧ 1 / 1000000 < |p - t.2|

/-- Contract of `stormpy`. `built p` are the values of the variable that it has states for, in order, and `val p formula v` is
the probability that the formula is true from the value `v`. The labels of a program have different names. -/
structure Contract (T : Tool) (built : Program → List Nat) (val : Program → List Char → Nat → Rat) : Prop where
  ok : ∀ text p formula pol, read text = some p → (p.labels.map (·.1)).Nodup → ∃ M r, T.build text = .ok M ∧ T.check text M formula pol = .ok r ∧
    M.states.length = (built p).length ∧
    (∀ (k v : Nat) s, (built p)[k]? = some v → M.states[k]? = some s →
      (∀ l ∈ p.labels, String.ofList l.1 ∈ s.labels ↔ v ∈ l.2)) ∧
    ∀ (k v : Nat), (built p)[k]? = some v → r.1 k = val p formula v
  values : ∀ p, (built p).Nodup ∧ ∀ v ∈ built p, v ≤ p.hi

/-! ## States -/

theorem sameSet_iff {a b : List String} : sameSet a b = true ↔ ∀ l, l ∈ a ↔ l ∈ b := by
  simp only [sameSet, Bool.and_eq_true, List.all_eq_true, decide_eq_true_eq]
  exact ⟨fun h l => ⟨h.1 l, h.2 l⟩, fun h => ⟨fun l => (h l).1, fun l => (h l).2⟩⟩

theorem filter_one {β : Type} {l : List β} (hl : l.Nodup) {p : β → Bool} {x : β} (hx : x ∈ l) (hp : p x = true)
    (h : ∀ y ∈ l, p y = true → y = x) : l.filter p = [x] := by
  have hn := hl.filter p
  have hm : ∀ y, y ∈ l.filter p ↔ y = x := by
    intro y
    rw [List.mem_filter]
    exact ⟨fun hy => h y hy.1 hy.2, fun e => e ▸ ⟨hx, hp⟩⟩
  exact List.perm_singleton.1 ((List.perm_ext_iff_of_nodup hn (by simp)).2 (by simpa using hm))

/-- **C101.** The state with the same labels is found if there is one such state, and `ValueError` is raised if there are more. -/
theorem toTulipState_spec {M : SModel} {m : Mod σ α} {f : Nat → σ} (hn : m.states.Nodup) (hR : Represents M m f) {i : Nat}
    {s : SState} (hs : M.states[i]? = some s) :
    (OnlyOne m (f i) → toTulipState m s = .ok (f i)) ∧ (¬ OnlyOne m (f i) → toTulipState m s = .error .valueError) := by
  have hsame : ∀ q, sameSet (m.ap q) (toTulipLabels m s) = true ↔ ∀ l, l ∈ m.ap q ↔ l ∈ m.ap (f i) := by
    intro q
    rw [sameSet_iff]
    refine forall_congr' fun l => ?_
    rw [hR.labels i s hs l]
    simp [toTulipLabels]
  have hmem := hR.state i s hs
  have hself : sameSet (m.ap (f i)) (toTulipLabels m s) = true := (hsame _).2 fun _ => Iff.rfl
  constructor
  · intro h
    have : m.states.filter (fun q => sameSet (m.ap q) (toTulipLabels m s)) = [f i] :=
      filter_one hn hmem hself fun y hy hp => h y hy ((hsame y).1 hp)
    simp only [toTulipState, this]
  · intro h
    simp only [OnlyOne, not_forall] at h
    obtain ⟨q, hq, hl, hne⟩ := h
    have h1 : f i ∈ m.states.filter fun q => sameSet (m.ap q) (toTulipLabels m s) := List.mem_filter.2 ⟨hmem, hself⟩
    have h2 : q ∈ m.states.filter fun q => sameSet (m.ap q) (toTulipLabels m s) := List.mem_filter.2 ⟨hq, (hsame q).2 hl⟩
    unfold toTulipState
    split
    · rename_i x hx
      rw [hx, List.mem_singleton] at h1 h2
      exact absurd (h2.trans h1.symm) hne
    · rfl

/-! ## Tables -/

theorem foldTable {γ β : Type} {A : γ → Except PyErr σ} {B : γ → Except PyErr β} (fa : γ → σ) (l : List γ)
    (hA : ∀ c ∈ l, A c = .ok (fa c)) (hB : ∀ c ∈ l, ∃ y, B c = .ok y) (hn : (l.map fa).Nodup) (d : Dict σ β) :
    ∃ d', l.foldlM (fun d c => do let q ← A c; let y ← B c; return tableAdd d q y) d = .ok d' ∧
      ∀ q x, d'.get? q = some x ↔ (∃ c ∈ l, fa c = q ∧ B c = .ok x) ∨ ((∀ c ∈ l, fa c ≠ q) ∧ d.get? q = some x) := by
  induction l generalizing d with
  | nil => exact ⟨d, rfl, by simp⟩
  | cons c l ih =>
    rw [List.map_cons, List.nodup_cons] at hn
    obtain ⟨y, hy⟩ := hB c (by simp)
    obtain ⟨d', h1, h2⟩ := ih (fun c hc => hA c (by simp [hc])) (fun c hc => hB c (by simp [hc])) hn.2 (d.set (fa c) y)
    refine ⟨d', ?_, ?_⟩
    · rw [List.foldlM_cons, hA c (by simp), ok_bind, hy, ok_bind, pure_eq_ok, ok_bind]
      exact h1
    · intro q x
      rw [h2, Dict.get?_set]
      simp only [List.mem_cons, exists_eq_or_imp, forall_eq_or_imp]
      by_cases hq : fa c = q
      · have : ∀ c' ∈ l, fa c' ≠ q := fun c' hc' e => hn.1 (List.mem_map.2 ⟨c', hc', e.trans hq.symm⟩)
        have h' : ¬ ∃ c' ∈ l, fa c' = q ∧ B c' = .ok x := fun ⟨c', hc', e, _⟩ => this c' hc' e
        simp only [hq, if_true, h', false_or, true_and, or_false, ne_eq, not_true, false_and, Option.some.injEq, hy,
          Except.ok.injEq]
        exact ⟨fun h => h.2, fun h => ⟨this, h⟩⟩
      · simp [hq]

theorem foldTable_error {γ β : Type} {A : γ → Except PyErr σ} {B : γ → Except PyErr β} {e : PyErr} (l : List γ)
    (hA : ∀ c ∈ l, (∃ q, A c = .ok q) ∨ A c = .error e) (hB : ∀ c ∈ l, (∃ y, B c = .ok y) ∨ B c = .error e)
    (hex : ∃ c ∈ l, A c = .error e ∨ B c = .error e) (d : Dict σ β) :
    l.foldlM (fun d c => do let q ← A c; let y ← B c; return tableAdd d q y) d = .error e := by
  induction l generalizing d with
  | nil => obtain ⟨c, hc, -⟩ := hex; cases hc
  | cons c l ih =>
    rw [List.foldlM_cons]
    rcases hA c (by simp) with ⟨q, hq⟩ | hq
    · rw [hq, ok_bind]
      rcases hB c (by simp) with ⟨y, hy⟩ | hy
      · rw [hy, ok_bind, pure_eq_ok, ok_bind]
        refine ih (fun c hc => hA c (by simp [hc])) (fun c hc => hB c (by simp [hc])) ?_ _
        obtain ⟨c', hc', h⟩ := hex
        rcases List.mem_cons.1 hc' with rfl | hc'
        · rw [hq, hy] at h
          rcases h with h | h <;> cases h
        · exact ⟨c', hc', h⟩
      · rw [hy, error_bind, error_bind]
    · rw [hq, error_bind, error_bind]

theorem zipIdx_mem {β : Type} {l : List β} {c : β × Nat} : c ∈ l.zipIdx ↔ l[c.2]? = some c.1 := by
  obtain ⟨x, i⟩ := c
  exact List.mem_zipIdx_iff_getElem?

theorem zipIdx_f {M : SModel} {m : Mod σ α} {f : Nat → σ} (hR : Represents M m f) :
    (M.states.zipIdx.map fun c => f c.2).Nodup := by
  have : (M.states.zipIdx.map fun c => f c.2) = (List.range' 0 M.states.length).map f := by
    rw [← List.zipIdx_map_snd, List.map_map]
    rfl
  rw [this]
  refine List.Nodup.map_on ?_ List.nodup_range'
  intro i hi j hj e
  rw [List.mem_range'_1] at hi hj
  exact hR.inj i j (by omega) (by omega) e

/-- **C101.** The table of probabilities has what `stormpy` found, for exactly the states that its model has; it is
returned if each of them is the only state with its labels, and else `ValueError` is raised. -/
theorem extractProbability_spec {M : SModel} {m : Mod σ α} {f : Nat → σ} (hn : m.states.Nodup) (hR : Represents M m f)
    (res : Nat → Rat) :
    ((∀ i < M.states.length, OnlyOne m (f i)) → ∃ d, extractProbability M m res = .ok d ∧
      ∀ q x, d.get? q = some x ↔ ∃ i < M.states.length, f i = q ∧ x = res i) ∧
    ((∃ i < M.states.length, ¬ OnlyOne m (f i)) → extractProbability M m res = .error .valueError) := by
  constructor
  · intro h
    obtain ⟨d, h1, h2⟩ := foldTable (A := fun c : SState × Nat => toTulipState m c.1) (B := fun c => .ok (res c.2))
      (fun c => f c.2) M.states.zipIdx
      (by
        intro c hc
        have hc := zipIdx_mem.1 hc
        exact (toTulipState_spec hn hR hc).1 (h _ (List.getElem?_eq_some_iff.1 hc).1))
      (fun _ _ => ⟨_, rfl⟩) (zipIdx_f hR) []
    refine ⟨d, h1, fun q x => ?_⟩
    rw [h2]
    simp only [Dict.get?_nil, reduceCtorEq, and_false, or_false]
    constructor
    · rintro ⟨c, hc, hq, hx⟩
      exact ⟨c.2, (List.getElem?_eq_some_iff.1 (zipIdx_mem.1 hc)).1, hq, (Except.ok.inj hx).symm⟩
    · rintro ⟨i, hi, hq, hx⟩
      exact ⟨(M.states[i], i), zipIdx_mem.2 (List.getElem?_eq_some_iff.2 ⟨hi, rfl⟩), hq, by rw [hx]⟩
  · rintro ⟨i, hi, hno⟩
    refine foldTable_error (A := fun c : SState × Nat => toTulipState m c.1) (B := fun c => .ok (res c.2)) M.states.zipIdx
      ?_ (fun _ _ => .inl ⟨_, rfl⟩)
      ⟨(M.states[i], i), zipIdx_mem.2 (List.getElem?_eq_some_iff.2 ⟨hi, rfl⟩), .inl ?_⟩ []
    · intro c hc
      have hc := zipIdx_mem.1 hc
      by_cases ho : OnlyOne m (f c.2)
      · exact .inl ⟨_, (toTulipState_spec hn hR hc).1 ho⟩
      · exact .inr ((toTulipState_spec hn hR hc).2 ho)
    · exact (toTulipState_spec hn hR (i := i) (List.getElem?_eq_some_iff.2 ⟨hi, rfl⟩)).2 hno

/-- A model that `stormpy` builds from a file represents the system that the file was written for. -/
theorem contract_represents {T : Tool} {built : Program → List Nat} {val : Program → List Char → Nat → Rat}
    (hT : Contract T built val) {m : Mod σ α} (hm : Exportable m) {r : Rat → Rat} {p : Program} (hp : Describes m r p)
    {M : SModel} (hlen : M.states.length = (built p).length)
    (hlab : ∀ (k v : Nat) s, (built p)[k]? = some v → M.states[k]? = some s →
      (∀ l ∈ p.labels, String.ofList l.1 ∈ s.labels ↔ v ∈ l.2)) (hap : ∀ s ∈ m.states, ∀ l ∈ m.ap s, l ∈ m.aps) :
    ∃ f : Nat → σ, Represents M m f ∧ ∀ (k v : Nat), (built p)[k]? = some v → m.states[v]? = some (f k) := by
  obtain ⟨s0, hs0, -⟩ := hm.initial
  have hex : ∀ k : Nat, ∃ q, ∀ v : Nat, (built p)[k]? = some v → m.states[v]? = some q := by
    intro k
    by_cases hk : k < (built p).length
    · have hv := (hT.values p).2 _ (List.getElem_mem hk)
      have hlt : (built p)[k] < m.states.length := by have := hp.range.2; omega
      refine ⟨m.states[(built p)[k]], fun v hv => ?_⟩
      obtain ⟨_, rfl⟩ := List.getElem?_eq_some_iff.1 hv
      exact List.getElem?_eq_some_iff.2 ⟨hlt, rfl⟩
    · exact ⟨s0, fun v hv => absurd (List.getElem?_eq_some_iff.1 hv).1 hk⟩
  choose f hf using hex
  refine ⟨f, ⟨?_, ?_, ?_⟩, hf⟩
  · intro i j hi hj e
    rw [hlen] at hi hj
    have h1 := hf i _ (List.getElem?_eq_some_iff.2 ⟨hi, rfl⟩)
    have h2 := hf j _ (List.getElem?_eq_some_iff.2 ⟨hj, rfl⟩)
    rw [getElem?_idx hm.states] at h1 h2
    have : (built p)[i] = (built p)[j] := by rw [← h1.2, ← h2.2, e]
    exact ((hT.values p).1.getElem_inj_iff).1 this
  · intro i s hs
    have hi := (List.getElem?_eq_some_iff.1 hs).1
    rw [hlen] at hi
    exact List.mem_of_getElem? (hf i _ (List.getElem?_eq_some_iff.2 ⟨hi, rfl⟩))
  · intro i s hs l
    have hi := (List.getElem?_eq_some_iff.1 hs).1
    rw [hlen] at hi
    have hv : (built p)[i]? = some (built p)[i] := List.getElem?_eq_some_iff.2 ⟨hi, rfl⟩
    have hq := hf i _ hv
    by_cases hl : l ∈ m.aps
    · have : l.toList ∈ p.labels.map (·.1) := by
        rw [hp.labelNames]
        exact List.mem_map.2 ⟨l, hl, rfl⟩
      obtain ⟨x, hx, hxl⟩ := List.mem_map.1 this
      have h1 := hlab i _ s hv hs x hx
      have h2 := hp.label x hx (built p)[i]
      rw [hxl, String.ofList_toList] at h1 h2
      simp only [hl, and_true]
      rw [h1, h2]
      constructor
      · intro h
        exact ⟨_, hq, h⟩
      · rintro ⟨q, hq', h⟩
        rw [hq] at hq'
        cases hq'
        exact h
    · simp only [hl, and_false, iff_false]
      exact fun h => hl (hap _ (List.mem_of_getElem? hq) l h)

/-- **C101.** Model checking returns, for exactly the states that `stormpy` has built, the probability that the formula is
true of the exported program, if each of them is the only state with its labels; else `ValueError` is raised. -/
theorem modelChecking_prob {T : Tool} {built : Program → List Nat} {val : Program → List Char → Nat → Rat}
    (hT : Contract T built val) {m : Mod σ α} (hm : Exportable m) (hap : ∀ s ∈ m.states, ∀ l ∈ m.ap s, l ∈ m.aps)
    (formula : List Char) : ∃ text p, toPrismFile m = .ok text ∧ read text = some p ∧
      Describes m (fun p => (round4 p : Rat) / 10000) p ∧
      ((∀ v ∈ built p, ∀ q, m.states[v]? = some q → OnlyOne m q) → ∃ d, modelChecking T m formula false = .ok (d, none) ∧
        ∀ q x, d.get? q = some x ↔ ∃ v ∈ built p, m.states[v]? = some q ∧ x = val p formula v) ∧
      ((∃ v ∈ built p, ∃ q, m.states[v]? = some q ∧ ¬ OnlyOne m q) →
        modelChecking T m formula false = .error .valueError) := by
  obtain ⟨text, p, h1, h2, h3⟩ := toPrismFile_describes hm
  obtain ⟨M, r, b1, b2, b3, b4, b5⟩ := hT.ok text p formula false h2 (by
    rw [h3.labelNames]
    exact hm.aps.map fun _ _ e => String.toList_inj.1 e)
  obtain ⟨f, hR, hf⟩ := contract_represents hT hm h3 b3 b4 hap
  obtain ⟨e1, e2⟩ := extractProbability_spec hm.states hR r.1
  have hidx : ∀ {k : Nat}, k < M.states.length → ∃ v ∈ built p, (built p)[k]? = some v ∧ m.states[v]? = some (f k) := by
    intro k hk
    rw [b3] at hk
    have hv : (built p)[k]? = some (built p)[k] := List.getElem?_eq_some_iff.2 ⟨hk, rfl⟩
    exact ⟨_, List.getElem_mem hk, hv, hf k _ hv⟩
  have hidx' : ∀ v ∈ built p, ∃ k, k < M.states.length ∧ (built p)[k]? = some v ∧ m.states[v]? = some (f k) := by
    intro v hv
    obtain ⟨k, hk, e⟩ := List.getElem_of_mem hv
    have hv : (built p)[k]? = some v := List.getElem?_eq_some_iff.2 ⟨hk, e⟩
    exact ⟨k, by omega, hv, hf k _ hv⟩
  refine ⟨text, p, h1, h2, h3, ?_, ?_⟩
  · intro h
    obtain ⟨d, hd, hget⟩ := e1 (by
      intro i hi
      obtain ⟨v, hv, -, hq⟩ := hidx hi
      exact h v hv _ hq)
    refine ⟨d, ?_, ?_⟩
    · simp only [modelChecking, h1, b1, b2, hd, ok_bind, Bool.false_eq_true, if_false, pure_eq_ok]
    · intro q x
      rw [hget]
      constructor
      · rintro ⟨i, hi, rfl, rfl⟩
        obtain ⟨v, hv, hk, hq⟩ := hidx hi
        exact ⟨v, hv, hq, b5 i v hk⟩
      · rintro ⟨v, hv, hq, rfl⟩
        obtain ⟨k, hk, hkv, hq'⟩ := hidx' v hv
        rw [hq] at hq'
        exact ⟨k, hk, (Option.some.inj hq').symm, (b5 k v hkv).symm⟩
  · rintro ⟨v, hv, q, hq, hno⟩
    obtain ⟨k, hk, hkv, hq'⟩ := hidx' v hv
    rw [hq] at hq'
    cases hq'
    have := e2 ⟨k, hk, hno⟩
    simp only [modelChecking, h1, b1, b2, this, ok_bind, error_bind]

/-! ## Actions -/

/-- What is needed to find the actions of a decision process: its transitions have a probability and an action, and the
states of the model of `stormpy` are told apart by their labels. -/
structure Actionable (M : SModel) (m : Mod σ α) (f : Nat → σ) : Prop where
  kind : m.kind = .mdp
  states : m.states.Nodup
  actions : m.actions.Nodup
  edges : ∀ e ∈ m.edges, e.2.2.prob.isSome ∧ e.2.2.action.isSome
  columns : ∀ s ∈ M.states, ∀ a ∈ s.actions, ∀ t ∈ a.2, t.1 < M.states.length
  rep : Represents M m f
  one : ∀ i < M.states.length, OnlyOne m (f i)

/-- Boolean form of a difference. -/
def hit (m : Mod σ α) (q q' : σ) (v : Rat) (a : α) : Bool :=
  m.edges.any fun e => decide (e.1 = q ∧ e.2.1 = q') && (differs (e.2.2.prob.getD 0) v && decide (e.2.2.action = some a))

theorem dropActions_eq (v : Rat) (es : List (σ × σ × EAttr α)) (h : ∀ e ∈ es, e.2.2.prob.isSome ∧ e.2.2.action.isSome)
    (l : List α) (hl : l.Nodup) : dropActions v l es = .ok (l.filter fun a =>
      !es.any fun e => differs (e.2.2.prob.getD 0) v && decide (e.2.2.action = some a)) := by
  induction es generalizing l with
  | nil => simp [dropActions]
  | cons e es ih =>
    have ih := ih fun e he => h e (by simp [he])
    obtain ⟨h1, h2⟩ := h e (by simp)
    obtain ⟨p, hp⟩ := Option.isSome_iff_exists.1 h1
    obtain ⟨a, ha⟩ := Option.isSome_iff_exists.1 h2
    simp only [dropActions, hp]
    by_cases hd : differs p v = true
    · rw [if_pos hd]
      simp only [ha]
      rw [ih _ (hl.erase a), hl.erase_eq_filter, List.filter_filter]
      congr 1
      refine List.filter_congr fun b _ => ?_
      simp only [List.any_cons, hp, ha, Option.getD_some, hd, Bool.true_and, Bool.not_or, Option.some.injEq]
      rw [Bool.and_comm]
      congr 1
      by_cases hab : a = b
      · subst hab; simp
      · have : ¬ b = a := fun e => hab e.symm
        simp [hab, this]
    · rw [if_neg hd, ih _ hl]
      congr 1
      refine List.filter_congr fun b _ => ?_
      simp only [List.any_cons, hp, Option.getD_some, eq_false_of_ne_true hd, Bool.false_and, Bool.false_or]

theorem updatePossible_eq {M : SModel} {m : Mod σ α} {f : Nat → σ} (h : Actionable M m f) (q : σ) (ts : List (Nat × Rat))
    (hts : ∀ t ∈ ts, t.1 < M.states.length) (l : List α) (hl : l.Nodup) :
    updatePossible M m q l ts = .ok (l.filter fun a => !ts.any fun t => hit m q (f t.1) t.2 a) := by
  unfold updatePossible
  induction ts generalizing l with
  | nil => simp
  | cons t ts ih =>
    have hlt := hts t (by simp)
    have hs : M.states[t.1]? = some M.states[t.1] := List.getElem?_eq_some_iff.2 ⟨hlt, rfl⟩
    have hst := (toTulipState_spec h.states h.rep hs).1 (h.one _ hlt)
    rw [List.foldlM_cons]
    simp only [hs, hst, ok_bind]
    rw [dropActions_eq _ _ (fun e he => h.edges e (List.mem_filter.1 he).1) _ hl, ok_bind,
      ih (fun t ht => hts t (by simp [ht])) _ (hl.filter _), List.filter_filter]
    congr 1
    refine List.filter_congr fun a _ => ?_
    simp only [List.any_cons, Bool.not_or, hit, List.any_filter]
    rw [Bool.and_comm]

/-- Boolean form of `Contradicted` for some states. -/
def hits (m : Mod σ α) (f : Nat → σ) (ss : List (SState × Nat)) (name : String) (a : α) : Bool :=
  ss.any fun s => s.1.actions.any fun x => decide (x.1 = name) && x.2.any fun t => hit m (f s.2) (f t.1) t.2 a

/-- The names of the actions of some states. -/
def named (ss : List (SState × Nat)) (name : String) : Bool :=
  ss.any fun s => s.1.actions.any fun x => decide (x.1 = name)

/-- The invariant of the map. -/
def MapOk (m : Mod σ α) (seen : String → Bool) (bad : String → α → Bool) (d : Dict String (List α)) : Prop :=
  ∀ name, d.get? name = if seen name then some (m.actions.filter fun a => !bad name a) else none

theorem mapAction_ok {M : SModel} {m : Mod σ α} {f : Nat → σ} (h : Actionable M m f) (q : σ) {seen : String → Bool}
    {bad : String → α → Bool} {d : Dict String (List α)} (hd : MapOk m seen bad d) (hsb : ∀ n a, seen n = false → bad n a = false)
    (x : String × List (Nat × Rat)) (hx : ∀ t ∈ x.2, t.1 < M.states.length) :
    ∃ d', mapAction M m q d x = .ok d' ∧ MapOk m (fun n => seen n || decide (x.1 = n))
      (fun n a => bad n a || (decide (x.1 = n) && x.2.any fun t => hit m q (f t.1) t.2 a)) d' := by
  have final : ∀ l : List α, l = m.actions.filter (fun a => !(bad x.1 a || x.2.any fun t => hit m q (f t.1) t.2 a)) →
      MapOk m (fun n => seen n || decide (x.1 = n))
      (fun n a => bad n a || (decide (x.1 = n) && x.2.any fun t => hit m q (f t.1) t.2 a)) (d.set x.1 l) := by
    rintro l rfl name
    rw [Dict.get?_set]
    by_cases hn : x.1 = name
    · subst hn
      simp
    · simp only [hn, if_false, decide_false, Bool.or_false, Bool.false_and]
      exact hd name
  unfold mapAction
  have hget := hd x.1
  cases hs : seen x.1 with
  | true =>
    rw [hs, if_pos rfl] at hget
    rw [hget]
    dsimp only
    rw [updatePossible_eq h q x.2 hx _ (h.actions.filter _), ok_bind, pure_eq_ok]
    refine ⟨_, rfl, final _ ?_⟩
    rw [List.filter_filter]
    refine List.filter_congr fun a _ => ?_
    rw [Bool.not_or, Bool.and_comm]
  | false =>
    rw [hs, if_neg (by simp)] at hget
    rw [hget]
    dsimp only
    rw [if_neg (by simp [h.kind]), updatePossible_eq h q x.2 hx _ h.actions, ok_bind, pure_eq_ok]
    refine ⟨_, rfl, final _ ?_⟩
    refine List.filter_congr fun a _ => ?_
    rw [hsb _ _ hs, Bool.false_or]

theorem mapActions_ok {M : SModel} {m : Mod σ α} {f : Nat → σ} (h : Actionable M m f) (q : σ)
    (xs : List (String × List (Nat × Rat))) {seen : String → Bool}
    {bad : String → α → Bool} {d : Dict String (List α)} (hd : MapOk m seen bad d) (hsb : ∀ n a, seen n = false → bad n a = false)
    (hx : ∀ x ∈ xs, ∀ t ∈ x.2, t.1 < M.states.length) :
    ∃ d', xs.foldlM (mapAction M m q) d = .ok d' ∧ MapOk m (fun n => seen n || xs.any fun x => decide (x.1 = n))
      (fun n a => bad n a || xs.any fun x => decide (x.1 = n) && x.2.any fun t => hit m q (f t.1) t.2 a) d' := by
  induction xs generalizing seen bad d with
  | nil => exact ⟨d, rfl, by simpa using hd⟩
  | cons x xs ih =>
    obtain ⟨d1, h1, h2⟩ := mapAction_ok h q hd hsb x (hx x (by simp))
    obtain ⟨d2, h3, h4⟩ := ih h2 (by
      intro n a hn
      rw [Bool.or_eq_false_iff] at hn
      rw [hsb n a hn.1, hn.2]
      rfl) fun x hx' => hx x (by simp [hx'])
    refine ⟨d2, by rw [List.foldlM_cons, h1, ok_bind]; exact h3, ?_⟩
    simpa only [List.any_cons, Bool.or_assoc] using h4

theorem actionMap_aux {M : SModel} {m : Mod σ α} {f : Nat → σ} (h : Actionable M m f)
    (ss : List (SState × Nat)) (hss : ∀ s ∈ ss, M.states[s.2]? = some s.1) {seen : String → Bool}
    {bad : String → α → Bool} {d : Dict String (List α)} (hd : MapOk m seen bad d) (hsb : ∀ n a, seen n = false → bad n a = false) :
    ∃ d', (ss.map (·.1)).foldlM (fun d s => do
      let q ← toTulipState m s
      s.actions.foldlM (mapAction M m q) d) d = .ok d' ∧ MapOk m (fun n => seen n || named ss n)
      (fun n a => bad n a || hits m f ss n a) d' := by
  induction ss generalizing seen bad d with
  | nil => exact ⟨d, rfl, by simpa [named, hits] using hd⟩
  | cons s ss ih =>
    have hs := hss s (by simp)
    have hlt := (List.getElem?_eq_some_iff.1 hs).1
    obtain ⟨d1, h1, h2⟩ := mapActions_ok h (f s.2) s.1.actions hd hsb (h.columns s.1 (List.mem_of_getElem? hs))
    obtain ⟨d2, h3, h4⟩ := ih (fun s hs => hss s (by simp [hs])) h2 (by
      intro n a hn
      rw [Bool.or_eq_false_iff] at hn
      rw [hsb n a hn.1, Bool.false_or]
      rw [List.any_eq_false] at hn ⊢
      intro x hx
      have := hn.2 x hx
      simp only [Bool.not_eq_true] at this ⊢
      rw [this, Bool.false_and])
    refine ⟨d2, ?_, ?_⟩
    · rw [List.map_cons, List.foldlM_cons, (toTulipState_spec h.states h.rep hs).1 (h.one _ hlt), ok_bind, h1, ok_bind]
      exact h3
    · simpa only [named, hits, List.any_cons, Bool.or_assoc] using h4

theorem hits_iff {M : SModel} {m : Mod σ α} {f : Nat → σ} (hp : ∀ e ∈ m.edges, e.2.2.prob.isSome) (name : String) (a : α) :
    hits m f M.states.zipIdx name a = true ↔ Contradicted M m f name a := by
  simp only [hits, hit, List.any_eq_true, Bool.and_eq_true, decide_eq_true_eq, differs, Contradicted, zipIdx_mem]
  constructor
  · rintro ⟨⟨s, i⟩, hs, ⟨n, ts⟩, hx, rfl, t, ht, e, he, ⟨h1, h2⟩, h3, h4⟩
    obtain ⟨p, hpe⟩ := Option.isSome_iff_exists.1 (hp e he)
    rw [hpe] at h3
    exact ⟨i, s, ts, t, e, p, hs, hx, ht, he, h1, h2, h4, hpe, h3⟩
  · rintro ⟨i, s, ts, t, e, p, hs, hx, ht, he, h1, h2, h4, hpe, h3⟩
    exact ⟨(s, i), hs, (name, ts), hx, rfl, t, ht, e, he, ⟨h1, h2⟩, by rw [hpe]; exact h3, h4⟩

theorem named_iff {M : SModel} (name : String) :
    named M.states.zipIdx name = true ↔ ∃ s ∈ M.states, name ∈ s.actions.map (·.1) := by
  simp only [named, List.any_eq_true, decide_eq_true_eq, zipIdx_mem, List.mem_map]
  constructor
  · rintro ⟨⟨s, i⟩, hs, x, hx, rfl⟩
    exact ⟨s, List.mem_of_getElem? hs, x, hx, rfl⟩
  · rintro ⟨s, hs, x, hx, rfl⟩
    obtain ⟨i, hi, e⟩ := List.getElem_of_mem hs
    exact ⟨(s, i), List.getElem?_eq_some_iff.2 ⟨hi, e⟩, x, hx, rfl⟩

/-- **C102.** The map of actions: to a name of an action of the model of `stormpy` belong the actions, in order, that are not
contradicted by their transitions. -/
theorem getActionMap_spec {M : SModel} {m : Mod σ α} {f : Nat → σ} (h : Actionable M m f) :
    ∃ d, getActionMap M m = .ok d ∧ ∀ name,
      ((∃ s ∈ M.states, name ∈ s.actions.map (·.1)) → ∃ l, d.get? name = some l ∧ l.Sublist m.actions ∧
        ∀ a, a ∈ l ↔ a ∈ m.actions ∧ ¬ Contradicted M m f name a) ∧
      ((¬ ∃ s ∈ M.states, name ∈ s.actions.map (·.1)) → d.get? name = none) := by
  obtain ⟨d, h1, h2⟩ := actionMap_aux h M.states.zipIdx (fun s hs => zipIdx_mem.1 hs) (seen := fun _ => false)
    (bad := fun _ _ => false) (d := []) (fun _ => rfl) (fun _ _ _ => rfl)
  have hfst : M.states.zipIdx.map (·.1) = M.states := List.zipIdx_map_fst 0 M.states
  rw [hfst] at h1
  refine ⟨d, h1, fun name => ?_⟩
  have hg := h2 name
  simp only [Bool.false_or] at hg
  constructor
  · intro hn
    rw [if_pos ((named_iff name).2 hn)] at hg
    refine ⟨_, hg, List.filter_sublist, fun a => ?_⟩
    rw [List.mem_filter, Bool.not_eq_true', ← Bool.not_eq_true, hits_iff fun e he => (h.edges e he).1]
  · intro hn
    rw [if_neg (fun h => hn ((named_iff name).1 h))] at hg
    exact hg

theorem toTulipAction_spec {M : SModel} {m : Mod σ α} {f : Nat → σ} {d : Dict String (List α)} {name : String}
    {l : List α} (hl : d.get? name = some l) (hmem : ∀ a, a ∈ l ↔ a ∈ m.actions ∧ ¬ Contradicted M m f name a) :
    (∀ a, toTulipAction d name = .ok a → a ∈ m.actions ∧ ¬ Contradicted M m f name a) ∧
    ((∃ a ∈ m.actions, ¬ Contradicted M m f name a) → ∃ a, toTulipAction d name = .ok a) ∧
    ((∀ a ∈ m.actions, Contradicted M m f name a) → toTulipAction d name = .error .valueError) := by
  unfold toTulipAction
  rw [hl]
  cases l with
  | nil =>
    refine ⟨?_, ?_, fun _ => rfl⟩
    · intro a h; cases h
    · rintro ⟨a, ha, hn⟩
      exact absurd ((hmem a).2 ⟨ha, hn⟩) (by simp)
  | cons b l =>
    refine ⟨?_, fun _ => ⟨b, rfl⟩, ?_⟩
    · intro a h
      cases h
      exact (hmem b).1 (by simp)
    · intro hall
      have := (hmem b).1 (by simp)
      exact absurd (hall b this.1) this.2

/-- **C102.** A policy is returned exactly if for each choice of the scheduler there is an action that is not contradicted; it
has an entry for each state of the model of `stormpy` and for no other, which is such an action. Else `ValueError` is
raised. -/
theorem extractPolicy_spec {M : SModel} {m : Mod σ α} {f : Nat → σ} (h : Actionable M m f) {sched : Nat → String}
    (hsched : ∀ i s, M.states[i]? = some s → sched i ∈ s.actions.map (·.1)) :
    ((∀ i < M.states.length, ∃ a ∈ m.actions, ¬ Contradicted M m f (sched i) a) →
      ∃ pol, extractPolicy M m (some sched) = .ok pol ∧
        (∀ q, (∃ a, pol.get? q = some a) ↔ ∃ i < M.states.length, f i = q) ∧
        ∀ i < M.states.length, ∀ a, pol.get? (f i) = some a → a ∈ m.actions ∧ ¬ Contradicted M m f (sched i) a) ∧
    ((∃ i < M.states.length, ∀ a ∈ m.actions, Contradicted M m f (sched i) a) →
      extractPolicy M m (some sched) = .error .valueError) := by
  obtain ⟨d, h1, h2⟩ := getActionMap_spec h
  have hact : ∀ i < M.states.length, ∃ l, d.get? (sched i) = some l ∧
      ∀ a, a ∈ l ↔ a ∈ m.actions ∧ ¬ Contradicted M m f (sched i) a := by
    intro i hi
    have hs : M.states[i]? = some M.states[i] := List.getElem?_eq_some_iff.2 ⟨hi, rfl⟩
    obtain ⟨l, hl, -, hm⟩ := (h2 (sched i)).1 ⟨_, List.getElem_mem hi, hsched i _ hs⟩
    exact ⟨l, hl, hm⟩
  have hst : ∀ c ∈ M.states.zipIdx, toTulipState m c.1 = .ok (f c.2) := by
    intro c hc
    have hc := zipIdx_mem.1 hc
    exact (toTulipState_spec h.states h.rep hc).1 (h.one _ (List.getElem?_eq_some_iff.1 hc).1)
  have hlt : ∀ c ∈ M.states.zipIdx, c.2 < M.states.length :=
    fun c hc => (List.getElem?_eq_some_iff.1 (zipIdx_mem.1 hc)).1
  constructor
  · intro hex
    obtain ⟨pol, p1, p2⟩ := foldTable (A := fun c : SState × Nat => toTulipState m c.1)
      (B := fun c => toTulipAction d (sched c.2)) (fun c => f c.2) M.states.zipIdx hst
      (by
        intro c hc
        obtain ⟨l, hl, hm⟩ := hact _ (hlt c hc)
        exact (toTulipAction_spec hl hm).2.1 (hex _ (hlt c hc))) (zipIdx_f h.rep) []
    simp only [Dict.get?_nil, reduceCtorEq, and_false, or_false] at p2
    refine ⟨pol, by simp only [extractPolicy, h1, ok_bind]; exact p1, ?_, ?_⟩
    · intro q
      constructor
      · rintro ⟨a, ha⟩
        obtain ⟨c, hc, hq, -⟩ := (p2 q a).1 ha
        exact ⟨c.2, hlt c hc, hq⟩
      · rintro ⟨i, hi, hq⟩
        obtain ⟨l, hl, hm⟩ := hact _ hi
        obtain ⟨a, ha⟩ := (toTulipAction_spec hl hm).2.1 (hex _ hi)
        exact ⟨a, (p2 q a).2 ⟨(M.states[i], i), zipIdx_mem.2 (List.getElem?_eq_some_iff.2 ⟨hi, rfl⟩), hq, ha⟩⟩
    · intro i hi a ha
      obtain ⟨c, hc, hq, hB⟩ := (p2 (f i) a).1 ha
      have := h.rep.inj _ _ (hlt c hc) hi hq
      subst this
      obtain ⟨l, hl, hm⟩ := hact _ hi
      exact (toTulipAction_spec hl hm).1 a hB
  · rintro ⟨i, hi, hall⟩
    have := foldTable_error (A := fun c : SState × Nat => toTulipState m c.1)
      (B := fun c => toTulipAction d (sched c.2)) (e := .valueError) M.states.zipIdx (fun c hc => .inl ⟨_, hst c hc⟩)
      (by
        intro c hc
        obtain ⟨l, hl, hm⟩ := hact _ (hlt c hc)
        by_cases hx : ∃ a ∈ m.actions, ¬ Contradicted M m f (sched c.2) a
        · exact .inl ((toTulipAction_spec hl hm).2.1 hx)
        · refine .inr ((toTulipAction_spec hl hm).2.2 ?_)
          intro a ha
          by_contra hn
          exact hx ⟨a, ha, hn⟩)
      ⟨(M.states[i], i), zipIdx_mem.2 (List.getElem?_eq_some_iff.2 ⟨hi, rfl⟩), .inr (by
        obtain ⟨l, hl, hm⟩ := hact _ hi
        exact (toTulipAction_spec hl hm).2.2 hall)⟩ []
    simp only [extractPolicy, h1, ok_bind]
    exact this

/-- **C102.** If no other action than `a` could be meant by the choice of the scheduler in a state, and the transitions of `a` are
those of the choice, then the policy has `a`. -/
theorem extractPolicy_exact {M : SModel} {m : Mod σ α} {f : Nat → σ} (h : Actionable M m f) {sched : Nat → String}
    (hsched : ∀ i s, M.states[i]? = some s → sched i ∈ s.actions.map (·.1)) {meant : String → α}
    (hmeant : ∀ s ∈ M.states, ∀ x ∈ s.actions, meant x.1 ∈ m.actions)
    (hsame : ∀ i s, M.states[i]? = some s → ∀ x ∈ s.actions, ∀ t ∈ x.2, ∀ e ∈ m.edges, e.1 = f i → e.2.1 = f t.1 →
      e.2.2.action = some (meant x.1) → e.2.2.prob = some t.2)
    (hother : ∀ s ∈ M.states, ∀ x ∈ s.actions, ∀ a ∈ m.actions, a ≠ meant x.1 → Contradicted M m f x.1 a) :
    ∃ pol, extractPolicy M m (some sched) = .ok pol ∧
      ∀ i < M.states.length, pol.get? (f i) = some (meant (sched i)) := by
  have hno : ∀ name, ¬ Contradicted M m f name (meant name) := by
    rintro name ⟨i, s, ts, t, e, p, hs, hx, ht, he, h1, h2, h3, h4, h5⟩
    have := hsame i s hs _ hx t ht e he h1 h2 h3
    rw [h4] at this
    cases this
    rw [sub_self, abs_zero] at h5
    revert h5
    decide +kernel
  have hname : ∀ i < M.states.length, ∃ s ∈ M.states, ∃ x ∈ s.actions, x.1 = sched i := by
    intro i hi
    obtain ⟨x, hx, e⟩ := List.mem_map.1 (hsched i _ (List.getElem?_eq_some_iff.2 ⟨hi, rfl⟩))
    exact ⟨_, List.getElem_mem hi, x, hx, e⟩
  obtain ⟨pol, h1, h2, h3⟩ := (extractPolicy_spec h hsched).1 (by
    intro i hi
    obtain ⟨s, hs, x, hx, e⟩ := hname i hi
    exact ⟨_, e ▸ hmeant s hs x hx, hno _⟩)
  refine ⟨pol, h1, fun i hi => ?_⟩
  obtain ⟨a, ha⟩ := (h2 (f i)).2 ⟨i, hi, rfl⟩
  obtain ⟨ha1, ha2⟩ := h3 i hi a ha
  obtain ⟨s, hs, x, hx, e⟩ := hname i hi
  rw [ha]
  congr 1
  by_contra hne
  rw [← e] at hne ha2
  exact ha2 (hother s hs x hx a ha1 hne)

/-- Without a scheduler there is no policy, and a Markov chain has no actions. -/
theorem extractPolicy_none (M : SModel) (m : Mod σ α) : extractPolicy M m none = .error .valueError := rfl

end

/-! ## Examples -/

/-- A tool that reads the program and has a state for each value of the variable. -/
def exTool (val : Program → List Char → Nat → Rat) : Tool where
  build text := match read text with
    | none => .error .runtime
    | some p => .ok {
        mtype := if p.mdp then .mdp else .dtmc
        states := (List.range (p.hi + 1)).map fun v =>
          ⟨(p.labels.filter fun l => decide (v ∈ l.2)).map fun l => String.ofList l.1,
            (p.commands.filter fun c => c.guard == v).map fun c =>
              (String.ofList c.action, c.updates.map fun u => (u.2, u.1))⟩
        initial := [p.init] }
  check text _ formula _ := match read text with
    | none => .error .runtime
    | some p => .ok (fun k => val p formula k, none)

theorem label_unique {p : Program} (h : (p.labels.map (·.1)).Nodup) {l l' : List Char × List Nat} (hl : l ∈ p.labels)
    (hl' : l' ∈ p.labels) (e : l.1 = l'.1) : l = l' := List.inj_on_of_nodup_map h hl hl' e

/-- The contract can be met. -/
theorem exTool_contract (val : Program → List Char → Nat → Rat) :
    Contract (exTool val) (fun p => List.range (p.hi + 1)) val where
  ok := by
    intro text p formula pol hr hn
    refine ⟨_, _, by simp only [exTool, hr]; rfl, by simp only [exTool, hr]; rfl, by simp, ?_, ?_⟩
    · intro k v s hv hs l hl
      rw [List.getElem?_map] at hs
      rw [hv] at hs
      cases hs
      simp only [List.mem_map, List.mem_filter, decide_eq_true_eq]
      constructor
      · rintro ⟨l', ⟨hl', hv'⟩, e⟩
        have : l' = l := label_unique hn hl' hl (String.ofList_inj.1 e)
        exact this ▸ hv'
      · intro h
        exact ⟨l, ⟨hl, h⟩, rfl⟩
    · intro k v hv
      obtain ⟨hk, e⟩ := List.getElem?_eq_some_iff.1 hv
      rw [List.getElem_range] at e
      rw [e]
  values := fun p => ⟨List.nodup_range, fun v hv => by rw [List.mem_range] at hv; omega⟩

/-- The states of the example are told apart by their labels. -/
theorem exMdp_one : ∀ q ∈ exMdp.states, OnlyOne exMdp q := by
  intro q hq q' hq' h
  simp only [exMdp, List.mem_cons, List.not_mem_nil, or_false] at hq hq'
  have := h "home"
  rcases hq with rfl | rfl <;> rcases hq' with rfl | rfl
  · rfl
  · exact absurd (this.2 (by decide)) (by decide)
  · exact absurd (this.1 (by decide)) (by decide)
  · rfl

example (val : Program → List Char → Nat → Rat) : ∃ d p, modelChecking (exTool val) exMdp c!"Pmax=? [F \"home\"]" false = .ok (d, none) ∧
    d.get? "b" = some (val p c!"Pmax=? [F \"home\"]" 1) := by
  obtain ⟨text, p, h1, h2, h3, h4, -⟩ := modelChecking_prob (exTool_contract val) exMdp_exportable (by decide +kernel)
    c!"Pmax=? [F \"home\"]"
  obtain ⟨d, hd, hg⟩ := h4 fun v _ q hq => exMdp_one q (List.mem_of_getElem? hq)
  refine ⟨d, p, hd, (hg _ _).2 ⟨1, ?_, rfl, rfl⟩⟩
  have := h3.range.2
  rw [List.mem_range, this]
  decide

/-- Two states without labels cannot be told apart. -/
theorem modelChecking_labels_counterexample (val : Program → List Char → Nat → Rat) :
    modelChecking (exTool val) exThird [] false = .error .valueError := by
  obtain ⟨text, p, h1, h2, h3, -, h5⟩ := modelChecking_prob (exTool_contract val) exThird_exportable (by decide +kernel) []
  refine h5 ⟨0, by simp, 0, rfl, ?_⟩
  intro h
  have := h 1 (by decide) fun l => Iff.rfl
  revert this
  decide

/-- A state that `stormpy` does not build, because it is not reachable, has no entry. -/
theorem modelChecking_unreachable_counterexample {T : Tool} {val : Program → List Char → Nat → Rat}
    {built : Program → List Nat} (hT : Contract T built val) (formula : List Char)
    (hb : ∀ p : Program, p.init = 0 → p.prob c!"act0" 0 0 = 1 → built p = [0]) :
    ∃ d, modelChecking T { exMdp with initial := ["a"] } formula false = .ok (d, none) ∧ d.get? "b" = none := by
  have hm : Exportable { exMdp with initial := ["a"] } :=
    { exMdp_exportable with initial := ⟨"a", by decide +kernel, rfl⟩ }
  obtain ⟨text, p, h1, h2, h3, h4, -⟩ := modelChecking_prob hT hm (by decide +kernel) formula
  obtain ⟨d, hd, hg⟩ := h4 fun v _ q hq => exMdp_one q (List.mem_of_getElem? hq)
  have hi : p.init = 0 := by
    obtain ⟨s, hs, hs'⟩ := h3.init
    cases hs'
    have := (getElem?_idx hm.states).1 hs
    rw [← this.2]
    decide
  have hp : p.prob c!"act0" 0 0 = 1 := by
    rw [h3.prob 0 0 "a" "a" (some "stop") c!"act0" rfl rfl ⟨rfl, 0, by decide, rfl, by decide +kernel⟩]
    decide +kernel
  refine ⟨d, hd, ?_⟩
  cases h : d.get? "b" with
  | none => rfl
  | some x =>
    obtain ⟨v, hv, hq, -⟩ := (hg _ _).1 h
    rw [hb p hi hp, List.mem_singleton] at hv
    subst hv
    exact absurd (Option.some.inj hq) (by decide)

/-! The policy. -/

/-- What is built for the example: the state `b` has both actions. -/
def exBuilt : SModel where
  mtype := .mdp
  states := [⟨["home"], [("0", [(0, 1)])]⟩, ⟨["init"], [("1", [(0, 3 / 4), (1, 1 / 4)]), ("0", [(1, 1)])]⟩]
  initial := [1]

/-- The states. -/
def exF : Nat → String := fun i => if i = 0 then "a" else "b"

theorem exBuilt_actionable : Actionable exBuilt exMdp exF where
  kind := rfl
  states := by decide +kernel
  actions := by decide +kernel
  edges := by decide +kernel
  columns := by decide +kernel
  rep := {
    inj := by
      intro i j hi hj h
      have hi : i < 2 := hi
      have hj : j < 2 := hj
      interval_cases i <;> interval_cases j <;> first | rfl | exact absurd h (by decide)
    state := by
      intro i s hs
      unfold exF
      split <;> decide
    labels := by
      intro i s hs l
      have hi : i < 2 := (List.getElem?_eq_some_iff.1 hs).1
      interval_cases i <;> cases hs
      · simp [exF, exMdp]
      · simp [exF, exMdp]
        rintro rfl
        decide }
  one := by
    intro i hi
    apply exMdp_one
    unfold exF
    split <;> decide

/-- The scheduler goes home, and the policy says so. -/
example : (extractPolicy exBuilt exMdp (some fun i => if i = 0 then "0" else "1")).toOption =
    some [("a", "stop"), ("b", "go")] := by decide +kernel

example : ∃ pol, extractPolicy exBuilt exMdp (some fun i => if i = 0 then "0" else "1") = .ok pol ∧
    ∀ i < exBuilt.states.length, ∀ a, pol.get? (exF i) = some a →
      a ∈ exMdp.actions ∧ ¬ Contradicted exBuilt exMdp exF (if i = 0 then "0" else "1") a := by
  obtain ⟨pol, h1, -, h3⟩ := (extractPolicy_spec exBuilt_actionable (sched := fun i => if i = 0 then "0" else "1") (by
      intro i s hs
      have hi : i < 2 := (List.getElem?_eq_some_iff.1 hs).1
      interval_cases i <;> cases hs <;> decide)).1 (by
    have h0 : hits exMdp exF exBuilt.states.zipIdx "0" "stop" = false := by decide +kernel
    have h1 : hits exMdp exF exBuilt.states.zipIdx "1" "go" = false := by decide +kernel
    have hp : ∀ e ∈ exMdp.edges, e.2.2.prob.isSome := by decide +kernel
    intro i hi
    have hi : i < 2 := hi
    interval_cases i
    · exact ⟨"stop", by decide, fun h => by rw [← hits_iff hp] at h; exact absurd h (by simp [h0])⟩
    · exact ⟨"go", by decide, fun h => by rw [← hits_iff hp] at h; exact absurd h (by simp [h1])⟩)
  exact ⟨pol, h1, h3⟩

/-- A decision process where the actions lead from `a` to different states. -/
def exFork : Mod String String where
  kind := .mdp
  states := ["a", "b", "c"]
  initial := ["a"]
  aps := ["b", "c"]
  ap := fun s => if s = "a" then [] else [s]
  actions := ["left", "right"]
  edges := [("a", "b", { prob := some 1, action := some "left" }), ("a", "c", { prob := some 1, action := some "right" }),
    ("b", "b", { prob := some 1, action := some "left" }), ("c", "c", { prob := some 1, action := some "left" })]

/-- What is built for it: the second choice of the state `a` leads to `c`. -/
def exForkBuilt : SModel where
  mtype := .mdp
  states := [⟨["init"], [("0", [(1, 1)]), ("1", [(2, 1)])]⟩, ⟨["b"], [("0", [(1, 1)])]⟩, ⟨["c"], [("0", [(2, 1)])]⟩]
  initial := [0]

/-- The scheduler goes to `c`, but the action of the policy leads to `b`: only transitions to the same states are compared, so
an action that does not lead to the target of the choice is not excluded. -/
theorem extractPolicy_wrong_counterexample :
    (extractPolicy exForkBuilt exFork (some fun i => if i = 0 then "1" else "0")).toOption =
      some [("a", "left"), ("b", "left"), ("c", "left")] ∧
    ∀ e ∈ exFork.edges, e.1 = "a" → e.2.2.action = some "left" → e.2.1 ≠ "c" := by decide +kernel

/-- Probabilities that four decimals do not give exactly are not found again: `ValueError`. -/
theorem extractPolicy_rounding_counterexample :
    (match extractPolicy { mtype := .mdp, states := [⟨["b"], [("0", [(0, 3333 / 10000), (1, 6667 / 10000)])]⟩,
        ⟨["c"], [("0", [(1, 1)])]⟩], initial := [0] }
      ({ exFork with states := ["b", "c"], actions := ["go"], edges := [
        ("b", "b", { prob := some (1 / 3), action := some "go" }), ("b", "c", { prob := some (2 / 3), action := some "go" }),
        ("c", "c", { prob := some 1, action := some "go" })] } : Mod String String) (some fun _ => "0") with
      | .error .valueError => true
      | _ => false) = true := by decide +kernel

/-- A Markov chain has no policy: `AttributeError`. -/
theorem extractPolicy_chain_counterexample :
    (match extractPolicy { mtype := .dtmc, states := [⟨["b"], [("0", [(0, 1)])]⟩], initial := [0] }
      ({ exFork with kind := .mc, states := ["b"], actions := [], edges := [("b", "b", { prob := some 1 })] } :
        Mod String String) (some fun _ => "0") with
      | .error .attribute => true
      | _ => false) = true := by decide +kernel

end Storm
end Tulip
