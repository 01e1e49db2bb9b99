import Verif.Transys.Simu
import Verif.Transys.ProductsProps
import Mathlib.Data.Finset.Powerset
import Mathlib.Data.Finset.Prod
import Mathlib.Data.Finset.Card
import Mathlib.Order.WellFounded

/-!
# C25, C26: bisimulation and dual-simulation abstractions
-/

namespace Tulip
namespace Simu

open LGraph Prod'

variable {ν V K : Type} [DecidableEq ν] [DecidableEq V] [DecidableEq K]

/-! ## Specification -/

/-- A transition of the input. -/
def Step (ts : LGraph ν V) (s t : ν) : Prop := ∃ a, (s, t, a) ∈ ts.edges

/-- The label of a state. -/
def Label (ts : LGraph ν V) (s : ν) (v : V) : Prop :=
  ∃ a, ts.nodes.get? s = some a ∧ a.get? "ap" = some v

/-- A symmetric relation between the states of the input that have labels of the same text, preserved by
transitions: a bisimulation. -/
structure Bisim (ts : LGraph ν V) (key : ν → K) (R : ν → ν → Prop) : Prop where
  symm : ∀ s t, R s t → R t s
  node : ∀ s t, R s t → ts.hasNode s = true → ts.hasNode t = true
  label : ∀ s t, R s t → key s = key t
  step : ∀ s t s', R s t → Step ts s s' → ∃ t', Step ts t t' ∧ R s' t'

/-! ## Invariants -/

theorem mem_preOf (ts : LGraph ν V) (c : List ν) (s : ν) : s ∈ preOf ts c ↔ ∃ t ∈ c, Step ts s t := by
  unfold preOf Step
  rw [mem_uniqueLoop, List.mem_map]
  constructor
  · rintro (h | ⟨⟨a, b, d⟩, h, rfl⟩)
    · simp at h
    · rw [List.mem_filter, decide_eq_true_eq] at h
      exact ⟨b, h.2, d, h.1⟩
  · rintro ⟨t, ht, a, h⟩
    exact .inr ⟨(s, t, a), List.mem_filter.2 ⟨h, by simpa using ht⟩, rfl⟩

/-- The invariant of the loop. -/
structure Inv (ts : LGraph ν V) (key : ν → K) (dual : Bool) (st : St ν) : Prop where
  nonempty : ∀ i < st.sol.length, cell st i ≠ []
  node : ∀ i < st.sol.length, ∀ s ∈ cell st i, ts.hasNode s = true
  homog : ∀ i < st.sol.length, ∀ s ∈ cell st i, ∀ t ∈ cell st i, key s = key t
  cover : ∀ s, ts.hasNode s = true → ∃ i < st.sol.length, s ∈ cell st i
  distinct : ∀ i < st.sol.length, ∀ j < st.sol.length, (∀ s, s ∈ cell st i ↔ s ∈ cell st j) → i = j
  disjoint : dual = false → ∀ i < st.sol.length, ∀ j < st.sol.length, ∀ s, s ∈ cell st i → s ∈ cell st j → i = j
  sound : ∀ j < st.sol.length, ∀ i < st.sol.length, st.tr j i = true → ∀ s ∈ cell st i, ∃ t ∈ cell st j, Step ts s t
  done : ∀ j < st.sol.length, ∀ i < st.sol.length, st.ij j i = false → st.tr j i = false →
    (∀ s ∈ cell st i, ¬ ∃ t ∈ cell st j, Step ts s t) ∨
      (dual = true ∧ ∃ k < st.sol.length, st.tr j k = true ∧
        ∀ s, s ∈ cell st k ↔ s ∈ cell st i ∧ ∃ t ∈ cell st j, Step ts s t)
  closed : ∀ R, Bisim ts key R → ∀ i < st.sol.length, ∀ s ∈ cell st i, ∀ t, R s t → t ∈ cell st i

theorem getD_ge (l : List (List ν)) {i : Nat} (h : l.length ≤ i) : l.getD i [] = [] := by
  rw [List.getD_eq_getElem?_getD, List.getElem?_eq_none h]; rfl

theorem getD_lt (l : List (List ν)) {i : Nat} (h : i < l.length) : l.getD i [] = l[i] := by
  rw [List.getD_eq_getElem?_getD, List.getElem?_eq_getElem h]; rfl

theorem cell_lt {st : St ν} {i : Nat} {s : ν} (h : s ∈ cell st i) : i < st.sol.length := by
  unfold cell at h
  by_contra hc
  rw [getD_ge _ (by omega)] at h
  simp at h

/-! ### The start -/

theorem group_spec (key : ν → K) (l : List ν) : ∀ (d : Dict K (List ν)) (done : List ν),
    (∀ k c, (k, c) ∈ d → c ≠ [] ∧ ∀ s, s ∈ c ↔ s ∈ done ∧ key s = k) → d.Wf → (∀ s ∈ done, d.has (key s) = true) →
    let d' := l.foldl (fun d s => d.set (key s) (((d.get? (key s)).getD []) ++ [s])) d
    (∀ k c, (k, c) ∈ d' → c ≠ [] ∧ ∀ s, s ∈ c ↔ s ∈ done ++ l ∧ key s = k) ∧ d'.Wf ∧
      (∀ s ∈ done ++ l, d'.has (key s) = true) := by
  induction l with
  | nil => intro d done h1 h2 h3; simpa using ⟨h1, h2, h3⟩
  | cons x l ih =>
    intro d done h1 h2 h3
    simp only [List.foldl_cons]
    have := ih (d.set (key x) (((d.get? (key x)).getD []) ++ [x])) (done ++ [x]) ?_ (Dict.wf_set h2 _ _) ?_
    · simpa only [List.append_assoc, List.singleton_append] using this
    · intro k c hkc
      have hk := get?_of_mem (Dict.wf_set h2 _ _) hkc
      rw [Dict.get?_set] at hk
      split at hk
      · rename_i e
        subst e
        cases hk
        refine ⟨by simp, ?_⟩
        intro s
        simp only [List.mem_append, List.mem_singleton]
        cases hd : d.get? (key x) with
        | none =>
          simp only [Option.getD_none, List.not_mem_nil, false_or]
          constructor
          · rintro rfl; exact ⟨.inr rfl, rfl⟩
          · rintro ⟨h | h, e⟩
            · have := h3 s h
              rw [has_eq, e, hd] at this
              cases this
            · exact h
        | some c =>
          have := (h1 _ _ (mem_of_get? hd)).2 s
          simp only [Option.getD_some, this]
          constructor
          · rintro (⟨h, e⟩ | rfl)
            · exact ⟨.inl h, e⟩
            · exact ⟨.inr rfl, rfl⟩
          · rintro ⟨h | h, e⟩
            · exact .inl ⟨h, e⟩
            · exact .inr h
      · rename_i hne
        obtain ⟨hc, hs⟩ := h1 _ _ (mem_of_get? hk)
        refine ⟨hc, fun s => ?_⟩
        rw [hs, List.mem_append, List.mem_singleton]
        constructor
        · rintro ⟨h, e⟩; exact ⟨.inl h, e⟩
        · rintro ⟨h | rfl, e⟩
          · exact ⟨h, e⟩
          · exact absurd e hne
    · intro s hs
      rw [has_eq, Dict.get?_set]
      split
      · rfl
      · rename_i hne
        rw [List.mem_append, List.mem_singleton] at hs
        rcases hs with hs | rfl
        · have := h3 s hs; rw [has_eq] at this; exact this
        · exact absurd rfl hne

theorem inv_start (ts : LGraph ν V) (key : ν → K) (dual : Bool) : Inv ts key dual (start ts key) := by
  obtain ⟨h1, h2, h3⟩ := group_spec key ts.nodes.keys [] [] (by simp) (by unfold Dict.Wf; simp [Dict.keys]) (by simp)
  have hmem : ∀ s, ts.hasNode s = true ↔ s ∈ ts.nodes.keys := fun s => (mem_keys_iff_has _ _).symm
  have hcell : ∀ i < (start ts key).sol.length, ∃ k, (k, cell (start ts key) i) ∈ group ts key ∧
      (group ts key)[i]? = some (k, cell (start ts key) i) := by
    intro i hi
    simp only [start, List.length_map] at hi
    refine ⟨((group ts key)[i]).1, ?_, ?_⟩
    · have : cell (start ts key) i = ((group ts key)[i]).2 := by
        simp only [cell, start]
        rw [getD_lt _ (by simpa using hi), List.getElem_map]
      rw [this]
      exact List.getElem_mem hi
    · have : cell (start ts key) i = ((group ts key)[i]).2 := by
        simp only [cell, start]
        rw [getD_lt _ (by simpa using hi), List.getElem_map]
      rw [this, List.getElem?_eq_getElem hi]
  have hspec : ∀ k c, (k, c) ∈ group ts key → c ≠ [] ∧ ∀ s, s ∈ c ↔ ts.hasNode s = true ∧ key s = k := by
    intro k c h
    obtain ⟨a, b⟩ := h1 k c h
    exact ⟨a, fun s => by rw [b, hmem]; simp⟩
  have hwf : (group ts key).Wf := h2
  have hdis : ∀ i < (start ts key).sol.length, ∀ j < (start ts key).sol.length, ∀ s,
      s ∈ cell (start ts key) i → s ∈ cell (start ts key) j → i = j := by
    intro i hi j hj s h h'
    obtain ⟨k, g1, g2⟩ := hcell i hi
    obtain ⟨k', g1', g2'⟩ := hcell j hj
    have e1 := (((hspec _ _ g1).2 s).1 h).2
    have e2 := (((hspec _ _ g1').2 s).1 h').2
    have hk : k = k' := e1.symm.trans e2
    subst hk
    have hnd : ((group ts key).keys).Nodup := hwf
    refine (List.Nodup.getElem_inj_iff hnd (hi := ?_) (hj := ?_)).1 ?_
    · simp only [start, List.length_map] at hi; simpa [Dict.keys] using hi
    · simp only [start, List.length_map] at hj; simpa [Dict.keys] using hj
    · simp only [Dict.keys, List.getElem_map]
      obtain ⟨q1, q2⟩ := List.getElem?_eq_some_iff.1 g2
      obtain ⟨q1', q2'⟩ := List.getElem?_eq_some_iff.1 g2'
      rw [q2, q2']
  refine ⟨?_, ?_, ?_, ?_, ?_, fun _ => hdis, ?_, ?_, ?_⟩
  · intro i hi
    obtain ⟨k, g1, _⟩ := hcell i hi
    exact (hspec _ _ g1).1
  · intro i hi s hs
    obtain ⟨k, g1, _⟩ := hcell i hi
    exact (((hspec _ _ g1).2 s).1 hs).1
  · intro i hi s hs t ht
    obtain ⟨k, g1, _⟩ := hcell i hi
    rw [(((hspec _ _ g1).2 s).1 hs).2, (((hspec _ _ g1).2 t).1 ht).2]
  · intro s hs
    have := h3 s (by simpa using (hmem s).1 hs)
    obtain ⟨c, hc⟩ := (Dict.has_iff _ _).1 this
    have hcm : (key s, c) ∈ group ts key := mem_of_get? hc
    obtain ⟨i, hi, he⟩ := List.getElem_of_mem hcm
    refine ⟨i, by simpa [start] using hi, ?_⟩
    have : cell (start ts key) i = c := by
      simp only [cell, start]
      rw [getD_lt _ (by simpa using hi), List.getElem_map, he]
    rw [this]
    exact ((hspec _ _ hcm).2 s).2 ⟨hs, rfl⟩
  · intro i hi j hj h
    obtain ⟨k, g1, _⟩ := hcell i hi
    obtain ⟨s, hs⟩ := List.exists_mem_of_ne_nil _ (hspec _ _ g1).1
    exact hdis i hi j hj s hs ((h s).1 hs)
  · intro j _ i _ h; simp [start] at h
  · intro j _ i _ h; simp [start] at h
  · intro R hR i hi s hs t hst
    obtain ⟨k, g1, _⟩ := hcell i hi
    obtain ⟨a, b⟩ := ((hspec _ _ g1).2 s).1 hs
    exact ((hspec _ _ g1).2 t).2 ⟨hR.node s t hst a, by rw [← hR.label s t hst, b]⟩

/-! ### A round -/

theorem inv_clear {ts : LGraph ν V} {key : ν → K} {dual : Bool} {st : St ν} (h : Inv ts key dual st) :
    Inv ts key dual (clear st) := by
  refine ⟨h.nonempty, h.node, h.homog, h.cover, h.distinct, h.disjoint, h.sound, ?_, h.closed⟩
  intro j hj i hi h1 h2
  refine h.done j hj i hi ?_ h2
  simp only [clear] at h1 h2
  rw [h2] at h1
  simpa using h1

/-- Marking a pair as decided. -/
theorem inv_true {ts : LGraph ν V} {key : ν → K} {dual : Bool} {st : St ν} (h : Inv ts key dual st) {j i k : Nat}
    (hk : ∀ s ∈ cell st k, ∃ t ∈ cell st j, Step ts s t) (hkl : k < st.sol.length)
    (hi : k = i ∨ dual = true ∧ ∀ s, s ∈ cell st k ↔ s ∈ cell st i ∧ ∃ t ∈ cell st j, Step ts s t) :
    Inv ts key dual { st with ij := put st.ij j i false, tr := put st.tr j k true } := by
  refine ⟨h.nonempty, h.node, h.homog, h.cover, h.distinct, h.disjoint, ?_, ?_, h.closed⟩
  · intro a ha b hb hab s hs
    simp only [put] at hab
    split at hab
    · rename_i e
      obtain ⟨rfl, rfl⟩ := e
      exact hk s hs
    · exact h.sound a ha b hb hab s hs
  · intro a ha b hb h1 h2
    simp only [put] at h1 h2
    split at h2
    · cases h2
    · rename_i hne
      split at h1
      · rename_i e
        obtain ⟨rfl, rfl⟩ := e
        rcases hi with rfl | ⟨hd, hi⟩
        · exact absurd ⟨rfl, rfl⟩ hne
        · exact .inr ⟨hd, k, hkl, by simp [put], hi⟩
      · rcases h.done a ha b hb h1 h2 with h' | ⟨hd, k', hk', ht, he⟩
        · exact .inl h'
        · refine .inr ⟨hd, k', hk', ?_, he⟩
          simp only [put]
          split
          · rfl
          · exact ht

theorem inv_false {ts : LGraph ν V} {key : ν → K} {dual : Bool} {st : St ν} (h : Inv ts key dual st) {j i : Nat}
    (hk : ∀ s ∈ cell st i, ¬ ∃ t ∈ cell st j, Step ts s t) :
    Inv ts key dual { st with ij := put st.ij j i false } := by
  refine ⟨h.nonempty, h.node, h.homog, h.cover, h.distinct, h.disjoint, h.sound, ?_, h.closed⟩
  intro a ha b hb h1 h2
  simp only [put] at h1
  split at h1
  · rename_i e
    obtain ⟨rfl, rfl⟩ := e
    exact .inl hk
  · exact h.done a ha b hb h1 h2

theorem getD_append_lt (l : List (List ν)) (x : List ν) {i : Nat} (h : i < l.length) :
    (l ++ [x]).getD i [] = l.getD i [] := by
  simp [List.getD_eq_getElem?_getD, List.getElem?_append_left h]

theorem getD_append_eq (l : List (List ν)) (x : List ν) : (l ++ [x]).getD l.length [] = x := by
  simp [List.getD_eq_getElem?_getD]

/-- The split for a dual simulation. -/
theorem inv_split_dual {ts : LGraph ν V} {key : ν → K} {st : St ν} (h : Inv ts key true st) {j i : Nat}
    (hj : j < st.sol.length) (hi : i < st.sol.length) {isect : List ν} (hne : isect ≠ [])
    (hs : ∀ s, s ∈ isect ↔ s ∈ cell st i ∧ ∃ t ∈ cell st j, Step ts s t)
    (hnew : ∀ k < st.sol.length, ¬ ∀ s, s ∈ isect ↔ s ∈ cell st k) :
    Inv ts key true (split true { st with ij := put st.ij j i false } j i isect) := by
  have hlen : (split true { st with ij := put st.ij j i false } j i isect).sol.length = st.sol.length + 1 := by
    simp [split]
  have hold : ∀ k, k < st.sol.length →
      cell (split true { st with ij := put st.ij j i false } j i isect) k = cell st k := by
    intro k hk
    simp only [cell, split, if_true]
    exact getD_append_lt _ _ hk
  have hnw : cell (split true { st with ij := put st.ij j i false } j i isect) st.sol.length = isect := by
    simp only [cell, split, if_true]
    exact getD_append_eq _ _
  have htr : ∀ a b, (split true { st with ij := put st.ij j i false } j i isect).tr a b = true ↔
      (a = j ∧ b = st.sol.length) ∨ (a ≠ st.sol.length ∧ st.tr a (if b = st.sol.length then i else b) = true) := by
    intro a b
    simp only [split, if_true, put]
    by_cases h1 : a = j ∧ b = st.sol.length
    · simp [h1]
    · rw [if_neg h1]
      by_cases h2 : b = st.sol.length
      · subst h2
        have : a ≠ j := fun e => h1 ⟨e, rfl⟩
        simp only [if_true, and_true, this, false_or]
        by_cases h3 : a = st.sol.length
        · simp [h3]
        · have : i ≠ st.sol.length := by omega
          simp [h3, this]
      · simp only [h2, if_false, and_false, false_or, or_false]
        by_cases h3 : a = st.sol.length
        · simp [h3]
        · simp [h3]
  have hij : ∀ a b, a < st.sol.length → b < st.sol.length →
      (split true { st with ij := put st.ij j i false } j i isect).ij a b = put st.ij j i false a b := by
    intro a b ha hb
    simp only [split, if_true]
    rw [if_neg (by omega)]
  have hijn : ∀ a b, a = st.sol.length ∨ b = st.sol.length →
      (split true { st with ij := put st.ij j i false } j i isect).ij a b = true := by
    intro a b hab
    simp only [split, if_true]
    rw [if_pos hab]
  generalize split true { st with ij := put st.ij j i false } j i isect = st' at *
  have hcase : ∀ k, k < st'.sol.length → k < st.sol.length ∨ k = st.sol.length := by
    intro k hk; omega
  refine ⟨?_, ?_, ?_, ?_, ?_, by simp, ?_, ?_, ?_⟩
  · intro k hk
    rcases hcase k hk with hk' | rfl
    · rw [hold k hk']; exact h.nonempty k hk'
    · rw [hnw]; exact hne
  · intro k hk s hs'
    rcases hcase k hk with hk' | rfl
    · rw [hold k hk'] at hs'; exact h.node k hk' s hs'
    · rw [hnw] at hs'; exact h.node i hi s ((hs s).1 hs').1
  · intro k hk s hs' t ht
    rcases hcase k hk with hk' | rfl
    · rw [hold k hk'] at hs' ht; exact h.homog k hk' s hs' t ht
    · rw [hnw] at hs' ht; exact h.homog i hi s ((hs s).1 hs').1 t ((hs t).1 ht).1
  · intro s hs'
    obtain ⟨k, hk, hsk⟩ := h.cover s hs'
    exact ⟨k, by omega, by rw [hold k hk]; exact hsk⟩
  · intro a ha b hb hab
    rcases hcase a ha with ha' | rfl <;> rcases hcase b hb with hb' | rfl
    · rw [hold a ha', hold b hb'] at hab; exact h.distinct a ha' b hb' hab
    · rw [hold a ha', hnw] at hab; exact absurd (fun s => (hab s).symm) (hnew a ha')
    · rw [hold b hb', hnw] at hab; exact absurd hab (hnew b hb')
    · rfl
  · intro a ha b hb hab s hs'
    rw [htr] at hab
    rcases hcase b hb with hb' | rfl
    · rw [hold b hb'] at hs'
      rw [if_neg (by omega)] at hab
      rcases hab with ⟨_, e⟩ | ⟨ha', hab⟩
      · omega
      · have ha'' : a < st.sol.length := by omega
        rw [hold a ha'']
        exact h.sound a ha'' b hb' hab s hs'
    · rw [hnw] at hs'
      rw [if_pos rfl] at hab
      rcases hab with ⟨rfl, _⟩ | ⟨ha', hab⟩
      · rw [hold a hj]; exact ((hs s).1 hs').2
      · have ha'' : a < st.sol.length := by omega
        rw [hold a ha'']
        exact h.sound a ha'' i hi hab s ((hs s).1 hs').1
  · intro a ha b hb h1 h2
    have ha' : a < st.sol.length := by
      rcases hcase a ha with ha' | rfl
      · exact ha'
      · rw [hijn _ _ (.inl rfl)] at h1; cases h1
    have hb' : b < st.sol.length := by
      rcases hcase b hb with hb' | rfl
      · exact hb'
      · rw [hijn _ _ (.inr rfl)] at h1; cases h1
    rw [hij a b ha' hb'] at h1
    have h2' : st.tr a b = false := by
      by_contra hc
      have : st'.tr a b = true := (htr a b).2 (.inr ⟨by omega, by rw [if_neg (by omega)]; simpa using hc⟩)
      rw [h2] at this; cases this
    rw [hold a ha', hold b hb']
    simp only [put] at h1
    split at h1
    · rename_i e
      obtain ⟨rfl, rfl⟩ := e
      refine .inr ⟨rfl, st.sol.length, by omega, (htr _ _).2 (.inl ⟨rfl, rfl⟩), ?_⟩
      intro s
      rw [hnw]; exact hs s
    · rcases h.done a ha' b hb' h1 h2' with h' | ⟨_, k, hk, ht, he⟩
      · exact .inl h'
      · exact .inr ⟨rfl, k, by omega, (htr _ _).2 (.inr ⟨by omega, by rw [if_neg (by omega)]; exact ht⟩), fun s => by
          rw [hold k hk]; exact he s⟩
  · intro R hR k hk s hs' t hst
    rcases hcase k hk with hk' | rfl
    · rw [hold k hk'] at hs' ⊢; exact h.closed R hR k hk' s hs' t hst
    · rw [hnw] at hs' ⊢
      obtain ⟨g1, s', g2, g3⟩ := (hs s).1 hs'
      obtain ⟨t', g4, g5⟩ := hR.step s t s' hst g3
      exact (hs t).2 ⟨h.closed R hR i hi s g1 t hst, t', h.closed R hR j hj s' g2 t' g5, g4⟩

/-- The split for a bisimulation. -/
theorem inv_split_bi {ts : LGraph ν V} {key : ν → K} {st : St ν} (h : Inv ts key false st) {j i : Nat}
    (hj : j < st.sol.length) (hi : i < st.sol.length) {isect : List ν} (hne : isect ≠ [])
    (hs : ∀ s, s ∈ isect ↔ s ∈ cell st i ∧ ∃ t ∈ cell st j, Step ts s t)
    (hpart : ¬ ∀ s ∈ cell st i, ∃ t ∈ cell st j, Step ts s t) :
    Inv ts key false (split false { st with ij := put st.ij j i false } j i isect) := by
  have hlen : (split false { st with ij := put st.ij j i false } j i isect).sol.length = st.sol.length + 1 := by
    simp [split]
  have hold : ∀ k, k < st.sol.length → k ≠ i →
      cell (split false { st with ij := put st.ij j i false } j i isect) k = cell st k := by
    intro k hk hki
    simp only [cell, split, Bool.false_eq_true, if_false]
    rw [List.getD_eq_getElem?_getD, List.getElem?_set_ne (Ne.symm hki), ← List.getD_eq_getElem?_getD]
    exact getD_append_lt _ _ hk
  have hrest : ∀ s, s ∈ cell (split false { st with ij := put st.ij j i false } j i isect) i ↔
      s ∈ cell st i ∧ ¬ ∃ t ∈ cell st j, Step ts s t := by
    intro s
    have : cell (split false { st with ij := put st.ij j i false } j i isect) i =
        (cell st i).filter fun s => decide (s ∉ isect) := by
      simp only [cell, split, Bool.false_eq_true, if_false]
      rw [List.getD_eq_getElem?_getD, List.getElem?_set_self (by simp; omega), getD_append_lt _ _ hi, getD_append_eq]
      rfl
    rw [this, List.mem_filter, decide_eq_true_eq, hs]
    constructor
    · rintro ⟨a, b⟩; exact ⟨a, fun c => b ⟨a, c⟩⟩
    · rintro ⟨a, b⟩; exact ⟨a, fun c => b c.2⟩
  have hnw : cell (split false { st with ij := put st.ij j i false } j i isect) st.sol.length = isect := by
    simp only [cell, split, Bool.false_eq_true, if_false]
    rw [List.getD_eq_getElem?_getD, List.getElem?_set_ne (by omega), ← List.getD_eq_getElem?_getD]
    exact getD_append_eq _ _
  have htr : ∀ a b, (split false { st with ij := put st.ij j i false } j i isect).tr a b = true →
      a ≠ i ∧ a ≠ st.sol.length ∧ ((a = j ∧ b = st.sol.length) ∨
        st.tr a (if b = st.sol.length then i else b) = true) := by
    intro a b
    simp only [split, Bool.false_eq_true, if_false, put]
    have key : ((if a = i then false else if a = j ∧ b = st.sol.length then true else
        if b = st.sol.length then if a = st.sol.length ∨ i = st.sol.length then false else st.tr a i
        else if a = st.sol.length ∨ b = st.sol.length then false else st.tr a b) = true) →
        a ≠ i ∧ a ≠ st.sol.length ∧ ((a = j ∧ b = st.sol.length) ∨
        st.tr a (if b = st.sol.length then i else b) = true) := by
      intro hh
      split at hh
      · cases hh
      · rename_i g1
        split at hh
        · rename_i g2
          exact ⟨g1, by omega, .inl g2⟩
        · split at hh
          · rename_i g3
            split at hh
            · cases hh
            · exact ⟨g1, by omega, .inr (by rw [if_pos g3]; exact hh)⟩
          · rename_i g3
            split at hh
            · cases hh
            · exact ⟨g1, by omega, .inr (by rw [if_neg g3]; exact hh)⟩
    split
    · intro hh
      simp only [put] at hh
      split at hh
      · cases hh
      · rename_i g
        rw [if_neg g] at key
        exact key hh
    · exact key
  have htr' : ∀ a b, a < st.sol.length → b < st.sol.length → a ≠ i → 
      (split false { st with ij := put st.ij j i false } j i isect).tr a b = false → st.tr a b = false := by
    intro a b ha hb hai
    have h1 : a ≠ st.sol.length := by omega
    have h2 : b ≠ st.sol.length := by omega
    simp only [split, Bool.false_eq_true, if_false, put]
    split
    · simp [put, h1, h2, hai]
    · simp [h1, h2, hai]
  have hij : ∀ a b, (split false { st with ij := put st.ij j i false } j i isect).ij a b = false →
      a ≠ st.sol.length ∧ b ≠ st.sol.length ∧ a ≠ i ∧ b ≠ i ∧ st.ij a b = false := by
    intro a b
    simp only [split, Bool.false_eq_true, if_false]
    intro hh
    split at hh
    · cases hh
    · rename_i g1
      split at hh
      · cases hh
      · rename_i g2
        refine ⟨by omega, by omega, by omega, by omega, ?_⟩
        simp only [put] at hh
        rw [if_neg (by omega)] at hh
        exact hh
  generalize split false { st with ij := put st.ij j i false } j i isect = st' at *
  have hcase : ∀ k, k < st'.sol.length → (k < st.sol.length ∧ k ≠ i) ∨ k = i ∨ k = st.sol.length := by
    intro k hk; omega
  -- every new cell is contained in an old one
  have hsub : ∀ k, k < st'.sol.length → ∃ k', k' < st.sol.length ∧ (k' = if k = st.sol.length then i else k) ∧
      ∀ s ∈ cell st' k, s ∈ cell st k' := by
    intro k hk
    rcases hcase k hk with ⟨hk', hki⟩ | rfl | rfl
    · exact ⟨k, hk', by rw [if_neg (by omega)], by rw [hold k hk' hki]; exact fun _ h => h⟩
    · exact ⟨k, hi, by rw [if_neg (by omega)], fun s hs' => ((hrest s).1 hs').1⟩
    · exact ⟨i, hi, by rw [if_pos rfl], fun s hs' => ((hs s).1 (hnw ▸ hs')).1⟩
  have hnon : ∀ k < st'.sol.length, cell st' k ≠ [] := by
    intro k hk
    rcases hcase k hk with ⟨hk', hki⟩ | rfl | rfl
    · rw [hold k hk' hki]; exact h.nonempty k hk'
    · push Not at hpart
      obtain ⟨s, h1, h2⟩ := hpart
      refine List.ne_nil_of_mem (a := s) ((hrest s).2 ⟨h1, ?_⟩)
      rintro ⟨t, h3, h4⟩
      exact h2 t h3 h4
    · rw [hnw]; exact hne
  have hdis : ∀ a < st'.sol.length, ∀ b < st'.sol.length, ∀ s, s ∈ cell st' a → s ∈ cell st' b → a = b := by
    intro a ha b hb s h1 h2
    obtain ⟨a', ga1, ga2, ga3⟩ := hsub a ha
    obtain ⟨b', gb1, gb2, gb3⟩ := hsub b hb
    have e := h.disjoint rfl a' ga1 b' gb1 s (ga3 s h1) (gb3 s h2)
    rcases hcase a ha with ⟨ha', hai⟩ | rfl | rfl <;> rcases hcase b hb with ⟨hb', hbi⟩ | rfl | rfl
    all_goals first
      | rfl
      | (exfalso
         rw [hnw] at h2
         exact ((hrest s).1 h1).2 ((hs s).1 h2).2)
      | (exfalso
         rw [hnw] at h1
         exact ((hrest s).1 h2).2 ((hs s).1 h1).2)
      | (split at ga2 <;> split at gb2 <;> omega)
  refine ⟨hnon, ?_, ?_, ?_, ?_, fun _ => hdis, ?_, ?_, ?_⟩
  · intro k hk s hs'
    obtain ⟨k', g1, _, g3⟩ := hsub k hk
    exact h.node k' g1 s (g3 s hs')
  · intro k hk s hs' t ht
    obtain ⟨k', g1, _, g3⟩ := hsub k hk
    exact h.homog k' g1 s (g3 s hs') t (g3 t ht)
  · intro s hs'
    obtain ⟨k, hk, hsk⟩ := h.cover s hs'
    by_cases hki : k = i
    · subst hki
      by_cases hc : ∃ t ∈ cell st j, Step ts s t
      · exact ⟨st.sol.length, by omega, by rw [hnw]; exact (hs s).2 ⟨hsk, hc⟩⟩
      · exact ⟨k, by omega, (hrest s).2 ⟨hsk, hc⟩⟩
    · exact ⟨k, by omega, by rw [hold k hk hki]; exact hsk⟩
  · intro a ha b hb hab
    obtain ⟨s, hs'⟩ := List.exists_mem_of_ne_nil _ (hnon a ha)
    exact hdis a ha b hb s hs' ((hab s).1 hs')
  · intro a ha b hb hab s hs'
    obtain ⟨h1, h2, h3⟩ := htr a b hab
    have ha' : a < st.sol.length := by omega
    rw [hold a ha' h1]
    rcases h3 with ⟨rfl, rfl⟩ | h3
    · rw [hnw] at hs'; exact ((hs s).1 hs').2
    · obtain ⟨b', g1, g2, g3⟩ := hsub b hb
      rw [← g2] at h3
      exact h.sound a ha' b' g1 h3 s (g3 s hs')
  · intro a ha b hb h1 h2
    obtain ⟨g1, g2, g3, g4, g5⟩ := hij a b h1
    have ha' : a < st.sol.length := by omega
    have hb' : b < st.sol.length := by omega
    rw [hold a ha' g3, hold b hb' g4]
    rcases h.done a ha' b hb' g5 (htr' a b ha' hb' g3 h2) with h' | ⟨h', _⟩
    · exact .inl h'
    · cases h'
  · intro R hR k hk s hs' t hst
    have hpre : ∀ s t, R s t → (∃ s' ∈ cell st j, Step ts s s') → ∃ t' ∈ cell st j, Step ts t t' := by
      rintro s t hst ⟨s', h1, h2⟩
      obtain ⟨t', h3, h4⟩ := hR.step s t s' hst h2
      exact ⟨t', h.closed R hR j hj s' h1 t' h4, h3⟩
    rcases hcase k hk with ⟨hk', hki⟩ | rfl | rfl
    · rw [hold k hk' hki] at hs' ⊢; exact h.closed R hR k hk' s hs' t hst
    · rw [hrest] at hs' ⊢
      exact ⟨h.closed R hR k hi s hs'.1 t hst, fun hc => hs'.2 (hpre t s (hR.symm s t hst) hc)⟩
    · rw [hnw] at hs' ⊢
      obtain ⟨g1, g2⟩ := (hs s).1 hs'
      exact (hs t).2 ⟨h.closed R hR i hi s g1 t hst, hpre s t hst g2⟩

theorem sameSet_iff (a b : List ν) : sameSet a b = true ↔ ∀ s, s ∈ a ↔ s ∈ b := by
  simp only [sameSet, Bool.and_eq_true, List.all_eq_true, decide_eq_true_eq]
  constructor
  · rintro ⟨h1, h2⟩ s; exact ⟨h1 s, h2 s⟩
  · intro h; exact ⟨fun s => (h s).1, fun s => (h s).2⟩

/-- The number of pending pairs. -/
def pend (st : St ν) : Nat :=
  ((Finset.range st.sol.length ×ˢ Finset.range st.sol.length).filter fun p => st.ij p.1 p.2 = true).card

theorem pend_lt {st st' : St ν} (hl : st'.sol.length = st.sol.length) {j i : Nat} (hj : j < st.sol.length)
    (hi : i < st.sol.length) (h : st.ij j i = true) (h' : st'.ij j i = false)
    (hle : ∀ a b, st'.ij a b = true → st.ij a b = true) : pend st' < pend st := by
  unfold pend
  rw [hl]
  apply Finset.card_lt_card
  rw [Finset.ssubset_iff_of_subset]
  · refine ⟨(j, i), by simp [hj, hi, h], by simp [h']⟩
  · intro p hp
    rw [Finset.mem_filter] at hp ⊢
    exact ⟨hp.1, hle _ _ hp.2⟩

/-- A round keeps the invariant, and either adds a cell or decides a pair. -/
theorem step_spec {ts : LGraph ν V} {key : ν → K} {dual : Bool} {st : St ν} (h : Inv ts key dual st) {j i : Nat}
    (hj : j < st.sol.length) (hi : i < st.sol.length) (hp : st.ij j i = true) :
    Inv ts key dual (step ts dual st j i) ∧
      ((step ts dual st j i).sol.length = st.sol.length + 1 ∨
        (step ts dual st j i).sol.length = st.sol.length ∧ pend (step ts dual st j i) < pend st) := by
  have hpre : ∀ s, s ∈ preOf ts (cell st j) ↔ ∃ t ∈ cell st j, Step ts s t := mem_preOf ts _
  have hput : ∀ a b, put st.ij j i false a b = true → st.ij a b = true := by
    intro a b hh
    simp only [put] at hh
    split at hh
    · cases hh
    · exact hh
  have hself : put st.ij j i false j i = false := by simp [put]
  unfold step
  simp only [show ∀ k, cell { st with ij := put st.ij j i false } k = cell st k from fun _ => rfl]
  split
  · rename_i hall
    rw [List.all_eq_true] at hall
    have hall' : ∀ s ∈ cell st i, ∃ t ∈ cell st j, Step ts s t := fun s hs =>
      (hpre s).1 (by simpa using hall s hs)
    refine ⟨inv_clear (inv_true h hall' hi (.inl rfl)), .inr ⟨rfl, pend_lt rfl hj hi hp ?_ ?_⟩⟩
    · simp [clear, hself]
    · intro a b hab
      simp only [clear, Bool.and_eq_true] at hab
      exact hput a b hab.1
  · rename_i hall
    have hpart : ¬ ∀ s ∈ cell st i, ∃ t ∈ cell st j, Step ts s t := by
      intro hc
      apply hall
      rw [List.all_eq_true]
      intro s hs
      simpa using (hpre s).2 (hc s hs)
    have hs : ∀ s, s ∈ ((cell st i).filter fun s => decide (s ∈ preOf ts (cell st j))) ↔
        s ∈ cell st i ∧ ∃ t ∈ cell st j, Step ts s t := by
      intro s; rw [List.mem_filter, decide_eq_true_eq, hpre]
    split
    · rename_i hemp
      rw [List.isEmpty_iff] at hemp
      refine ⟨inv_false h ?_, .inr ⟨rfl, pend_lt rfl hj hi hp hself hput⟩⟩
      intro s h1 h2
      have := (hs s).2 ⟨h1, h2⟩
      rw [hemp] at this
      simp at this
    · rename_i hemp
      rw [List.isEmpty_iff] at hemp
      cases dual with
      | false =>
        simp only [Bool.false_eq_true, if_false]
        exact ⟨inv_clear (inv_split_bi h hj hi hemp hs hpart), .inl (by simp [clear, split])⟩
      | true =>
        simp only [if_true]
        cases hf : st.sol.findIdx? (sameSet ((cell st i).filter fun s => decide (s ∈ preOf ts (cell st j)))) with
        | none =>
          simp only
          refine ⟨inv_clear (inv_split_dual h hj hi hemp hs ?_), .inl (by simp [clear, split])⟩
          intro k hk hc
          rw [List.findIdx?_eq_none_iff] at hf
          have := hf (cell st k) (by
            unfold cell
            rw [getD_lt _ hk]
            exact List.getElem_mem hk)
          rw [(sameSet_iff _ _).2 hc] at this
          cases this
        | some k =>
          simp only
          rw [List.findIdx?_eq_some_iff_getElem] at hf
          obtain ⟨hk, hsame, _⟩ := hf
          rw [sameSet_iff] at hsame
          have hck : ∀ s, s ∈ cell st k ↔ s ∈ cell st i ∧ ∃ t ∈ cell st j, Step ts s t := by
            intro s
            rw [← hs, hsame]
            unfold cell
            rw [getD_lt _ hk]
          refine ⟨inv_clear (inv_true h (fun s h' => ((hck s).1 h').2) hk (.inr ⟨rfl, hck⟩)),
            .inr ⟨rfl, pend_lt rfl hj hi hp ?_ ?_⟩⟩
          · simp [clear, hself]
          · intro a b hab
            simp only [clear, Bool.and_eq_true] at hab
            exact hput a b hab.1

/-! ### Termination -/

theorem length_le {ts : LGraph ν V} {key : ν → K} {dual : Bool} {st : St ν} (h : Inv ts key dual st) :
    st.sol.length ≤ 2 ^ ts.nodes.length := by
  have h1 : (Finset.range st.sol.length).card ≤ (ts.nodes.keys.toFinset.powerset).card := by
    apply Finset.card_le_card_of_injOn (fun i => (cell st i).toFinset)
    · intro i hi
      simp only [Finset.coe_range, Set.mem_Iio] at hi
      simp only [Finset.coe_powerset, Set.mem_preimage, Set.mem_powerset_iff, Finset.coe_subset]
      intro s hs
      rw [List.mem_toFinset] at hs ⊢
      exact (mem_keys_iff_has _ _).2 (h.node i hi s hs)
    · intro i hi j hj hij
      simp only [Finset.coe_range, Set.mem_Iio] at hi hj
      apply h.distinct i hi j hj
      intro s
      have := Finset.ext_iff.1 hij s
      simpa using this
  rw [Finset.card_range, Finset.card_powerset] at h1
  refine h1.trans (Nat.pow_le_pow_right (by omega) ?_)
  exact (List.toFinset_card_le _).trans (by simp [Dict.keys])

theorem pending_some {st : St ν} {j i : Nat} (h : pending st = some (j, i)) :
    j < st.sol.length ∧ i < st.sol.length ∧ st.ij j i = true := by
  unfold pending at h
  have h1 := List.mem_of_find?_eq_some h
  have h2 := List.find?_some h
  simp at h1
  exact ⟨h1.1, h1.2, h2⟩

theorem pending_none {st : St ν} (h : pending st = none) {j i : Nat} (hj : j < st.sol.length)
    (hi : i < st.sol.length) : st.ij j i = false := by
  unfold pending at h
  rw [List.find?_eq_none] at h
  have := h (j, i) (by simp [hj, hi])
  simpa using this

/-- The loop ends, whatever the input, in a state without pending pairs. -/
theorem loop_spec {ts : LGraph ν V} {key : ν → K} {dual : Bool} {st : St ν} (h : Inv ts key dual st) :
    ∃ fuel st', (∀ f, fuel ≤ f → loop ts dual f st = some st') ∧ Inv ts key dual st' ∧
      ∀ j < st'.sol.length, ∀ i < st'.sol.length, st'.ij j i = false := by
  generalize hm : (2 ^ ts.nodes.length - st.sol.length, pend st) = m
  induction m using (WellFoundedRelation.wf : WellFounded (Prod.lex Nat.lt_wfRel Nat.lt_wfRel).rel).induction
    generalizing st with
  | _ m ih =>
    subst hm
    cases hp : pending st with
    | none =>
      refine ⟨1, st, ?_, h, fun j hj i hi => pending_none hp hj hi⟩
      intro f hf
      obtain ⟨f, rfl⟩ : ∃ g, f = g + 1 := ⟨f - 1, by omega⟩
      simp [loop, hp]
    | some p =>
      obtain ⟨j, i⟩ := p
      obtain ⟨hj, hi, hpi⟩ := pending_some hp
      obtain ⟨h1, h2⟩ := step_spec h hj hi hpi
      have hlex : Prod.Lex (· < ·) (· < ·)
          (2 ^ ts.nodes.length - (step ts dual st j i).sol.length, pend (step ts dual st j i))
          (2 ^ ts.nodes.length - st.sol.length, pend st) := by
        rcases h2 with h2 | ⟨h2, h3⟩
        · have := length_le h1
          exact .left _ _ (by omega)
        · rw [h2]; exact .right _ h3
      obtain ⟨fuel, st', g1, g2, g3⟩ := ih _ hlex h1 rfl
      refine ⟨fuel + 1, st', ?_, g2, g3⟩
      intro f hf
      obtain ⟨f, rfl⟩ : ∃ g, f = g + 1 := ⟨f - 1, by omega⟩
      simp only [loop, hp]
      exact g1 f (by omega)

/-! ## The returned graph -/

/-- What is assumed of the arguments: a transition system with labeled states; the empty set is a label;
texts of labels are equal only for equal labels; and `next(iter(s))` is an element of `s`. -/
structure InOk (ts : LGraph ν V) (key : ν → K) (noAp : V) (pick : List ν → ν) : Prop where
  ok : ts.Ok
  labeled : ∀ s, ts.hasNode s = true → ∃ v, Label ts s v
  type : ∃ t, ts.nodeTypes.get? "ap" = some t ∧ t.contains noAp = true
  text : ∀ s t v w, key s = key t → Label ts s v → Label ts t w → v = w
  pick : ∀ c, c ≠ [] → pick c ∈ c

theorem cellsOf_inner (i : Nat) (c : List ν) : ∀ d : Dict ν (List Nat),
    let d' := c.foldl (fun d s => d.set s (((d.get? s).getD []) ++ [i])) d
    ∀ s, (d'.has s = true ↔ d.has s = true ∨ s ∈ c) ∧
      ∀ m, m ∈ (d'.get? s).getD [] ↔ m ∈ (d.get? s).getD [] ∨ s ∈ c ∧ m = i := by
  induction c with
  | nil => intro d d' s; simp [d']
  | cons x c ih =>
    intro d d' s
    simp only [d', List.foldl_cons]
    obtain ⟨h1, h2⟩ := ih (d.set x (((d.get? x).getD []) ++ [i])) s
    rw [h1]
    constructor
    · rw [has_eq, has_eq, Dict.get?_set, List.mem_cons]
      by_cases hx : x = s
      · subst hx; simp
      · have : ¬ s = x := fun e => hx e.symm
        simp [hx, this]
    · intro m
      rw [h2, Dict.get?_set, List.mem_cons]
      by_cases hx : x = s
      · subst hx
        simp only [if_true, Option.getD_some, List.mem_append, List.mem_singleton, true_or, true_and]
        tauto
      · have : ¬ s = x := fun e => hx e.symm
        simp [hx, this]

theorem cellsOf_outer (l : List (List ν × Nat)) : ∀ d : Dict ν (List Nat),
    let d' := l.foldl (fun d c => c.1.foldl (fun d s => d.set s (((d.get? s).getD []) ++ [c.2])) d) d
    ∀ s, (d'.has s = true ↔ d.has s = true ∨ ∃ c ∈ l, s ∈ c.1) ∧
      ∀ m, m ∈ (d'.get? s).getD [] ↔ m ∈ (d.get? s).getD [] ∨ ∃ c ∈ l, s ∈ c.1 ∧ m = c.2 := by
  induction l with
  | nil => intro d d' s; simp [d']
  | cons x l ih =>
    intro d d' s
    simp only [d', List.foldl_cons]
    obtain ⟨h1, h2⟩ := ih (x.1.foldl (fun d s => d.set s (((d.get? s).getD []) ++ [x.2])) d) s
    obtain ⟨k1, k2⟩ := cellsOf_inner x.2 x.1 d s
    rw [h1, k1]
    constructor
    · simp only [List.mem_cons, exists_eq_or_imp]; tauto
    · intro m
      rw [h2, k2]
      simp only [List.mem_cons, exists_eq_or_imp]; tauto

theorem cellsOf_spec (sol : List (List ν)) (s : ν) :
    ((cellsOf sol).has s = true ↔ ∃ i, s ∈ sol.getD i []) ∧
      ∀ i, i ∈ ((cellsOf sol).get? s).getD [] ↔ s ∈ sol.getD i [] := by
  obtain ⟨h1, h2⟩ := cellsOf_outer sol.zipIdx [] s
  have hz : ∀ c i, (c, i) ∈ sol.zipIdx ↔ sol[i]? = some c := by
    intro c i; rw [List.mem_zipIdx_iff_getElem?]
  have hg : ∀ i, s ∈ sol.getD i [] ↔ ∃ c, sol[i]? = some c ∧ s ∈ c := by
    intro i
    rw [List.getD_eq_getElem?_getD]
    cases sol[i]? <;> simp
  unfold cellsOf
  rw [h1]
  constructor
  · constructor
    · rintro (h | ⟨⟨c, i⟩, h, h'⟩)
      · simp [Dict.has] at h
      · exact ⟨i, (hg i).2 ⟨c, (hz c i).1 h, h'⟩⟩
    · rintro ⟨i, h⟩
      obtain ⟨c, h3, h4⟩ := (hg i).1 h
      exact .inr ⟨(c, i), (hz c i).2 h3, h4⟩
  · intro i
    rw [h2, hg]
    constructor
    · rintro (h | ⟨⟨c, m⟩, h, h', rfl⟩)
      · simp at h
      · exact ⟨c, (hz _ _).1 h, h'⟩
    · rintro ⟨c, h3, h4⟩
      exact .inr ⟨(c, i), (hz c i).2 h3, h4, rfl⟩

theorem initialCells_spec {ts : LGraph ν V} {sol : List (List ν)}
    (hcov : ∀ s ∈ ts.initial, ∃ i, s ∈ sol.getD i []) :
    ∃ l, initialCells ts (cellsOf sol) = .ok l ∧ l.Nodup ∧ ∀ i, i ∈ l ↔ ∃ s ∈ ts.initial, s ∈ sol.getD i [] := by
  have key : ∀ (l0 : List Nat) (ss : List ν), l0.Nodup → (∀ s ∈ ss, ∃ i, s ∈ sol.getD i []) →
      ∃ l, loopM (fun l s => match (cellsOf sol).get? s with
        | none => .error .keyError
        | some cs => .ok (uniqueLoop l cs)) l0 ss = .ok l ∧ l.Nodup ∧
        ∀ i, i ∈ l ↔ i ∈ l0 ∨ ∃ s ∈ ss, s ∈ sol.getD i [] := by
    intro l0 ss
    induction ss generalizing l0 with
    | nil => intro h _; exact ⟨l0, rfl, h, by simp⟩
    | cons s ss ih =>
      intro h hc
      obtain ⟨cs, hcs⟩ := (Dict.has_iff _ _).1 ((cellsOf_spec sol s).1.2 (hc s (by simp)))
      obtain ⟨l, h1, h2, h3⟩ := ih (uniqueLoop l0 cs) (nodup_uniqueLoop _ _ h) fun t ht => hc t (by simp [ht])
      refine ⟨l, by simp only [loopM, hcs, ok_bind, h1], h2, ?_⟩
      intro i
      have := (cellsOf_spec sol s).2 i
      rw [hcs, Option.getD_some] at this
      rw [h3, mem_uniqueLoop, this]
      simp only [List.mem_cons, exists_eq_or_imp]
      tauto
  obtain ⟨l, h1, h2, h3⟩ := key [] ts.initial (by simp) hcov
  exact ⟨l, h1, h2, by simpa using h3⟩

/-- The types of the returned graph. -/
structure GOk (ts : LGraph ν V) (noAp : V) (g : LGraph Nat V) : Prop where
  nodeTypes : g.nodeTypes = ts.nodeTypes.filter fun t => t.1 == "ap"
  nodeDefaults : g.nodeDefaults = [("ap", noAp)]
  edgeDefaults : g.edgeDefaults = []

theorem addNode_label {ts : LGraph ν V} {noAp : V} {t : LabelType V} (ht : ts.nodeTypes.get? "ap" = some t)
    (h0 : t.contains noAp = true) {g : LGraph Nat V} (hg : GOk ts noAp g) {a : Attr V}
    (ha : a = [] ∨ ∃ v, a = [("ap", v)] ∧ t.contains v = true) (i : Nat) :
    ∃ b, g.addNode i a = .ok { g with nodes := g.nodes.set i b } ∧
      ∀ v, a = [("ap", v)] → b.get? "ap" = some v := by
  have htype : ∀ k, g.nodeTypes.get? k = if k = "ap" then some t else none := by
    intro k
    rw [hg.nodeTypes, Mach.get?_filter ts.nodeTypes (fun k => k == "ap") k]
    by_cases hk : k = "ap"
    · subst hk; simpa using ht
    · simp [hk]
  have hd : Typed g.nodeTypes g.nodeDefaults := by
    rw [hg.nodeDefaults]
    intro p hp u hu
    rw [List.mem_singleton] at hp; subst hp
    rw [htype, if_pos rfl] at hu; cases hu; exact h0
  have hat : Typed g.nodeTypes a := by
    rcases ha with rfl | ⟨v, rfl, hv⟩
    · simp [Typed]
    · intro p hp u hu
      rw [List.mem_singleton] at hp; subst hp
      rw [htype, if_pos rfl] at hu; cases hu; exact hv
  have hhas : g.nodeTypes.has "ap" = true := by rw [has_eq, htype, if_pos rfl]; rfl
  have hval : (Dict.update ([] : Attr V) g.nodeDefaults).update a = [("ap", noAp)] ∧ a = [] ∨
      ∃ v, a = [("ap", v)] ∧ (Dict.update ([] : Attr V) g.nodeDefaults).update a = [("ap", v)] := by
    rw [hg.nodeDefaults]
    rcases ha with rfl | ⟨v, rfl, hv⟩
    · exact .inl ⟨rfl, rfl⟩
    · exact .inr ⟨v, rfl, rfl⟩
  have hun : untyped g.nodeTypes ((Dict.update ([] : Attr V) g.nodeDefaults).update a) true = false := by
    rcases hval with ⟨e, _⟩ | ⟨v, _, e⟩ <;> rw [e] <;> simp [untyped, hhas]
  refine ⟨((g.nodes.get? i).getD []).update ((Dict.update ([] : Attr V) g.nodeDefaults).update a), by
    simp only [addNode, typedAttr_ok hd hat, ok_bind, hun, Bool.false_eq_true, if_false], ?_⟩
  intro v hv
  rcases hval with ⟨_, e⟩ | ⟨w, e1, e2⟩
  · rw [hv] at e; cases e
  · rw [hv] at e1; cases e1
    rw [e2, Dict.get?_update_wf (by unfold Dict.Wf; simp [Dict.keys])]
    simp [Dict.get?_cons]

theorem nodes_loop {ts : LGraph ν V} {noAp : V} {t : LabelType V} (ht : ts.nodeTypes.get? "ap" = some t)
    (h0 : t.contains noAp = true) (f : Nat → Except PyErr (Attr V)) (l : List Nat) : ∀ g : LGraph Nat V, GOk ts noAp g →
    (∀ i ∈ l, f i = .ok [] ∨ ∃ v, f i = .ok [("ap", v)] ∧ t.contains v = true) →
    l.Nodup →
    ∃ ns, loopM (fun g i => do let a ← f i; g.addNode i a) g l = .ok { g with nodes := ns } ∧
      (∀ m, ns.has m = true ↔ g.nodes.has m = true ∨ m ∈ l) ∧ (∀ m, m ∉ l → ns.get? m = g.nodes.get? m) ∧
      (∀ i ∈ l, ∀ v, f i = .ok [("ap", v)] → ∃ b, ns.get? i = some b ∧ b.get? "ap" = some v) := by
  induction l with
  | nil => intro g _ _ _; exact ⟨g.nodes, rfl, by simp, by simp, by simp⟩
  | cons i l ih =>
    intro g hg hf hnd
    obtain ⟨hi, hnd⟩ := List.nodup_cons.1 hnd
    obtain ⟨a, ha, ha'⟩ : ∃ a, f i = .ok a ∧ (a = [] ∨ ∃ v, a = [("ap", v)] ∧ t.contains v = true) := by
      rcases hf i (by simp) with h | ⟨v, h, h'⟩
      · exact ⟨[], h, .inl rfl⟩
      · exact ⟨_, h, .inr ⟨v, rfl, h'⟩⟩
    obtain ⟨b, hb, hb'⟩ := addNode_label ht h0 hg ha' i
    obtain ⟨ns, h1, h2, h3, h4⟩ := ih { g with nodes := g.nodes.set i b } ⟨hg.1, hg.2, hg.3⟩
      (fun m hm => hf m (by simp [hm])) hnd
    refine ⟨ns, by simp only [loopM, ha, ok_bind, hb, h1], ?_, ?_, ?_⟩
    · intro m
      rw [h2, has_eq, has_eq, Dict.get?_set, List.mem_cons]
      by_cases hm : i = m
      · subst hm; simp
      · have : ¬ m = i := fun e => hm e.symm
        simp [hm, this]
    · intro m hm
      rw [List.mem_cons, not_or] at hm
      rw [h3 m hm.2, Dict.get?_set, if_neg (fun e => hm.1 e.symm)]
    · intro m hm v hv
      rw [List.mem_cons] at hm
      rcases hm with rfl | hm
      · refine ⟨b, by rw [h3 m hi, Dict.get?_set, if_pos rfl], hb' v ?_⟩
        rw [ha] at hv; cases hv; rfl
      · exact h4 m hm v hv

theorem edges_loop (T : List (Nat × Nat)) : ∀ g : LGraph Nat V, g.edgeDefaults = [] →
    (∀ p ∈ T, g.hasNode p.1 = true ∧ g.hasNode p.2 = true) → T.Nodup → (∀ p ∈ T, ∀ a, (p.1, p.2, a) ∉ g.edges) →
    loopM (fun g p => g.addEdge p.1 p.2 []) g T = .ok { g with edges := g.edges ++ T.map fun p => (p.1, p.2, []) } := by
  induction T with
  | nil => intro g _ _ _ _; simp [loopM]
  | cons p T ih =>
    intro g hd hn hnd hno
    obtain ⟨hp, hnd⟩ := List.nodup_cons.1 hnd
    have hnop := hno p (by simp)
    have h1 : g.addEdge p.1 p.2 [] = .ok { g with edges := g.edges ++ [(p.1, p.2, [])] } := by
      rcases addEdge_ok (attr := []) (check := true) (hn p (by simp)).1 (hn p (by simp)).2
        (by rw [hd]; simp [Typed]) (by simp [Typed]) (by
        intro d hd'; exact absurd (mem_edgeData.1 hd') (hnop d)) (by
        intro _ k hk
        rw [hd] at hk
        simp [Dict.update, Dict.has] at hk) with ⟨⟨d, hd', _⟩, _⟩ | ⟨_, h⟩
      · exact absurd (mem_edgeData.1 hd') (hnop d)
      · rw [h, hd]
        rfl
    simp only [loopM, h1, ok_bind]
    rw [ih { g with edges := g.edges ++ [(p.1, p.2, [])] } hd (fun q hq => hn q (by simp [hq])) hnd ?_]
    · simp
    · intro q hq a ha
      rw [List.mem_append, List.mem_singleton] at ha
      rcases ha with ha | ha
      · exact hno q (by simp [hq]) a ha
      · simp only [Prod.mk.injEq] at ha
        apply hp
        have : p = q := by ext <;> simp [ha.1, ha.2.1]
        rw [this]; exact hq

/-- The graph that is returned for a cover of the states. -/
structure Output (ts : LGraph ν V) (st : St ν) (r : Result ν V) : Prop where
  cells : r.simu2ts = st.sol
  map : ∀ s, (r.ts2simu.has s = true ↔ ts.hasNode s = true) ∧
    ∀ i, i ∈ (r.ts2simu.get? s).getD [] ↔ s ∈ r.simu2ts.getD i []
  nodes : ∀ i, r.graph.hasNode i = true ↔ i < st.sol.length
  label : ∀ i s v, s ∈ r.simu2ts.getD i [] → (Label ts s v ↔ Label r.graph i v)
  edges : ∀ i j a, (i, j, a) ∈ r.graph.edges ↔ a = [] ∧ i < st.sol.length ∧ j < st.sol.length ∧ st.tr j i = true
  initial : ∀ i, i ∈ r.graph.initial ↔ ∃ s ∈ ts.initial, s ∈ r.simu2ts.getD i []

theorem label_unique {g : LGraph ν V} {s : ν} {v w : V} (h : Label g s v) (h' : Label g s w) : v = w := by
  obtain ⟨a, h1, h2⟩ := h
  obtain ⟨b, h3, h4⟩ := h'
  rw [h1] at h3; cases h3
  rw [h2] at h4; cases h4; rfl

theorem outputFts_spec {ts : LGraph ν V} {key : ν → K} {noAp : V} {pick : List ν → ν} (hok : InOk ts key noAp pick)
    {dual : Bool} {st : St ν} (h : Inv ts key dual st) :
    ∃ r, outputFts ts noAp pick st = .ok r ∧ Output ts st r := by
  obtain ⟨t, ht, h0⟩ := hok.type
  obtain ⟨s0, i1, i2, i3⟩ := initialCells_spec (ts := ts) (sol := st.sol) (by
    intro s hs
    obtain ⟨i, _, h'⟩ := h.cover s (hok.ok.initial s hs)
    exact ⟨i, h'⟩)
  have hlab : ∀ i < st.sol.length, ∃ v, apOf ts (pick (st.sol.getD i [])) = .ok v ∧ t.contains v = true ∧
      ∀ s ∈ cell st i, Label ts s v := by
    intro i hi
    have hp := hok.pick _ (h.nonempty i hi)
    have hpn := h.node i hi _ hp
    obtain ⟨v, a, h1, h2⟩ := hok.labeled _ hpn
    refine ⟨v, ?_, hok.ok.nodeTyped _ a h1 "ap" v h2 t ht, ?_⟩
    · rw [show st.sol.getD i [] = cell st i from rfl]
      simp only [apOf, h1, h2]
    · intro s hs
      obtain ⟨w, hw⟩ := hok.labeled s (h.node i hi s hs)
      rw [hok.text _ _ v w (h.homog i hi _ hp _ hs) ⟨a, h1, h2⟩ hw]
      exact hw
  let g0 : LGraph Nat V := {
    nodeTypes := ts.nodeTypes.filter fun t => t.1 == "ap"
    nodeDefaults := [("ap", noAp)]
    edgeTypes := ts.edgeTypes }
  have hg0 : GOk ts noAp g0 := ⟨rfl, rfl, rfl⟩
  obtain ⟨ns1, a1, a2, _, _⟩ := nodes_loop ht h0 (fun _ => .ok []) (List.range st.sol.length) g0 hg0
    (fun _ _ => .inl rfl) List.nodup_range
  let f : Nat → Except PyErr (Attr V) := fun i => do
    let v ← apOf ts (pick (st.sol.getD i []))
    .ok [("ap", v)]
  have hadd : LGraph.addInitialFrom { g0 with nodes := ns1 } s0 = .ok { g0 with nodes := ns1, initial := s0 } := by
    rw [Mach.addInitialFrom_spec rfl i2]
    intro m hm
    obtain ⟨s, _, hs⟩ := (i3 m).1 hm
    exact (a2 m).2 (.inr (List.mem_range.2 (cell_lt hs)))
  obtain ⟨ns2, b1, b2, _, b4⟩ := nodes_loop ht h0 f (List.range st.sol.length)
    { g0 with nodes := ns1, initial := s0 } ⟨rfl, rfl, rfl⟩ (by
      intro i hi
      obtain ⟨v, h1, h2, _⟩ := hlab i (List.mem_range.1 hi)
      exact .inr ⟨v, by simp only [f, h1, ok_bind], h2⟩) List.nodup_range
  have hns2 : ∀ m, ns2.has m = true ↔ m < st.sol.length := by
    intro m
    rw [b2, a2, List.mem_range]
    simp [g0, Dict.has]
  let T : List (Nat × Nat) := (List.range st.sol.length).flatMap fun i =>
    ((List.range st.sol.length).filter fun j => st.tr j i).map fun j => (i, j)
  have hT : ∀ p, p ∈ T ↔ p.1 < st.sol.length ∧ p.2 < st.sol.length ∧ st.tr p.2 p.1 = true := by
    rintro ⟨i, j⟩
    simp [T, List.mem_flatMap]
  have hTn : T.Nodup := by
    rw [List.nodup_flatMap]
    constructor
    · intro i _
      exact ((List.nodup_range).filter _).map (fun a b e => by simpa using e)
    · refine List.nodup_range.imp fun {i i'} hne p h1 h2 => ?_
      obtain ⟨_, _, rfl⟩ := List.mem_map.1 h1
      obtain ⟨_, _, e⟩ := List.mem_map.1 h2
      simp only [Prod.mk.injEq] at e
      exact hne e.1.symm
  have hedges := edges_loop T { g0 with nodes := ns2, initial := s0 } rfl (by
    intro p hp
    obtain ⟨h1, h2, _⟩ := (hT p).1 hp
    exact ⟨(hns2 _).2 h1, (hns2 _).2 h2⟩) hTn (by simp [g0])
  have hloop : loopM (fun g i => loopM (fun g j => if st.tr j i then LGraph.addEdge g i j [] else .ok g) g
      (List.range st.sol.length)) { g0 with nodes := ns2, initial := s0 } (List.range st.sol.length) =
      .ok { g0 with nodes := ns2, initial := s0, edges := T.map fun p => (p.1, p.2, []) } := by
    have : loopM (fun (g : LGraph Nat V) (p : Nat × Nat) => g.addEdge p.1 p.2 []) { g0 with nodes := ns2, initial := s0 } T =
        .ok { g0 with nodes := ns2, initial := s0, edges := T.map fun p => (p.1, p.2, []) } := hedges
    rw [← this]
    simp only [T]
    rw [loopM_flatMap]
    apply loopM_congr
    intro i _ g
    rw [loopM_map]
    generalize List.range st.sol.length = l
    induction l generalizing g with
    | nil => rfl
    | cons j l ihl =>
      simp only [loopM, List.filter_cons]
      cases st.tr j i with
      | true =>
        simp only [if_true, loopM]
        cases g.addEdge i j [] with
        | error e => rfl
        | ok g' => simp only [ok_bind]; exact ihl g'
      | false => simp only [Bool.false_eq_true, if_false, ok_bind]; exact ihl g
  refine ⟨{ graph := { g0 with nodes := ns2, initial := s0, edges := T.map fun p => (p.1, p.2, []) },
            simu2ts := st.sol, ts2simu := cellsOf st.sol }, ?_, ?_⟩
  · simp only [outputFts, i1, ok_bind]
    have a1' : loopM (fun (g : LGraph Nat V) i => g.addNode i []) g0 (List.range st.sol.length) =
        .ok { g0 with nodes := ns1 } := a1
    have b1' : loopM (fun (g : LGraph Nat V) i => do
        let v ← apOf ts (pick (st.sol.getD i []))
        g.addNode i [("ap", v)]) { g0 with nodes := ns1, initial := s0 } (List.range st.sol.length) =
        .ok { g0 with nodes := ns2, initial := s0 } := by
      rw [← b1]
      apply loopM_congr
      intro i _ g
      simp only [f]
      cases apOf ts (pick (st.sol.getD i [])) <;> rfl
    rw [a1']
    simp only [ok_bind, hadd]
    rw [b1']
    simp only [ok_bind]
    rw [hloop]
    rfl
  · refine ⟨rfl, ?_, hns2, ?_, ?_, i3⟩
    · intro s
      refine ⟨?_, (cellsOf_spec st.sol s).2⟩
      rw [(cellsOf_spec st.sol s).1]
      constructor
      · rintro ⟨i, hi⟩; exact h.node i (cell_lt hi) s hi
      · intro hs
        obtain ⟨i, _, hi⟩ := h.cover s hs
        exact ⟨i, hi⟩
    · intro i s v hs
      have hi := cell_lt (st := st) hs
      obtain ⟨w, h1, _, h3⟩ := hlab i hi
      obtain ⟨b, k1, k2⟩ := b4 i (List.mem_range.2 hi) w (by simp only [f, h1, ok_bind])
      have hw := h3 s hs
      constructor
      · intro hv
        rw [label_unique hv hw]
        exact ⟨b, k1, k2⟩
      · intro hv
        have hb : Label (LGraph.mk g0.nodeTypes g0.nodeDefaults g0.edgeTypes g0.edgeDefaults ns2
          (T.map fun p => (p.1, p.2, [])) s0) i w := ⟨b, k1, k2⟩
        rw [label_unique hv hb]
        exact hw
    · intro i j a
      simp only [List.mem_map]
      constructor
      · rintro ⟨p, hp, e⟩
        simp only [Prod.mk.injEq] at e
        obtain ⟨rfl, rfl, rfl⟩ := e
        exact ⟨rfl, (hT p).1 hp⟩
      · rintro ⟨rfl, h'⟩
        exact ⟨(i, j), (hT (i, j)).2 h', rfl⟩

/-! ## The properties -/

/-- **C25.** `simu_abstract(ts, 'bi')` terminates. It returns a graph and a partition of the states of
`ts` (`simu2ts`, with `ts2simu` its inverse) such that: a cell has the label of each of its states; there
is an edge between two cells iff every state of the first has a successor in the second, and this is
the case as soon as one has; and the initial cells are those that contain an initial state. The partition
is the coarsest one: states related by a bisimulation are in the same cell. -/
theorem simuAbstract_bi {ts : LGraph ν V} {key : ν → K} {noAp : V} {pick : List ν → ν} (hok : InOk ts key noAp pick) :
    ∃ fuel r, (∀ f, fuel ≤ f → simuAbstract ts false key noAp pick f = some (.ok r)) ∧
      (∀ i, r.graph.hasNode i = true ↔ i < r.simu2ts.length) ∧
      (∀ i, r.graph.hasNode i = true → ∃ s, s ∈ r.simu2ts.getD i []) ∧
      (∀ s, (∃ i, s ∈ r.simu2ts.getD i []) ↔ ts.hasNode s = true) ∧
      (∀ s i j, s ∈ r.simu2ts.getD i [] → s ∈ r.simu2ts.getD j [] → i = j) ∧
      (∀ s, r.ts2simu.has s = true ↔ ts.hasNode s = true) ∧
      (∀ s i, i ∈ (r.ts2simu.get? s).getD [] ↔ s ∈ r.simu2ts.getD i []) ∧
      (∀ i s v, s ∈ r.simu2ts.getD i [] → (Label ts s v ↔ Label r.graph i v)) ∧
      (∀ i j, Step r.graph i j → ∀ s ∈ r.simu2ts.getD i [], ∃ t ∈ r.simu2ts.getD j [], Step ts s t) ∧
      (∀ i j s t, s ∈ r.simu2ts.getD i [] → t ∈ r.simu2ts.getD j [] → Step ts s t → Step r.graph i j) ∧
      (∀ i, i ∈ r.graph.initial ↔ ∃ s ∈ ts.initial, s ∈ r.simu2ts.getD i []) ∧
      (∀ R, Bisim ts key R → ∀ s t i, R s t → s ∈ r.simu2ts.getD i [] → t ∈ r.simu2ts.getD i []) := by
  obtain ⟨fuel, st, h1, h2, h3⟩ := loop_spec (inv_start ts key false)
  obtain ⟨r, h4, h5⟩ := outputFts_spec hok h2
  have hc : r.simu2ts = st.sol := h5.cells
  refine ⟨fuel, r, ?_, ?_, ?_, ?_, ?_, fun s => (h5.map s).1, fun s => (h5.map s).2, h5.label, ?_, ?_, h5.initial, ?_⟩
  · intro f hf
    simp only [simuAbstract, h1 f hf, Option.map_some, h4]
  · intro i; rw [h5.nodes, hc]
  · intro i hi
    rw [hc]
    exact List.exists_mem_of_ne_nil _ (h2.nonempty i ((h5.nodes i).1 hi))
  · intro s
    rw [hc]
    constructor
    · rintro ⟨i, hi⟩; exact h2.node i (cell_lt hi) s hi
    · intro hs
      obtain ⟨i, _, hi⟩ := h2.cover s hs
      exact ⟨i, hi⟩
  · intro s i j hi hj
    rw [hc] at hi hj
    exact h2.disjoint rfl i (cell_lt hi) j (cell_lt hj) s hi hj
  · rintro i j ⟨a, ha⟩ s hs
    obtain ⟨_, hi, hj, ht⟩ := (h5.edges i j a).1 ha
    rw [hc] at hs ⊢
    exact h2.sound j hj i hi ht s hs
  · intro i j s t hs ht hst
    rw [hc] at hs ht
    refine ⟨[], (h5.edges i j []).2 ⟨rfl, cell_lt hs, cell_lt ht, ?_⟩⟩
    by_contra hcon
    rcases h2.done j (cell_lt ht) i (cell_lt hs) (h3 j (cell_lt ht) i (cell_lt hs)) (by simpa using hcon) with h' | ⟨h', _⟩
    · exact h' s hs ⟨t, ht, hst⟩
    · cases h'
  · intro R hR s t i hst hs
    rw [hc] at hs ⊢
    exact h2.closed R hR i (cell_lt hs) s hs t hst

/-- **C26.** `simu_abstract(ts, 'dual')` terminates. It returns a graph and a cover of the states of
`ts` by distinct cells such that: a cell has the label of each of its states; an edge between two cells
implies that every state of the first has a successor in the second; and for every transition from a
state of a cell `i` to a state of a cell `j`, the states of `i` with a successor in `j` are themselves a
cell, with an edge to `j`. The initial cells are those that contain an initial state. -/
theorem simuAbstract_dual {ts : LGraph ν V} {key : ν → K} {noAp : V} {pick : List ν → ν} (hok : InOk ts key noAp pick) :
    ∃ fuel r, (∀ f, fuel ≤ f → simuAbstract ts true key noAp pick f = some (.ok r)) ∧
      (∀ i, r.graph.hasNode i = true ↔ i < r.simu2ts.length) ∧
      (∀ i, r.graph.hasNode i = true → ∃ s, s ∈ r.simu2ts.getD i []) ∧
      (∀ s, (∃ i, s ∈ r.simu2ts.getD i []) ↔ ts.hasNode s = true) ∧
      (∀ i j, i < r.simu2ts.length → j < r.simu2ts.length →
        (∀ s, s ∈ r.simu2ts.getD i [] ↔ s ∈ r.simu2ts.getD j []) → i = j) ∧
      (∀ s i, i ∈ (r.ts2simu.get? s).getD [] ↔ s ∈ r.simu2ts.getD i []) ∧
      (∀ i s v, s ∈ r.simu2ts.getD i [] → (Label ts s v ↔ Label r.graph i v)) ∧
      (∀ i j, Step r.graph i j → ∀ s ∈ r.simu2ts.getD i [], ∃ t ∈ r.simu2ts.getD j [], Step ts s t) ∧
      (∀ i j s t, s ∈ r.simu2ts.getD i [] → t ∈ r.simu2ts.getD j [] → Step ts s t →
        ∃ k, Step r.graph k j ∧ ∀ u, u ∈ r.simu2ts.getD k [] ↔
          u ∈ r.simu2ts.getD i [] ∧ ∃ w ∈ r.simu2ts.getD j [], Step ts u w) ∧
      (∀ i, i ∈ r.graph.initial ↔ ∃ s ∈ ts.initial, s ∈ r.simu2ts.getD i []) := by
  obtain ⟨fuel, st, h1, h2, h3⟩ := loop_spec (inv_start ts key true)
  obtain ⟨r, h4, h5⟩ := outputFts_spec hok h2
  have hc : r.simu2ts = st.sol := h5.cells
  refine ⟨fuel, r, ?_, ?_, ?_, ?_, ?_, fun s => (h5.map s).2, h5.label, ?_, ?_, h5.initial⟩
  · intro f hf
    simp only [simuAbstract, h1 f hf, Option.map_some, h4]
  · intro i; rw [h5.nodes, hc]
  · intro i hi
    rw [hc]
    exact List.exists_mem_of_ne_nil _ (h2.nonempty i ((h5.nodes i).1 hi))
  · intro s
    rw [hc]
    constructor
    · rintro ⟨i, hi⟩; exact h2.node i (cell_lt hi) s hi
    · intro hs
      obtain ⟨i, _, hi⟩ := h2.cover s hs
      exact ⟨i, hi⟩
  · intro i j hi hj h
    rw [hc] at hi hj h
    exact h2.distinct i hi j hj h
  · rintro i j ⟨a, ha⟩ s hs
    obtain ⟨_, hi, hj, ht⟩ := (h5.edges i j a).1 ha
    rw [hc] at hs ⊢
    exact h2.sound j hj i hi ht s hs
  · intro i j s t hs ht hst
    rw [hc] at hs ht ⊢
    by_cases htr : st.tr j i = true
    · refine ⟨i, ⟨[], (h5.edges i j []).2 ⟨rfl, cell_lt hs, cell_lt ht, htr⟩⟩, fun u => ?_⟩
      exact ⟨fun hu => ⟨hu, h2.sound j (cell_lt ht) i (cell_lt hs) htr u hu⟩, fun hu => hu.1⟩
    · rcases h2.done j (cell_lt ht) i (cell_lt hs) (h3 j (cell_lt ht) i (cell_lt hs)) (by simpa using htr) with
        h' | ⟨_, k, hk, hkt, hke⟩
      · exact absurd ⟨t, ht, hst⟩ (h' s hs)
      · exact ⟨k, ⟨[], (h5.edges k j []).2 ⟨rfl, hk, cell_lt ht, hkt⟩⟩, hke⟩

/-- Two lists of the same length, related position by position. -/
def Along {α β : Type} (R : α → β → Prop) (l : List α) (l' : List β) : Prop :=
  l.length = l'.length ∧ ∀ (i : Nat) a b, l[i]? = some a → l'[i]? = some b → R a b

theorem along_cons {α β : Type} {R : α → β → Prop} {a : α} {b : β} {l : List α} {l' : List β} (h : R a b)
    (hl : Along R l l') : Along R (a :: l) (b :: l') := by
  refine ⟨by simp [hl.1], ?_⟩
  intro i x y hx hy
  cases i with
  | zero => simp at hx hy; rw [← hx, ← hy]; exact h
  | succ i => simp at hx hy; exact hl.2 i x y hx hy

/-- **C26.** Hence both abstractions have the same finite behaviours as the input: every finite path of
`ts` goes through a path of cells, and through every path of cells goes a path of `ts`. -/
theorem simuAbstract_paths {ts : LGraph ν V} {key : ν → K} {noAp : V} {pick : List ν → ν} (hok : InOk ts key noAp pick)
    (dual : Bool) :
    ∃ fuel r, (∀ f, fuel ≤ f → simuAbstract ts dual key noAp pick f = some (.ok r)) ∧
      (∀ l, l.IsChain (Step ts) → (∀ s ∈ l, ts.hasNode s = true) →
        ∃ l', l'.IsChain (Step r.graph) ∧ Along (fun s i => s ∈ r.simu2ts.getD i []) l l') ∧
      (∀ l', l'.IsChain (Step r.graph) → (∀ i ∈ l', r.graph.hasNode i = true) →
        ∃ l, l.IsChain (Step ts) ∧ Along (fun s i => s ∈ r.simu2ts.getD i []) l l') := by
  have main : ∃ fuel r, (∀ f, fuel ≤ f → simuAbstract ts dual key noAp pick f = some (.ok r)) ∧
      (∀ i, r.graph.hasNode i = true → ∃ s, s ∈ r.simu2ts.getD i []) ∧
      (∀ s, ts.hasNode s = true → ∃ i, s ∈ r.simu2ts.getD i []) ∧
      (∀ i j, Step r.graph i j → ∀ s ∈ r.simu2ts.getD i [], ∃ t ∈ r.simu2ts.getD j [], Step ts s t) ∧
      (∀ j s t, ts.hasNode s = true → t ∈ r.simu2ts.getD j [] → Step ts s t →
        ∃ k, s ∈ r.simu2ts.getD k [] ∧ Step r.graph k j) := by
    cases dual with
    | false =>
      obtain ⟨fuel, r, h1, _, h3, h4, _, _, _, _, h9, h10, _, _⟩ := simuAbstract_bi hok
      refine ⟨fuel, r, h1, h3, fun s => (h4 s).2, h9, ?_⟩
      intro j s t hs ht hst
      obtain ⟨i, hi⟩ := (h4 s).2 hs
      exact ⟨i, hi, h10 i j s t hi ht hst⟩
    | true =>
      obtain ⟨fuel, r, h1, _, h3, h4, _, _, _, h8, h9, _⟩ := simuAbstract_dual hok
      refine ⟨fuel, r, h1, h3, fun s => (h4 s).2, h8, ?_⟩
      intro j s t hs ht hst
      obtain ⟨i, hi⟩ := (h4 s).2 hs
      obtain ⟨k, hk, hu⟩ := h9 i j s t hi ht hst
      exact ⟨k, (hu s).2 ⟨hi, t, ht, hst⟩, hk⟩
  obtain ⟨fuel, r, h1, h2, h3, h4, h5⟩ := main
  refine ⟨fuel, r, h1, ?_, ?_⟩
  · intro l
    induction l with
    | nil => intro _ _; exact ⟨[], .nil, rfl, by simp⟩
    | cons s l ih =>
      intro hch hn
      cases l with
      | nil =>
        obtain ⟨i, hi⟩ := h3 s (hn s (by simp))
        exact ⟨[i], .singleton _, along_cons hi ⟨rfl, by simp⟩⟩
      | cons t l =>
        rw [List.isChain_cons_cons] at hch
        obtain ⟨l', g1, g2⟩ := ih hch.2 fun u hu => hn u (by simp only [List.mem_cons] at hu ⊢; tauto)
        cases l' with
        | nil => simp [Along] at g2
        | cons j l' =>
          have ht : t ∈ r.simu2ts.getD j [] := g2.2 0 t j rfl rfl
          obtain ⟨k, k1, k2⟩ := h5 j s t (hn s (by simp)) ht hch.1
          exact ⟨k :: j :: l', List.isChain_cons_cons.2 ⟨k2, g1⟩, along_cons k1 g2⟩
  · have key : ∀ (l' : List Nat) (i : Nat) (s : ν), (i :: l').IsChain (Step r.graph) → s ∈ r.simu2ts.getD i [] →
        ∃ l, (s :: l).IsChain (Step ts) ∧ Along (fun s i => s ∈ r.simu2ts.getD i []) (s :: l) (i :: l') := by
      intro l'
      induction l' with
      | nil => intro i s _ hs; exact ⟨[], .singleton _, along_cons hs ⟨rfl, by simp⟩⟩
      | cons j l' ih =>
        intro i s hch hs
        rw [List.isChain_cons_cons] at hch
        obtain ⟨t, ht, hst⟩ := h4 i j hch.1 s hs
        obtain ⟨l, g1, g2⟩ := ih j t hch.2 ht
        exact ⟨t :: l, List.isChain_cons_cons.2 ⟨hst, g1⟩, along_cons hs g2⟩
    intro l' hch hn
    cases l' with
    | nil => exact ⟨[], .nil, rfl, by simp⟩
    | cons i l' =>
      obtain ⟨s, hs⟩ := h2 i (hn i (by simp))
      obtain ⟨l, g1, g2⟩ := key l' i s hch hs
      exact ⟨s :: l, g1, g2⟩

/-! ## Examples -/

/-- Two states labeled `1`, of which only one leads to the state labeled `2`. -/
def exampleTs : LGraph Nat Nat :=
  run [("ap", { contains := fun _ => true })] [("ap", 0)] [] []
    [.addNode 0 [("ap", 1)] true, .addNode 1 [("ap", 1)] true, .addNode 2 [("ap", 2)] true,
      .addEdge 0 2 [] true, .addEdge 1 1 [] true, .addEdge 2 2 [] true, .addEdge 2 1 [] true, .addInitial 0]

def exampleKey (s : Nat) : Nat := if s = 2 then 2 else 1

theorem exampleTs_ok : InOk exampleTs exampleKey 0 (fun c => c.headD 0) := by
  have h1 : exampleTs.Ok ∧ exampleTs.KeysTyped := by
    apply run_keysTyped
    · intro op hop; fin_cases hop <;> simp [GOp.Wf, Dict.Wf, Dict.keys]
    · intro op hop; fin_cases hop <;> simp [GOp.Checked]
  have hn : exampleTs.nodes = [(0, [("ap", 1)]), (1, [("ap", 1)]), (2, [("ap", 2)])] := by decide +kernel
  have hl : ∀ s v, Label exampleTs s v ↔ (s = 0 ∧ v = 1) ∨ (s = 1 ∧ v = 1) ∨ (s = 2 ∧ v = 2) := by
    intro s v
    unfold Label
    rw [hn]
    simp only [Dict.get?_cons]
    constructor
    · rintro ⟨a, ha, hv⟩
      split at ha
      · cases ha; simp [Dict.get?_cons] at hv; omega
      · split at ha
        · cases ha; simp [Dict.get?_cons] at hv; omega
        · split at ha
          · cases ha; simp [Dict.get?_cons] at hv; omega
          · simp at ha
    · rintro (⟨rfl, rfl⟩ | ⟨rfl, rfl⟩ | ⟨rfl, rfl⟩)
      · exact ⟨[("ap", 1)], by simp, rfl⟩
      · exact ⟨[("ap", 1)], by simp, rfl⟩
      · exact ⟨[("ap", 2)], by simp, rfl⟩
  refine ⟨h1.1, ?_, ⟨{ contains := fun _ => true }, rfl, rfl⟩, ?_, ?_⟩
  · intro s hs
    rw [LGraph.hasNode, hn] at hs
    simp [Dict.has] at hs
    rcases hs with rfl | rfl | rfl
    · exact ⟨1, (hl _ _).2 (by simp)⟩
    · exact ⟨1, (hl _ _).2 (by simp)⟩
    · exact ⟨2, (hl _ _).2 (by simp)⟩
  · intro s t v w hk h h'
    rw [hl] at h h'
    simp only [exampleKey] at hk
    split at hk <;> split at hk <;> omega
  · intro c hc
    cases c with
    | nil => exact absurd rfl hc
    | cons a c => simp

/-- The hypotheses are met by a transition system one of whose cells is split, and the rounds end. -/
example : (simuAbstract exampleTs false exampleKey 0 (fun c => c.headD 0) 30).map (fun r => r.toOption.map
      fun r => (r.simu2ts, r.graph.edges.map fun e => (e.1, e.2.1), r.graph.initial)) =
    some (some ([[0], [2], [1]], [(0, 1), (1, 1), (1, 2), (2, 2)], [0])) := by decide +kernel

example : (simuAbstract exampleTs true exampleKey 0 (fun c => c.headD 0) 30).map (fun r => r.toOption.map
      fun r => (r.simu2ts, r.graph.edges.map fun e => (e.1, e.2.1), r.graph.initial)) =
    some (some ([[0, 1], [2], [1], [0]], [(1, 0), (1, 1), (1, 2), (2, 0), (2, 2), (3, 1)], [0, 3])) := by
  decide +kernel

end Simu
end Tulip
