import Verif.Abstract.Merge
import Verif.Abstract.TsProps

/-!
# Abstractions of switched systems: theorems
-/

namespace Tulip

namespace Abs

open LGraph

set_option linter.unusedSectionVars false

variable {P X M : Type} [DecidableEq M]

/-! ## Assumptions and specification -/

/-- What is assumed of the package `polytope`. -/
structure MergeOps.Sound (O : MergeOps P) (G : Geom P X) : Prop where
  inter_sub : ∀ a b, G.den (O.inter a b) ⊆ G.den a ∩ G.den b
  inter_null : ∀ a b, G.null ((G.den a ∩ G.den b) \ G.den (O.inter a b))
  thin : ∀ a, O.keep a = false → G.null (G.den a)
  thick : ∀ a, O.keep a = true → ¬ G.null (G.den a)
  eqv : ∀ a b, O.eqv a b = true → G.den a = G.den b
  sameDomain : ∀ a b, O.sameDomain a b = true → G.den a = G.den b
  le : ∀ a b, G.den a ⊆ G.den b → O.le a b = true

/-- The regions are a common refinement of the partitions `cells m` of the modes: a
proposition-preserving partition of the domain; in each mode each region has exactly one recorded parent,
which contains it and has the same label; a region is the intersection of its parents (up to a negligible
set); different regions differ in a parent. -/
structure Refinement (G : Geom P X) (domain : P) (props : Dict String P) (modes : List M)
    (cells : M → List (Region P)) (regions : List (Region P)) (parents : M → Nat → Option Nat) :
    Prop where
  preserving : Preserving G domain props regions
  parent : ∀ m ∈ modes, ∀ (i : Nat) (r : Region P), regions[i]? = some r →
    ∃ (p : Nat) (q : Region P), parents m i = some p ∧ (cells m)[p]? = some q ∧
      G.den r.poly ⊆ G.den q.poly ∧ ∀ a, a ∈ r.props ↔ a ∈ q.props
  only : ∀ m i, regions.length ≤ i ∨ m ∉ modes → parents m i = none
  meet : ∀ (i : Nat) (r : Region P), regions[i]? = some r →
    G.null ({x | ∀ m ∈ modes, ∀ (p : Nat) (q : Region P), parents m i = some p →
      (cells m)[p]? = some q → x ∈ G.den q.poly} \ G.den r.poly)
  distinct : ∀ i j, i < regions.length → j < regions.length → i ≠ j →
    ∃ m ∈ modes, parents m i ≠ parents m j

/-! ## Loops -/

theorem loopE_ok {α σ : Type} {f : σ → α → Except PyErr σ} {Q : List α → σ → Prop} :
    ∀ (l pre : List α) (s : σ), Q pre s →
      (∀ done x rest s, pre ++ l = done ++ x :: rest → Q done s →
        ∃ s', f s x = .ok s' ∧ Q (done ++ [x]) s') →
      ∃ s', loopE f l s = .ok s' ∧ Q (pre ++ l) s' := by
  intro l
  induction l with
  | nil =>
    intro pre s h _
    exact ⟨s, rfl, by simpa using h⟩
  | cons x l ih =>
    intro pre s h hstep
    obtain ⟨s1, h1, h2⟩ := hstep pre x l s rfl h
    obtain ⟨s2, h3, h4⟩ := ih (pre ++ [x]) s1 h2 (fun done y rest t he =>
      hstep done y rest t (by rw [← he]; simp))
    refine ⟨s2, ?_, by simpa using h4⟩
    unfold loopE
    rw [h1]
    exact h3

theorem mem_indexPairs {n m i j : Nat} : (i, j) ∈ indexPairs n m ↔ i < n ∧ j < m := by
  unfold indexPairs
  simp only [List.mem_flatMap, List.mem_map, List.mem_range, Prod.mk.injEq]
  constructor
  · rintro ⟨_, h1, _, h2, rfl, rfl⟩
    exact ⟨h1, h2⟩
  · rintro ⟨h1, h2⟩
    exact ⟨i, h1, j, h2, rfl, rfl⟩

theorem indexPairs_nodup (n m : Nat) : (indexPairs n m).Nodup := by
  unfold indexPairs
  rw [List.nodup_flatMap]
  refine ⟨fun i _ => List.Nodup.map (fun a b h => (Prod.mk.inj h).2) List.nodup_range, ?_⟩
  refine List.Pairwise.imp_of_mem ?_ List.nodup_range
  intro a b _ _ hab
  simp only [Function.onFun, List.disjoint_left, List.mem_map, not_exists, not_and]
  rintro x ⟨_, _, rfl⟩ y _ he
  exact hab (Prod.mk.inj he).1.symm

theorem copyParents_ok (old : M → Nat → Option Nat) (i idx : Nat) :
    ∀ (ms : List M) (par : M → Nat → Option Nat), (∀ m ∈ ms, ∃ p, old m i = some p) →
      ∃ par', copyParents old i idx ms par = .ok par' ∧
        ∀ m k, par' m k = if m ∈ ms ∧ k = idx then old m i else par m k := by
  intro ms
  induction ms with
  | nil =>
    intro par _
    exact ⟨par, rfl, by simp⟩
  | cons m ms ih =>
    intro par h
    obtain ⟨p, hp⟩ := h m (by simp)
    obtain ⟨par', h1, h2⟩ := ih (fun m' k => if m' = m ∧ k = idx then some p else par m' k)
      (fun m' hm' => h m' (by simp [hm']))
    refine ⟨par', by unfold copyParents; rw [hp]; exact h1, ?_⟩
    intro m' k
    rw [h2]
    by_cases hk : k = idx
    · by_cases hm : m' ∈ ms
      · simp [hk, hm]
      · by_cases he : m' = m
        · subst he
          simp [hk, hp]
        · simp [hk, hm, he]
    · simp [hk]

theorem sameProps_iff {a b : List String} : sameProps a b = true ↔ ∀ p, p ∈ a ↔ p ∈ b := by
  unfold sameProps
  simp only [Bool.and_eq_true, List.all_eq_true, decide_eq_true_eq]
  exact ⟨fun h p => ⟨h.1 p, h.2 p⟩, fun h => ⟨fun p => (h p).1, fun p => (h p).2⟩⟩

/-! ## Merging two partitions -/

/-- The invariant of `merge_partition_pair`: `src` lists the pairs of overlapping regions seen so far
and their intersections. -/
structure PairInv (O : MergeOps P) (old : MState P M) (part2 : List (Region P)) (cur : M)
    (prev : List M) (done : List (Nat × Nat)) (s : MState P M) (src : List ((Nat × Nat) × Region P)) :
    Prop where
  regions : s.regions = src.map (·.2)
  origin : ∀ x ∈ src, ∃ a b, old.regions[x.1.1]? = some a ∧ part2[x.1.2]? = some b ∧
    x.2 = ⟨O.inter a.poly b.poly, a.props⟩ ∧ O.keep (O.inter a.poly b.poly) = true
  sub : (src.map (·.1)).Sublist done
  all : ∀ ij ∈ done, ∀ a b, old.regions[ij.1]? = some a → part2[ij.2]? = some b →
    O.keep (O.inter a.poly b.poly) = true → (ij, ⟨O.inter a.poly b.poly, a.props⟩) ∈ src
  parents : ∀ (k : Nat) (x : (Nat × Nat) × Region P), src[k]? = some x →
    (∀ m ∈ prev, s.parents m k = old.parents m x.1.1) ∧ s.parents cur k = some x.1.2
  only : ∀ m k, src.length ≤ k ∨ m ∉ prev ++ [cur] → s.parents m k = none
  labels : ∀ k : Nat, s.labels k = (s.regions[k]?).map (·.props)

/-- A new intersection is not equal to an earlier one. -/
theorem fresh_index {O : MergeOps P} {G : Geom P X} (hG : G.Lawful) (hO : O.Sound G)
    {old part2 : List (Region P)}
    (h1 : old.Pairwise fun r s => G.null (G.den r.poly ∩ G.den s.poly))
    (h2 : part2.Pairwise fun r s => G.null (G.den r.poly ∩ G.den s.poly))
    {i j i' j' : Nat} {a b a' b' : Region P} (ha : old[i]? = some a) (hb : part2[j]? = some b)
    (ha' : old[i']? = some a') (hb' : part2[j']? = some b') (hne : (i, j) ≠ (i', j')) :
    G.null (G.den (O.inter a.poly b.poly) ∩ G.den (O.inter a'.poly b'.poly)) := by
  have pw : ∀ {l : List (Region P)}, l.Pairwise (fun r s => G.null (G.den r.poly ∩ G.den s.poly)) →
      ∀ {i i' : Nat} {a a' : Region P}, l[i]? = some a → l[i']? = some a' → i ≠ i' →
        G.null (G.den a.poly ∩ G.den a'.poly) := by
    intro l hl i i' a a' h h' hii
    rcases Nat.lt_or_gt_of_ne hii with hlt | hlt
    · exact pairwise_getElem hl hlt h h'
    · rw [Set.inter_comm]
      exact pairwise_getElem hl hlt h' h
  by_cases hi : i = i'
  · have hj : j ≠ j' := fun h => hne (by rw [hi, h])
    exact hG.null_mono (Set.inter_subset_inter (fun x hx => (hO.inter_sub _ _ hx).2)
      (fun x hx => (hO.inter_sub _ _ hx).2)) (pw h2 hb hb' hj)
  · exact hG.null_mono (Set.inter_subset_inter (fun x hx => (hO.inter_sub _ _ hx).1)
      (fun x hx => (hO.inter_sub _ _ hx).1)) (pw h1 ha ha' hi)

theorem mergeCell_ok {O : MergeOps P} {G : Geom P X} (hG : G.Lawful) (hO : O.Sound G)
    {old : MState P M} {ab2 : ModeAbs P} {cur : M} {prev : List M} (hcur : cur ∉ prev)
    (h1 : old.regions.Pairwise fun r s => G.null (G.den r.poly ∩ G.den s.poly))
    (h2 : ab2.ppp.regions.Pairwise fun r s => G.null (G.den r.poly ∩ G.den s.poly))
    (hpar : ∀ m ∈ prev, ∀ i < old.regions.length, ∃ p, old.parents m i = some p)
    (hlab : ∀ k : Nat, old.labels k = (old.regions[k]?).map (·.props))
    (haps : ab2.aps.length = ab2.ppp.regions.length)
    (hsame : ∀ (i j : Nat) (a b : Region P) (l : List String), old.regions[i]? = some a →
      ab2.ppp.regions[j]? = some b → ab2.aps[j]? = some l →
      O.keep (O.inter a.poly b.poly) = true → ∀ p, p ∈ a.props ↔ p ∈ l)
    {done : List (Nat × Nat)} {s : MState P M} {src : List ((Nat × Nat) × Region P)}
    (hI : PairInv O old ab2.ppp.regions cur prev done s src) {ij : Nat × Nat}
    (hi : ij.1 < old.regions.length) (hj : ij.2 < ab2.ppp.regions.length) (hnew : ij ∉ done) :
    ∃ s', mergeCell O old ab2 cur prev s ij = .ok s' ∧
      ∃ src', PairInv O old ab2.ppp.regions cur prev (done ++ [ij]) s' src' := by
  obtain ⟨i, j⟩ := ij
  simp only at hi hj
  have ha : old.regions[i]? = some old.regions[i] := List.getElem?_eq_getElem hi
  have hb : ab2.ppp.regions[j]? = some ab2.ppp.regions[j] := List.getElem?_eq_getElem hj
  have hl : ab2.aps[j]? = some ab2.aps[j] := List.getElem?_eq_getElem (by omega)
  generalize old.regions[i] = a at ha
  generalize ab2.ppp.regions[j] = b at hb
  generalize hlg : ab2.aps[j] = l at hl
  unfold mergeCell
  simp only [getIdx, ha, hb, ok_bind]
  cases hk : O.keep (O.inter a.poly b.poly) with
  | false =>
    refine ⟨s, by simp, src, hI.regions, hI.origin, hI.sub.trans (List.sublist_append_left _ _), ?_,
      hI.parents, hI.only, hI.labels⟩
    intro ij hij a' b' ha' hb' hk'
    rcases List.mem_append.1 hij with hij | hij
    · exact hI.all ij hij a' b' ha' hb' hk'
    · rw [List.mem_singleton] at hij
      subst hij
      rw [ha] at ha'
      rw [hb] at hb'
      cases ha'; cases hb'
      rw [hk] at hk'
      cases hk'
  | true =>
    have hidx : s.regions.findIdx (fun q => O.eqv q.poly (O.inter a.poly b.poly)) = s.regions.length := by
      rw [List.findIdx_eq_length]
      intro q hq
      rw [hI.regions] at hq
      obtain ⟨x, hx, rfl⟩ := List.mem_map.1 hq
      obtain ⟨a', b', h3, h4, h5, h6⟩ := hI.origin x hx
      rw [Bool.eq_false_iff]
      intro heq
      have hxd : x.1 ∈ done := hI.sub.subset (List.mem_map_of_mem hx)
      have hnull := fresh_index hG hO h1 h2 ha hb h3 h4 (fun he => hnew (by rw [he]; exact hxd))
      have hden := hO.eqv _ _ heq
      rw [h5] at hden
      rw [← hden, Set.inter_self, hden] at hnull
      exact hO.thick _ hk hnull
    have hlen : s.regions.length = src.length := by rw [hI.regions, List.length_map]
    obtain ⟨par', hp1, hp2⟩ := copyParents_ok old.parents i s.regions.length prev s.parents
      (fun m hm => hpar m hm i hi)
    have hs := sameProps_iff.2 (hsame i j a b l ha hb hl hk)
    refine ⟨⟨s.regions ++ [⟨O.inter a.poly b.poly, a.props⟩],
      fun m k => if m = cur ∧ k = s.regions.length then some j else par' m k,
      fun k => if k = s.regions.length then some a.props else s.labels k⟩, ?_, src ++ [((i, j), ⟨O.inter a.poly b.poly, a.props⟩)], ?_, ?_, ?_, ?_, ?_, ?_, ?_⟩
    rotate_left
    · rw [List.map_append, ← hI.regions]
      rfl
    · intro x hx
      rcases List.mem_append.1 hx with hx | hx
      · exact hI.origin x hx
      · rw [List.mem_singleton] at hx
        subst hx
        exact ⟨a, b, ha, hb, rfl, hk⟩
    · rw [List.map_append]
      exact hI.sub.append (List.Sublist.refl _)
    · intro ij hij a' b' ha' hb' hk'
      rw [List.mem_append]
      rcases List.mem_append.1 hij with hij | hij
      · exact Or.inl (hI.all ij hij a' b' ha' hb' hk')
      · rw [List.mem_singleton] at hij
        subst hij
        rw [ha] at ha'
        rw [hb] at hb'
        cases ha'; cases hb'
        exact Or.inr (List.mem_singleton.2 rfl)
    · intro k x hx
      simp only
      rw [List.getElem?_append] at hx
      split at hx
      · rename_i hlt
        obtain ⟨g1, g2⟩ := hI.parents k x hx
        have hkne : k ≠ s.regions.length := by omega
        refine ⟨fun m hm => ?_, ?_⟩
        · rw [if_neg (fun h => hkne h.2), hp2, if_neg (fun h => hkne h.2)]
          exact g1 m hm
        · rw [if_neg (fun h => hkne h.2), hp2, if_neg (fun h => hkne h.2)]
          exact g2
      · rename_i hge
        have hk0 : k = s.regions.length := by
          have := (List.getElem?_eq_some_iff.1 hx).1
          simp at this
          omega
        have hxe : x = ((i, j), ⟨O.inter a.poly b.poly, a.props⟩) := by
          rw [hk0, hlen, Nat.sub_self] at hx
          simpa using hx.symm
        subst hxe
        refine ⟨fun m hm => ?_, ?_⟩
        · rw [if_neg (fun h => hcur (by rw [← h.1]; exact hm)), hp2, if_pos ⟨hm, hk0⟩]
        · rw [if_pos ⟨trivial, hk0⟩]
    · intro m k hmk
      simp only [List.length_append, List.length_singleton] at hmk ⊢
      have hn : ¬ (m = cur ∧ k = s.regions.length) := by
        rintro ⟨rfl, rfl⟩
        rcases hmk with h | h
        · omega
        · simp at h
      have hn' : ¬ (m ∈ prev ∧ k = s.regions.length) := by
        rintro ⟨hm, rfl⟩
        rcases hmk with h | h
        · omega
        · simp [hm] at h
      rw [if_neg hn, hp2, if_neg hn']
      exact hI.only m k (hmk.imp (by omega) id)
    · intro k
      simp only
      rw [List.getElem?_append]
      by_cases hlt : k < s.regions.length
      · rw [if_neg (by omega), if_pos hlt]
        exact hI.labels k
      · rw [if_neg hlt]
        by_cases he : k = s.regions.length
        · rw [if_pos he, he, Nat.sub_self]
          rfl
        · rw [if_neg he, hI.labels k, List.getElem?_eq_none (by omega), List.getElem?_eq_none (by simp; omega)]
    · simp only [hidx, hp1, ok_bind, getKey, hlab, ha, hl, hs, Option.map_some, Bool.not_true,
        Bool.false_eq_true, if_false]

/-- `merge_partition_pair` does not raise and its result is the list of the overlapping pairs. -/
theorem mergePair_ok {O : MergeOps P} {G : Geom P X} (hG : G.Lawful) (hO : O.Sound G)
    {old : MState P M} {ab2 : ModeAbs P} {cur : M} {prev : List M} (hcur : cur ∉ prev)
    (h1 : old.regions.Pairwise fun r s => G.null (G.den r.poly ∩ G.den s.poly))
    (h2 : ab2.ppp.regions.Pairwise fun r s => G.null (G.den r.poly ∩ G.den s.poly))
    (hpar : ∀ m ∈ prev, ∀ i < old.regions.length, ∃ p, old.parents m i = some p)
    (hlab : ∀ k : Nat, old.labels k = (old.regions[k]?).map (·.props))
    (haps : ab2.aps.length = ab2.ppp.regions.length)
    (hsame : ∀ (i j : Nat) (a b : Region P) (l : List String), old.regions[i]? = some a →
      ab2.ppp.regions[j]? = some b → ab2.aps[j]? = some l →
      O.keep (O.inter a.poly b.poly) = true → ∀ p, p ∈ a.props ↔ p ∈ l) :
    ∃ s' src, mergePair O old ab2 cur prev = .ok s' ∧
      PairInv O old ab2.ppp.regions cur prev
        (indexPairs old.regions.length ab2.ppp.regions.length) s' src := by
  obtain ⟨s', h3, src, h4⟩ := loopE_ok (f := mergeCell O old ab2 cur prev)
    (Q := fun done s => ∃ src, PairInv O old ab2.ppp.regions cur prev done s src)
    (indexPairs old.regions.length ab2.ppp.regions.length) [] ⟨[], fun _ _ => none, fun _ => none⟩
    ⟨[], rfl, by simp, by simp, by simp, by simp, by simp, by simp⟩ (by
      rintro done ij rest s he ⟨src, hI⟩
      rw [List.nil_append] at he
      have hmem : (ij.1, ij.2) ∈ indexPairs old.regions.length ab2.ppp.regions.length := by
        rw [he]; simp
      have hnd := indexPairs_nodup old.regions.length ab2.ppp.regions.length
      rw [he, List.nodup_append] at hnd
      obtain ⟨hi, hj⟩ := mem_indexPairs.1 hmem
      exact mergeCell_ok hG hO hcur h1 h2 hpar hlab haps hsame hI hi hj
        (fun hd => hnd.2.2 ij hd ij (by simp) rfl))
  exact ⟨s', src, h3, h4⟩

theorem loopE_step {α σ : Type} {f : σ → α → Except PyErr σ} : ∀ (l : List α) {s s' : σ}, loopE f l s = .ok s' →
    ∀ x ∈ l, ∃ t t', f t x = .ok t'
  | [], _, _, _, _, hx => by cases hx
  | y :: l, s, s', h, x, hx => by
    unfold loopE at h
    cases hy : f s y with
    | error e => rw [hy] at h; cases h
    | ok t =>
      rw [hy, ok_bind] at h
      rcases List.mem_cons.1 hx with rfl | hx
      · exact ⟨s, t, hy⟩
      · exact loopE_step l h x hx

/-- Two partitions of which two overlapping regions have different labels are not merged: `merge_partition_pair`
raises. -/
theorem mergePair_labels {O : MergeOps P} {old : MState P M} {ab2 : ModeAbs P} {cur : M} {prev : List M}
    {s' : MState P M} (h : mergePair O old ab2 cur prev = .ok s') {i j : Nat} {a b : Region P} {l1 l2 : List String}
    (ha : old.regions[i]? = some a) (hb : ab2.ppp.regions[j]? = some b)
    (hk : O.keep (O.inter a.poly b.poly) = true) (h1 : old.labels i = some l1) (h2 : ab2.aps[j]? = some l2) :
    ∀ p, p ∈ l1 ↔ p ∈ l2 := by
  obtain ⟨t, t', ht⟩ := loopE_step _ h (i, j) (mem_indexPairs.2
    ⟨(List.getElem?_eq_some_iff.1 ha).1, (List.getElem?_eq_some_iff.1 hb).1⟩)
  unfold mergeCell at ht
  simp only [getIdx, ha, hb, ok_bind, hk, Bool.not_true, Bool.false_eq_true, if_false] at ht
  cases hc : copyParents old.parents i (t.regions.findIdx fun q => O.eqv q.poly (O.inter a.poly b.poly)) prev
      t.parents with
  | error e => rw [hc] at ht; cases ht
  | ok par =>
    simp only [hc, ok_bind, getKey, h1, h2] at ht
    cases hs : sameProps l1 l2 with
    | true => exact sameProps_iff.1 hs
    | false => simp [hs] at ht

theorem pair_refinement {O : MergeOps P} {G : Geom P X} (hG : G.Lawful) (hO : O.Sound G)
    {domain : P} {props : Dict String P} {cells : M → List (Region P)} {old : MState P M}
    {part2 : List (Region P)} {cur : M} {prev : List M} (hcur : cur ∉ prev)
    (hR : Refinement G domain props prev cells old.regions old.parents)
    (hp2 : Preserving G domain props part2) (hc : cells cur = part2)
    (hsame : ∀ (i j : Nat) (a b : Region P), old.regions[i]? = some a → part2[j]? = some b →
      O.keep (O.inter a.poly b.poly) = true → ∀ p, p ∈ a.props ↔ p ∈ b.props)
    {s : MState P M} {src : List ((Nat × Nat) × Region P)}
    (hI : PairInv O old part2 cur prev (indexPairs old.regions.length part2.length) s src) :
    Refinement G domain props (prev ++ [cur]) cells s.regions s.parents := by
  have hget : ∀ (k : Nat) (r : Region P), s.regions[k]? = some r → ∃ x, src[k]? = some x ∧ x.2 = r := by
    intro k r hr
    rw [hI.regions, List.getElem?_map, Option.map_eq_some_iff] at hr
    exact hr
  have hlen : s.regions.length = src.length := by rw [hI.regions, List.length_map]
  have hnd : (src.map (·.1)).Nodup := (indexPairs_nodup _ _).sublist hI.sub
  refine ⟨⟨?_, ?_, ?_, ?_, ?_⟩, ?_, ?_, ?_, ?_⟩
  · intro r hr
    rw [hI.regions] at hr
    obtain ⟨x, hx, rfl⟩ := List.mem_map.1 hr
    obtain ⟨a, b, ha, hb, he, _⟩ := hI.origin x hx
    rw [he]
    exact (fun y hy => hR.preserving.inside a (List.mem_of_getElem? ha) (hO.inter_sub _ _ hy).1)
  · refine hG.null_of_sub (B := G.den domain \ {x | ∃ r ∈ old.regions, x ∈ G.den r.poly})
      (C := (G.den domain \ {x | ∃ r ∈ part2, x ∈ G.den r.poly}) ∪
        {x | ∃ r ∈ old.regions, x ∈ {x | ∃ c ∈ part2,
          x ∈ (G.den r.poly ∩ G.den c.poly) \ {x | ∃ t ∈ s.regions, x ∈ G.den t.poly}}}) ?_
      hR.preserving.cover (hG.null_union hp2.cover ?_)
    · rintro x ⟨hx, hn⟩
      by_cases h1 : ∃ r ∈ old.regions, x ∈ G.den r.poly
      · by_cases h2 : ∃ c ∈ part2, x ∈ G.den c.poly
        · obtain ⟨r, hr, hxr⟩ := h1
          obtain ⟨c, hc, hxc⟩ := h2
          exact Or.inr (Or.inr ⟨r, hr, c, hc, ⟨hxr, hxc⟩, hn⟩)
        · exact Or.inr (Or.inl ⟨hx, h2⟩)
      · exact Or.inl ⟨hx, h1⟩
    · refine hG.null_iUnion _ _ fun r hr => hG.null_iUnion _ _ fun c hc => ?_
      obtain ⟨i, hi⟩ := List.getElem?_of_mem hr
      obtain ⟨j, hj⟩ := List.getElem?_of_mem hc
      cases hk : O.keep (O.inter r.poly c.poly) with
      | true =>
        refine hG.null_mono ?_ (hO.inter_null r.poly c.poly)
        rintro x ⟨hx, hn⟩
        refine ⟨hx, fun hc' => hn ⟨⟨O.inter r.poly c.poly, r.props⟩, ?_, hc'⟩⟩
        rw [hI.regions]
        exact List.mem_map.2 ⟨_, hI.all (i, j) (mem_indexPairs.2
          ⟨(List.getElem?_eq_some_iff.1 hi).1, (List.getElem?_eq_some_iff.1 hj).1⟩) r c hi hj hk, rfl⟩
      | false =>
        refine hG.null_of_sub ?_ (hO.inter_null r.poly c.poly) (hO.thin _ hk)
        rintro x ⟨hx, hn⟩
        by_cases hi : x ∈ G.den (O.inter r.poly c.poly)
        · exact Or.inr hi
        · exact Or.inl ⟨hx, hi⟩
  · rw [hI.regions, List.pairwise_map]
    rw [List.Nodup, List.pairwise_map] at hnd
    refine hnd.imp_of_mem fun {x y} hx hy hxy => ?_
    obtain ⟨a, b, ha, hb, he, _⟩ := hI.origin x hx
    obtain ⟨a', b', ha', hb', he', _⟩ := hI.origin y hy
    rw [he, he']
    exact fresh_index hG hO hR.preserving.disjoint hp2.disjoint ha hb ha' hb' hxy
  · intro r hr p hp
    rw [hI.regions] at hr
    obtain ⟨x, hx, rfl⟩ := List.mem_map.1 hr
    obtain ⟨a, b, ha, hb, he, _⟩ := hI.origin x hx
    rw [he] at hp ⊢
    obtain ⟨q, h1, h2⟩ := hR.preserving.holds a (List.mem_of_getElem? ha) p hp
    exact ⟨q, h1, fun y hy => h2 (hO.inter_sub _ _ hy).1⟩
  · intro r hr p q hq hp
    rw [hI.regions] at hr
    obtain ⟨x, hx, rfl⟩ := List.mem_map.1 hr
    obtain ⟨a, b, ha, hb, he, _⟩ := hI.origin x hx
    rw [he] at hp ⊢
    exact hG.null_mono (Set.inter_subset_inter_left _ fun y hy => (hO.inter_sub _ _ hy).1)
      (hR.preserving.fails a (List.mem_of_getElem? ha) p q hq hp)
  · intro m hm i r hr
    obtain ⟨x, hx, rfl⟩ := hget i r hr
    obtain ⟨a, b, ha, hb, he, hk⟩ := hI.origin x (List.mem_of_getElem? hx)
    obtain ⟨g1, g2⟩ := hI.parents i x hx
    rw [he]
    rcases List.mem_append.1 hm with hm | hm
    · obtain ⟨p, q, h1, h2, h3, h4⟩ := hR.parent m hm x.1.1 a ha
      exact ⟨p, q, by rw [g1 m hm, h1], h2, fun y hy => h3 (hO.inter_sub _ _ hy).1, h4⟩
    · rw [List.mem_singleton] at hm
      subst hm
      exact ⟨x.1.2, b, g2, by rw [hc]; exact hb, fun y hy => (hO.inter_sub _ _ hy).2,
        hsame _ _ a b ha hb hk⟩
  · intro m i hmi
    rw [hlen] at hmi
    exact hI.only m i hmi
  · intro i r hr
    obtain ⟨x, hx, rfl⟩ := hget i r hr
    obtain ⟨a, b, ha, hb, he, _⟩ := hI.origin x (List.mem_of_getElem? hx)
    obtain ⟨g1, g2⟩ := hI.parents i x hx
    rw [he]
    refine hG.null_of_sub ?_ (hR.meet x.1.1 a ha) (hO.inter_null a.poly b.poly)
    rintro y ⟨hy, hn⟩
    have hyb : y ∈ G.den b.poly := hy cur (by simp) x.1.2 b g2 (by rw [hc]; exact hb)
    by_cases hya : y ∈ G.den a.poly
    · exact Or.inr ⟨⟨hya, hyb⟩, hn⟩
    · exact Or.inl ⟨fun m hm p q hp hq => hy m (by simp [hm]) p q (by rw [g1 m hm]; exact hp) hq, hya⟩
  · intro i j hi hj hij
    rw [hlen] at hi hj
    have hxi : src[i]? = some src[i] := List.getElem?_eq_getElem hi
    have hxj : src[j]? = some src[j] := List.getElem?_eq_getElem hj
    obtain ⟨a1, a2⟩ := hI.parents i _ hxi
    obtain ⟨b1, b2⟩ := hI.parents j _ hxj
    by_cases h2 : (src[i]).1.2 = (src[j]).1.2
    · have h1 : (src[i]).1.1 ≠ (src[j]).1.1 := by
        intro h1
        have he : (src[i]).1 = (src[j]).1 := Prod.ext h1 h2
        have : (src.map (·.1))[i]'(by simpa using hi) = (src.map (·.1))[j]'(by simpa using hj) := by
          simpa using he
        exact hij ((List.Nodup.getElem_inj_iff hnd).1 this)
      obtain ⟨ai, _, hai, _⟩ := hI.origin _ (List.mem_of_getElem? hxi)
      obtain ⟨aj, _, haj, _⟩ := hI.origin _ (List.mem_of_getElem? hxj)
      obtain ⟨m, hm, hne⟩ := hR.distinct _ _ (List.getElem?_eq_some_iff.1 hai).1
        (List.getElem?_eq_some_iff.1 haj).1 h1
      exact ⟨m, by simp [hm], by rw [a1 m hm, b1 m hm]; exact hne⟩
    · exact ⟨cur, by simp, by rw [a2, b2]; simpa using h2⟩

/-! ## All modes -/

theorem Preserving.congr {G : Geom P X} {domain domain' : P} {props props' : Dict String P}
    {l : List (Region P)} (h : Preserving G domain props l) (hd : G.den domain = G.den domain')
    (h1 : ∀ p q, props.get? p = some q → ∃ q', props'.get? p = some q' ∧ G.den q = G.den q')
    (h2 : ∀ p q', props'.get? p = some q' → ∃ q, props.get? p = some q ∧ G.den q = G.den q') :
    Preserving G domain' props' l := by
  refine ⟨?_, ?_, h.disjoint, ?_, ?_⟩
  · rw [← hd]; exact h.inside
  · rw [← hd]; exact h.cover
  · intro r hr p hp
    obtain ⟨q, hq, hsub⟩ := h.holds r hr p hp
    obtain ⟨q', hq', he⟩ := h1 p q hq
    exact ⟨q', hq', by rw [← he]; exact hsub⟩
  · intro r hr p q' hq' hp
    obtain ⟨q, hq, he⟩ := h2 p q' hq'
    rw [← he]
    exact h.fails r hr p q hq hp

theorem sameRegions_den {O : MergeOps P} {G : Geom P X} (hO : O.Sound G) {a b : Dict String P}
    (h : sameRegions O.eqv a b = true) :
    (∀ p q, a.get? p = some q → ∃ q', b.get? p = some q' ∧ G.den q = G.den q') ∧
    ∀ p q', b.get? p = some q' → ∃ q, a.get? p = some q ∧ G.den q = G.den q' := by
  unfold sameRegions at h
  simp only [Bool.and_eq_true, List.all_eq_true] at h
  obtain ⟨h1, h2⟩ := h
  have key : ∀ p q, a.get? p = some q → ∃ q', b.get? p = some q' ∧ G.den q = G.den q' := by
    intro p q hq
    have := h1 (p, q) (get?_mem hq)
    simp only at this
    split at this
    · rename_i q' hq'
      exact ⟨q', hq', hO.eqv _ _ this⟩
    · cases this
  refine ⟨key, fun p q' hq' => ?_⟩
  have := h2 (p, q') (get?_mem hq')
  obtain ⟨q, hq⟩ := (Dict.has_iff _ _).1 this
  obtain ⟨q'', hq'', he⟩ := key p q hq
  rw [hq'] at hq''
  cases hq''
  exact ⟨q, hq, he⟩

/-- Regions of two proposition-preserving partitions that overlap have the same label. -/
theorem same_label {G : Geom P X} (hG : G.Lawful) {domain : P} {props : Dict String P}
    {l1 l2 : List (Region P)} (h1 : Preserving G domain props l1) (h2 : Preserving G domain props l2)
    {a b : Region P} (ha : a ∈ l1) (hb : b ∈ l2) (hn : ¬ G.null (G.den a.poly ∩ G.den b.poly)) (p : String) :
    p ∈ a.props ↔ p ∈ b.props := by
  constructor
  · intro hp
    by_contra hpb
    obtain ⟨q, hq, hsub⟩ := h1.holds a ha p hp
    exact hn (hG.null_mono (fun x hx => And.intro hx.2 (hsub hx.1)) (h2.fails b hb p q hq hpb))
  · intro hp
    by_contra hpa
    obtain ⟨q, hq, hsub⟩ := h2.holds b hb p hp
    exact hn (hG.null_mono (fun x hx => And.intro hx.1 (hsub hx.2)) (h1.fails a ha p q hq hpa))

/-- The cells of a mode. -/
def cellsOf (abs : Dict M (ModeAbs P)) (m : M) : List (Region P) :=
  match abs.get? m with
  | some ab => ab.ppp.regions
  | none => []

/-- The state of a transition system of a mode has the label of its region. -/
def ModeAbs.Labeled (ab : ModeAbs P) : Prop :=
  ab.aps.length = ab.ppp.regions.length ∧ ∀ (j : Nat) (b : Region P) (l : List String),
    ab.ppp.regions[j]? = some b → ab.aps[j]? = some l → ∀ p, p ∈ b.props ↔ p ∈ l

theorem mergeLoop_ok {O : MergeOps P} {G : Geom P X} (hG : G.Lawful) (hO : O.Sound G)
    {domain : P} {props : Dict String P} {cells : M → List (Region P)} {abs : Dict M (ModeAbs P)}
    (hcells : ∀ m ab, abs.get? m = some ab → cells m = ab.ppp.regions)
    (hpres : ∀ m ab, abs.get? m = some ab → Preserving G domain props ab.ppp.regions)
    (hlabel : ∀ m ab, abs.get? m = some ab → ab.Labeled) :
    ∀ (order prev : List M) (s : MState P M), (∀ m ∈ order, abs.has m = true) →
      (prev ++ order).Nodup → Refinement G domain props prev cells s.regions s.parents →
      (∀ k : Nat, s.labels k = (s.regions[k]?).map (·.props)) →
      ∃ s', mergeLoop O abs order prev s = .ok s' ∧
        Refinement G domain props (prev ++ order) cells s'.regions s'.parents ∧
        ∀ k : Nat, s'.labels k = (s'.regions[k]?).map (·.props) := by
  intro order
  induction order with
  | nil =>
    intro prev s _ _ hR hL
    exact ⟨s, rfl, by simpa using hR, hL⟩
  | cons cur rest ih =>
    intro prev s hmem hnd hR hL
    obtain ⟨ab, hab⟩ := (Dict.has_iff _ _).1 (hmem cur (by simp))
    have hcur : cur ∉ prev := fun h => (List.nodup_append.1 hnd).2.2 cur h cur (by simp) rfl
    have hover : ∀ a b : Region P, O.keep (O.inter a.poly b.poly) = true →
        ¬ G.null (G.den a.poly ∩ G.den b.poly) :=
      fun a b hk hn => hO.thick _ hk (hG.null_mono (hO.inter_sub _ _) hn)
    have hP := hpres cur ab hab
    obtain ⟨s1, src, h1, h2⟩ := mergePair_ok hG hO (cur := cur) (ab2 := ab) hcur hR.preserving.disjoint hP.disjoint
      (fun m hm i hi => by
        obtain ⟨p, _, h, _⟩ := hR.parent m hm i _ (List.getElem?_eq_getElem hi)
        exact ⟨p, h⟩) hL (hlabel cur ab hab).1
      (fun i j a b l ha hb hl hk p => by
        rw [same_label hG hR.preserving hP (List.mem_of_getElem? ha) (List.mem_of_getElem? hb)
          (hover a b hk) p]
        exact (hlabel cur ab hab).2 j b l hb hl p)
    have hR' := pair_refinement hG hO hcur hR hP (hcells cur ab hab)
      (fun i j a b ha hb hk p => same_label hG hR.preserving hP (List.mem_of_getElem? ha)
        (List.mem_of_getElem? hb) (hover a b hk) p) h2
    obtain ⟨s2, h3, h4, h5⟩ := ih (prev ++ [cur]) s1 (fun m hm => hmem m (by simp [hm]))
      (by simpa using hnd) hR' h2.labels
    refine ⟨s2, ?_, by simpa using h4, h5⟩
    unfold mergeLoop
    rw [hab]
    simp only [h1, ok_bind]
    exact h3

/-- The adjacency matrix: symmetric, reflexive, and distinct regions are adjacent iff they are adjacent
in space and, in some mode, their parents are adjacent or equal. -/
theorem mergedAdj_spec {O : MergeOps P} (hadj : ∀ a b, O.adjacent a b = O.adjacent b a)
    {abs : Dict M (ModeAbs P)} (hsym : ∀ q ∈ abs, ∀ i j, q.2.adj i j = q.2.adj j i)
    {s : MState P M} {i j : Nat} {a b : Region P} (ha : s.regions[i]? = some a)
    (hb : s.regions[j]? = some b) :
    mergedAdj O abs s i j = mergedAdj O abs s j i ∧ mergedAdj O abs s i i = true ∧
    (i ≠ j → (mergedAdj O abs s i j = true ↔ O.adjacent a.poly b.poly = true ∧
      ∃ m ab pi pj, (m, ab) ∈ abs ∧ s.parents m i = some pi ∧ s.parents m j = some pj ∧
        (ab.adj pi pj = true ∨ pi = pj))) := by
  have ht : ∀ i j, touching abs s.parents i j = true ↔
      ∃ m ab pi pj, (m, ab) ∈ abs ∧ s.parents m i = some pi ∧ s.parents m j = some pj ∧
        (ab.adj pi pj = true ∨ pi = pj) := by
    intro i j
    unfold touching
    rw [List.any_eq_true]
    constructor
    · rintro ⟨⟨m, ab⟩, hm, h⟩
      simp only at h
      split at h
      · rename_i pi pj h1 h2
        simp only [Bool.or_eq_true, beq_iff_eq] at h
        exact ⟨m, ab, pi, pj, hm, h1, h2, h⟩
      · cases h
    · rintro ⟨m, ab, pi, pj, hm, h1, h2, h⟩
      exact ⟨(m, ab), hm, by simpa [h1, h2] using h⟩
  have htc : touching abs s.parents i j = touching abs s.parents j i := by
    rw [Bool.eq_iff_iff, ht, ht]
    constructor
    · rintro ⟨m, ab, pi, pj, hm, h1, h2, h⟩
      exact ⟨m, ab, pj, pi, hm, h2, h1, h.imp (fun h => (hsym _ hm pi pj).symm.trans h) Eq.symm⟩
    · rintro ⟨m, ab, pi, pj, hm, h1, h2, h⟩
      exact ⟨m, ab, pj, pi, hm, h2, h1, h.imp (fun h => (hsym _ hm pi pj).symm.trans h) Eq.symm⟩
  have key : i ≠ j → mergedAdj O abs s i j = (touching abs s.parents i j && O.adjacent a.poly b.poly) ∧
      mergedAdj O abs s j i = (touching abs s.parents i j && O.adjacent a.poly b.poly) := by
    intro hij
    unfold mergedAdj
    simp only [ha, hb, if_neg hij, if_neg (Ne.symm hij)]
    rcases Nat.lt_or_gt_of_ne hij with h | h
    · rw [if_neg (by omega), if_pos h, htc, hadj a.poly b.poly]
      exact ⟨rfl, rfl⟩
    · rw [if_pos h, if_neg (by omega)]
      exact ⟨rfl, rfl⟩
  refine ⟨?_, by simp [mergedAdj, ha], fun hij => ?_⟩
  · by_cases hij : i = j
    · rw [hij]
    · rw [(key hij).1, (key hij).2]
  · rw [(key hij).1, Bool.and_eq_true, ht]
    exact And.comm

/-- **C59**. `merge_partitions`, for proposition-preserving partitions of the same domain with the same
propositions: it does not raise (whatever the order in which the modes are merged), and returns a common
refinement. -/
theorem mergePartitions_spec {O : MergeOps P} {G : Geom P X} (hG : G.Lawful) (hO : O.Sound G)
    {m0 : M} {ab0 : ModeAbs P} {rest : Dict M (ModeAbs P)} (hwf : Dict.Wf ((m0, ab0) :: rest))
    (hpres : ∀ q ∈ (m0, ab0) :: rest, Preserving G q.2.ppp.domain q.2.ppp.propRegions q.2.ppp.regions)
    (hlabel : ∀ q ∈ (m0, ab0) :: rest, q.2.Labeled)
    (hsame : ∀ q ∈ (m0, ab0) :: rest, ∀ r ∈ (m0, ab0) :: rest,
      sameRegions O.eqv q.2.ppp.propRegions r.2.ppp.propRegions = true ∧
      O.sameDomain q.2.ppp.domain r.2.ppp.domain = true)
    {order : List M} (horder : order.Perm (Dict.keys rest)) :
    ∃ A, mergePartitions O ((m0, ab0) :: rest) order = .ok (some A) ∧
      A.ppp.domain = ab0.ppp.domain ∧ A.ppp.propRegions = ab0.ppp.propRegions ∧
      Refinement G ab0.ppp.domain ab0.ppp.propRegions (m0 :: order)
        (cellsOf ((m0, ab0) :: rest)) A.ppp.regions A.parents ∧
      (∀ k : Nat, A.labels k = (A.ppp.regions[k]?).map (·.props)) ∧
      A.adj = mergedAdj O ((m0, ab0) :: rest) ⟨A.ppp.regions, A.parents, A.labels⟩ := by
  set abs : Dict M (ModeAbs P) := (m0, ab0) :: rest with habs
  have h0 : Dict.get? abs m0 = some ab0 := by rw [habs, Dict.get?_cons, if_pos rfl]
  have hmem : ∀ m ab, Dict.get? abs m = some ab → (m, ab) ∈ abs := by
    intro m ab h
    unfold Dict.get? at h
    rw [Option.map_eq_some_iff] at h
    obtain ⟨q, hq, rfl⟩ := h
    have := List.find?_some hq
    simp only [beq_iff_eq] at this
    rw [← this]
    exact List.mem_of_find?_eq_some hq
  have hm0 : (m0, ab0) ∈ abs := hmem _ _ h0
  have hP : ∀ m ab, Dict.get? abs m = some ab →
      Preserving G ab0.ppp.domain ab0.ppp.propRegions ab.ppp.regions := by
    intro m ab h
    have hq := hmem m ab h
    obtain ⟨s1, s2⟩ := hsame _ hq _ hm0
    obtain ⟨t1, t2⟩ := sameRegions_den hO s1
    exact (hpres _ hq).congr (hO.sameDomain _ _ s2) t1 t2
  have hnd : (m0 :: order).Nodup := by
    have : ((m0 :: order) : List M).Perm (Dict.keys abs) := by
      rw [habs]
      exact horder.cons m0
    exact this.nodup_iff.2 hwf
  have hcells : ∀ m ab, Dict.get? abs m = some ab → cellsOf abs m = ab.ppp.regions := by
    intro m ab h
    simp only [cellsOf, h]
  have hR0 : Refinement G ab0.ppp.domain ab0.ppp.propRegions [m0] (cellsOf abs) ab0.ppp.regions
      (fun m i => if m = m0 ∧ i < ab0.ppp.regions.length then some i else none) := by
    refine ⟨hP m0 ab0 h0, ?_, ?_, ?_, ?_⟩
    · intro m hm i r hr
      rw [List.mem_singleton] at hm
      cases hm
      refine ⟨i, r, by simp [(List.getElem?_eq_some_iff.1 hr).1], ?_, fun _ h => h, fun _ => Iff.rfl⟩
      rw [hcells m0 ab0 h0]
      exact hr
    · intro m i h
      rw [if_neg]
      rintro ⟨rfl, hi⟩
      rcases h with h | h
      · omega
      · simp at h
    · intro i r hr
      refine hG.null_mono ?_ hG.null_empty
      rintro x ⟨hx, hn⟩
      refine hn (hx m0 (by simp) i r (by simp [(List.getElem?_eq_some_iff.1 hr).1]) ?_)
      rw [hcells m0 ab0 h0]
      exact hr
    · intro i j hi hj hij
      exact ⟨m0, by simp, by simp [hi, hj, hij]⟩
  obtain ⟨s, h1, h2, h3⟩ := mergeLoop_ok hG hO hcells hP (fun m ab h => hlabel _ (hmem m ab h)) order [m0]
    ⟨ab0.ppp.regions, fun m i => if m = m0 ∧ i < ab0.ppp.regions.length then some i else none,
      fun i => (ab0.ppp.regions[i]?).map (·.props)⟩ (by
      intro m hm
      rw [Dict.has_iff, ← Dict.mem_keys_iff, habs]
      exact List.mem_cons_of_mem _ (horder.subset hm)) hnd hR0 (fun _ => rfl)
  refine ⟨⟨⟨ab0.ppp.domain, s.regions, ab0.ppp.propRegions⟩, mergedAdj O abs s, s.parents, s.labels⟩, ?_,
    rfl, rfl, h2, h3, rfl⟩
  unfold mergePartitions
  rw [habs]
  simp only [← habs]
  rw [if_neg]
  · simp only [h1, ok_bind, Partition.make]
    rw [if_neg, if_neg]
    · rfl
    · simp only [List.any_eq_true, not_exists, not_and, Bool.not_eq_true', Bool.not_eq_false]
      intro r hr q hq
      obtain ⟨t, ht, _⟩ := h2.preserving.holds r hr q hq
      exact (Dict.has_iff _ _).2 ⟨t, ht⟩
    · simp only [List.any_eq_true, not_exists, not_and, Bool.not_eq_true', Bool.not_eq_false]
      intro r hr
      exact hO.le _ _ (h2.preserving.inside r hr)
  · simp only [List.any_eq_true, not_exists, not_and, Bool.or_eq_true, Bool.not_eq_true']
    intro q hq r hr
    simp [hsame q hq r hr]

end Abs

end Tulip
