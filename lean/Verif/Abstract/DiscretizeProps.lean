import Verif.Abstract.Discretize
import Verif.Abstract.Prop2partProps
import Verif.Abstract.FeasibleProps
import Mathlib.Algebra.Order.Archimedean.Basic
import Mathlib.Algebra.Order.BigOperators.Group.List
import Mathlib.Data.List.Perm.Basic
import Mathlib.Data.List.Pairwise
import Mathlib.Tactic.Linarith
import Mathlib.Tactic.Ring

/-!
# Discretization: theorems about `tulip/abstract/discretization.py`
-/

namespace Tulip

namespace Abs

set_option linter.unusedSectionVars false

variable {P X K : Type} [Field K] [LinearOrder K]

/-! ## Refining one region -/

theorem Preserving.perm {G : Geom P X} {domain : P} {props : Dict String P} {l m : List (Region P)}
    (h : Preserving G domain props l) (hp : l.Perm m) : Preserving G domain props m := by
  refine ⟨fun r hr => h.inside r (hp.mem_iff.2 hr), ?_, ?_, fun r hr => h.holds r (hp.mem_iff.2 hr),
    fun r hr => h.fails r (hp.mem_iff.2 hr)⟩
  · have : {x | ∃ r ∈ m, x ∈ G.den r.poly} = {x | ∃ r ∈ l, x ∈ G.den r.poly} := by
      ext x
      simp only [Set.mem_ofPred_eq, hp.mem_iff]
    rw [this]
    exact h.cover
  · exact hp.pairwise h.disjoint fun {a b} hab => by rw [Set.inter_comm]; exact hab

/-- Pieces of a region, with its label, may replace it. -/
theorem Preserving.replace {G : Geom P X} (hG : G.Lawful) {domain : P} {props : Dict String P}
    {s : Region P} {rest : List (Region P)} (h : Preserving G domain props (s :: rest))
    {pieces : List P} (hsub : ∀ p ∈ pieces, G.den p ⊆ G.den s.poly)
    (hcov : G.null (G.den s.poly \ {x | ∃ p ∈ pieces, x ∈ G.den p}))
    (hdis : pieces.Pairwise fun p q => G.null (G.den p ∩ G.den q)) :
    Preserving G domain props (pieces.map (fun p => ⟨p, s.props⟩) ++ rest) := by
  have hm : ∀ r ∈ pieces.map (fun p => (⟨p, s.props⟩ : Region P)) ++ rest,
      (r.props = s.props ∧ G.den r.poly ⊆ G.den s.poly) ∨ r ∈ rest := by
    intro r hr
    rcases List.mem_append.1 hr with hr | hr
    · obtain ⟨p, hp, rfl⟩ := List.mem_map.1 hr
      exact Or.inl ⟨rfl, hsub p hp⟩
    · exact Or.inr hr
  refine ⟨?_, ?_, ?_, ?_, ?_⟩
  · intro r hr
    rcases hm r hr with ⟨_, hr⟩ | hr
    · exact hr.trans (h.inside s (by simp))
    · exact h.inside r (by simp [hr])
  · refine hG.null_of_sub ?_ h.cover hcov
    rintro x ⟨hx, hn⟩
    by_cases h1 : ∃ r ∈ s :: rest, x ∈ G.den r.poly
    · obtain ⟨r, hr, hxr⟩ := h1
      rcases List.mem_cons.1 hr with rfl | hr
      · refine Or.inr ⟨hxr, ?_⟩
        rintro ⟨p, hp, hxp⟩
        exact hn ⟨⟨p, r.props⟩, by simp [hp], hxp⟩
      · exact absurd ⟨r, by simp [hr], hxr⟩ hn
    · exact Or.inl ⟨hx, h1⟩
  · have hd := List.pairwise_cons.1 h.disjoint
    rw [List.pairwise_append, List.pairwise_map]
    refine ⟨hdis, hd.2, ?_⟩
    intro r hr t ht
    obtain ⟨p, hp, rfl⟩ := List.mem_map.1 hr
    exact hG.null_mono (Set.inter_subset_inter_left _ (hsub p hp)) (hd.1 t ht)
  · intro r hr p hp
    rcases hm r hr with ⟨he, hr⟩ | hr
    · obtain ⟨q, h1, h2⟩ := h.holds s (by simp) p (he ▸ hp)
      exact ⟨q, h1, hr.trans h2⟩
    · exact h.holds r (by simp [hr]) p hp
  · intro r hr p q hq hp
    rcases hm r hr with ⟨he, hr⟩ | hr
    · exact hG.null_mono (Set.inter_subset_inter_left _ hr) (h.fails s (by simp) p q hq (he ▸ hp))
    · exact h.fails r (by simp [hr]) p q hq hp

/-! ## Assumptions -/

/-- What is assumed of the functions called by the loop. `Reach sys stay T` is the set of states from
where the controller can reach `T` through states of `stay`. -/
structure DiscOps.Sound (O : DiscOps P K) (G : Geom P X) (Reach : Nat → Set X → Set X → Set X) :
    Prop where
  solve : ∀ sys p q t s, O.solve sys p q t = .ok s →
    G.den s ⊆ Reach sys (G.den (t.getD p)) (G.den q)
  mono : ∀ sys s s' T, s ⊆ s' → Reach sys s T ⊆ Reach sys s' T
  inter : ∀ a b, G.den (O.inter a b) ⊆ G.den a ∩ G.den b
  inter_cover : ∀ a b, G.null ((G.den a ∩ G.den b) \ G.den (O.inter a b))
  diff : ∀ a b, G.den (O.diff a b) ⊆ G.den a
  diff_disjoint : ∀ a b, G.null (G.den (O.diff a b) ∩ G.den b)
  diff_cover : ∀ a b, G.null ((G.den a \ G.den b) \ G.den (O.diff a b))
  small : ∀ a, O.vol a < O.absTol → G.null (G.den a)
  separate_sub : ∀ a, ∀ p ∈ O.separate a, G.den p ⊆ G.den a
  separate_cover : ∀ a, G.null (G.den a \ {x | ∃ p ∈ O.separate a, x ∈ G.den p})
  separate_disjoint : ∀ a, (O.separate a).Pairwise fun p q => G.null (G.den p ∩ G.den q)

/-! ## Soundness -/

/-- The invariant of the loop: `home` maps cells to the cells of the given partition; the cells are a
proposition-preserving partition, each cell is in its original cell, with the same label, and for each
transition the target can be reached from almost each state of the source, through states of the
original cell of the source. -/
structure DInv (O : DiscOps P K) (G : Geom P X) (Reach : Nat → Set X → Set X → Set X) (domain : P)
    (props : Dict String P) (part : List (Region P)) (subs0 : List Nat) (S : DState P)
    (home : List Nat) : Prop where
  len : home.length = S.sol.length
  orig : O.conservative = false → S.orig = home
  subs : O.pwa = true → S.subs.length = S.sol.length ∧ ∀ i h : Nat, home[i]? = some h →
    S.subs[i]? = subs0[h]?
  cell : ∀ (i : Nat) (r : Region P) (h : Nat), S.sol[i]? = some r → home[i]? = some h → ∃ c : Region P, part[h]? = some c ∧
    r.props = c.props ∧ G.den r.poly ⊆ G.den c.poly
  partition : Preserving G domain props S.sol
  trans : ∀ j i : Nat, S.trans j i = true → ∃ (ri rj : Region P) (h : Nat) (c : Region P) (sys : Nat), S.sol[i]? = some ri ∧ S.sol[j]? = some rj ∧
    home[i]? = some h ∧ part[h]? = some c ∧ (if O.pwa then subs0[h]? = some sys else sys = 0) ∧
    G.null (G.den ri.poly \ Reach sys (G.den c.poly) (G.den rj.poly))

theorem getIdx_ok {α : Type} {l : List α} {i : Nat} {a : α} (h : getIdx l i = .ok a) : l[i]? = some a := by
  unfold getIdx at h
  split at h
  · cases h; assumption
  · cases h

theorem bindE_ok {α β : Type} {x : Except PyErr α} {f : α → Except PyErr β} {b : β}
    (h : x >>= f = .ok b) : ∃ a, x = .ok a ∧ f a = .ok b := by
  cases x with
  | error e => cases h
  | ok a => exact ⟨a, rfl, h⟩

theorem mapE_ok {α β : Type} {x : Except PyErr α} {f : α → β} {b : β}
    (h : x.map f = .ok b) : ∃ a, x = .ok a ∧ f a = b := by
  cases x with
  | error e => cases h
  | ok a => cases h; exact ⟨a, rfl, rfl⟩

/-- What an iteration did: the cells and sets that it used. -/
theorem biStep_inv {O : DiscOps P K} {origList : List P} {S S' : DState P} {j i : Nat}
    (h : biStep O origList S j i = .ok S') :
    ∃ si sj sys ts s0, S.sol[i]? = some si ∧ S.sol[j]? = some sj ∧ sysOf O S i = .ok sys ∧
      transSet O origList S i = .ok ts ∧ O.solve sys si.poly sj.poly ts = .ok s0 ∧
      let S1 : DState P := { S with ij := fun a b => if a = j ∧ b = i then false else S.ij a b }
      let isect := O.inter si.poly s0
      let diff := O.diff si.poly s0
      ((O.minVol < O.vol isect ∧ O.rd sys < O.rad isect ∧ O.minVol < O.vol diff ∧
        O.rd sys < O.rad diff) ∧ divide O S1 j i si isect diff = .ok S' ∨
       ¬ (O.minVol < O.vol isect ∧ O.rd sys < O.rad isect ∧ O.minVol < O.vol diff ∧
        O.rd sys < O.rad diff) ∧
        S' = { S1 with trans := fun a b => if a = j ∧ b = i then decide (O.vol diff < O.absTol)
                                           else S.trans a b }) := by
  unfold biStep at h
  obtain ⟨si, h1, h⟩ := bindE_ok h
  obtain ⟨sj, h2, h⟩ := bindE_ok h
  obtain ⟨sys, h3, h⟩ := bindE_ok h
  obtain ⟨ts, h4, h⟩ := bindE_ok h
  obtain ⟨s0, h5, h⟩ := bindE_ok h
  refine ⟨si, sj, sys, ts, s0, getIdx_ok h1, getIdx_ok h2, h3, h4, h5, ?_⟩
  simp only at h ⊢
  split at h
  · exact Or.inl ⟨by assumption, h⟩
  · cases h
    exact Or.inr ⟨by assumption, rfl⟩

theorem divide_inv {O : DiscOps P K} {S S' : DState P} {j i : Nat} {si : Region P} {isect diff : P}
    (h : divide O S j i si isect diff = .ok S') :
    ∃ p ps, O.separate isect = p :: ps ∧
      let new := O.separate diff ++ ps
      S'.sol = S.sol.set i ⟨p, si.props⟩ ++ new.map (fun q => ⟨q, si.props⟩) ∧
      (O.conservative = true → S'.orig = S.orig) ∧
      (O.conservative = false → (new = [] ∧ S'.orig = S.orig) ∨
        ∃ o, S.orig[i]? = some o ∧ S'.orig = S.orig ++ new.map fun _ => o) ∧
      (O.pwa = false → S'.subs = S.subs) ∧
      (O.pwa = true → (new = [] ∧ S'.subs = S.subs) ∨
        ∃ o, S.subs[i]? = some o ∧ S'.subs = S.subs ++ new.map fun _ => o) ∧
      S'.trans = splitTrans O S'.sol S.adj S.trans S.sol.length i j ∧
      S'.adj = splitAdj O S'.sol S.adj S.sol.length i ∧
      S'.ij = splitIJ O S.sol.length S'.sol.length i S'.adj S'.trans S.ij := by
  unfold divide at h
  split at h
  · cases h
  · rename_i p ps hp
    obtain ⟨orig, h1, h⟩ := bindE_ok h
    obtain ⟨subs, h2, h⟩ := bindE_ok h
    cases h
    refine ⟨p, ps, hp, rfl, ?_, ?_, ?_, ?_, rfl, rfl, rfl⟩
    · intro hc
      rw [if_pos hc] at h1
      cases h1; rfl
    · intro hc
      rw [if_neg (by simp [hc])] at h1
      unfold extendAt at h1
      split at h1
      · rename_i he
        cases h1
        exact Or.inl ⟨List.isEmpty_iff.1 he, rfl⟩
      · obtain ⟨o, ho, rfl⟩ := mapE_ok h1
        exact Or.inr ⟨o, getIdx_ok ho, rfl⟩
    · intro hc
      rw [if_neg (by simp [hc])] at h2
      cases h2; rfl
    · intro hc
      rw [if_pos hc] at h2
      unfold extendAt at h2
      split at h2
      · rename_i he
        cases h2
        exact Or.inl ⟨List.isEmpty_iff.1 he, rfl⟩
      · obtain ⟨o, ho, rfl⟩ := mapE_ok h2
        exact Or.inr ⟨o, getIdx_ok ho, rfl⟩

theorem set_perm {α : Type} {l : List α} {i : Nat} {a : α} (h : l[i]? = some a) :
    l.Perm (a :: l.eraseIdx i) := by
  obtain ⟨hi, rfl⟩ := List.getElem?_eq_some_iff.1 h
  exact (List.getElem_cons_eraseIdx_perm hi).symm

theorem set_perm' {α : Type} {l : List α} {i : Nat} {a b : α} (h : l[i]? = some a) :
    (l.set i b).Perm (b :: l.eraseIdx i) := by
  obtain ⟨hi, rfl⟩ := List.getElem?_eq_some_iff.1 h
  have := set_perm (l := l.set i b) (i := i) (a := b) (by simp [hi])
  rwa [List.eraseIdx_set_eq] at this

/-- The system of a cell is that of its original cell. -/
theorem sysOf_home {O : DiscOps P K} {G : Geom P X} {Reach : Nat → Set X → Set X → Set X} {domain : P}
    {props : Dict String P} {part : List (Region P)} {subs0 : List Nat} {S : DState P} {home : List Nat}
    (hI : DInv O G Reach domain props part subs0 S home) {i h sys : Nat} (hh : home[i]? = some h)
    (hs : sysOf O S i = .ok sys) : if O.pwa then subs0[h]? = some sys else sys = 0 := by
  unfold sysOf at hs
  cases hp : O.pwa with
  | false =>
    rw [hp] at hs
    simp only [Bool.false_eq_true, if_false, Except.ok.injEq] at hs ⊢
    exact hs.symm
  | true =>
    rw [hp] at hs
    simp only [if_true] at hs ⊢
    rw [← (hI.subs hp).2 i h hh]
    exact getIdx_ok hs

/-- The set through which a transition may go is inside the original cell. -/
theorem transSet_home {O : DiscOps P K} {G : Geom P X} {Reach : Nat → Set X → Set X → Set X} {domain : P}
    {props : Dict String P} {part : List (Region P)} {subs0 : List Nat} {S : DState P} {home : List Nat}
    (hI : DInv O G Reach domain props part subs0 S home) {i h : Nat} {si c : Region P}
    {ts : Option P} (hsi : S.sol[i]? = some si) (hh : home[i]? = some h) (hc : part[h]? = some c)
    (ht : transSet O (part.map (·.poly)) S i = .ok ts) : G.den (ts.getD si.poly) ⊆ G.den c.poly := by
  unfold transSet at ht
  cases hcons : O.conservative with
  | true =>
    rw [hcons] at ht
    cases ht
    obtain ⟨c', hc', _, hsub⟩ := hI.cell i si h hsi hh
    rw [hc] at hc'
    cases hc'
    exact hsub
  | false =>
    rw [hcons] at ht
    simp only [Bool.false_eq_true, if_false] at ht
    obtain ⟨o, ho, ht⟩ := bindE_ok ht
    obtain ⟨d, hd, ht⟩ := bindE_ok ht
    cases ht
    have ho := getIdx_ok ho
    rw [hI.orig hcons, hh] at ho
    cases ho
    have hd := getIdx_ok hd
    rw [List.getElem?_map, hc] at hd
    cases hd
    exact le_refl _

theorem trans_of_splitTrans {O : DiscOps P K} {sol : List (Region P)} {adj trans : Nat → Nat → Bool}
    {n i j a b : Nat} (h : splitTrans O sol adj trans n i j a b = true) :
    (a = j ∧ b = i ∧ i ≠ j) ∨ (a ≠ i ∧ a < n ∧ b < n ∧ trans a b = true) := by
  unfold splitTrans at h
  simp only at h
  split at h
  · cases h
  · split at h
    · exact Or.inl (by assumption)
    · split at h
      · cases h
      · rename_i hx
        exact Or.inr ⟨by omega, by omega, by omega, h⟩

/-- The pieces of a divided cell. -/
theorem pieces_spec {O : DiscOps P K} {G : Geom P X} (hG : G.Lawful)
    {Reach : Nat → Set X → Set X → Set X} (hO : O.Sound G Reach) (a b : P) {p : P} {ps : List P}
    (hsep : O.separate (O.inter a b) = p :: ps) :
    (∀ q ∈ p :: (O.separate (O.diff a b) ++ ps), G.den q ⊆ G.den a) ∧
    G.null (G.den a \ {x | ∃ q ∈ p :: (O.separate (O.diff a b) ++ ps), x ∈ G.den q}) ∧
    (p :: (O.separate (O.diff a b) ++ ps)).Pairwise fun p q => G.null (G.den p ∩ G.den q) := by
  have hperm : (p :: (O.separate (O.diff a b) ++ ps)).Perm
      (O.separate (O.diff a b) ++ O.separate (O.inter a b)) := by
    rw [hsep]; exact List.perm_middle.symm
  have hmem : ∀ q, q ∈ p :: (O.separate (O.diff a b) ++ ps) ↔
      q ∈ O.separate (O.diff a b) ∨ q ∈ O.separate (O.inter a b) := by
    intro q; rw [hperm.mem_iff, List.mem_append]
  refine ⟨?_, ?_, ?_⟩
  · intro q hq
    rcases (hmem q).1 hq with hq | hq
    · exact (hO.separate_sub _ q hq).trans (hO.diff _ _)
    · exact fun x hx => (hO.inter _ _ (hO.separate_sub _ q hq hx)).1
  · refine hG.null_of_sub
      (B := ((G.den a ∩ G.den b) \ G.den (O.inter a b)) ∪
        (G.den (O.inter a b) \ {x | ∃ p ∈ O.separate (O.inter a b), x ∈ G.den p}))
      (C := ((G.den a \ G.den b) \ G.den (O.diff a b)) ∪
        (G.den (O.diff a b) \ {x | ∃ p ∈ O.separate (O.diff a b), x ∈ G.den p})) ?_
      (hG.null_union (hO.inter_cover _ _) (hO.separate_cover _))
      (hG.null_union (hO.diff_cover _ _) (hO.separate_cover _))
    rintro x ⟨hx, hn⟩
    by_cases hx0 : x ∈ G.den b
    · refine Or.inl ?_
      by_cases hxi : x ∈ G.den (O.inter a b)
      · refine Or.inr ⟨hxi, ?_⟩
        rintro ⟨q, hq, hxq⟩
        exact hn ⟨q, (hmem q).2 (Or.inr hq), hxq⟩
      · exact Or.inl ⟨⟨hx, hx0⟩, hxi⟩
    · refine Or.inr ?_
      by_cases hxi : x ∈ G.den (O.diff a b)
      · refine Or.inr ⟨hxi, ?_⟩
        rintro ⟨q, hq, hxq⟩
        exact hn ⟨q, (hmem q).2 (Or.inl hq), hxq⟩
      · exact Or.inl ⟨⟨hx, hx0⟩, hxi⟩
  · refine hperm.symm.pairwise ?_ fun {p q} h => by rw [Set.inter_comm]; exact h
    rw [List.pairwise_append]
    refine ⟨hO.separate_disjoint _, hO.separate_disjoint _, ?_⟩
    intro r hr q hq
    refine hG.null_mono ?_ (hO.diff_disjoint a b)
    rintro x ⟨hxr, hxq⟩
    exact ⟨hO.separate_sub _ r hr hxr, (hO.inter _ _ (hO.separate_sub _ q hq hxq)).2⟩

/-- One iteration keeps the invariant, for every pair. -/
theorem biStep_sound {O : DiscOps P K} {G : Geom P X} (hG : G.Lawful)
    {Reach : Nat → Set X → Set X → Set X} (hO : O.Sound G Reach) {domain : P} {props : Dict String P}
    {part : List (Region P)} {subs0 : List Nat} {S S' : DState P} {home : List Nat}
    (hI : DInv O G Reach domain props part subs0 S home) {j i : Nat}
    (h : biStep O (part.map (·.poly)) S j i = .ok S') :
    ∃ home', DInv O G Reach domain props part subs0 S' home' ∧ home <+: home' := by
  obtain ⟨si, sj, sys, ts, s0, h1, h2, h3, h4, h5, h⟩ := biStep_inv h
  have hi := (List.getElem?_eq_some_iff.1 h1).1
  have hj := (List.getElem?_eq_some_iff.1 h2).1
  obtain ⟨hm, hhm⟩ : ∃ hm, home[i]? = some hm := ⟨_, List.getElem?_eq_getElem (hI.len ▸ hi)⟩
  obtain ⟨c, hc, hcp, hcs⟩ := hI.cell i si hm h1 hhm
  have hsys := sysOf_home hI hhm h3
  have hts := transSet_home hI h1 hhm hc h4
  have hs0 : G.den s0 ⊆ Reach sys (G.den c.poly) (G.den sj.poly) :=
    (hO.solve _ _ _ _ _ h5).trans (hO.mono _ _ _ _ hts)
  rcases h with ⟨_, h⟩ | ⟨_, rfl⟩
  · -- the cell is divided
    obtain ⟨p, ps, hsep, hsol, ho1, ho2, hs1, hs2, htr, _, _⟩ := divide_inv h
    simp only at hsol ho1 ho2 hs1 hs2 htr
    set new := O.separate (O.diff si.poly s0) ++ ps with hnew
    obtain ⟨hpieces, hcov, hdis⟩ := pieces_spec hG hO si.poly s0 hsep
    have hpart : Preserving G domain props S'.sol := by
      have hrep := ((hI.partition.perm (set_perm h1)).replace hG hpieces hcov hdis)
      refine hrep.perm ?_
      rw [hsol, List.map_cons, List.cons_append]
      refine List.Perm.trans ?_ ((set_perm' (b := ⟨p, si.props⟩) h1).symm.append_right _)
      rw [List.cons_append]
      exact (List.perm_append_comm).cons _
    refine ⟨home ++ new.map fun _ => hm, ?_, List.prefix_append _ _⟩
    have hlen : (home ++ new.map fun _ => hm).length = S'.sol.length := by
      rw [hsol]; simp [hI.len]
    -- the cells of the new partition
    have hget : ∀ k r h', S'.sol[k]? = some r → (home ++ new.map fun _ => hm)[k]? = some h' →
        (k < S.sol.length ∧ k ≠ i ∧ S.sol[k]? = some r ∧ home[k]? = some h') ∨
        (h' = hm ∧ r.props = si.props ∧ G.den r.poly ⊆ G.den si.poly) := by
      intro k r h' hr hh'
      rcases lt_or_ge k S.sol.length with hk | hk
      · rw [hsol, List.getElem?_append_left (by simpa using hk)] at hr
        rw [List.getElem?_append_left (by rw [hI.len]; exact hk)] at hh'
        by_cases hki : k = i
        · subst hki
          rw [List.getElem?_set_self hk] at hr
          cases hr
          rw [hhm] at hh'
          cases hh'
          exact Or.inr ⟨rfl, rfl, hpieces p (by simp)⟩
        · rw [List.getElem?_set_ne (Ne.symm hki)] at hr
          exact Or.inl ⟨hk, hki, hr, hh'⟩
      · rw [hsol, List.getElem?_append_right (by simpa using hk)] at hr
        rw [List.getElem?_append_right (by rw [hI.len]; exact hk)] at hh'
        rw [List.getElem?_map, Option.map_eq_some_iff] at hr hh'
        obtain ⟨q, hq, rfl⟩ := hr
        obtain ⟨_, _, rfl⟩ := hh'
        exact Or.inr ⟨rfl, rfl, hpieces q (List.mem_cons_of_mem _ (List.mem_of_getElem? hq))⟩
    refine ⟨hlen, ?_, ?_, ?_, hpart, ?_⟩
    · intro hcons
      rcases ho2 hcons with ⟨hn, ho⟩ | ⟨o, ho, ho'⟩
      · rw [ho, hn, hI.orig hcons]
        simp
      · rw [hI.orig hcons, hhm] at ho
        cases ho
        rw [ho', hI.orig hcons]
    · intro hpwa
      obtain ⟨hsl, hsv⟩ := hI.subs hpwa
      have hfull : S'.subs.length = S'.sol.length ∧ ∀ k : Nat, S'.subs[k]? =
          (S.subs ++ new.map fun _ => sys)[k]? := by
        rw [hpwa] at hsys
        simp only [if_true] at hsys
        rcases hs2 hpwa with ⟨hn, hs⟩ | ⟨o, ho, ho'⟩
        · rw [hs, hsol, hn]
          simp [hsl]
        · have : o = sys := by
            rw [hsv i hm hhm, hsys] at ho
            exact (Option.some.inj ho).symm
          subst this
          rw [ho', hsol]
          simp [hsl]
      refine ⟨hfull.1, ?_⟩
      intro k h' hh'
      rw [hfull.2 k]
      rcases lt_or_ge k S.sol.length with hk | hk
      · rw [List.getElem?_append_left (by rw [hI.len]; exact hk)] at hh'
        rw [List.getElem?_append_left (by rw [hsl]; exact hk)]
        exact hsv k h' hh'
      · rw [List.getElem?_append_right (by rw [hI.len]; exact hk)] at hh'
        rw [List.getElem?_append_right (by rw [hsl]; exact hk)]
        rw [List.getElem?_map, Option.map_eq_some_iff] at hh'
        obtain ⟨q, hq, rfl⟩ := hh'
        rw [hpwa] at hsys
        simp only [if_true] at hsys
        rw [hsys, List.getElem?_map]
        rw [hI.len] at hq
        rw [hsl, hq]
        rfl
    · intro k r h' hr hh'
      rcases hget k r h' hr hh' with ⟨_, _, h6, h7⟩ | ⟨rfl, h6, h7⟩
      · exact hI.cell k r h' h6 h7
      · exact ⟨c, hc, h6.trans hcp, h7.trans hcs⟩
    · intro a b hab
      rw [htr] at hab
      rcases trans_of_splitTrans hab with ⟨rfl, rfl, hne⟩ | ⟨ha, han, hbn, hab⟩
      · -- the transition found
        refine ⟨⟨p, si.props⟩, sj, hm, c, sys, ?_, ?_, ?_, hc, hsys, ?_⟩
        · rw [hsol, List.getElem?_append_left (by simpa using hi), List.getElem?_set_self hi]
        · rw [hsol, List.getElem?_append_left (by simpa using hj), List.getElem?_set_ne hne, h2]
        · rw [List.getElem?_append_left (by rw [hI.len]; exact hi), hhm]
        · refine hG.null_mono ?_ hG.null_empty
          rintro x ⟨hx, hn⟩
          exact absurd (hs0 (hO.inter _ _ (hO.separate_sub _ p (by rw [hsep]; simp) hx)).2) hn
      · -- a transition found before
        obtain ⟨rb, ra, h', c', sys', h6, h7, h8, h9, h10, h11⟩ := hI.trans a b hab
        have hra : S'.sol[a]? = some ra := by
          rw [hsol, List.getElem?_append_left (by simpa using han), List.getElem?_set_ne (Ne.symm ha), h7]
        by_cases hbi : b = i
        · subst hbi
          rw [h1] at h6
          cases h6
          refine ⟨⟨p, si.props⟩, ra, h', c', sys', ?_, hra, ?_, h9, h10, ?_⟩
          · rw [hsol, List.getElem?_append_left (by simpa using hi), List.getElem?_set_self hi]
          · rw [List.getElem?_append_left (by rw [hI.len]; exact hi), h8]
          · exact hG.null_mono (Set.sdiff_subset_sdiff_left (hpieces p (by simp))) h11
        · refine ⟨rb, ra, h', c', sys', ?_, hra, ?_, h9, h10, h11⟩
          · rw [hsol, List.getElem?_append_left (by simpa using hbn),
              List.getElem?_set_ne (Ne.symm hbi), h6]
          · rw [List.getElem?_append_left (by rw [hI.len]; exact hbn), h8]
  · -- the cell is not divided
    refine ⟨home, ⟨hI.len, hI.orig, hI.subs, hI.cell, hI.partition, ?_⟩, List.prefix_refl _⟩
    intro a b hab
    simp only at hab
    split at hab
    · rename_i hx
      obtain ⟨rfl, rfl⟩ := hx
      refine ⟨si, sj, hm, c, sys, h1, h2, hhm, hc, hsys, ?_⟩
      refine hG.null_of_sub (B := G.den (O.diff si.poly s0))
        (C := (G.den si.poly \ G.den s0) \ G.den (O.diff si.poly s0)) ?_
        (hO.small _ (by simpa using hab)) (hO.diff_cover _ _)
      rintro x ⟨hx, hn⟩
      by_cases hd : x ∈ G.den (O.diff si.poly s0)
      · exact Or.inl hd
      · exact Or.inr ⟨⟨hx, fun h0 => hn (hs0 h0)⟩, hd⟩
    · exact hI.trans a b hab

/-- The invariant holds before the loop. -/
theorem discInit_inv {O : DiscOps P K} {G : Geom P X} {Reach : Nat → Set X → Set X → Set X}
    {domain : P} {props : Dict String P} {part : List (Region P)} {adj : Nat → Nat → Bool}
    {subs0 : List Nat} (hp : Preserving G domain props part)
    (hs : O.pwa = true → subs0.length = part.length) :
    DInv O G Reach domain props part subs0 (discInit O part adj subs0) (List.range part.length) := by
  refine ⟨by simp [discInit], ?_, ?_, ?_, hp, ?_⟩
  · intro h; simp [discInit, h]
  · intro h
    simp only [discInit, h, if_true]
    refine ⟨hs h, ?_⟩
    intro i k hk
    rw [List.getElem?_range (by have := (List.getElem?_eq_some_iff.1 hk).1; simpa using this)] at hk
    cases hk; rfl
  · intro i r k hr hk
    rw [List.getElem?_range (by have := (List.getElem?_eq_some_iff.1 hk).1; simpa using this)] at hk
    cases hk
    exact ⟨r, hr, rfl, le_refl _⟩
  · intro j i h; simp [discInit] at h

/-- An invariant of the steps holds when the loop ends, and there are no pairs left. -/
theorem discLoop_inv {step : DState P → Nat → Nat → Except PyErr (DState P)} {Q : DState P → Prop}
    (hstep : ∀ S S' j i, Q S → firstPair S.sol.length S.ij = some (j, i) → step S j i = .ok S' → Q S')
    (fuel : Nat) : ∀ (S S' : DState P), Q S → discLoop step fuel S = some (.ok S') →
      Q S' ∧ firstPair S'.sol.length S'.ij = none := by
  induction fuel with
  | zero =>
    intro S S' hQ h
    unfold discLoop at h
    split at h
    · cases h
      exact ⟨hQ, by assumption⟩
    · cases h
  | succ n ih =>
    intro S S' hQ h
    unfold discLoop at h
    split at h
    · cases h
      exact ⟨hQ, by assumption⟩
    · rename_i j i hf
      simp only at h
      split at h
      · cases h
      · rename_i S1 h1
        exact ih S1 S' (hstep S S1 j i hQ hf h1) h

/-- **C60**. The cells computed by the bisimulation algorithm are a proposition-preserving partition of
the domain; each is inside one cell of the given partition and has its label; and for each transition
from `i` to `j` (`transitions[j, i] == 1`) the controller can reach the cell `j` from each state of the
cell `i`, up to a negligible set, through states of the given cell that contains the cell `i`, with the
subsystem that is active there. -/
theorem discretizeBi_sound {O : DiscOps P K} {G : Geom P X} (hG : G.Lawful)
    {Reach : Nat → Set X → Set X → Set X} (hO : O.Sound G Reach) {domain : P} {props : Dict String P}
    {part : List (Region P)} {adj : Nat → Nat → Bool} {subs0 : List Nat}
    (hp : Preserving G domain props part) (hs : O.pwa = true → subs0.length = part.length)
    {fuel : Nat} {S : DState P} (h : discretizeBi O part adj subs0 fuel = some (.ok S)) :
    ∃ home : List Nat, home.length = S.sol.length ∧ Preserving G domain props S.sol ∧
      (O.conservative = false → S.orig = home) ∧
      (O.pwa = true → ∀ i h : Nat, home[i]? = some h → S.subs[i]? = subs0[h]?) ∧
      (∀ (i : Nat) (r : Region P) (h : Nat), S.sol[i]? = some r → home[i]? = some h → ∃ c : Region P, part[h]? = some c ∧
        r.props = c.props ∧ G.den r.poly ⊆ G.den c.poly) ∧
      ∀ j i : Nat, S.trans j i = true → ∃ (ri rj : Region P) (h : Nat) (c : Region P) (sys : Nat), S.sol[i]? = some ri ∧ S.sol[j]? = some rj ∧
        home[i]? = some h ∧ part[h]? = some c ∧ (if O.pwa then subs0[h]? = some sys else sys = 0) ∧
        G.null (G.den ri.poly \ Reach sys (G.den c.poly) (G.den rj.poly)) := by
  obtain ⟨⟨home, hI⟩, _⟩ := discLoop_inv (Q := fun S => ∃ home, DInv O G Reach domain props part subs0 S home)
    (fun S S' j i ⟨home, hI⟩ _ hst => by
      obtain ⟨home', hI', _⟩ := biStep_sound hG hO hI hst
      exact ⟨home', hI'⟩) fuel _ _ ⟨_, discInit_inv (adj := adj) hp hs⟩ h
  exact ⟨home, hI.len, hI.partition, hI.orig, fun hpwa => (hI.subs hpwa).2, hI.cell, hI.trans⟩

/-! ## The solver of `feasible.py` -/

/-- From a state, the controller can reach `T` in exactly `N` steps (within `1..N` steps, for
`use_all_horizon`), where the states in between are in `stay`. -/
def dynReach {U W : Type} (D : Nat → Dyn X U W) (N : Nat) (useAll : Bool) (sys : Nat)
    (stay T : Set X) : Set X :=
  (D sys).Pre (if useAll then (D sys).Within stay T (N - 1) else (D sys).Exactly stay T (N - 1))

/-- `solve_feasible` meets the assumption `DiscOps.Sound.solve`. -/
theorem solveFeasible_reach {U W : Type} {S : Solver P} {den : P → Set X} {D : Nat → Dyn X U W}
    (h : S.Sound den D) {p1 p2 s : P} {sys N m : Nat} {closedLoop useAll : Bool}
    {trans : Option P} (hN : 0 < N)
    (hf : solveFeasible S p1 p2 sys N closedLoop useAll trans m = .ok s) :
    den s ⊆ dynReach D N useAll sys (den (trans.getD p1)) (den p2) := by
  intro x hx
  unfold solveFeasible at hf
  unfold dynReach
  cases closedLoop with
  | true =>
    cases useAll with
    | true =>
      obtain ⟨s', hs, hsub⟩ := (attractor_sound h p1 p2 sys N trans).2 hN
      simp only [if_true, hs, Except.ok.injEq] at hf
      subst hf
      exact (hsub hx).2
    | false =>
      obtain ⟨s', hs, hsub⟩ := (solveFixed_sound h p1 p2 sys N trans).2 hN
      simp only [if_true, Bool.false_eq_true, if_false, hs, Except.ok.injEq] at hf
      subst hf
      exact (hsub hx).2
  | false =>
    cases useAll with
    | true => simp at hf
    | false =>
      simp only [Bool.false_eq_true, if_false, Except.ok.injEq] at hf
      subst hf
      obtain ⟨n, rfl⟩ : ∃ n, N = n + 1 := ⟨N - 1, by omega⟩
      obtain ⟨_, u, us, h2, h3, h4⟩ := solveOpenLoop_sound h p1 p2 sys n trans _ x hx
      refine ⟨u, h3, fun w hw => ?_⟩
      have := (D sys).open_exactly us (h4 w hw)
      rwa [h2] at this

theorem dynReach_mono {U W : Type} (D : Nat → Dyn X U W) (N : Nat) (useAll : Bool) (sys : Nat)
    {s s' : Set X} (T : Set X) (hs : s ⊆ s') :
    dynReach D N useAll sys s T ⊆ dynReach D N useAll sys s' T := by
  rintro x ⟨u, hu, h⟩
  refine ⟨u, hu, fun w hw => ?_⟩
  have := h w hw
  cases useAll with
  | true => exact (D sys).within_mono hs (le_refl _) _ this
  | false => exact (D sys).exactly_mono hs (le_refl _) _ this

end Abs

end Tulip
