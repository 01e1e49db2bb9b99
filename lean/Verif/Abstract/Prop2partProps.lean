import Verif.Abstract.Prop2part
import Mathlib.Tactic.Tauto

/-!
# Partitions preserve propositions (C57)
-/

namespace Tulip

namespace Abs

variable {P X : Type}

/-! ## Specification -/

/-- The regions are a proposition-preserving partition of the domain: they lie in the domain, cover it
and do not overlap (up to negligible sets); each lies inside the propositions of its label and outside
the others. -/
structure Preserving (G : Geom P X) (domain : P) (props : Dict String P) (regions : List (Region P)) :
    Prop where
  inside : ∀ r ∈ regions, G.den r.poly ⊆ G.den domain
  cover : G.null (G.den domain \ {x | ∃ r ∈ regions, x ∈ G.den r.poly})
  disjoint : regions.Pairwise fun r s => G.null (G.den r.poly ∩ G.den s.poly)
  holds : ∀ r ∈ regions, ∀ p ∈ r.props, ∃ q, props.get? p = some q ∧ G.den r.poly ⊆ G.den q
  fails : ∀ r ∈ regions, ∀ p q, props.get? p = some q → p ∉ r.props →
    G.null (G.den r.poly ∩ G.den q)

/-- Moreover no two regions have the same label, and regions are full-dimensional if the domain is. -/
structure Classes (G : Geom P X) (domain : P) (props : Dict String P) (regions : List (Region P)) :
    Prop extends Preserving G domain props regions where
  distinct : regions.Pairwise fun r s => ∃ p, ¬ (p ∈ r.props ↔ p ∈ s.props)
  full : G.fulldim domain = true → ∀ r ∈ regions, G.fulldim r.poly = true

/-! ## One proposition -/

/-- The part of a region where the proposition holds. -/
def holdsPart (G : Geom P X) (p : String × P) (r : Region P) : Region P :=
  ⟨G.inter r.poly p.2, addProp r.props p.1⟩

def meets (G : Geom P X) (p : String × P) (r : Region P) : Bool := G.fulldim (G.inter r.poly p.2)

/-- The part of a region where the proposition does not hold. -/
def restPart (G : Geom P X) (p : String × P) (r : Region P) : Option (Region P) :=
  if meets G p r then
    if G.fulldim (G.diff r.poly p.2) then some ⟨G.diff r.poly p.2, r.props⟩ else none
  else some r

def mark (G : Geom P X) (p : String × P) (r : Region P) : Region P :=
  if meets G p r then holdsPart G p r else r

theorem removeFailed_eq {α β : Type} (f : α → Bool) (g : α → β) (l : List α) (pre R : List β)
    (count : Nat) :
    removeFailed (l.map f) (pre.length + count) count (pre ++ l.map g ++ R) =
      pre ++ (l.filter f).map g ++ R := by
  induction l generalizing pre count with
  | nil => simp [removeFailed]
  | cons a l ih =>
    simp only [List.map_cons]
    cases hf : f a with
    | true =>
      have := ih (pre ++ [g a]) count
      simp only [List.length_append, List.length_singleton, List.append_assoc, List.singleton_append]
        at this
      rw [removeFailed, show pre.length + count + 1 = pre.length + 1 + count by omega]
      simp only [List.append_assoc, List.cons_append] at this ⊢
      rw [this]
      simp [hf]
    | false =>
      rw [removeFailed, show pre.length + count - count = pre.length by omega,
        show (pre ++ g a :: l.map g ++ R).eraseIdx pre.length = pre ++ l.map g ++ R by
          rw [List.append_assoc, List.eraseIdx_append_of_length_le (le_refl _)]
          simp]
      rw [show pre.length + count + 1 = pre.length + (count + 1) by omega, ih]
      simp [hf]

theorem split_one (G : Geom P X) (p : String × P) (r : Region P) (l pre post : List (Region P))
    (hs : List Bool) : splitStep G p.1 p.2 ⟨pre ++ r :: l ++ post, hs⟩ pre.length =
      ⟨(pre ++ [mark G p r]) ++ l ++ (post ++ (restPart G p r).toList), hs ++ [meets G p r]⟩ := by
  have hget : (pre ++ r :: l ++ post)[pre.length]? = some r := by simp
  have hset : ∀ y, (pre ++ r :: l ++ post).set pre.length y = pre ++ y :: l ++ post := by simp
  unfold splitStep
  simp only [hget]
  by_cases hm : meets G p r = true
  · have hm' : G.fulldim (G.inter r.poly p.2) = true := hm
    rw [if_pos hm', hset]
    split
    · rename_i hd
      simp [mark, hm, holdsPart, restPart, hd]
    · rename_i hd
      simp [mark, hm, holdsPart, restPart, hd]
  · have hm' : ¬ G.fulldim (G.inter r.poly p.2) = true := hm
    have hm2 : meets G p r = false := by simpa using hm
    rw [if_neg hm']
    simp [mark, hm2, restPart]

theorem split_loop (G : Geom P X) (p : String × P) (l pre post : List (Region P)) (hs : List Bool) :
    (List.range' pre.length l.length).foldl (splitStep G p.1 p.2) ⟨pre ++ l ++ post, hs⟩ =
      ⟨pre ++ l.map (mark G p) ++ (post ++ l.filterMap (restPart G p)), hs ++ l.map (meets G p)⟩ := by
  induction l generalizing pre post hs with
  | nil => simp
  | cons r l ih =>
    simp only [List.length_cons, List.range'_succ, List.foldl_cons]
    rw [split_one, show pre.length + 1 = (pre ++ [mark G p r]).length by simp, ih]
    cases hr : restPart G p r with
    | none => simp [hr]
    | some x => simp [hr]

theorem splitBy_eq (G : Geom P X) (l : List (Region P)) (p : String × P) :
    splitBy G l p = (l.filter (meets G p)).map (holdsPart G p) ++ l.filterMap (restPart G p) := by
  unfold splitBy
  have hl := split_loop G p l [] [] []
  simp only [List.length_nil, List.nil_append, List.append_nil] at hl
  rw [List.range_eq_range', hl]
  have := removeFailed_eq (meets G p) (mark G p) l [] (l.filterMap (restPart G p)) 0
  simp only [List.length_nil, Nat.add_zero, List.nil_append] at this
  rw [this]
  congr 1
  refine List.map_congr_left fun r hr => ?_
  simp [mark, (List.mem_filter.1 hr).2]

theorem mem_addProp {l : List String} {p q : String} : q ∈ addProp l p ↔ q ∈ l ∨ q = p := by
  unfold addProp
  split
  · constructor
    · exact Or.inl
    · rintro (h | rfl) <;> assumption
  · simp

theorem restPart_some {G : Geom P X} {p : String × P} {r s : Region P}
    (h : restPart G p r = some s) : s.props = r.props ∧
    ((meets G p r = true ∧ s.poly = G.diff r.poly p.2 ∧ G.fulldim s.poly = true) ∨
      (meets G p r = false ∧ s = r)) := by
  unfold restPart at h
  split at h
  · rename_i hm
    split at h
    · cases h; exact ⟨rfl, Or.inl ⟨hm, rfl, by assumption⟩⟩
    · cases h
  · rename_i hm
    cases h
    exact ⟨rfl, Or.inr ⟨by simpa using hm, rfl⟩⟩

theorem get?_append_singleton {d : Dict String P} {p : String × P} (hp : p.1 ∉ d.keys) (k : String) :
    Dict.get? (d ++ [p]) k = if p.1 = k then some p.2 else d.get? k := by
  induction d with
  | nil =>
    show Dict.get? [p] k = _
    rw [Dict.get?_cons]
  | cons q d ih =>
    have hq : p.1 ≠ q.1 ∧ p.1 ∉ Dict.keys d := by simpa [Dict.keys] using hp
    show Dict.get? (q :: (d ++ [p])) k = _
    rw [Dict.get?_cons, Dict.get?_cons, ih hq.2]
    by_cases h : q.1 = k
    · subst h; simp [hq.1]
    · simp [h]

theorem get?_mem {α : Type} {d : Dict String α} {k : String} {v : α} (h : d.get? k = some v) :
    (k, v) ∈ d := by
  induction d with
  | nil => cases h
  | cons p d ih =>
    rw [Dict.get?_cons] at h
    split at h
    · rename_i hk
      cases h
      subst hk
      exact List.mem_cons_self
    · exact List.mem_cons_of_mem _ (ih h)

theorem restPart_sub {G : Geom P X} (hG : G.Lawful) {p : String × P} {r s : Region P}
    (h : restPart G p r = some s) : G.den s.poly ⊆ G.den r.poly := by
  rcases (restPart_some h).2 with ⟨_, h1, _⟩ | ⟨_, rfl⟩
  · rw [h1]; exact hG.diff_sub _ _
  · exact subset_rfl

theorem restPart_null {G : Geom P X} (hG : G.Lawful) {p : String × P} {r s : Region P}
    (h : restPart G p r = some s) : G.null (G.den s.poly ∩ G.den p.2) := by
  rcases (restPart_some h).2 with ⟨_, h1, _⟩ | ⟨h1, rfl⟩
  · rw [h1]; exact hG.diff_null _ _
  · refine hG.null_of_sub (B := (G.den s.poly ∩ G.den p.2) \ G.den (G.inter s.poly p.2))
      (C := G.den (G.inter s.poly p.2)) ?_ (hG.inter_null _ _) (hG.thin _ h1)
    intro x hx
    by_cases hi : x ∈ G.den (G.inter s.poly p.2)
    · exact Or.inr hi
    · exact Or.inl ⟨hx, hi⟩

theorem splitBy_preserving {G : Geom P X} (hG : G.Lawful) {domain : P} {done : Dict String P}
    {l : List (Region P)} (h : Classes G domain done l) {p : String × P} (hp : p.1 ∉ done.keys) :
    Classes G domain (done ++ [p]) (splitBy G l p) := by
  have hnot : ∀ r ∈ l, p.1 ∉ r.props := by
    intro r hr hm
    obtain ⟨q, hq, _⟩ := h.holds r hr _ hm
    exact hp (by
      by_contra hc
      have : done.get? p.1 = none := by
        rw [← Dict.has_false_iff]
        by_contra hc'
        exact hc ((Dict.mem_keys_iff _ _).2 ((Dict.has_iff _ _).1 (by simpa using hc')))
      rw [this] at hq
      cases hq)
  have hmem : ∀ s, s ∈ splitBy G l p ↔
      (∃ r ∈ l, meets G p r = true ∧ s = holdsPart G p r) ∨ ∃ r ∈ l, restPart G p r = some s := by
    intro s
    rw [splitBy_eq]
    simp only [List.mem_append, List.mem_map, List.mem_filter, List.mem_filterMap]
    constructor
    · rintro (⟨r, ⟨h1, h2⟩, h3⟩ | h1)
      · exact Or.inl ⟨r, h1, h2, h3.symm⟩
      · exact Or.inr h1
    · rintro (⟨r, h1, h2, h3⟩ | h1)
      · exact Or.inl ⟨r, ⟨h1, h2⟩, h3.symm⟩
      · exact Or.inr h1
  have hsub : ∀ r, G.den (holdsPart G p r).poly ⊆ G.den r.poly := fun r x hx =>
    (hG.inter_sub _ _ hx).1
  refine ⟨⟨?_, ?_, ?_, ?_, ?_⟩, ?_, ?_⟩
  · intro s hs
    rcases (hmem s).1 hs with ⟨r, hr, _, rfl⟩ | ⟨r, hr, h1⟩
    · exact (hsub r).trans (h.inside r hr)
    · exact (restPart_sub hG h1).trans (h.inside r hr)
  · -- cover
    refine hG.null_of_sub (C := {x | ∃ r ∈ l, x ∈ G.den r.poly \
      {x | ∃ s ∈ splitBy G l p, x ∈ G.den s.poly}}) ?_ h.cover (hG.null_iUnion l _ ?_)
    · intro x hx
      by_cases hc : ∃ r ∈ l, x ∈ G.den r.poly
      · obtain ⟨r, hr, hx'⟩ := hc
        exact Or.inr ⟨r, hr, hx', hx.2⟩
      · exact Or.inl ⟨hx.1, hc⟩
    · intro r hr
      by_cases hm : meets G p r = true
      · have hin : ∀ x, x ∈ G.den (G.inter r.poly p.2) →
            x ∈ {x | ∃ s ∈ splitBy G l p, x ∈ G.den s.poly} := fun x hx =>
          ⟨holdsPart G p r, (hmem _).2 (Or.inl ⟨r, hr, hm, rfl⟩), hx⟩
        by_cases hd : G.fulldim (G.diff r.poly p.2) = true
        · have hre : restPart G p r = some ⟨G.diff r.poly p.2, r.props⟩ := by
            simp [restPart, hm, hd]
          refine hG.null_mono ?_ (hG.split r.poly p.2)
          rintro x ⟨hx, hx'⟩
          refine ⟨hx, ?_⟩
          rintro (hi | hi)
          · exact hx' (hin x hi)
          · exact hx' ⟨_, (hmem _).2 (Or.inr ⟨r, hr, hre⟩), hi⟩
        · refine hG.null_of_sub ?_ (hG.split r.poly p.2) (hG.thin _ (by simpa using hd))
          rintro x ⟨hx, hx'⟩
          by_cases hi : x ∈ G.den (G.diff r.poly p.2)
          · exact Or.inr hi
          · refine Or.inl ⟨hx, ?_⟩
            rintro (hi' | hi')
            · exact hx' (hin x hi')
            · exact hi hi'
      · have hre : restPart G p r = some r := by simp [restPart, hm]
        refine hG.null_mono ?_ hG.null_empty
        rintro x ⟨hx, hx'⟩
        exact absurd ⟨r, (hmem _).2 (Or.inr ⟨r, hr, hre⟩), hx⟩ hx'
  · -- disjoint
    rw [splitBy_eq, List.pairwise_append]
    refine ⟨?_, ?_, ?_⟩
    · rw [List.pairwise_map]
      refine (h.disjoint.filter _).imp fun {r s} hn => hG.null_mono ?_ hn
      exact Set.inter_subset_inter (hsub r) (hsub s)
    · refine h.disjoint.filterMap _ fun r s hn r' hr' s' hs' => hG.null_mono ?_ hn
      exact Set.inter_subset_inter (restPart_sub hG hr') (restPart_sub hG hs')
    · intro a ha b hb
      obtain ⟨r, hr, rfl⟩ := List.mem_map.1 ha
      obtain ⟨s, hs, hb'⟩ := List.mem_filterMap.1 hb
      refine hG.null_mono ?_ (restPart_null hG hb')
      rintro x ⟨hx, hx'⟩
      exact ⟨hx', (hG.inter_sub _ _ hx).2⟩
  · -- holds
    intro s hs q hq
    have key : ∀ r ∈ l, ∀ q ∈ r.props, G.den s.poly ⊆ G.den r.poly →
        ∃ t, Dict.get? (done ++ [p]) q = some t ∧ G.den s.poly ⊆ G.den t := by
      intro r hr q hq hsr
      obtain ⟨t, h1, h2⟩ := h.holds r hr q hq
      refine ⟨t, ?_, hsr.trans h2⟩
      rw [get?_append_singleton hp, if_neg]
      · exact h1
      · rintro rfl
        exact hnot r hr hq
    rcases (hmem s).1 hs with ⟨r, hr, _, rfl⟩ | ⟨r, hr, h1⟩
    · rcases mem_addProp.1 hq with hq | rfl
      · exact key r hr q hq (hsub r)
      · refine ⟨p.2, by rw [get?_append_singleton hp]; simp, fun x hx => (hG.inter_sub _ _ hx).2⟩
    · rw [(restPart_some h1).1] at hq
      exact key r hr q hq (restPart_sub hG h1)
  · -- fails
    intro s hs q t hq hnq
    rw [get?_append_singleton hp] at hq
    rcases (hmem s).1 hs with ⟨r, hr, _, rfl⟩ | ⟨r, hr, h1⟩
    · have hnq' : q ∉ r.props ∧ q ≠ p.1 := by
        have := fun hc => hnq (mem_addProp.2 hc)
        exact ⟨fun hc => this (Or.inl hc), fun hc => this (Or.inr hc)⟩
      rw [if_neg hnq'.2.symm] at hq
      exact hG.null_mono (Set.inter_subset_inter_left _ (hsub r)) (h.fails r hr q t hq hnq'.1)
    · rw [(restPart_some h1).1] at hnq
      split at hq
      · cases hq; exact restPart_null hG h1
      · exact hG.null_mono (Set.inter_subset_inter_left _ (restPart_sub hG h1))
          (h.fails r hr q t hq hnq)
  · -- distinct
    rw [splitBy_eq, List.pairwise_append]
    have hdl : ∀ r ∈ l, ∀ s ∈ l, (∃ q, ¬ (q ∈ r.props ↔ q ∈ s.props)) →
        ∃ q, q ≠ p.1 ∧ ¬ (q ∈ r.props ↔ q ∈ s.props) := by
      rintro r hr s hs ⟨q, hq⟩
      refine ⟨q, ?_, hq⟩
      rintro rfl
      exact hq ⟨fun h => absurd h (hnot r hr), fun h => absurd h (hnot s hs)⟩
    have hd : l.Pairwise fun r s => ∃ q, q ≠ p.1 ∧ ¬ (q ∈ r.props ↔ q ∈ s.props) :=
      h.distinct.imp_of_mem fun {r s} hr hs hq => hdl r hr s hs hq
    refine ⟨?_, ?_, ?_⟩
    · rw [List.pairwise_map]
      refine (hd.filter _).imp fun {r s} => ?_
      rintro ⟨q, h1, h2⟩
      refine ⟨q, ?_⟩
      simp only [holdsPart, mem_addProp, h1, or_false]
      exact h2
    · refine h.distinct.filterMap _ fun r s hn r' hr' s' hs' => ?_
      rw [(restPart_some hr').1, (restPart_some hs').1]
      exact hn
    · intro a ha b hb
      obtain ⟨r, hr, rfl⟩ := List.mem_map.1 ha
      obtain ⟨s, hs, hb'⟩ := List.mem_filterMap.1 hb
      refine ⟨p.1, ?_⟩
      rw [(restPart_some hb').1]
      simp only [holdsPart, mem_addProp, or_true, true_iff]
      exact hnot s hs
  · intro hf s hs
    rcases (hmem s).1 hs with ⟨r, hr, h1, rfl⟩ | ⟨r, hr, h1⟩
    · exact h1
    · rcases (restPart_some h1).2 with ⟨_, _, h2⟩ | ⟨_, rfl⟩
      · exact h2
      · exact h.full hf s hr

theorem split_preserving {G : Geom P X} (hG : G.Lawful) {domain : P} (props done : Dict String P)
    (hw : (done ++ props).Wf) {l : List (Region P)} (h : Classes G domain done l) :
    Classes G domain (done ++ props) (props.foldl (splitBy G) l) := by
  induction props generalizing done l with
  | nil => simpa using h
  | cons p props ih =>
    have hp : p.1 ∉ done.keys := by
      have : (done.map Prod.fst ++ p.1 :: props.map Prod.fst).Nodup := by
        simpa [Dict.Wf, Dict.keys] using hw
      intro hc
      exact (List.nodup_append.1 this).2.2 p.1 hc p.1 (by simp) rfl
    have := ih (done ++ [p]) (by simpa using hw) (splitBy_preserving hG h hp)
    simpa using this

/-- **C57**. `prop2part` returns the partition of the domain into the classes of the propositions. It
raises nothing if the test of inclusion accepts sets that are included. -/
theorem prop2part_spec {G : Geom P X} (hG : G.Lawful) {le : P → P → Bool}
    (hle : ∀ a b, G.den a ⊆ G.den b → le a b = true) (space : P) {props : Dict String P}
    (hw : props.Wf) :
    ∃ p, prop2part G le space props = .ok p ∧ p.domain = space ∧ p.propRegions = props ∧
      Classes G space props p.regions := by
  have h0 : Classes G space [] [⟨space, []⟩] := by
    refine ⟨⟨by simp, ?_, by simp, by simp, by simp⟩, by simp, by simp⟩
    refine hG.null_mono ?_ hG.null_empty
    rintro x ⟨hx, hx'⟩
    exact absurd ⟨_, List.mem_singleton.2 rfl, hx⟩ hx'
  have h1 := split_preserving hG props [] (by simpa using hw) h0
  simp only [List.nil_append] at h1
  refine ⟨⟨space, props.foldl (splitBy G) [⟨space, []⟩], props⟩, ?_, rfl, rfl, h1⟩
  unfold prop2part Partition.make
  rw [if_neg, if_neg]
  · simp only [List.any_eq_true, not_exists, not_and, Bool.not_eq_true', Bool.not_eq_false]
    intro r hr q hq
    obtain ⟨t, ht, _⟩ := h1.holds r hr q hq
    exact (Dict.has_iff _ _).2 ⟨t, ht⟩
  · simp only [List.any_eq_true, not_exists, not_and, Bool.not_eq_true', Bool.not_eq_false]
    intro r hr
    exact hle _ _ (h1.inside r hr)

/-- **C57**. On each region a proposition holds everywhere or, up to a negligible set, nowhere, as the
label says; and all points of the domain with the same propositions are in one region, up to a
negligible set. -/
theorem preserving_points {G : Geom P X} (hG : G.Lawful) {domain : P} {props : Dict String P}
    {regions : List (Region P)} (h : Preserving G domain props regions) :
    G.null {x | x ∈ G.den domain ∧ ¬ ∃ r ∈ regions, x ∈ G.den r.poly ∧
      ∀ p q, props.get? p = some q → (x ∈ G.den q ↔ p ∈ r.props)} := by
  refine hG.null_of_sub (C := {x | ∃ r ∈ regions, x ∈ {x | ∃ pq ∈ props,
    props.get? pq.1 = some pq.2 ∧ pq.1 ∉ r.props ∧ x ∈ G.den r.poly ∩ G.den pq.2}}) ?_ h.cover ?_
  · rintro x ⟨hx, hn⟩
    by_cases hc : ∃ r ∈ regions, x ∈ G.den r.poly
    · obtain ⟨r, hr, hxr⟩ := hc
      refine Or.inr ⟨r, hr, ?_⟩
      by_contra hno
      refine hn ⟨r, hr, hxr, fun p q hpq => ?_⟩
      constructor
      · intro hxq
        by_contra hnp
        exact hno ⟨(p, q), get?_mem hpq, hpq, hnp, hxr, hxq⟩
      · intro hpr
        obtain ⟨q', h1, h2⟩ := h.holds r hr p hpr
        rw [hpq] at h1; cases h1
        exact h2 hxr
    · exact Or.inl ⟨hx, hc⟩
  · refine hG.null_iUnion _ _ fun r hr => ?_
    refine hG.null_mono ?_ (hG.null_iUnion props (fun pq => {x | props.get? pq.1 = some pq.2 ∧
      pq.1 ∉ r.props ∧ x ∈ G.den r.poly ∩ G.den pq.2}) fun pq _ => ?_)
    · rintro x ⟨pq, h1, h2⟩
      exact ⟨pq, h1, h2⟩
    · by_cases hc : props.get? pq.1 = some pq.2 ∧ pq.1 ∉ r.props
      · refine hG.null_mono ?_ (h.fails r hr pq.1 pq.2 hc.1 hc.2)
        rintro x ⟨_, _, hx⟩
        exact hx
      · refine hG.null_mono ?_ hG.null_empty
        rintro x ⟨h1, h2, _⟩
        exact hc ⟨h1, h2⟩

/-! ### Examples -/

def line (a b : Int) : List (Int × Bool) :=
  (List.range (b - a).toNat).flatMap fun (n : Nat) => [(a + n, false), (a + n, true)]

example : (Dict.Wf [("p", line 0 4), ("q", line 2 5)] : Prop) := by unfold Dict.Wf; simp [Dict.keys]

/-- The test of inclusion of the example. -/
def lineLe (a b : List (Int × Bool)) : Bool := a.all (· ∈ b)

example : ∀ a b, cells.den a ⊆ cells.den b → lineLe a b = true := by
  intro a b h
  simp only [lineLe, List.all_eq_true, decide_eq_true_eq]
  intro x hx
  exact h hx

example : (prop2part cells lineLe (line 0 6) [("p", line 0 4), ("q", line 2 5)]).toOption.map
    (fun p => p.regions.map fun r => (r.poly.filter (·.2) |>.map (·.1), r.props)) =
    some [([2, 3], ["p", "q"]), ([4], ["q"]), ([0, 1], ["p"]), ([5], [])] := by
  decide +kernel

/-! ## The test of a partition -/

theorem allE_ok {α : Type} {f : α → Except PyErr Bool} {l : List α} (h : ∀ a ∈ l, ∃ b, f a = .ok b) :
    ∃ b, allE f l = .ok b ∧ (b = true ↔ ∀ a ∈ l, f a = .ok true) := by
  induction l with
  | nil => exact ⟨true, rfl, by simp⟩
  | cons a l ih =>
    obtain ⟨b, hb⟩ := h a (by simp)
    obtain ⟨c, hc, hc'⟩ := ih fun x hx => h x (by simp [hx])
    unfold allE
    rw [hb]
    cases b with
    | true => exact ⟨c, hc, by rw [hc']; simp [hb]⟩
    | false => exact ⟨false, rfl, by simp [hb]⟩

/-- `preserves_predicates` decides that each region lies in the propositions of its label and meets no
other one in a big set. -/
theorem preserves_spec (G : Geom P X) (le : P → P → Bool) (big : P → Bool) (p : Partition P)
    (hw : p.propRegions.Wf) (hs : ∀ r ∈ p.regions, ∀ q ∈ r.props, p.propRegions.has q = true) :
    ∃ b, p.preserves G le big = .ok b ∧ (b = true ↔ ∀ r ∈ p.regions,
      (∀ q ∈ r.props, ∃ s, p.propRegions.get? q = some s ∧ le r.poly s = true) ∧
      (∀ q s, p.propRegions.get? q = some s → q ∉ r.props → big (G.inter r.poly s) = false)) := by
  have hin : ∀ r ∈ p.regions, ∃ b, allE (fun prop => match p.propRegions.get? prop with
      | none => .error .keyError
      | some q => .ok (le r.poly q)) r.props = .ok b ∧
      (b = true ↔ ∀ q ∈ r.props, ∃ s, p.propRegions.get? q = some s ∧ le r.poly s = true) := by
    intro r hr
    obtain ⟨b, h1, h2⟩ := allE_ok (f := fun prop => match p.propRegions.get? prop with
      | none => .error .keyError
      | some q => .ok (le r.poly q)) (l := r.props) fun q hq => by
        obtain ⟨s, h⟩ := (Dict.has_iff _ _).1 (hs r hr q hq)
        rw [h]
        exact ⟨_, rfl⟩
    refine ⟨b, h1, h2.trans (forall₂_congr fun q hq => ?_)⟩
    obtain ⟨s, h⟩ := (Dict.has_iff _ _).1 (hs r hr q hq)
    rw [h]
    simp
  have hmem : ∀ q s, p.propRegions.get? q = some s ↔ (q, s) ∈ p.propRegions := by
    intro q s
    constructor
    · exact get?_mem
    · intro h
      generalize p.propRegions = d at hw h
      induction d with
      | nil => cases h
      | cons x d ih =>
        have hx : x.1 ∉ Dict.keys d ∧ Dict.Wf d := by simpa [Dict.Wf, Dict.keys] using hw
        rw [Dict.get?_cons]
        rcases List.mem_cons.1 h with rfl | h
        · simp
        · rw [if_neg, ih hx.2 h]
          rintro rfl
          exact hx.1 (List.mem_map.2 ⟨_, h, rfl⟩)
  unfold Partition.preserves
  obtain ⟨b, h1, h2⟩ := allE_ok (f := fun r => do
    let b ← allE (fun prop => match p.propRegions.get? prop with
      | none => .error .keyError
      | some q => .ok (le r.poly q)) r.props
    if b then
      .ok ((p.propRegions.filter fun q => q.1 ∉ r.props).all fun q => !big (G.inter r.poly q.2))
    else .ok false) (l := p.regions) fun r hr => by
      obtain ⟨b, hb, _⟩ := hin r hr
      rw [hb]
      cases b <;> exact ⟨_, rfl⟩
  refine ⟨b, h1, h2.trans (forall₂_congr fun r hr => ?_)⟩
  obtain ⟨c, hc, hc'⟩ := hin r hr
  rw [hc]
  simp only [ok_bind]
  rw [← hc']
  cases c with
  | false => simp
  | true =>
    simp only [if_true, Except.ok.injEq, List.all_eq_true, List.mem_filter, decide_eq_true_eq,
      Bool.not_eq_true', true_and]
    constructor
    · exact fun h q s hq hn => h (q, s) ⟨(hmem q s).1 hq, hn⟩
    · exact fun h q hq => h q.1 q.2 ((hmem _ _).2 hq.1) hq.2

/-! ## Refinement -/

theorem mem_cut {inter : P → P → P} {keep : P → Bool} {i : Nat} {c : P} {regions : List (Region P)}
    {x : Piece P} : x ∈ cut inter keep i c regions ↔ ∃ r j, regions[j]? = some r ∧
      keep (inter r.poly c) = true ∧ x = ⟨⟨inter r.poly c, r.props⟩, i, j⟩ := by
  unfold cut
  simp only [List.mem_filterMap, Prod.exists, List.mem_zipIdx_iff_getElem?]
  constructor
  · rintro ⟨r, j, h1, h2⟩
    split at h2
    · rename_i hk
      cases h2
      exact ⟨r, j, h1, hk, rfl⟩
    · cases h2
  · rintro ⟨r, j, h1, hk, rfl⟩
    exact ⟨r, j, h1, by simp [hk]⟩

theorem mem_refine {inter : P → P → P} {keep : P → Bool} {cs : List P} {regions : List (Region P)}
    {x : Piece P} : x ∈ refine inter keep cs regions ↔ ∃ r j c i, regions[j]? = some r ∧
      cs[i]? = some c ∧ keep (inter r.poly c) = true ∧ x = ⟨⟨inter r.poly c, r.props⟩, i, j⟩ := by
  unfold refine
  simp only [List.mem_flatMap, Prod.exists, List.mem_zipIdx_iff_getElem?, mem_cut]
  constructor
  · rintro ⟨c, i, h1, r, j, h2, h3, rfl⟩
    exact ⟨r, j, c, i, h2, h1, h3, rfl⟩
  · rintro ⟨r, j, c, i, h2, h1, h3, rfl⟩
    exact ⟨c, i, h1, r, j, h2, h3, rfl⟩

theorem pairwise_getElem {α : Type} {R : α → α → Prop} {l : List α} (h : l.Pairwise R) {i j : Nat}
    {a b : α} (hij : i < j) (ha : l[i]? = some a) (hb : l[j]? = some b) : R a b := by
  obtain ⟨hi, rfl⟩ := List.getElem?_eq_some_iff.1 ha
  obtain ⟨hj, rfl⟩ := List.getElem?_eq_some_iff.1 hb
  exact List.pairwise_iff_getElem.1 h i j hi hj hij

/-- Pieces are listed in the order of the sets, and for each set in the order of the regions. -/
theorem refine_order (inter : P → P → P) (keep : P → Bool) (cs : List P) (regions : List (Region P)) :
    (refine inter keep cs regions).Pairwise fun x y =>
      x.sub < y.sub ∨ x.sub = y.sub ∧ x.parent < y.parent := by
  unfold refine
  rw [List.pairwise_flatMap]
  constructor
  · rintro ⟨c, i⟩ _
    unfold cut
    have hz : (regions.zipIdx).Pairwise fun a b => a.2 < b.2 := by
      rw [List.pairwise_iff_getElem]
      intro a b ha hb hab
      simpa using hab
    refine hz.filterMap _ fun a b hab x hx y hy => ?_
    simp only at hx hy
    split at hx <;> cases hx
    split at hy <;> cases hy
    exact Or.inr ⟨rfl, hab⟩
  · have hz : (cs.zipIdx).Pairwise fun a b => a.2 < b.2 := by
      rw [List.pairwise_iff_getElem]
      intro a b ha hb hab
      simpa using hab
    refine hz.imp fun {a b} hab x hx y hy => ?_
    obtain ⟨_, _, _, _, rfl⟩ := mem_cut.1 hx
    obtain ⟨_, _, _, _, rfl⟩ := mem_cut.1 hy
    exact Or.inl hab

/-- Refining a proposition-preserving partition by sets that cover the domain and do not overlap gives a
proposition-preserving partition; each new region lies in its parent, with the same label, and in its
set. -/
theorem refine_preserving {G : Geom P X} (hG : G.Lawful) {inter : P → P → P}
    (hsub : ∀ a b, G.den (inter a b) ⊆ G.den a ∩ G.den b)
    (hinter : ∀ a b, G.null ((G.den a ∩ G.den b) \ G.den (inter a b))) {keep : P → Bool}
    (hkeep : ∀ a, keep a = false → G.null (G.den a)) {domain : P} {props : Dict String P}
    {regions : List (Region P)} (h : Preserving G domain props regions) {cs : List P}
    (hcov : G.null (G.den domain \ {x | ∃ c ∈ cs, x ∈ G.den c}))
    (hdis : cs.Pairwise fun c d => G.null (G.den c ∩ G.den d)) :
    Preserving G domain props ((refine inter keep cs regions).map (·.region)) ∧
    ∀ x ∈ refine inter keep cs regions, ∃ r c, regions[x.parent]? = some r ∧ cs[x.sub]? = some c ∧
      x.region.props = r.props ∧ G.den x.region.poly ⊆ G.den r.poly ∧
      G.den x.region.poly ⊆ G.den c := by
  have hpiece : ∀ x ∈ refine inter keep cs regions, ∃ r c, regions[x.parent]? = some r ∧
      cs[x.sub]? = some c ∧ x.region.props = r.props ∧ G.den x.region.poly ⊆ G.den r.poly ∧
      G.den x.region.poly ⊆ G.den c := by
    intro x hx
    obtain ⟨r, j, c, i, h1, h2, _, rfl⟩ := mem_refine.1 hx
    exact ⟨r, c, h1, h2, rfl, fun y hy => (hsub _ _ hy).1, fun y hy => (hsub _ _ hy).2⟩
  refine ⟨⟨?_, ?_, ?_, ?_, ?_⟩, hpiece⟩
  · intro y hy
    obtain ⟨x, hx, rfl⟩ := List.mem_map.1 hy
    obtain ⟨r, c, h1, _, _, h2, _⟩ := hpiece x hx
    exact h2.trans (h.inside r (List.mem_of_getElem? h1))
  · refine hG.null_of_sub (B := G.den domain \ {x | ∃ r ∈ regions, x ∈ G.den r.poly})
      (C := (G.den domain \ {x | ∃ c ∈ cs, x ∈ G.den c}) ∪ {x | ∃ r ∈ regions, x ∈ {x | ∃ c ∈ cs,
        x ∈ (G.den r.poly ∩ G.den c) \ {x | ∃ s ∈ (refine inter keep cs regions).map (·.region),
          x ∈ G.den s.poly}}}) ?_ h.cover (hG.null_union hcov ?_)
    · rintro x ⟨hx, hn⟩
      by_cases h1 : ∃ r ∈ regions, x ∈ G.den r.poly
      · by_cases h2 : ∃ c ∈ cs, x ∈ G.den c
        · obtain ⟨r, hr, hxr⟩ := h1
          obtain ⟨c, hc, hxc⟩ := h2
          exact Or.inr (Or.inr ⟨r, hr, c, hc, ⟨hxr, hxc⟩, hn⟩)
        · exact Or.inr (Or.inl ⟨hx, h2⟩)
      · exact Or.inl ⟨hx, h1⟩
    · refine hG.null_iUnion _ _ fun r hr => hG.null_iUnion _ _ fun c hc => ?_
      obtain ⟨j, hj⟩ := List.getElem?_of_mem hr
      obtain ⟨i, hi⟩ := List.getElem?_of_mem hc
      cases hk : keep (inter r.poly c) with
      | true =>
        refine hG.null_mono ?_ (hinter r.poly c)
        rintro x ⟨hx, hn⟩
        refine ⟨hx, fun hc => hn ⟨_, List.mem_map.2 ⟨_, mem_refine.2
          ⟨r, j, c, i, hj, hi, hk, rfl⟩, rfl⟩, hc⟩⟩
      | false =>
        refine hG.null_of_sub ?_ (hinter r.poly c) (hkeep _ hk)
        rintro x ⟨hx, hn⟩
        by_cases hi : x ∈ G.den (inter r.poly c)
        · exact Or.inr hi
        · exact Or.inl ⟨hx, hi⟩
  · rw [List.pairwise_map]
    refine (refine_order inter keep cs regions).imp_of_mem fun {x y} hx hy hxy => ?_
    obtain ⟨r, c, h1, h2, _, h3, h4⟩ := hpiece x hx
    obtain ⟨r', c', h1', h2', _, h3', h4'⟩ := hpiece y hy
    rcases hxy with hxy | ⟨_, hxy⟩
    · exact hG.null_mono (Set.inter_subset_inter h4 h4') (pairwise_getElem hdis hxy h2 h2')
    · exact hG.null_mono (Set.inter_subset_inter h3 h3') (pairwise_getElem h.disjoint hxy h1 h1')
  · intro y hy p hp
    obtain ⟨x, hx, rfl⟩ := List.mem_map.1 hy
    obtain ⟨r, c, h1, _, h5, h2, _⟩ := hpiece x hx
    rw [h5] at hp
    obtain ⟨q, h6, h7⟩ := h.holds r (List.mem_of_getElem? h1) p hp
    exact ⟨q, h6, h2.trans h7⟩
  · intro y hy p q hq hp
    obtain ⟨x, hx, rfl⟩ := List.mem_map.1 hy
    obtain ⟨r, c, h1, _, h5, h2, _⟩ := hpiece x hx
    rw [h5] at hp
    exact hG.null_mono (Set.inter_subset_inter_left _ h2)
      (h.fails r (List.mem_of_getElem? h1) p q hq hp)

/-- **C68**. `pwa_partition` refines a proposition-preserving partition: in each new region one
subsystem is defined, and each new region lies in one old region, with the same label. It raises
`Exception` if the system is not defined on the whole domain. -/
theorem pwaPartition_spec {G : Geom P X} (hG : G.Lawful) {le : P → P → Bool}
    (hle : ∀ a b, G.den a ⊆ G.den b → le a b = true) {sysDom : P} {subs : List P} {ppp : Partition P}
    (hp : Preserving G ppp.domain ppp.propRegions ppp.regions)
    (hsubs : G.null (G.den sysDom \ {x | ∃ c ∈ subs, x ∈ G.den c}))
    (hdis : subs.Pairwise fun c d => G.null (G.den c ∩ G.den d)) :
    (G.fulldim (G.diff ppp.domain sysDom) = true →
      pwaPartition G le sysDom subs ppp = .error .exception) ∧
    (G.fulldim (G.diff ppp.domain sysDom) = false →
      ∃ (new : Partition P) (subsys parents : List Nat), pwaPartition G le sysDom subs ppp = .ok (new, subsys, parents) ∧
        new.domain = ppp.domain ∧ new.propRegions = ppp.propRegions ∧
        Preserving G ppp.domain ppp.propRegions new.regions ∧
        subsys.length = new.regions.length ∧ parents.length = new.regions.length ∧
        ∀ (k : Nat) (y : Region P) (i j : Nat), new.regions[k]? = some y → subsys[k]? = some i → parents[k]? = some j →
          ∃ r c, ppp.regions[j]? = some r ∧ subs[i]? = some c ∧ y.props = r.props ∧
            G.den y.poly ⊆ G.den r.poly ∧ G.den y.poly ⊆ G.den c) := by
  constructor
  · intro h
    unfold pwaPartition
    rw [if_pos h]
  · intro h
    have hcov : G.null (G.den ppp.domain \ {x | ∃ c ∈ subs, x ∈ G.den c}) := by
      refine hG.null_of_sub (C := G.den (G.diff ppp.domain sysDom) ∪
        ((G.den ppp.domain \ G.den sysDom) \ G.den (G.diff ppp.domain sysDom))) ?_ hsubs
        (hG.null_union (hG.thin _ h) (hG.diff_cover _ _))
      rintro x ⟨hx, hn⟩
      by_cases h1 : x ∈ G.den sysDom
      · exact Or.inl ⟨h1, hn⟩
      · by_cases h2 : x ∈ G.den (G.diff ppp.domain sysDom)
        · exact Or.inr (Or.inl h2)
        · exact Or.inr (Or.inr ⟨⟨hx, h1⟩, h2⟩)
    obtain ⟨h1, h2⟩ := refine_preserving hG hG.inter_sub hG.inter_null hG.thin hp hcov hdis
    refine ⟨⟨ppp.domain, (refine G.inter G.fulldim subs ppp.regions).map (·.region), ppp.propRegions⟩,
      (refine G.inter G.fulldim subs ppp.regions).map (·.sub),
      (refine G.inter G.fulldim subs ppp.regions).map (·.parent), ?_, rfl, rfl, h1, by simp, by simp, ?_⟩
    · unfold pwaPartition
      rw [if_neg (by simp [h])]
      simp only [Partition.make]
      rw [if_neg, if_neg]
      · rfl
      · simp only [List.any_eq_true, not_exists, not_and, Bool.not_eq_true', Bool.not_eq_false]
        intro r hr q hq
        obtain ⟨t, ht, _⟩ := h1.holds r hr q hq
        exact (Dict.has_iff _ _).2 ⟨t, ht⟩
      · simp only [List.any_eq_true, not_exists, not_and, Bool.not_eq_true', Bool.not_eq_false]
        intro r hr
        exact hle _ _ (h1.inside r hr)
    · intro k y i j hy hi hj
      simp only [List.getElem?_map, Option.map_eq_some_iff] at hy hi hj
      obtain ⟨x, hx, rfl⟩ := hy
      obtain ⟨x', hx', rfl⟩ := hi
      obtain ⟨x'', hx'', rfl⟩ := hj
      rw [hx] at hx' hx''
      cases hx'; cases hx''
      exact h2 x (List.mem_of_getElem? hx)

/-- The adjacency of the refined regions is symmetric and reflexive; distinct regions are adjacent if
and only if they are adjacent in space and their parents are adjacent or equal. -/
theorem pwaAdj_spec (adjacent : P → P → Bool) (hadj : ∀ a b, adjacent a b = adjacent b a)
    (oldAdj : Nat → Nat → Bool) (hold : ∀ i j, oldAdj i j = oldAdj j i) (pieces : List (Piece P))
    {i j : Nat} {a b : Piece P} (ha : pieces[i]? = some a) (hb : pieces[j]? = some b) :
    pwaAdj adjacent oldAdj pieces i j = pwaAdj adjacent oldAdj pieces j i ∧
    pwaAdj adjacent oldAdj pieces i i = true ∧
    (i ≠ j → (pwaAdj adjacent oldAdj pieces i j = true ↔
      (oldAdj a.parent b.parent = true ∨ a.parent = b.parent) ∧
        adjacent a.region.poly b.region.poly = true)) := by
  have key : i ≠ j → (pwaAdj adjacent oldAdj pieces i j = true ↔
      (oldAdj a.parent b.parent = true ∨ a.parent = b.parent) ∧
        adjacent a.region.poly b.region.poly = true) := by
    intro hij
    unfold pwaAdj
    simp only [ha, hb, if_neg hij]
    split
    · simp
    · rw [hold b.parent, hadj b.region.poly]
      simp only [Bool.and_eq_true, Bool.or_eq_true, beq_iff_eq, @eq_comm _ b.parent]
  have key' : i ≠ j → (pwaAdj adjacent oldAdj pieces j i = true ↔
      (oldAdj a.parent b.parent = true ∨ a.parent = b.parent) ∧
        adjacent a.region.poly b.region.poly = true) := by
    intro hij
    unfold pwaAdj
    simp only [ha, hb, if_neg hij.symm]
    split
    · rw [hold b.parent, hadj b.region.poly]
      simp only [Bool.and_eq_true, Bool.or_eq_true, beq_iff_eq, @eq_comm _ b.parent]
    · simp
  refine ⟨?_, by simp [pwaAdj, ha], key⟩
  by_cases hij : i = j
  · subst hij; rfl
  · rw [Bool.eq_iff_iff, key hij, key' hij]

/-- The hypotheses of `pwaPartition_spec` are met. -/
example : ∃ p, prop2part cells lineLe (line 0 6) [("p", line 0 4)] = .ok p ∧
    Preserving cells p.domain p.propRegions p.regions ∧
    cells.null (cells.den (line (-1) 6) \ {x | ∃ c ∈ [line (-1) 3, line 3 6], x ∈ cells.den c}) ∧
    ([line (-1) 3, line 3 6].Pairwise fun c d => cells.null (cells.den c ∩ cells.den d)) ∧
    cells.fulldim (cells.diff p.domain (line (-1) 6)) = false ∧
    (pwaPartition cells lineLe (line (-1) 6) [line (-1) 3, line 3 6] p).toOption.map
      (fun r => (r.1.regions.map fun r => (r.poly.filter (·.2) |>.map (·.1), r.props), r.2)) =
      some ([([0, 1, 2], ["p"]), ([3], ["p"]), ([4, 5], [])], [0, 1, 1], [0, 0, 1]) := by
  obtain ⟨p, h1, h2, h3, h4⟩ := prop2part_spec cells_lawful (le := lineLe)
    (by intro a b h; simp only [lineLe, List.all_eq_true, decide_eq_true_eq]; intro x hx; exact h hx)
    (line 0 6) (props := [("p", line 0 4)]) (by unfold Dict.Wf; simp [Dict.keys])
  refine ⟨p, h1, by rw [h2, h3]; exact h4.toPreserving, ?_, ?_, ?_, ?_⟩
  · have : ∀ x ∈ line (-1) 6, x ∈ line (-1) 3 ∨ x ∈ line 3 6 := by decide +kernel
    rintro x ⟨hx, hn⟩
    refine absurd ?_ hn
    rcases this x hx with h | h
    · exact ⟨_, by simp, h⟩
    · exact ⟨line 3 6, by simp, h⟩
  · have : ∀ x ∈ line (-1) 3, x ∉ line 3 6 := by decide +kernel
    rw [List.pairwise_cons]
    refine ⟨?_, by simp⟩
    intro c hc x hx
    rw [List.mem_singleton] at hc
    subst hc
    exact absurd hx.2 (this x hx.1)
  · rw [h2]; decide +kernel
  · have : prop2part cells lineLe (line 0 6) [("p", line 0 4)] = .ok p := h1
    cases this
    decide +kernel

end Abs

end Tulip
