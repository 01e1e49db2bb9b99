import Verif.Abstract.MergeProps

/-!
# Transition systems of switched systems: theorems about `get_transitions`, `merge_abstractions` and
`discretize_switched`
-/

namespace Tulip

namespace Abs

open LGraph

set_option linter.unusedSectionVars false

variable {P X M : Type} [DecidableEq M]

/-! ## Transitions of one mode -/

/-- In each mode, each cell is inside a cell of the partition for which the mode was discretized, where
one subsystem is active. -/
def ModeAbs.Homed (G : Geom P X) (ab : ModeAbs P) : Prop :=
  ∀ (p : Nat) (r : Region P), ab.ppp.regions[p]? = some r → ∃ (j : Nat) (c : Region P),
    ab.ppp2pwa[p]? = some j ∧ ab.pwaPpp[j]? = some c ∧ G.den r.poly ⊆ G.den c.poly ∧
    ∀ l, ab.ppp2sys = some l → ∃ sys, l[p]? = some sys

/-- The active subsystem of a cell of a mode. -/
def ModeAbs.SysIs (ab : ModeAbs P) (p sys : Nat) : Prop :=
  match ab.ppp2sys with
  | none => sys = 0
  | some l => l[p]? = some sys

theorem modeCell_ok {A : Merged P M} {mode : M} {ab : ModeAbs P} {i : Nat} {c : P} {sys : Nat}
    (h : modeCell A mode ab i = .ok (c, sys)) : ∃ (p j : Nat) (r : Region P), A.parents mode i = some p ∧
      ab.ppp2pwa[p]? = some j ∧ ab.pwaPpp[j]? = some r ∧ c = r.poly ∧ ab.SysIs p sys := by
  unfold modeCell at h
  obtain ⟨p, h1, h⟩ := bindE_ok h
  obtain ⟨j, h2, h⟩ := bindE_ok h
  obtain ⟨r, h3, h⟩ := bindE_ok h
  obtain ⟨s, h4, h⟩ := bindE_ok h
  cases h
  refine ⟨p, j, r, ?_, getIdx_ok h2, getIdx_ok h3, rfl, ?_⟩
  · unfold getKey at h1
    split at h1
    · cases h1; assumption
    · cases h1
  · unfold ModeAbs.SysIs
    split at h4
    · rename_i he
      rw [he]
      cases h4
      rfl
    · rename_i l he
      rw [he]
      exact getIdx_ok h4

theorem modeCell_some {G : Geom P X} {A : Merged P M} {mode : M} {ab : ModeAbs P} (hh : ab.Homed G)
    {i p : Nat} {r : Region P} (hp : A.parents mode i = some p) (hr : ab.ppp.regions[p]? = some r) :
    ∃ x, modeCell A mode ab i = .ok x := by
  obtain ⟨j, c, h1, h2, _, h3⟩ := hh p r hr
  unfold modeCell
  simp only [getKey, hp, ok_bind, getIdx, h1, h2]
  cases hs : ab.ppp2sys with
  | none => exact ⟨_, rfl⟩
  | some l =>
    obtain ⟨sys, h4⟩ := h3 l hs
    simp only [h4, ok_bind]
    exact ⟨_, rfl⟩

theorem entriesOf_iff {n : Nat} {adj : Nat → Nat → Bool} {i j : Nat} :
    (i, j) ∈ entriesOf n adj ↔ i < n ∧ j < n ∧ adj i j = true := by
  unfold entriesOf
  simp only [List.mem_filter, List.mem_flatMap, List.mem_map, List.mem_range, Prod.mk.injEq]
  constructor
  · rintro ⟨⟨i', hi, j', hj, rfl, rfl⟩, h⟩
    exact ⟨hi, hj, h⟩
  · rintro ⟨hi, hj, h⟩
    exact ⟨⟨i, hi, j, hj, rfl, rfl⟩, h⟩

theorem entriesOf_nodup (n : Nat) (adj : Nat → Nat → Bool) : (entriesOf n adj).Nodup :=
  List.Nodup.filter _ (indexPairs_nodup n n)

theorem loopE_inv {α σ : Type} {f : σ → α → Except PyErr σ} {Q : List α → σ → Prop} :
    ∀ (l pre : List α) (s s' : σ), Q pre s →
      (∀ done x rest s s', pre ++ l = done ++ x :: rest → Q done s → f s x = .ok s' →
        Q (done ++ [x]) s') →
      loopE f l s = .ok s' → Q (pre ++ l) s' := by
  intro l
  induction l with
  | nil =>
    intro pre s s' h _ he
    cases he
    simpa using h
  | cons x l ih =>
    intro pre s s' h hstep he
    unfold loopE at he
    obtain ⟨s1, h1, he⟩ := bindE_ok he
    have := ih (pre ++ [x]) s1 s' (hstep pre x l s s1 rfl h h1) (fun done y rest t t' hd =>
      hstep done y rest t t' (by rw [← hd]; simp)) he
    simpa using this

/-- `get_transitions`: the computed transitions are exactly the pairs of regions within the given number
of adjacent regions for which the solver finds that the target can be reached from the whole source, inside
the cell of the mode around the source. -/
theorem getTransitions_spec {feas : P → P → Nat → P → Except PyErr Bool} {A : Merged P M} {mode : M}
    {ab : ModeAbs P} {transLength : Nat} {t : Nat → Nat → Bool}
    (h : getTransitions feas A mode ab transLength = .ok t) (i j : Nat) :
    t i j = true ↔ reachableWithin A.ppp.regions.length transLength A.adj A.adj j i = true ∧
      ∃ (si sj : Region P) (c : P) (sys : Nat), A.ppp.regions[i]? = some si ∧
        A.ppp.regions[j]? = some sj ∧ modeCell A mode ab i = .ok (c, sys) ∧
        feas si.poly sj.poly sys c = .ok true := by
  unfold getTransitions at h
  obtain ⟨t', h1, h⟩ := bindE_ok h
  have ht : t' = t := by
    split at h
    · cases h
    · cases h; rfl
  subst ht
  have hinv := loopE_inv (Q := fun done (t : Nat → Nat → Bool) => ∀ i j, t i j = true ↔ (j, i) ∈ done ∧
      ∃ (si sj : Region P) (c : P) (sys : Nat), A.ppp.regions[i]? = some si ∧
        A.ppp.regions[j]? = some sj ∧ modeCell A mode ab i = .ok (c, sys) ∧
        feas si.poly sj.poly sys c = .ok true) _ [] _ _ (by simp) (by
      rintro done ⟨b, a⟩ rest s s' _ hQ hs i j
      unfold checkTrans at hs
      obtain ⟨si, g1, hs⟩ := bindE_ok hs
      obtain ⟨sj, g2, hs⟩ := bindE_ok hs
      obtain ⟨⟨c, sys⟩, g3, hs⟩ := bindE_ok hs
      obtain ⟨ok, g4, hs⟩ := bindE_ok hs
      cases hs
      simp only at g1 g2 g3 g4 ⊢
      have g1' := getIdx_ok g1
      have g2' := getIdx_ok g2
      by_cases he : i = a ∧ j = b
      · rw [if_pos he]
        obtain ⟨rfl, rfl⟩ := he
        constructor
        · intro hok
          subst hok
          exact ⟨by simp, si, sj, c, sys, g1', g2', g3, g4⟩
        · rintro ⟨_, si', sj', c', sys', k1, k2, k3, k4⟩
          rw [g1'] at k1
          rw [g2'] at k2
          rw [g3] at k3
          cases k1; cases k2; cases k3
          rw [g4] at k4
          cases k4
          rfl
      · rw [if_neg he, hQ i j]
        constructor
        · rintro ⟨k1, k2⟩
          exact ⟨by simp [k1], k2⟩
        · rintro ⟨k1, k2⟩
          refine ⟨?_, k2⟩
          rcases List.mem_append.1 k1 with k1 | k1
          · exact k1
          · rw [List.mem_singleton, Prod.mk.injEq] at k1
            exact absurd ⟨k1.2, k1.1⟩ he) h1
  rw [hinv i j, List.nil_append, entriesOf_iff]
  constructor
  · rintro ⟨⟨_, _, h3⟩, h4⟩
    exact ⟨h3, h4⟩
  · rintro ⟨h3, si, sj, c, sys, h4, h5, h6⟩
    exact ⟨⟨(List.getElem?_eq_some_iff.1 h5).1, (List.getElem?_eq_some_iff.1 h4).1, h3⟩,
      si, sj, c, sys, h4, h5, h6⟩

/-- `get_transitions` does not raise if the solver does not and there is at least one region, and each
region is adjacent to itself. -/
theorem getTransitions_ok {feas : P → P → Nat → P → Except PyErr Bool} {A : Merged P M} {mode : M}
    {ab : ModeAbs P} {transLength : Nat}
    (hf : ∀ p q sys c, ∃ b, feas p q sys c = .ok b)
    (hc : ∀ i < A.ppp.regions.length, ∃ x, modeCell A mode ab i = .ok x)
    (hn : ∃ i j, i < A.ppp.regions.length ∧ j < A.ppp.regions.length ∧
      reachableWithin A.ppp.regions.length transLength A.adj A.adj i j = true) :
    ∃ t, getTransitions feas A mode ab transLength = .ok t := by
  unfold getTransitions
  obtain ⟨i, j, hi, hj, hij⟩ := hn
  have hne : (entriesOf A.ppp.regions.length
      (reachableWithin A.ppp.regions.length transLength A.adj A.adj)).isEmpty = false := by
    cases he : (entriesOf A.ppp.regions.length
        (reachableWithin A.ppp.regions.length transLength A.adj A.adj)).isEmpty with
    | false => rfl
    | true =>
      rw [List.isEmpty_iff] at he
      have := entriesOf_iff.2 ⟨hi, hj, hij⟩
      rw [he] at this
      cases this
  obtain ⟨t, h1, _⟩ := loopE_ok (f := checkTrans feas A mode ab) (Q := fun _ _ => True)
    (entriesOf A.ppp.regions.length (reachableWithin A.ppp.regions.length transLength A.adj A.adj)) []
    (fun _ _ => false) trivial (by
      rintro done ⟨b, a⟩ rest s he _
      have hm : (b, a) ∈ entriesOf A.ppp.regions.length
          (reachableWithin A.ppp.regions.length transLength A.adj A.adj) := by
        rw [List.nil_append] at he
        rw [he]; simp
      obtain ⟨hb, ha, _⟩ := entriesOf_iff.1 hm
      obtain ⟨x, hx⟩ := hc a ha
      obtain ⟨ok, hok⟩ := hf A.ppp.regions[a].poly A.ppp.regions[b].poly x.2 x.1
      unfold checkTrans
      simp only [getIdx, List.getElem?_eq_getElem ha, List.getElem?_eq_getElem hb, ok_bind, hx, hok]
      exact ⟨_, rfl, trivial⟩)
  simp only [h1, ok_bind, hne]
  exact ⟨t, rfl⟩

/-- A product of matrices with reflexive factors is reflexive. -/
theorem reachableWithin_refl {n k : Nat} {adj : Nat → Nat → Bool} (h : ∀ i < n, adj i i = true) {i : Nat}
    (hi : i < n) : reachableWithin n k adj adj i i = true := by
  unfold reachableWithin
  split
  · exact h i hi
  · have key : ∀ k (m : Nat → Nat → Bool), m i i = true → powerLoop n adj k m i i = true := by
      intro k
      induction k with
      | zero => intro m hm; exact hm
      | succ k ih =>
        intro m hm
        refine ih _ ?_
        unfold boolDot
        rw [List.any_eq_true]
        exact ⟨i, List.mem_range.2 hi, by simp [hm, h i hi]⟩
    exact key _ _ (h i hi)

/-! ## The transition system -/

theorem addState_eq (g : LGraph Nat Lab) (ht : g.nodeTypes = swNodeTypes [])
    (hd : g.nodeDefaults = [("ap", .aps [])]) (s : Nat) (hs : g.nodes.get? s = none) :
    g.addNode s [] = .ok { g with nodes := g.nodes ++ [(s, [("ap", .aps [])])] } := by
  have hset : ∀ (d : Dict Nat (Attr Lab)) (a : Attr Lab), d.get? s = none → d.set s a = d ++ [(s, a)] := by
    intro d a
    induction d with
    | nil => intro _; rfl
    | cons p d ih =>
      intro h
      obtain ⟨k, b⟩ := p
      rw [Dict.get?_cons] at h
      split at h
      · cases h
      · rename_i hne
        simp only [Dict.set, if_neg hne, ih h, List.cons_append]
  unfold addNode
  have : typedAttr g.nodeTypes g.nodeDefaults [] = .ok [("ap", .aps [])] := by
    rw [ht, hd]
    rfl
  rw [this]
  simp only [ok_bind]
  rw [if_neg (by rw [ht]; simp [untyped, swNodeTypes, Dict.has]), hs, hset _ _ hs]
  rfl

theorem addStates_eq : ∀ (l : List Nat) (g : LGraph Nat Lab), g.nodeTypes = swNodeTypes [] →
    g.nodeDefaults = [("ap", .aps [])] → l.Nodup → (∀ s ∈ l, g.nodes.get? s = none) →
    g.addNodesFrom (l.map fun i => (i, [])) =
      ({ g with nodes := g.nodes ++ l.map fun i => (i, [("ap", .aps [])]) }, none) := by
  intro l
  induction l with
  | nil =>
    intro g _ _ _ _
    simp [addNodesFrom, seqM]
  | cons s l ih =>
    intro g ht hd hn hs
    rw [List.nodup_cons] at hn
    have h1 := addState_eq g ht hd s (hs s (by simp))
    have h2 := ih { g with nodes := g.nodes ++ [(s, [("ap", .aps [])])] } ht hd hn.2 (by
      intro t ht'
      have hne : s ≠ t := fun h => hn.1 (h ▸ ht')
      have := hs t (by simp [ht'])
      simp only [Dict.get?, Option.map_eq_none_iff] at this ⊢
      rw [List.find?_append, this]
      simp [hne])
    unfold addNodesFrom at h2 ⊢
    simp only [List.map_cons, seqM, h1]
    rw [h2]
    simp

/-- The nodes of the transition system. -/
def swNodes (regions : List (Region P)) : Dict Nat (Attr Lab) :=
  regions.zipIdx.map fun p => (p.2, [("ap", .aps p.1.props)])

theorem labelNode_eq (regions : List (Region P)) :
    ((List.range regions.length).map fun i => (i, [("ap", Lab.aps [])])).map (labelNode regions) =
      swNodes regions := by
  apply List.ext_getElem?
  intro i
  unfold swNodes
  simp only [List.getElem?_map, List.getElem?_zipIdx]
  by_cases hi : i < regions.length
  · rw [List.getElem?_range hi, List.getElem?_eq_getElem hi]
    simp [labelNode, List.getElem?_eq_getElem hi, Dict.set]
  · rw [List.getElem?_eq_none (by simpa using hi), List.getElem?_eq_none (by simpa using hi)]
    rfl

theorem keys_swNodes (regions : List (Region P)) : (swNodes regions).keys = List.range regions.length := by
  unfold swNodes Dict.keys
  rw [List.map_map]
  apply List.ext_getElem?
  intro i
  simp only [List.getElem?_map, List.getElem?_zipIdx]
  by_cases hi : i < regions.length
  · rw [List.getElem?_range hi, List.getElem?_eq_getElem hi]
    simp
  · rw [List.getElem?_eq_none (by simpa using hi), List.getElem?_eq_none (by simpa using hi)]
    rfl

/-- The label of a mode is declared: no mode is named by a number, unless there are only system modes or
only environment modes. -/
def Declared (nums : Nat × Nat) (modes : List (Act × Act)) : Prop :=
  nums.1 = 0 ∨ nums.2 = 0 ∨ ∀ m ∈ modes, m.1.toStr = m.1 ∧ m.2.toStr = m.2

theorem modeLabel_wf (nums : Nat × Nat) (m : Act × Act) : Dict.Wf (modeLabel nums m) := by
  unfold modeLabel Dict.Wf Dict.keys
  split
  · simp
  · split <;> simp

theorem modeLabel_typed {nums : Nat × Nat} {modes : List (Act × Act)} (hd : Declared nums modes)
    {m : Act × Act} (hm : m ∈ modes) :
    Typed (swEdgeTypes (modeActions nums modes).1 (modeActions nums modes).2) (modeLabel nums m) ∧
    (∀ k, Dict.has (modeLabel nums m) k = true →
      Dict.has (swEdgeTypes (modeActions nums modes).1 (modeActions nums modes).2) k = true) ∧
    modeLabel nums m ≠ [] := by
  unfold modeLabel modeActions
  have e1 : m.1.toStr ∈ modes.map fun m => m.1.toStr := List.mem_map.2 ⟨m, hm, rfl⟩
  have e2 : m.2.toStr ∈ modes.map fun m => m.2.toStr := List.mem_map.2 ⟨m, hm, rfl⟩
  by_cases h1 : nums.1 = 0
  · simp only [if_pos h1]
    refine ⟨?_, by simp [Dict.has, swEdgeTypes], by simp⟩
    intro p hp t ht
    cases List.mem_singleton.1 hp
    cases ht
    exact decide_eq_true e2
  · simp only [if_neg h1]
    by_cases h2 : nums.2 = 0
    · simp only [if_pos h2]
      refine ⟨?_, by simp [Dict.has, swEdgeTypes], by simp⟩
      intro p hp t ht
      cases List.mem_singleton.1 hp
      cases ht
      exact decide_eq_true e1
    · simp only [if_neg h2]
      refine ⟨?_, by simp [Dict.has, swEdgeTypes], by simp⟩
      rcases hd with hd | hd | hd
      · exact absurd hd h1
      · exact absurd hd h2
      · obtain ⟨d1, d2⟩ := hd m hm
        intro p hp t ht
        rcases List.mem_cons.1 hp with rfl | hp
        · cases ht
          show decide _ = true
          rw [d1]
          exact decide_eq_true (List.mem_map.2 ⟨m, hm, rfl⟩)
        · cases List.mem_singleton.1 hp
          cases ht
          show decide _ = true
          rw [d2]
          exact decide_eq_true (List.mem_map.2 ⟨m, hm, rfl⟩)

theorem mem_range_get {n i s : Nat} : (List.range n)[i]? = some s ↔ i < n ∧ s = i := by
  by_cases hi : i < n
  · rw [List.getElem?_range hi]
    simp [hi, @eq_comm _ s]
  · rw [List.getElem?_eq_none (by simpa using hi)]
    simp [hi]

/-- **C72**. `merge_abstractions`: one state for each region, with its label, and one transition labeled
with the mode for each transition of a mode. -/
theorem mergeAbstractions_spec (regions : List (Region P)) (trans : Act × Act → Nat → Nat → Bool)
    {aps : List String} {modes : List (Act × Act)} {nums : Nat × Nat} (hne : modes ≠ [])
    (hd : Declared nums modes) (hp : ∀ r ∈ regions, ∀ p ∈ r.props, p ∈ aps) :
    ∃ g, mergeAbstractions regions trans aps modes nums = (g, none) ∧
      g.nodes = swNodes regions ∧ g.initial = [] ∧
      ∀ i j a, HasEdge g i j a ↔ i < regions.length ∧ j < regions.length ∧
        ∃ m ∈ modes, SameAttr a (modeLabel nums m) ∧ trans m i j = true := by
  set n := regions.length with hn
  unfold mergeAbstractions
  simp only
  rw [if_neg (by simpa using hne), addStates_eq (List.range n) _ rfl rfl List.nodup_range (by simp)]
  simp only [List.nil_append]
  rw [hn, labelNode_eq, ← hn]
  set et := swEdgeTypes (modeActions nums modes).1 (modeActions nums modes).2 with het
  set g0 : LGraph Nat Lab := { nodeTypes := swNodeTypes aps, nodeDefaults := [("ap", .aps [])],
                               edgeTypes := et, nodes := swNodes regions } with hg0
  have hhas : ∀ s, g0.hasNode s = true ↔ s < n := by
    intro s
    unfold hasNode
    rw [← mem_keys_iff_has]
    show s ∈ (swNodes regions).keys ↔ _
    rw [keys_swNodes, List.mem_range]
  have hg0ok : g0.Ok := by
    have hmem : ∀ s a, g0.nodes.get? s = some a → ∃ r ∈ regions, a = [("ap", .aps r.props)] := by
      intro s a hs
      have hm : (s, a) ∈ swNodes regions := by
        have hs' : Dict.get? (swNodes regions) s = some a := hs
        unfold Dict.get? at hs'
        rw [Option.map_eq_some_iff] at hs'
        obtain ⟨q, hq, rfl⟩ := hs'
        have := List.find?_some hq
        simp only [beq_iff_eq] at this
        rw [← this]
        exact List.mem_of_find?_eq_some hq
      unfold swNodes at hm
      obtain ⟨⟨r, i⟩, hr, he⟩ := List.mem_map.1 hm
      cases he
      exact ⟨r, List.mem_of_getElem? (List.mem_zipIdx_iff_getElem?.1 hr), rfl⟩
    refine ⟨?_, by simp [hg0], by simp [hg0], by simp [hg0], by simp [hg0], by simp [hg0], ?_,
      by simp [hg0], by simp [hg0], by simp [hg0], by simp [hg0], ?_⟩
    · show (swNodes regions).Wf
      unfold Dict.Wf
      rw [keys_swNodes]
      exact List.nodup_range
    · intro s a hs k v hk t ht
      obtain ⟨r, hr, rfl⟩ := hmem s a hs
      rw [Dict.get?_cons] at hk
      split at hk
      · rename_i hkk
        simp only at hkk
        subst hkk
        cases hk
        cases ht
        show (r.props.all fun x => decide (x ∈ aps)) = true
        simpa using hp r hr
      · cases hk
    · intro s a hs
      obtain ⟨r, hr, rfl⟩ := hmem s a hs
      unfold Dict.Wf
      simp [Dict.keys]
  have key : ∀ (l : List (Act × Act)) (done : List (Act × Act)) (g : LGraph Nat Lab), g.Ok →
      SameTypes g0 g → g.nodes = g0.nodes → g.initial = [] → (∀ m ∈ l, m ∈ modes) →
      (∀ i j a, HasEdge g i j a ↔ i < n ∧ j < n ∧ ∃ m ∈ done, SameAttr a (modeLabel nums m) ∧
        trans m i j = true) → (∀ m ∈ done, m ∈ modes) →
      ∃ g', l.foldl (fun (r : LGraph Nat Lab × Option PyErr) m => match r with
        | (g, some e) => (g, some e)
        | (g, none) => g.addAdj n n (entriesOf n (trans m)) (List.range n) (modeLabel nums m)) (g, none) =
          (g', none) ∧ g'.nodes = g0.nodes ∧ g'.initial = [] ∧
        ∀ i j a, HasEdge g' i j a ↔ i < n ∧ j < n ∧ ∃ m ∈ done ++ l, SameAttr a (modeLabel nums m) ∧
          trans m i j = true := by
    intro l
    induction l with
    | nil =>
      intro done g _ _ h1 h2 _ h3 _
      exact ⟨g, rfl, h1, h2, by simpa using h3⟩
    | cons m l ih =>
      intro done g hok hst h1 h2 hl h3 hdn
      obtain ⟨t1, t2, t3⟩ := modeLabel_typed hd (hl m (by simp))
      have hde : g.edgeDefaults = [] := hst.2.2.2
      have hdt : g.edgeTypes = et := hst.2.2.1
      have hgn : ∀ s, g.hasNode s = true ↔ s < n := by
        intro s
        rw [← hhas s]
        unfold hasNode
        rw [h1]
      have hnoempty : ∀ u v, (u, v, []) ∉ g.edges := by
        intro u v hm
        obtain ⟨_, _, m', hm', hs, _⟩ := (h3 u v []).1 ⟨[], hm, fun _ => rfl⟩
        have := (modeLabel_typed hd (hdn m' hm')).2.2
        cases hml : modeLabel nums m' with
        | nil => exact this hml
        | cons p q =>
          have := hs p.1
          rw [hml, Dict.get?_cons, if_pos rfl] at this
          cases this
      obtain ⟨g1, b1, b2, b3, b4, b5⟩ := addAdj_spec hok (n := n) (entries := entriesOf n (trans m))
        (states := List.range n) (attr := modeLabel nums m) (a := modeLabel nums m)
        (by rw [hde]; unfold Dict.Wf; simp [Dict.keys]) (by rw [hde]; intro p hp; cases hp)
        (by rw [hde]; intro k hk; cases hk)
        (by intro s hs; exact (hgn s).2 (List.mem_range.1 hs)) List.nodup_range (entriesOf_nodup _ _)
        (by rintro ⟨i, j⟩ hij; simpa using ⟨(entriesOf_iff.1 hij).1, (entriesOf_iff.1 hij).2.1⟩)
        (modeLabel_wf nums m) (by rw [hdt]; exact t1) (by rw [hdt]; exact t2)
        (fun u _ v _ => hnoempty u v) (by
          intro k
          rw [hde]
          simp)
      have hok1 : g1.Ok := by
        have := (call_keeps hok (op := .addAdj n n (entriesOf n (trans m)) (List.range n)
          (modeLabel nums m) true) (modeLabel_wf nums m)).2
        simp only [call] at this
        rwa [b1] at this
      obtain ⟨g2, c1, c2, c3, c4⟩ := ih (done ++ [m]) g1 hok1 (hst.trans b2) (b3.trans h1) (b4.trans h2)
        (fun m' hm' => hl m' (by simp [hm'])) (by
          intro i j a
          rw [b5, h3]
          constructor
          · rintro (⟨hi, hj, m', hm', hs⟩ | ⟨hs, i', j', he, hi', hj'⟩)
            · exact ⟨hi, hj, m', by simp [hm'], hs⟩
            · obtain ⟨_, rfl⟩ := mem_range_get.1 hi'
              obtain ⟨_, rfl⟩ := mem_range_get.1 hj'
              obtain ⟨hi, hj, ht⟩ := entriesOf_iff.1 he
              exact ⟨hi, hj, m, by simp, hs, ht⟩
          · rintro ⟨hi, hj, m', hm', hs, ht⟩
            rcases List.mem_append.1 hm' with hm' | hm'
            · exact Or.inl ⟨hi, hj, m', hm', hs, ht⟩
            · rw [List.mem_singleton] at hm'
              subst hm'
              exact Or.inr ⟨hs, i, j, entriesOf_iff.2 ⟨hi, hj, ht⟩, mem_range_get.2 ⟨hi, rfl⟩,
                mem_range_get.2 ⟨hj, rfl⟩⟩) (by
          intro m' hm'
          rcases List.mem_append.1 hm' with hm' | hm'
          · exact hdn m' hm'
          · rw [List.mem_singleton] at hm'
            exact hl m' (by simp [hm']))
      refine ⟨g2, ?_, c2, c3, by simpa using c4⟩
      simp only [List.foldl_cons, b1]
      exact c1
  obtain ⟨g', k1, k2, k3, k4⟩ := key modes [] g0 hg0ok (SameTypes.refl _) rfl rfl (fun _ h => h)
    (by simp [HasEdge, hg0]) (by simp)
  exact ⟨g', k1, k2, k3, by simpa using k4⟩

/-! ## The abstraction of a switched system -/

theorem Refinement.nonempty {G : Geom P X} {domain : P} {props : Dict String P} {modes : List M}
    {cells : M → List (Region P)} {regions : List (Region P)} {parents : M → Nat → Option Nat}
    (h : Refinement G domain props modes cells regions parents) (hd : ¬ G.null (G.den domain)) :
    0 < regions.length := by
  rw [Nat.pos_iff_ne_zero]
  intro h0
  have : regions = [] := List.length_eq_zero_iff.1 h0
  subst this
  have := h.preserving.cover
  simp at this
  exact hd this

theorem mergedAdj_refl (O : MergeOps P) (abs : Dict M (ModeAbs P)) (s : MState P M) {i : Nat}
    (hi : i < s.regions.length) : mergedAdj O abs s i i = true := by
  unfold mergedAdj
  simp [List.getElem?_eq_getElem hi]

/-- The loop over the modes in `discretize_switched`. -/
theorem transLoop_ok {f : Act × Act → ModeAbs P → Except PyErr (Nat → Nat → Bool)} :
    ∀ (l pre : Dict (Act × Act) (ModeAbs P)) (t0 : Act × Act → Nat → Nat → Bool),
      ((pre ++ l : Dict (Act × Act) (ModeAbs P)).map (·.1)).Nodup → (∀ q ∈ l, ∃ t, f q.1 q.2 = .ok t) →
      (∀ q ∈ pre, f q.1 q.2 = .ok (t0 q.1)) →
      ∃ t, loopE (fun (t : Act × Act → Nat → Nat → Bool) (p : (Act × Act) × ModeAbs P) => do
        let t' ← f p.1 p.2
        .ok fun m => if m = p.1 then t' else t m) l t0 = .ok t ∧
        ∀ q ∈ pre ++ l, f q.1 q.2 = .ok (t q.1) := by
  intro l
  induction l with
  | nil =>
    intro pre t0 _ _ h
    exact ⟨t0, rfl, by simpa using h⟩
  | cons q l ih =>
    intro pre t0 hnd hf h
    obtain ⟨t1, ht1⟩ := hf q (by simp)
    obtain ⟨t, h1, h2⟩ := ih (pre ++ [q]) (fun m => if m = q.1 then t1 else t0 m) (by simpa using hnd)
      (fun q' hq' => hf q' (by simp [hq'])) (by
        intro q' hq'
        rcases List.mem_append.1 hq' with hq' | hq'
        · have hne : q'.1 ≠ q.1 := by
            rw [List.map_append, List.nodup_append] at hnd
            exact hnd.2.2 q'.1 (List.mem_map_of_mem hq') q.1 (by simp)
          rw [if_neg hne]
          exact h q' hq'
        · rw [List.mem_singleton] at hq'
          subst hq'
          rw [if_pos rfl]
          exact ht1)
    refine ⟨t, ?_, by simpa using h2⟩
    unfold loopE
    simp only [ht1, ok_bind]
    exact h1

/-- **C72**. `discretize_switched`, after the modes have been discretized, with modes named by strings
and a solver that does not raise: it does not raise; the states are the regions of a common refinement of
the partitions of the modes, with their labels; there is a transition from `i` to `j` with the label of
a mode iff the regions are within reach in the adjacency graph and the solver finds that `j` can be reached
from each point of `i` in that mode. If the solver is sound, then for each transition in some mode, from
each point of the source the controller can drive the system of that mode to the target, through states of
the cell of the mode around the source. -/
theorem abstractSwitched_spec {O : MergeOps P} {G : Geom P X} (hG : G.Lawful) (hO : O.Sound G)
    {m0 : Act × Act} {ab0 : ModeAbs P} {rest : Dict (Act × Act) (ModeAbs P)}
    (hwf : Dict.Wf ((m0, ab0) :: rest))
    (hpres : ∀ q ∈ (m0, ab0) :: rest, Preserving G q.2.ppp.domain q.2.ppp.propRegions q.2.ppp.regions)
    (hlabel : ∀ q ∈ (m0, ab0) :: rest, q.2.Labeled)
    (hhome : ∀ q ∈ (m0, ab0) :: rest, q.2.Homed G)
    (hsame : ∀ q ∈ (m0, ab0) :: rest, ∀ r ∈ (m0, ab0) :: rest,
      sameRegions O.eqv q.2.ppp.propRegions r.2.ppp.propRegions = true ∧
      O.sameDomain q.2.ppp.domain r.2.ppp.domain = true)
    (hdom : ¬ G.null (G.den ab0.ppp.domain))
    {order : List (Act × Act)} (horder : order.Perm (Dict.keys rest))
    {feas : Act × Act → P → P → Nat → P → Except PyErr Bool}
    (hfeas : ∀ m p q sys c, ∃ b, feas m p q sys c = .ok b) (lens : Act × Act → Nat)
    {nums : Nat × Nat} (hd : Declared nums (Dict.keys ((m0, ab0) :: rest))) :
    ∃ A g, abstractSwitched O feas lens ((m0, ab0) :: rest) order ab0.ppp.propRegions.keys nums =
        .ok (A, g) ∧
      Refinement G ab0.ppp.domain ab0.ppp.propRegions (m0 :: order) (cellsOf ((m0, ab0) :: rest))
        A.ppp.regions A.parents ∧
      A.adj = mergedAdj O ((m0, ab0) :: rest) ⟨A.ppp.regions, A.parents, A.labels⟩ ∧
      g.nodes = swNodes A.ppp.regions ∧
      (∀ i j a, HasEdge g i j a ↔ ∃ m ab, (m, ab) ∈ (m0, ab0) :: rest ∧
        SameAttr a (modeLabel nums m) ∧
        reachableWithin A.ppp.regions.length (lens m) A.adj A.adj j i = true ∧
        ∃ (si sj : Region P) (c : P) (sys : Nat), A.ppp.regions[i]? = some si ∧
          A.ppp.regions[j]? = some sj ∧ modeCell A m ab i = .ok (c, sys) ∧
          feas m si.poly sj.poly sys c = .ok true) ∧
      ∀ (Reach : Act × Act → Nat → Set X → Set X → Set X),
        (∀ m p q sys c, feas m p q sys c = .ok true →
          G.den p ⊆ Reach m sys (G.den c) (G.den q)) →
        ∀ i j a, HasEdge g i j a → ∃ (m : Act × Act) (ab : ModeAbs P) (si sj : Region P) (p h : Nat)
            (c : Region P) (sys : Nat), (m, ab) ∈ (m0, ab0) :: rest ∧ SameAttr a (modeLabel nums m) ∧
          A.ppp.regions[i]? = some si ∧ A.ppp.regions[j]? = some sj ∧ A.parents m i = some p ∧
          ab.ppp2pwa[p]? = some h ∧ ab.pwaPpp[h]? = some c ∧ ab.SysIs p sys ∧
          G.den si.poly ⊆ G.den c.poly ∧
          G.den si.poly ⊆ Reach m sys (G.den c.poly) (G.den sj.poly) := by
  obtain ⟨A, h1, h2, h3, h4, h5, h6⟩ := mergePartitions_spec hG hO hwf hpres hlabel hsame horder
  set abs : Dict (Act × Act) (ModeAbs P) := (m0, ab0) :: rest with habs
  have hmodes : ∀ m ab, (m, ab) ∈ abs → m ∈ m0 :: order ∧ cellsOf abs m = ab.ppp.regions := by
    intro m ab hm
    have hk : m ∈ Dict.keys abs := List.mem_map_of_mem hm
    refine ⟨?_, ?_⟩
    · rw [habs] at hk
      rcases List.mem_cons.1 hk with rfl | hk
      · simp
      · exact List.mem_cons_of_mem _ (horder.symm.subset hk)
    · have : ∀ (d : Dict (Act × Act) (ModeAbs P)), d.Wf → (m, ab) ∈ d → d.get? m = some ab := by
        intro d
        induction d with
        | nil => intro _ h; cases h
        | cons q d ih =>
          intro hw h
          unfold Dict.Wf Dict.keys at hw
          rw [List.map_cons, List.nodup_cons] at hw
          rw [Dict.get?_cons]
          rcases List.mem_cons.1 h with rfl | h
          · rw [if_pos rfl]
          · rw [if_neg, ih hw.2 h]
            intro he
            exact hw.1 (by rw [he]; exact List.mem_map_of_mem h)
      unfold cellsOf
      rw [this abs hwf hm]
  have hpos := h4.nonempty hdom
  have hrefl : ∀ i < A.ppp.regions.length, A.adj i i = true := by
    intro i hi
    rw [h6]
    exact mergedAdj_refl _ _ _ hi
  have hcell : ∀ m ab, (m, ab) ∈ abs → ∀ i < A.ppp.regions.length,
      ∃ x, modeCell A m ab i = .ok x := by
    intro m ab hm i hi
    obtain ⟨hm1, hm2⟩ := hmodes m ab hm
    obtain ⟨p, q, k1, k2, _⟩ := h4.parent m hm1 i _ (List.getElem?_eq_getElem hi)
    rw [hm2] at k2
    exact modeCell_some (hhome _ hm) k1 k2
  obtain ⟨t, t1, t2⟩ := transLoop_ok (f := fun m ab => getTransitions (feas m) A m ab (lens m)) abs []
    (fun _ _ _ => false) hwf (fun q hq => getTransitions_ok (hfeas q.1) (hcell q.1 q.2 hq)
      ⟨0, 0, hpos, hpos, reachableWithin_refl hrefl hpos⟩) (by simp)
  obtain ⟨g, g1, g2, _, g4⟩ := mergeAbstractions_spec A.ppp.regions t (aps := ab0.ppp.propRegions.keys)
    (modes := abs.keys) (nums := nums) (by rw [habs]; simp [Dict.keys]) hd (by
      intro r hr p hp
      obtain ⟨q, hq, _⟩ := h4.preserving.holds r hr p hp
      exact (Dict.mem_keys_iff _ _).2 ⟨q, hq⟩)
  have hedge : ∀ i j a, HasEdge g i j a ↔ ∃ m ab, (m, ab) ∈ abs ∧
        SameAttr a (modeLabel nums m) ∧
        reachableWithin A.ppp.regions.length (lens m) A.adj A.adj j i = true ∧
        ∃ (si sj : Region P) (c : P) (sys : Nat), A.ppp.regions[i]? = some si ∧
          A.ppp.regions[j]? = some sj ∧ modeCell A m ab i = .ok (c, sys) ∧
          feas m si.poly sj.poly sys c = .ok true := by
    intro i j a
    rw [g4]
    constructor
    · rintro ⟨hi, hj, m, hm, hs, ht⟩
      obtain ⟨⟨m', ab⟩, hab, rfl⟩ := List.mem_map.1 hm
      exact ⟨m', ab, hab, hs, (getTransitions_spec (t2 (m', ab) hab) i j).1 ht⟩
    · rintro ⟨m, ab, hab, hs, hr⟩
      have ht := (getTransitions_spec (t2 (m, ab) hab) i j).2 hr
      obtain ⟨_, si, sj, _, _, k1, k2, _⟩ := hr
      exact ⟨(List.getElem?_eq_some_iff.1 k1).1, (List.getElem?_eq_some_iff.1 k2).1, m,
        List.mem_map_of_mem hab, hs, ht⟩
  refine ⟨A, g, ?_, h4, h6, g2, hedge, ?_⟩
  · unfold abstractSwitched
    simp only [h1, ok_bind]
    have : loopE (fun (t : Act × Act → Nat → Nat → Bool) (p : (Act × Act) × ModeAbs P) => do
      let t' ← getTransitions (feas p.1) A p.1 p.2 (lens p.1)
      .ok fun m => if m = p.1 then t' else t m) abs (fun _ _ _ => false) = .ok t := t1
    rw [this]
    simp only [ok_bind, g1]
  · intro Reach hR i j a ha
    obtain ⟨m, ab, hab, hs, _, si, sj, c, sys, k1, k2, k3, k4⟩ := (hedge i j a).1 ha
    obtain ⟨p, h, r, l1, l2, l3, rfl, l4⟩ := modeCell_ok k3
    obtain ⟨hm1, hm2⟩ := hmodes m ab hab
    obtain ⟨p', q, n1, n2, n3, _⟩ := h4.parent m hm1 i si k1
    rw [l1] at n1
    cases n1
    rw [hm2] at n2
    obtain ⟨h', c', o1, o2, o3, _⟩ := hhome _ hab p q n2
    simp only at o1 o2
    rw [l2] at o1
    cases o1
    rw [l3] at o2
    cases o2
    exact ⟨m, ab, si, sj, p, h, r, sys, hab, hs, k1, k2, l1, l2, l3, l4, n3.trans o3, hR _ _ _ _ _ k4⟩

/-! ## Examples -/

/-- Cells of a line. -/
def lineMerge : MergeOps (List (Int × Bool)) where
  inter := cells.inter
  keep := cells.fulldim
  eqv a b := a.all (· ∈ b) && b.all (· ∈ a)
  adjacent _ _ := true
  sameDomain a b := decide (a = b)
  le := lineLe

theorem lineMerge_sound : lineMerge.Sound cells where
  inter_sub := cells_lawful.inter_sub
  inter_null := cells_lawful.inter_null
  thin := cells_lawful.thin
  thick a h hn := by
    simp only [lineMerge, cells, List.any_eq_true] at h hn
    obtain ⟨x, hx, hx'⟩ := h
    rw [hn x hx] at hx'
    cases hx'
  eqv a b h := by
    simp only [lineMerge, Bool.and_eq_true, List.all_eq_true, decide_eq_true_eq] at h
    ext x
    exact ⟨h.1 x, h.2 x⟩
  sameDomain a b h := by
    simp only [lineMerge, decide_eq_true_eq] at h
    rw [h]
  le a b h := by
    simp only [lineMerge, lineLe, List.all_eq_true, decide_eq_true_eq]
    exact h

/-- A partition of the line from `0` to `4` where `a` holds up to `2`; the mode splits it at `k` too. -/
def lineMode (k : Int) : ModeAbs (List (Int × Bool)) where
  ppp := ⟨line 0 4, [⟨line 0 k, ["a"]⟩, ⟨line k 2, ["a"]⟩, ⟨line 2 4, []⟩], [("a", line 0 2)]⟩
  adj i j := decide (i ≤ j + 1 ∧ j ≤ i + 1)
  aps := [["a"], ["a"], []]
  ppp2pwa := [0, 0, 1]
  pwaPpp := [⟨line 0 2, ["a"]⟩, ⟨line 2 4, []⟩]
  ppp2sys := none

theorem lineMode_preserving (k : Int) (hk : k = 0 ∨ k = 1) :
    Preserving cells (lineMode k).ppp.domain (lineMode k).ppp.propRegions (lineMode k).ppp.regions := by
  have h1 : ∀ r ∈ (lineMode k).ppp.regions, ∀ x ∈ r.poly, x ∈ line 0 4 := by
    rcases hk with rfl | rfl <;> decide +kernel
  have h2 : ∀ x ∈ line 0 4, ∃ r ∈ (lineMode k).ppp.regions, x ∈ r.poly := by
    rcases hk with rfl | rfl <;> decide +kernel
  have h3 : (lineMode k).ppp.regions.Pairwise fun r s => ∀ x ∈ r.poly, x ∈ s.poly → x.2 = false := by
    rcases hk with rfl | rfl <;> decide +kernel
  have h4 : ∀ r ∈ (lineMode k).ppp.regions, ∀ p ∈ r.props, p = "a" ∧ ∀ x ∈ r.poly, x ∈ line 0 2 := by
    rcases hk with rfl | rfl <;> decide +kernel
  have h5 : ∀ r ∈ (lineMode k).ppp.regions, "a" ∉ r.props → ∀ x ∈ r.poly, x ∈ line 0 2 → x.2 = false := by
    rcases hk with rfl | rfl <;> decide +kernel
  have hget : ∀ p q, Dict.get? (lineMode k).ppp.propRegions p = some q → p = "a" ∧ q = line 0 2 := by
    intro p q h
    simp only [lineMode, Dict.get?_cons, Dict.get?_nil] at h
    split at h
    · rename_i he
      cases h
      exact ⟨he.symm, rfl⟩
    · cases h
  refine ⟨h1, ?_, ?_, ?_, ?_⟩
  · rintro x ⟨hx, hn⟩
    exact absurd (h2 x hx) hn
  · exact h3.imp fun h x hx => h x hx.1 hx.2
  · intro r hr p hp
    obtain ⟨rfl, h⟩ := h4 r hr p hp
    exact ⟨line 0 2, rfl, h⟩
  · intro r hr p q hq hp
    obtain ⟨rfl, rfl⟩ := hget p q hq
    exact fun x hx => h5 r hr hp x hx.1 hx.2

theorem lineMode_homed (k : Int) (hk : k = 0 ∨ k = 1) : (lineMode k).Homed cells := by
  have h : ∀ p < 3, ∀ r ∈ (lineMode k).ppp.regions[p]?, ∃ j c, (lineMode k).ppp2pwa[p]? = some j ∧
      (lineMode k).pwaPpp[j]? = some c ∧ ∀ x ∈ r.poly, x ∈ c.poly := by
    intro p hp r hr
    rcases hk with rfl | rfl
    all_goals
      obtain rfl | rfl | rfl : p = 0 ∨ p = 1 ∨ p = 2 := by omega
      all_goals
        cases hr
        refine ⟨_, _, rfl, rfl, ?_⟩
        decide +kernel
  intro p r hr
  have hp : p < 3 := (List.getElem?_eq_some_iff.1 hr).1
  obtain ⟨j, c, h1, h2, h3⟩ := h p hp r hr
  exact ⟨j, c, h1, h2, h3, by intro l hl; cases hl⟩

theorem lineMode_labeled (k : Int) : (lineMode k).Labeled := by
  refine ⟨rfl, ?_⟩
  intro j b l hb hl p
  have hj : j < 3 := (List.getElem?_eq_some_iff.1 hb).1
  obtain rfl | rfl | rfl : j = 0 ∨ j = 1 ∨ j = 2 := by omega
  all_goals
    cases hb
    cases hl
    exact Iff.rfl

/-- The hypotheses of the theorem are met. -/
example : let m1 : Act × Act := (.str "e", .str "0")
    let m2 : Act × Act := (.str "e", .str "1")
    ∃ A g, abstractSwitched lineMerge (fun _ _ _ _ _ => .ok true) (fun _ => 1)
      [(m1, lineMode 1), (m2, lineMode 0)] [m2] ["a"] (1, 2) = .ok (A, g) ∧
      Refinement cells (line 0 4) [("a", line 0 2)] [m1, m2]
        (cellsOf [(m1, lineMode 1), (m2, lineMode 0)]) A.ppp.regions A.parents := by
  intro m1 m2
  obtain ⟨A, g, h1, h2, _⟩ := abstractSwitched_spec cells_lawful lineMerge_sound (m0 := m1)
    (ab0 := lineMode 1) (rest := [(m2, lineMode 0)]) (by unfold Dict.Wf; decide +kernel)
    (by
      intro q hq
      simp only [List.mem_cons, List.not_mem_nil, or_false] at hq
      rcases hq with rfl | rfl
      · exact lineMode_preserving 1 (by simp)
      · exact lineMode_preserving 0 (by simp))
    (by
      intro q hq
      simp only [List.mem_cons, List.not_mem_nil, or_false] at hq
      rcases hq with rfl | rfl
      · exact lineMode_labeled 1
      · exact lineMode_labeled 0)
    (by
      intro q hq
      simp only [List.mem_cons, List.not_mem_nil, or_false] at hq
      rcases hq with rfl | rfl
      · exact lineMode_homed 1 (by simp)
      · exact lineMode_homed 0 (by simp))
    (by
      intro q hq r hr
      simp only [List.mem_cons, List.not_mem_nil, or_false] at hq hr
      rcases hq with rfl | rfl <;> rcases hr with rfl | rfl <;> exact ⟨by decide +kernel, by decide +kernel⟩)
    (by
      intro h
      have := h (0, true) (by show (0, true) ∈ line 0 4; decide +kernel)
      cases this)
    (order := [m2]) (List.Perm.refl _) (feas := fun _ _ _ _ _ => .ok true) (fun _ _ _ _ _ => ⟨true, rfl⟩)
    (fun _ => 1) (nums := (1, 2)) (Or.inr (Or.inr (by decide +kernel)))
  exact ⟨A, g, h1, h2⟩

/-- The transition system of two modes; the solver finds that the target can be reached iff it begins with
a cell with an even number. -/
def lineSwitched (m1 m2 : Act × Act) (nums : Nat × Nat) :=
  abstractSwitched lineMerge (fun _ _ q _ _ => .ok (match q with
    | x :: _ => x.1 % 2 == 0
    | [] => false)) (fun _ => 1) [(m1, lineMode 1), (m2, lineMode 0)] [m2] ["a"] nums

/-- The result of a call, for the examples. -/
def edgesOf {A V : Type} : Except PyErr (A × LGraph Nat V) → List (Nat × Nat × Attr V)
  | .ok r => r.2.edges
  | .error _ => []

/-- The exception of a call. -/
def errorOf {A : Type} : Except PyErr A → Option PyErr
  | .ok _ => none
  | .error e => some e

example : edgesOf (lineSwitched (.str "e", .str "0") (.str "e", .str "1") (1, 2)) =
    let l (s : String) : Attr Lab := [("env_actions", .act (.str "e")), ("sys_actions", .act (.str s))]
    [(0, 0, l "0"), (0, 2, l "0"), (1, 0, l "0"), (1, 2, l "0"), (2, 0, l "0"), (2, 2, l "0"),
     (0, 0, l "1"), (0, 2, l "1"), (1, 0, l "1"), (1, 2, l "1"), (2, 0, l "1"), (2, 2, l "1")] := by
  decide +kernel

/-- The default names of modes are numbers; with them `discretize_switched` raises `ValueError`, because
the names are declared as numbers and the transitions are labeled with strings. -/
theorem discretizeSwitched_numbers_counterexample :
    errorOf (lineSwitched (.num 0, .num 0) (.num 0, .num 1) (1, 2)) = some .valueError := by
  decide +kernel

/-- Partitions with different propositions are rejected. -/
theorem mergePartitions_rejects (O : MergeOps P) (abs : Dict M (ModeAbs P)) (order : List M)
    (h : ∃ q ∈ abs, ∃ r ∈ abs, sameRegions O.eqv q.2.ppp.propRegions r.2.ppp.propRegions = false ∨
      O.sameDomain q.2.ppp.domain r.2.ppp.domain = false) :
    mergePartitions O abs order = .error .exception := by
  obtain ⟨q, hq, r, hr, h⟩ := h
  cases abs with
  | nil => cases hq
  | cons p abs =>
    unfold mergePartitions
    simp only
    rw [if_pos]
    rw [List.any_eq_true]
    refine ⟨q, hq, List.any_eq_true.2 ⟨r, hr, ?_⟩⟩
    rcases h with h | h <;> simp [h]

end Abs

end Tulip
