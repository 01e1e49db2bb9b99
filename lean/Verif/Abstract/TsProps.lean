import Verif.Abstract.Ts
import Verif.Abstract.DiscretizeDualProps
import Verif.Transys.GraphProps
import Std.Data.String.ToNat

/-!
# Transition systems of partitions: theorems
-/

namespace Tulip

namespace Abs

open LGraph

set_option linter.unusedSectionVars false

variable {P ν : Type} [DecidableEq ν]

/-- The labeled transition system with states `name 0, ..., name (n - 1)`, transitions given by a
matrix, and labels given by a list of regions. -/
structure IsTs (g : LGraph ν (List String)) (name : Nat → ν) (n : Nat) (adj : Nat → Nat → Bool)
    (regions : List (Region P)) : Prop where
  states : ∀ s, g.hasNode s = true ↔ ∃ i < n, s = name i
  label : ∀ (i : Nat) (r : Region P), regions[i]? = some r →
    ∃ a, g.nodes.get? (name i) = some a ∧ a.get? "ap" = some r.props
  transitions : ∀ u v, (∃ a, (u, v, a) ∈ g.edges) ↔
    ∃ i j, i < n ∧ j < n ∧ u = name i ∧ v = name j ∧ adj i j = true
  once : g.edges.Pairwise fun e f => ¬ (e.1 = f.1 ∧ e.2.1 = f.2.1)
  initial : g.initial = []

/-- The attributes that a state gets. -/
def apAttr (attr : Attr (List String)) : Attr (List String) := if attr.isEmpty then [("ap", [])] else attr

theorem addNode_eq {g : LGraph ν (List String)} {aps : List String} (ht : g.nodeTypes = ftsNodeTypes aps)
    (hd : g.nodeDefaults = [("ap", [])]) (s : ν) (attr : Attr (List String))
    (ha : attr = [] ∨ ∃ ps : List String, (∀ p ∈ ps, p ∈ aps) ∧ attr = [("ap", ps)]) :
    g.addNode s attr = .ok { g with nodes := g.nodes.set s (((g.nodes.get? s).getD []).update
      (apAttr attr)) } := by
  unfold addNode
  rcases ha with rfl | ⟨ps, hps, rfl⟩
  · have : typedAttr g.nodeTypes g.nodeDefaults [] = .ok [("ap", [])] := by
      rw [ht, hd]
      rfl
    rw [this]
    simp only [ok_bind]
    rw [if_neg (by rw [ht]; simp [untyped, ftsNodeTypes, Dict.has])]
    rfl
  · have : typedAttr g.nodeTypes g.nodeDefaults [("ap", ps)] = .ok [("ap", ps)] := by
      rw [ht, hd, typedAttr_ok]
      · rfl
      · intro p hp t ht
        cases List.mem_singleton.1 hp
        cases ht
        rfl
      · intro p hp t ht
        cases List.mem_singleton.1 hp
        cases ht
        simpa using hps
    rw [this]
    simp only [ok_bind]
    rw [if_neg (by rw [ht]; simp [untyped, ftsNodeTypes, Dict.has])]
    rfl

/-- Adding states with labels, in a loop. -/
theorem addNodes_spec {aps : List String} (l : List (ν × Attr (List String)))
    (hl : ∀ p ∈ l, p.2 = [] ∨ ∃ ps : List String, (∀ q ∈ ps, q ∈ aps) ∧ p.2 = [("ap", ps)])
    (hn : (l.map (·.1)).Nodup) :
    ∀ g : LGraph ν (List String), g.nodeTypes = ftsNodeTypes aps → g.nodeDefaults = [("ap", [])] →
      ∃ g', g.addNodesFrom l = (g', none) ∧ SameTypes g g' ∧ g'.edges = g.edges ∧
        g'.initial = g.initial ∧
        (∀ s, g'.hasNode s = true ↔ g.hasNode s = true ∨ s ∈ l.map (·.1)) ∧
        (∀ s, s ∉ l.map (·.1) → g'.nodes.get? s = g.nodes.get? s) ∧
        (∀ s ps, (s, [("ap", ps)]) ∈ l → ∃ a, g'.nodes.get? s = some a ∧ a.get? "ap" = some ps) ∧
        (g.Ok → g'.Ok) := by
  induction l with
  | nil =>
    intro g _ _
    exact ⟨g, rfl, SameTypes.refl g, rfl, rfl, by simp, by simp, by simp, id⟩
  | cons p l ih =>
    intro g ht hd
    obtain ⟨s, attr⟩ := p
    rw [List.map_cons, List.nodup_cons] at hn
    have hadd := addNode_eq ht hd s attr (hl (s, attr) (by simp))
    set g1 : LGraph ν (List String) := { g with nodes := g.nodes.set s (((g.nodes.get? s).getD []).update
      (apAttr attr)) } with hg1
    obtain ⟨g', h1, h2, h3, h4, h5, h6, h7, h8⟩ := ih (fun q hq => hl q (by simp [hq])) hn.2 g1 ht hd
    refine ⟨g', ?_, ?_, h3, h4, ?_, ?_, ?_, ?_⟩
    · unfold addNodesFrom at h1 ⊢
      unfold seqM
      simp only [hadd]
      exact h1
    · exact SameTypes.trans ⟨rfl, rfl, rfl, rfl⟩ h2
    · intro t
      rw [h5 t, hg1, hasNode_addNode]
      simp only [List.map_cons, List.mem_cons, Bool.or_eq_true, decide_eq_true_eq]
      rw [@eq_comm _ s t]
      tauto
    · intro t ht'
      simp only [List.map_cons, List.mem_cons, not_or] at ht'
      rw [h6 t ht'.2, hg1, Dict.get?_set, if_neg (Ne.symm ht'.1)]
    · intro t ps hmem
      rcases List.mem_cons.1 hmem with he | hmem
      · obtain ⟨rfl, rfl⟩ := Prod.mk.inj he
        rw [h6 t hn.1, hg1]
        simp only
        refine ⟨_, by rw [Dict.get?_set, if_pos rfl], ?_⟩
        rw [Dict.get?_update_wf (by unfold Dict.Wf; simp [Dict.keys, apAttr])]
        rfl
      · exact h7 t ps hmem
    · intro hok
      exact h8 (addNode_ok hok hadd).2

theorem map_fst_zip {α β : Type} (l : List α) (m : List β) :
    (l.zip m).map (·.1) = l.take m.length := by
  induction l generalizing m with
  | nil => simp
  | cons a l ih =>
    cases m with
    | nil => simp
    | cons b m => simp [ih m]

theorem ftsEdgeTypes_stored {g : LGraph ν (List String)} (h : g.edgeDefaults = []) :
    Stored g [] [] := by
  intro k
  rw [h]
  rfl

/-- **C71**. The transition system of a partition, with a matrix of the size of the list of regions and
regions labeled by declared propositions. -/
theorem partToTs_spec {name : Nat → ν} (hname : ∀ i j, name i = name j → i = j) (n : Nat)
    (adj : Nat → Nat → Bool) (regions : List (Region P)) (aps : List String)
    (hr : regions.length ≤ n) (hp : ∀ r ∈ regions, ∀ p ∈ r.props, p ∈ aps) :
    ∃ g, partToTs name n adj regions aps = (g, none) ∧ IsTs g name n adj regions := by
  set states := (List.range n).map name with hstates
  have hnd : states.Nodup := List.Nodup.map (fun i j h => hname i j h) List.nodup_range
  have hget : ∀ (i : Nat) (s : ν), states[i]? = some s ↔ i < n ∧ s = name i := by
    intro i s
    rw [hstates, List.getElem?_map]
    by_cases hi : i < n
    · rw [List.getElem?_range hi]
      simp [hi, @eq_comm _ s]
    · rw [List.getElem?_eq_none (by simpa using hi)]
      simp [hi]
  have h0ok : (emptyFts : LGraph ν (List String)).Ok := by
    constructor <;> simp [emptyFts, Dict.Wf, Dict.keys, Dict.get?]
  have hl0 : ((states.map fun s => (s, ([] : Attr (List String)))).map (·.1)) = states := by
    simp [List.map_map, Function.comp_def]
  obtain ⟨g1, a1, a2, a3, a4, a5, a6, a7, a8⟩ := addNodes_spec (aps := [])
    (states.map fun s => (s, ([] : Attr (List String)))) (by
      intro p hp
      obtain ⟨s, _, rfl⟩ := List.mem_map.1 hp
      exact Or.inl rfl) (by rw [hl0]; exact hnd) emptyFts rfl rfl
  have hg1 := a8 h0ok
  have e1 : g1.edgeDefaults = [] := a2.2.2.2
  have e2 : g1.edges = [] := a3
  obtain ⟨g2, b1, b2, b3, b4, b5⟩ := addAdj_spec hg1 (n := n) (entries := entriesOf n adj)
    (states := states) (attr := []) (a := [])
    (by rw [e1]; unfold Dict.Wf; simp [Dict.keys]) (by rw [e1]; intro p hp; cases hp)
    (by rw [e1]; intro k hk; cases hk)
    (by intro s hs; rw [a5, hl0]; exact Or.inr hs) hnd
    (by
      unfold entriesOf
      refine List.Nodup.filter _ ?_
      rw [List.nodup_flatMap]
      refine ⟨fun i _ => List.Nodup.map (fun a b h => (Prod.mk.inj h).2) List.nodup_range, ?_⟩
      refine List.Pairwise.imp_of_mem ?_ List.nodup_range
      intro a b _ _ hab
      simp only [Function.onFun, List.disjoint_left, List.mem_map, not_exists, not_and]
      rintro x ⟨_, _, rfl⟩ y _ he
      exact hab (Prod.mk.inj he).1.symm)
    (by
      intro p hp
      unfold entriesOf at hp
      simp only [List.mem_filter, List.mem_flatMap, List.mem_map, List.mem_range] at hp
      obtain ⟨⟨i, hi, j, hj, rfl⟩, _⟩ := hp
      simp [hstates, hi, hj])
    (by unfold Dict.Wf; simp [Dict.keys]) (by intro p hp; cases hp) (by intro k hk; cases hk)
    (by intro u _ v _; rw [e2]; simp) (ftsEdgeTypes_stored e1)
  have hg2 : g2.Ok := by
    have := (call_keeps hg1 (op := .addAdj n n (entriesOf n adj) states [] true)
      (by show Dict.Wf _; unfold Dict.Wf; simp [Dict.keys])).2
    simp only [call] at this
    rwa [b1] at this
  have hz : ((states.zip regions).map fun (p : ν × Region P) => (p.1, [("ap", p.2.props)])).map (·.1) =
      states.take regions.length := by
    rw [List.map_map]
    simp only [Function.comp_def]
    exact map_fst_zip states regions
  obtain ⟨g3, c1, c2, c3, c4, c5, c6, c7, _⟩ := addNodes_spec (aps := aps)
    ((states.zip regions).map fun (p : ν × Region P) => (p.1, [("ap", p.2.props)])) (by
      intro p hp'
      obtain ⟨q, hq, rfl⟩ := List.mem_map.1 hp'
      exact Or.inr ⟨q.2.props, hp q.2 (List.of_mem_zip hq).2, rfl⟩)
    (by rw [hz]; exact hnd.sublist (List.take_sublist _ _)) { g2 with nodeTypes := ftsNodeTypes aps } rfl
    (by show g2.nodeDefaults = _; rw [b2.2.1]; exact a2.2.1)
  have hedges : ∀ u v a, (u, v, a) ∈ g2.edges → SameAttr a [] ∧
      ∃ i j, (i, j) ∈ entriesOf n adj ∧ states[i]? = some u ∧ states[j]? = some v := by
    intro u v a ha
    rcases (b5 u v a).1 ⟨a, ha, fun _ => rfl⟩ with ⟨b, hb, _⟩ | h
    · rw [e2] at hb; cases hb
    · exact h
  have hentry : ∀ i j, (i, j) ∈ entriesOf n adj ↔ i < n ∧ j < n ∧ adj i j = true := by
    intro i j
    unfold entriesOf
    simp only [List.mem_filter, List.mem_flatMap, List.mem_map, List.mem_range, Prod.mk.injEq]
    constructor
    · rintro ⟨⟨i', hi, j', hj, rfl, rfl⟩, h⟩
      exact ⟨hi, hj, h⟩
    · rintro ⟨hi, hj, h⟩
      exact ⟨⟨i, hi, j, hj, rfl, rfl⟩, h⟩
  refine ⟨g3, ?_, ?_, ?_, ?_, ?_, ?_⟩
  · unfold partToTs
    simp only [← hstates, a1, b1, c1]
  · intro s
    rw [c5 s, hz]
    have : ({ g2 with nodeTypes := ftsNodeTypes aps } : LGraph ν (List String)).hasNode s =
        g1.hasNode s := by simp only [hasNode, b3]
    rw [this, a5 s, hl0]
    constructor
    · rintro ((h | h) | h)
      · cases h
      · obtain ⟨i, hi, rfl⟩ := List.mem_map.1 h
        exact ⟨i, List.mem_range.1 hi, rfl⟩
      · obtain ⟨i, hi, rfl⟩ := List.mem_map.1 (List.mem_of_mem_take h)
        exact ⟨i, List.mem_range.1 hi, rfl⟩
    · rintro ⟨i, hi, rfl⟩
      exact Or.inl (Or.inr (List.mem_map.2 ⟨i, List.mem_range.2 hi, rfl⟩))
  · intro i r hir
    have hi := (List.getElem?_eq_some_iff.1 hir).1
    refine c7 (name i) r.props (List.mem_map.2 ⟨(name i, r), ?_, rfl⟩)
    refine List.mem_of_getElem? (i := i) ?_
    rw [List.getElem?_zip_eq_some]
    exact ⟨(hget i _).2 ⟨by omega, rfl⟩, hir⟩
  · intro u v
    rw [c3]
    show (∃ a, (u, v, a) ∈ g2.edges) ↔ _
    constructor
    · rintro ⟨a, ha⟩
      obtain ⟨_, i, j, h1, h2, h3⟩ := hedges u v a ha
      obtain ⟨g1', g2', g3'⟩ := (hentry i j).1 h1
      exact ⟨i, j, g1', g2', ((hget i u).1 h2).2, ((hget j v).1 h3).2, g3'⟩
    · rintro ⟨i, j, hi, hj, rfl, rfl, h⟩
      obtain ⟨a, ha, _⟩ := (b5 (name i) (name j) []).2 (Or.inr ⟨fun _ => rfl, i, j,
        (hentry i j).2 ⟨hi, hj, h⟩, (hget i _).2 ⟨hi, rfl⟩, (hget j _).2 ⟨hj, rfl⟩⟩)
      exact ⟨a, ha⟩
  · rw [c3]
    show g2.edges.Pairwise _
    refine List.Pairwise.imp_of_mem ?_ (hg2.distinct (by rw [b2.2.2.2, e1]))
    intro e f he hf hne hef
    refine hne ⟨hef.1, hef.2, ?_⟩
    intro k
    rw [(hedges e.1 e.2.1 e.2.2 he).1 k, (hedges f.1 f.2.1 f.2.2 hf).1 k]
  · rw [c4]
    show g2.initial = []
    rw [b4, a4]
    rfl

/-- A region with an undeclared proposition is rejected. -/
theorem partToTs_rejects_example :
    (partToTs (P := Unit) id 1 (fun _ _ => true) [⟨(), ["a"]⟩] []).2 = some .valueError := by
  decide +kernel

theorem stateName_inj (i j : Nat) (h : stateName i = stateName j) : i = j := by
  unfold stateName at h
  have h := congrArg String.toList h
  simp only [String.toList_append, List.append_cancel_left_eq] at h
  exact Nat.repr_injective (String.toList_injective h)

/-- **C71**. `ppp2ts`: the states are `s0, s1, ...`, in the order of the regions, also in the returned
list; there is a transition for each entry of the adjacency matrix and a state has the propositions of
its region. -/
theorem ppp2ts_spec (n : Nat) (adj : Nat → Nat → Bool) (regions : List (Region P)) (aps : List String)
    (hr : regions.length ≤ n) (hp : ∀ r ∈ regions, ∀ p ∈ r.props, p ∈ aps) :
    ∃ g, ppp2ts n adj regions aps = ((g, none), (List.range n).map stateName) ∧
      IsTs g stateName n adj regions := by
  obtain ⟨g, h1, h2⟩ := partToTs_spec stateName_inj n adj regions aps hr hp
  exact ⟨g, by unfold ppp2ts; rw [h1], h2⟩

/-- **C60**, **C70**. The transition system returned by the discretization: the states are the indices of
the cells, there is a transition from `i` to `j` iff `transitions[j, i] == 1`, and a state has the
propositions of its cell. -/
theorem discTs_spec (S : DState P) (aps : List String)
    (hp : ∀ r ∈ S.sol, ∀ p ∈ r.props, p ∈ aps) :
    ∃ g, discTs S aps = (g, none) ∧ IsTs g id S.sol.length (fun i j => S.trans j i) S.sol :=
  partToTs_spec (fun _ _ h => h) _ _ _ _ (le_refl _) hp

variable {X K : Type} [Field K] [LinearOrder K]

/-- **C60**. The abstraction is sound: for each transition of the returned system, from almost each state
of the source cell the controller can drive the continuous state to the target cell, through the states
of the given cell around the source, on which the same propositions hold. -/
theorem discretizeBi_ts {O : DiscOps P K} {G : Geom P X} (hG : G.Lawful)
    {Reach : Nat → Set X → Set X → Set X} (hO : O.Sound G Reach) {domain : P} {props : Dict String P}
    {part : List (Region P)} {adj : Nat → Nat → Bool} {subs0 : List Nat}
    (hp : Preserving G domain props part) (hs : O.pwa = true → subs0.length = part.length)
    {fuel : Nat} {S : DState P} (h : discretizeBi O part adj subs0 fuel = some (.ok S)) :
    ∃ g, discTs S props.keys = (g, none) ∧
      (∀ s, g.hasNode s = true ↔ s < S.sol.length) ∧
      (∀ i a, g.nodes.get? i = some a → ∃ r ps, S.sol[i]? = some r ∧ a.get? "ap" = some ps ∧
        (∀ p ∈ ps, ∃ q, props.get? p = some q ∧ G.den r.poly ⊆ G.den q) ∧
        ∀ p q, props.get? p = some q → p ∉ ps → G.null (G.den r.poly ∩ G.den q)) ∧
      ∀ i j a, (i, j, a) ∈ g.edges → ∃ (ri rj : Region P) (h : Nat) (c : Region P) (sys : Nat), S.sol[i]? = some ri ∧ S.sol[j]? = some rj ∧
        part[h]? = some c ∧ c.props = ri.props ∧ G.den ri.poly ⊆ G.den c.poly ∧
        (if O.pwa then subs0[h]? = some sys else sys = 0) ∧
        G.null (G.den ri.poly \ Reach sys (G.den c.poly) (G.den rj.poly)) := by
  obtain ⟨home, hlen, hpres, _, _, hcell, htrans⟩ := discretizeBi_sound hG hO hp hs h
  have hkeys : ∀ r ∈ S.sol, ∀ p ∈ r.props, p ∈ props.keys := by
    intro r hr p hp'
    obtain ⟨q, hq, _⟩ := hpres.holds r hr p hp'
    exact (Dict.mem_keys_iff _ _).2 (by rw [hq]; simp)
  obtain ⟨g, hg, hts⟩ := discTs_spec S props.keys hkeys
  have hst : ∀ s, g.hasNode s = true ↔ s < S.sol.length := by
    intro s
    rw [hts.states]
    exact ⟨fun ⟨i, hi, he⟩ => by rw [he]; exact hi, fun hs => ⟨s, hs, rfl⟩⟩
  refine ⟨g, hg, hst, ?_, ?_⟩
  · intro i a ha
    have hi : i < S.sol.length := by
      rw [← hst]
      simp only [hasNode, has_eq, ha]
      rfl
    obtain ⟨b, hb, hps⟩ := hts.label i S.sol[i] (List.getElem?_eq_getElem hi)
    simp only [id] at hb
    rw [ha] at hb
    cases hb
    exact ⟨S.sol[i], S.sol[i].props, List.getElem?_eq_getElem hi, hps,
      hpres.holds _ (List.getElem_mem hi), hpres.fails _ (List.getElem_mem hi)⟩
  · intro i j a ha
    obtain ⟨i', j', _, _, rfl, rfl, hij⟩ := (hts.transitions i j).1 ⟨a, ha⟩
    obtain ⟨ri, rj, hm, c, sys, h1, h2, h3, h4, h5, h6⟩ := htrans j i hij
    obtain ⟨c', h7, h8, h9⟩ := hcell i ri hm h1 h3
    rw [h4] at h7
    cases h7
    exact ⟨ri, rj, hm, c, sys, h1, h2, h4, h8.symm, h9, h5, h6⟩

example : (ppp2ts 2 stripAdj stripPart ["a", "b"]).1.2 = none ∧
    (ppp2ts 2 stripAdj stripPart ["a", "b"]).1.1.nodes = [("s0", [("ap", ["a"])]), ("s1", [("ap", ["b"])])] ∧
    (ppp2ts 2 stripAdj stripPart ["a", "b"]).1.1.edges =
      [("s0", "s0", []), ("s0", "s1", []), ("s1", "s0", []), ("s1", "s1", [])] := by
  decide +kernel

end Abs

end Tulip
