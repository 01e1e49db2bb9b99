import Verif.Transys.Matlab
import Verif.Transys.GraphProps
import Verif.Transys.MathSetProps

/-!
# C137: what is exported to Matlab

The specification: which record describes a state and an edge of the machine.
-/

namespace Tulip
namespace Matlab

open Mach LGraph

variable {ν V T : Type} [DecidableEq ν] [DecidableEq V]

/-- The dictionary has the names of the ports as keys, and the text of the value of each port. -/
def Prints (str : V → T) (ports : Ports V) (a : Attr V) (d : Dict String T) : Prop :=
  d.keys = ports.keys ∧ ∀ k ∈ ports.keys, ∃ v, a.get? k = some v ∧ d.get? k = some (str v)

/-- The record of a transition describes the edge. -/
def Describes (str : V → T) (m : Machine ν V) (e : ν × ν × Attr V) (r : TransRec ν T) : Prop :=
  r.start = e.1 ∧ r.stop = e.2.1 ∧ Prints str m.inputs e.2.2 r.inputs ∧ Prints str m.outputs e.2.2 r.outputs

/-- The record of an initial transition describes the edge `e` after the edge `e0`, whose location is
the location at the start. -/
def Starts (str : V → T) (m : Machine ν V) (e0 e : ν × ν × Attr V) (r : InitRec ν V T) : Prop :=
  r.state = e.2.1 ∧ e0.2.2.get? "loc" = some r.startLoc ∧
    Prints str m.inputs e.2.2 r.inputs ∧ Prints str m.outputs e.2.2 r.outputs

/-- What the export relies on: no edge enters `sinit` and each other state is entered by an edge; labels
have a value for each port and for `loc`. -/
structure Ready (sinit : ν) (m : Machine ν V) : Prop where
  states : m.graph.nodes.keys.Nodup
  root : sinit ∈ m.graph.nodes.keys
  ends : ∀ e ∈ m.graph.edges, e.2.1 ∈ m.graph.nodes.keys
  fresh : ∀ e ∈ m.graph.edges, e.2.1 ≠ sinit
  entered : ∀ u ∈ m.graph.nodes.keys, u ≠ sinit → ∃ e ∈ m.graph.edges, e.2.1 = u
  loc : ∀ e ∈ m.graph.edges, ∃ v, e.2.2.get? "loc" = some v
  inputs : ∀ e ∈ m.graph.edges, ∀ k ∈ m.inputs.keys, ∃ v, e.2.2.get? k = some v
  outputs : ∀ e ∈ m.graph.edges, ∀ k ∈ m.outputs.keys, ∃ v, e.2.2.get? k = some v

/-- The edges that enter a state output the same location: the state determines the location. -/
def Agree (m : Machine ν V) : Prop :=
  ∀ e ∈ m.graph.edges, ∀ f ∈ m.graph.edges, e.2.1 = f.2.1 → e.2.2.get? "loc" = f.2.2.get? "loc"

/-! ## The parts -/

theorem values_prints (str : V → T) (a : Attr V) (ks : List String) (h : ∀ k ∈ ks, ∃ v, a.get? k = some v) :
    ∃ d, values str a ks = .ok d ∧ d.keys = ks ∧ ∀ k ∈ ks, ∃ v, a.get? k = some v ∧ d.get? k = some (str v) := by
  induction ks with
  | nil => exact ⟨[], rfl, rfl, by simp⟩
  | cons k ks ih =>
    obtain ⟨d, h1, h2, h3⟩ := ih fun j hj => h j (List.mem_cons_of_mem _ hj)
    obtain ⟨v, hv⟩ := h k List.mem_cons_self
    refine ⟨(k, str v) :: d, by simp [values, item, hv, h1, ok_bind], ?_, fun j hj => ?_⟩
    · rw [← h2]; rfl
    · rw [Dict.get?_cons]
      by_cases e : k = j
      · subst e; exact ⟨v, hv, by simp⟩
      · rcases List.mem_cons.1 hj with rfl | hj
        · exact absurd rfl e
        · obtain ⟨w, hw, hd⟩ := h3 j hj
          exact ⟨w, hw, by simpa [e] using hd⟩

/-- The dictionary of locations: its keys are the states entered, once each, and the value is the location
of one of the edges that enter the state. -/
theorem nodeToLoc_spec (es : List (ν × ν × Attr V)) (h : ∀ e ∈ es, ∃ v, e.2.2.get? "loc" = some v) :
    ∀ d : Dict ν V, d.Wf → ∃ d', nodeToLoc d es = .ok d' ∧ d'.Wf ∧
      (∀ u, u ∈ d'.keys ↔ u ∈ d.keys ∨ ∃ e ∈ es, e.2.1 = u) ∧
      ∀ u v, d'.get? u = some v → d.get? u = some v ∨ ∃ e ∈ es, e.2.1 = u ∧ e.2.2.get? "loc" = some v := by
  induction es with
  | nil => intro d hd; exact ⟨d, rfl, hd, by simp, fun u v h => .inl h⟩
  | cons e es ih =>
    intro d hd
    obtain ⟨v, hv⟩ := h e List.mem_cons_self
    obtain ⟨d', h1, h2, h3, h4⟩ := ih (fun f hf => h f (List.mem_cons_of_mem _ hf)) (d.set e.2.1 v) (Dict.wf_set hd _ _)
    refine ⟨d', by simp [nodeToLoc, item, hv, ok_bind, h1], h2, fun u => ?_, fun u w hw => ?_⟩
    · rw [h3, Dict.mem_keys_iff, Dict.mem_keys_iff, Dict.get?_set]
      by_cases e1 : e.2.1 = u
      · simp [e1]
      · simp [e1]
    · rcases h4 u w hw with h | ⟨f, hf, h⟩
      · rw [Dict.get?_set] at h
        split at h
        · rename_i e1
          injection h with h
          subst h
          exact .inr ⟨e, List.mem_cons_self, e1, hv⟩
        · exact .inl h
      · exact .inr ⟨f, List.mem_cons_of_mem _ hf, h⟩

theorem stateList_spec (sinit : ν) (continuous : Bool) (locs : Dict ν V) (us : List ν)
    (h : ∀ u ∈ us, u ≠ sinit → ∃ v, locs.get? u = some v) :
    ∃ l, stateList sinit continuous locs us = .ok l ∧ l.map (·.name) = us.filter (fun u => decide (u ≠ sinit)) ∧
      ∀ r ∈ l, r.loc = if continuous then locs.get? r.name else none := by
  induction us with
  | nil => exact ⟨[], rfl, rfl, by simp⟩
  | cons u us ih =>
    obtain ⟨l, h1, h2, h3⟩ := ih fun w hw => h w (List.mem_cons_of_mem _ hw)
    by_cases hu : u = sinit
    · exact ⟨l, by rw [stateList, if_pos hu, h1], by simp [hu, h2], h3⟩
    · obtain ⟨v, hv⟩ := h u List.mem_cons_self hu
      refine ⟨⟨u, if continuous then some v else none⟩ :: l, ?_, by simp [hu, h2], fun r hr => ?_⟩
      · rw [stateList, if_neg hu]
        cases continuous <;> simp [item, hv, h1, ok_bind, Except.map]
      · rcases List.mem_cons.1 hr with rfl | hr
        · cases continuous <;> simp [hv]
        · exact h3 r hr

theorem transitionList_spec {sinit : ν} (str : V → T) {m : Machine ν V} (ok : Ready sinit m)
    (es : List (ν × ν × Attr V)) (hes : ∀ e ∈ es, e ∈ m.graph.edges) :
    ∃ l, transitionList sinit str m es = .ok l ∧
      List.Forall₂ (Describes str m) (es.filter fun e => decide (e.1 ≠ sinit)) l := by
  induction es with
  | nil => exact ⟨[], rfl, .nil⟩
  | cons e es ih =>
    obtain ⟨l, h1, h2⟩ := ih fun f hf => hes f (List.mem_cons_of_mem _ hf)
    have he := hes e List.mem_cons_self
    by_cases hs : e.1 = sinit
    · exact ⟨l, by rw [transitionList, if_pos hs, h1], by simpa [hs] using h2⟩
    · obtain ⟨i, i1, i2⟩ := values_prints str e.2.2 _ (ok.inputs e he)
      obtain ⟨o, o1, o2⟩ := values_prints str e.2.2 _ (ok.outputs e he)
      refine ⟨⟨e.1, e.2.1, i, o⟩ :: l, ?_, ?_⟩
      · rw [transitionList, if_neg hs, if_neg (ok.fresh e he)]
        simp only [i1, o1, h1, ok_bind]
      · rw [List.filter_cons, if_pos (by simpa using hs)]
        exact .cons ⟨rfl, rfl, i2, o2⟩ h2

theorem initList_spec {sinit : ν} (str : V → T) {m : Machine ν V} (ok : Ready sinit m) (locs : Dict ν V)
    (es : List (ν × ν × Attr V)) (hes : ∀ e ∈ es, e ∈ m.graph.edges ∧ e.1 ≠ sinit ∧ ∃ v, locs.get? e.1 = some v) :
    ∃ l, initList sinit str m locs es = .ok l ∧
      List.Forall₂ (fun e r => r.state = e.2.1 ∧ locs.get? e.1 = some r.startLoc ∧
        Prints str m.inputs e.2.2 r.inputs ∧ Prints str m.outputs e.2.2 r.outputs) es l := by
  induction es with
  | nil => exact ⟨[], rfl, .nil⟩
  | cons e es ih =>
    obtain ⟨l, h1, h2⟩ := ih fun f hf => hes f (List.mem_cons_of_mem _ hf)
    obtain ⟨he, hs, v, hv⟩ := hes e List.mem_cons_self
    obtain ⟨i, i1, i2⟩ := values_prints str e.2.2 _ (ok.inputs e he)
    obtain ⟨o, o1, o2⟩ := values_prints str e.2.2 _ (ok.outputs e he)
    refine ⟨⟨e.2.1, i, o, v⟩ :: l, ?_, .cons ⟨rfl, hv, i2, o2⟩ h2⟩
    rw [initList, if_neg hs, if_neg (ok.fresh e he)]
    simp only [i1, o1, h1, ok_bind, item, hv]

theorem mem_successor_edges (m : Machine ν V) (sinit : ν) (e : ν × ν × Attr V) :
    e ∈ (successors m.graph sinit).flatMap (out m.graph) ↔
      e ∈ m.graph.edges ∧ ∃ e0 ∈ m.graph.edges, e0.1 = sinit ∧ e0.2.1 = e.1 := by
  simp only [successors, List.mem_flatMap, mem_uniqueLoop, List.not_mem_nil, false_or, List.mem_map, out,
    List.mem_filter, decide_eq_true_eq]
  constructor
  · rintro ⟨u, ⟨e0, ⟨h1, h2⟩, rfl⟩, h3, h4⟩
    exact ⟨h3, e0, h1, h2, h4.symm⟩
  · rintro ⟨h3, e0, h1, h2, h4⟩
    exact ⟨e0.2.1, ⟨e0, ⟨h1, h2⟩, rfl⟩, h3, h4.symm⟩

/-! ## The number of keys -/

theorem length_keys {κ α : Type} (d : Dict κ α) : d.keys.length = d.length := by simp [Dict.keys]

theorem locs_length {sinit : ν} {m : Machine ν V} (hn : m.graph.nodes.keys.Nodup)
    (hr : sinit ∈ m.graph.nodes.keys) (hends : ∀ e ∈ m.graph.edges, e.2.1 ∈ m.graph.nodes.keys)
    (hf : ∀ e ∈ m.graph.edges, e.2.1 ≠ sinit) {locs : Dict ν V} (hw : locs.Wf)
    (hk : ∀ u, u ∈ locs.keys ↔ ∃ e ∈ m.graph.edges, e.2.1 = u) :
    locs.length + 1 = m.graph.nodes.length ↔
      ∀ u ∈ m.graph.nodes.keys, u ≠ sinit → ∃ e ∈ m.graph.edges, e.2.1 = u := by
  have hsub : locs.keys ⊆ m.graph.nodes.keys.erase sinit := by
    intro u hu
    obtain ⟨e, he, rfl⟩ := (hk u).1 hu
    exact (List.mem_erase_of_ne (hf e he)).2 (hends e he)
  have hlen : (m.graph.nodes.keys.erase sinit).length + 1 = m.graph.nodes.length := by
    rw [List.length_erase_of_mem hr, ← length_keys]
    have := List.length_pos_of_mem hr
    omega
  have hsp : List.Subperm locs.keys (m.graph.nodes.keys.erase sinit) := hw.subperm hsub
  constructor
  · intro h u hu hne
    have hle : (m.graph.nodes.keys.erase sinit).length ≤ locs.keys.length := by
      rw [length_keys]; omega
    have := hsp.perm_of_length_le hle
    exact (hk u).1 (this.mem_iff.2 ((List.mem_erase_of_ne hne).2 hu))
  · intro h
    have hsub' : m.graph.nodes.keys.erase sinit ⊆ locs.keys := by
      intro u hu
      have hu' := (hn.mem_erase_iff).1 hu
      exact (hk u).2 (h u hu'.2 hu'.1)
    have := ((hn.erase sinit).subperm hsub').length_le
    have := hsp.length_le
    rw [length_keys] at *
    omega

theorem forall₂_left {α β : Type} {R : α → β → Prop} {l : List α} {l' : List β} (h : List.Forall₂ R l l')
    {a : α} (ha : a ∈ l) : ∃ b ∈ l', R a b := by
  induction h with
  | nil => simp at ha
  | @cons x y _ _ hxy _ ih =>
    rcases List.mem_cons.1 ha with rfl | ha
    · exact ⟨y, List.mem_cons_self, hxy⟩
    · obtain ⟨b, hb, h⟩ := ih ha
      exact ⟨b, List.mem_cons_of_mem _ hb, h⟩

theorem forall₂_right {α β : Type} {R : α → β → Prop} {l : List α} {l' : List β} (h : List.Forall₂ R l l')
    {b : β} (hb : b ∈ l') : ∃ a ∈ l, R a b := forall₂_left (R := fun b a => R a b) h.flip hb

/-! ## The theorems -/

/-- **C137.** The export returns, with: the ports and their values; each state except `sinit` once, with the
location that the edges into it output, for a continuous system; one record for each edge that does not
leave `sinit`, in the order of the edges; and the initial transitions, which are the second edges of the
paths from `sinit`, with the location that the first edge outputs. -/
theorem exportMealy_spec {sinit : ν} (str : V → T) {m : Machine ν V} (ok : Ready sinit m) (ha : Agree m)
    (continuous : Bool) : ∃ r, exportMealy sinit str m continuous = .ok r ∧
      r.inputs = m.inputs ∧ r.outputs = m.outputs ∧
      r.states.map (·.name) = m.graph.nodes.keys.filter (fun u => decide (u ≠ sinit)) ∧
      (∀ s ∈ r.states, ∀ e ∈ m.graph.edges, e.2.1 = s.name →
        s.loc = if continuous then e.2.2.get? "loc" else none) ∧
      List.Forall₂ (Describes str m) (m.graph.edges.filter fun e => decide (e.1 ≠ sinit)) r.transitions ∧
      (∀ t ∈ r.initTrans, ∃ e0 ∈ m.graph.edges, ∃ e ∈ m.graph.edges,
        e0.1 = sinit ∧ e.1 = e0.2.1 ∧ Starts str m e0 e t) ∧
      (∀ e0 ∈ m.graph.edges, ∀ e ∈ m.graph.edges, e0.1 = sinit → e.1 = e0.2.1 →
        ∃ t ∈ r.initTrans, Starts str m e0 e t) := by
  obtain ⟨locs, l1, l2, l3, l4⟩ := nodeToLoc_spec m.graph.edges ok.loc [] (by simp [Dict.Wf, Dict.keys])
  have hk : ∀ u, u ∈ locs.keys ↔ ∃ e ∈ m.graph.edges, e.2.1 = u := by
    intro u; rw [l3]; simp [Dict.keys]
  have hloc : ∀ e ∈ m.graph.edges, locs.get? e.2.1 = e.2.2.get? "loc" := by
    intro e he
    obtain ⟨v, hv⟩ := (Dict.mem_keys_iff _ _).1 ((hk e.2.1).2 ⟨e, he, rfl⟩)
    rcases l4 _ _ hv with h | ⟨f, hf, h1, h2⟩
    · simp at h
    · rw [hv, ← h2, ha f hf e he h1]
  have hcount := (locs_length ok.states ok.root ok.ends ok.fresh l2 hk).2 ok.entered
  obtain ⟨sl, s1, s2, s3⟩ := stateList_spec sinit continuous locs m.graph.nodes.keys fun u hu hne =>
    (Dict.mem_keys_iff _ _).1 ((hk u).2 (ok.entered u hu hne))
  obtain ⟨tl, t1, t2⟩ := transitionList_spec str ok m.graph.edges fun _ h => h
  obtain ⟨il, i1, i2⟩ := initList_spec str ok locs ((successors m.graph sinit).flatMap (out m.graph)) fun e he => by
    obtain ⟨h1, e0, h2, h3, h4⟩ := (mem_successor_edges m sinit e).1 he
    exact ⟨h1, h4 ▸ ok.fresh e0 h2, (Dict.mem_keys_iff _ _).1 ((hk _).2 ⟨e0, h2, h4⟩)⟩
  have hnode : m.graph.hasNode sinit = true := (mem_keys_iff_has _ _).1 ok.root
  refine ⟨⟨sl, exportMealyIo m.inputs, exportMealyIo m.outputs, tl, il⟩, ?_, by simp [exportMealyIo],
    by simp [exportMealyIo], s2, ?_, t2, ?_, ?_⟩
  · simp only [exportMealy, l1, ok_bind, hcount, ne_eq, not_true_eq_false, if_false, s1, t1, hnode,
      Bool.true_eq_false, i1]
  · intro s hs e he hes
    rw [s3 s hs, ← hes, hloc e he]
  · intro t ht
    obtain ⟨e, he, h1, h2, h3⟩ := forall₂_right i2 ht
    obtain ⟨h4, e0, h5, h6, h7⟩ := (mem_successor_edges m sinit e).1 he
    exact ⟨e0, h5, e, h4, h6, h7.symm, h1, by rw [← h2, ← h7, hloc e0 h5], h3⟩
  · intro e0 h0 e he hs hc
    obtain ⟨t, ht, h1, h2, h3⟩ := forall₂_left i2
      ((mem_successor_edges m sinit e).2 ⟨he, e0, h0, hs, hc.symm⟩)
    exact ⟨t, ht, h1, by rw [← h2, hc, hloc e0 h0], h3⟩

/-- **C137.** A controller with a state, other than `sinit`, that no edge enters is rejected with
`AssertionError`. -/
theorem exportMealy_unreached {sinit : ν} (str : V → T) {m : Machine ν V} (continuous : Bool)
    (hn : m.graph.nodes.keys.Nodup) (hr : sinit ∈ m.graph.nodes.keys)
    (hends : ∀ e ∈ m.graph.edges, e.2.1 ∈ m.graph.nodes.keys) (hf : ∀ e ∈ m.graph.edges, e.2.1 ≠ sinit)
    (hl : ∀ e ∈ m.graph.edges, ∃ v, e.2.2.get? "loc" = some v)
    {u : ν} (hu : u ∈ m.graph.nodes.keys) (hne : u ≠ sinit) (h : ∀ e ∈ m.graph.edges, e.2.1 ≠ u) :
    exportMealy sinit str m continuous = .error .assertion := by
  obtain ⟨locs, l1, l2, l3, _⟩ := nodeToLoc_spec m.graph.edges hl [] (by simp [Dict.Wf, Dict.keys])
  have hcount := locs_length hn hr hends hf l2 (fun u => by rw [l3]; simp [Dict.keys])
  have : locs.length + 1 ≠ m.graph.nodes.length := by
    intro hc
    obtain ⟨e, he, h'⟩ := hcount.1 hc u hu hne
    exact h e he h'
  simp only [exportMealy, l1, ok_bind, ne_eq, this, not_false_eq_true, if_true]

/-! ### Examples -/

/-- A controller that starts at either of two locations. -/
def rover : Machine String Nat where
  graph := {
    nodes := [("Sinit", []), ("a", []), ("b", [])]
    initial := ["Sinit"]
    edges := [("Sinit", "a", [("park", 0), ("loc", 5)]), ("Sinit", "b", [("park", 1), ("loc", 7)]),
      ("a", "b", [("park", 1), ("loc", 7)]), ("b", "a", [("park", 0), ("loc", 5)]), ("b", "b", [("park", 1), ("loc", 7)])] }
  inputs := [("park", [0, 1])]
  outputs := [("loc", [5, 7])]

theorem rover_ok : Ready "Sinit" rover ∧ Agree rover := by
  have hl : ∀ k ∈ ["loc", "park"], ∀ e ∈ rover.graph.edges, (e.2.2.get? k).isSome = true := by decide +kernel
  refine ⟨⟨by decide +kernel, by decide +kernel, by decide +kernel, by decide +kernel, by decide +kernel,
    fun e he => Option.isSome_iff_exists.1 (hl _ (by simp) e he), fun e he k hk => ?_, fun e he k hk => ?_⟩, ?_⟩
  · have : k = "park" := by simpa [rover, Dict.keys] using hk
    subst this
    exact Option.isSome_iff_exists.1 (hl _ (by simp) e he)
  · have : k = "loc" := by simpa [rover, Dict.keys] using hk
    subst this
    exact Option.isSome_iff_exists.1 (hl _ (by simp) e he)
  · unfold Agree
    decide +kernel

example : ((exportMealy "Sinit" (fun n : Nat => n) rover true).toOption.map fun r =>
    (r.states, r.transitions.map (fun t => (t.start, t.stop)), r.initTrans.map (fun t => (t.state, t.startLoc)))) =
    some ([⟨"a", some 5⟩, ⟨"b", some 7⟩], [("a", "b"), ("b", "a"), ("b", "b")], [("b", 5), ("a", 7), ("b", 7)]) := by
  decide +kernel

/-- A Mealy machine in which two edges that enter the same state output different locations. -/
def mixed : Machine String Nat where
  graph := {
    nodes := [("Sinit", []), ("a", [])]
    initial := ["Sinit"]
    edges := [("Sinit", "a", [("park", 0), ("loc", 5)]), ("a", "a", [("park", 1), ("loc", 7)])] }
  inputs := [("park", [0, 1])]
  outputs := [("loc", [5, 7])]

/-- **C137.** Without agreement the location of the last edge is exported: the only path from `sinit` starts at
location 5, while the exported initial transition starts at location 7. -/
theorem exportMealy_loc_counterexample :
    ((exportMealy "Sinit" (fun n : Nat => n) mixed true).toOption.map fun r =>
      (r.states, r.initTrans.map (·.startLoc))) = some ([⟨"a", some 7⟩], [7]) ∧
    (out mixed.graph "Sinit").map (fun e => e.2.2.get? "loc") = [some 5] := by decide +kernel

end Matlab
end Tulip
