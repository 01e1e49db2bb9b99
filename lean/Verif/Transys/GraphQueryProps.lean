import Verif.Transys.GraphProps

/-!
# C08, C09, C10: queries and dead ends
-/

namespace Tulip

namespace LGraph

variable {ν V : Type} [DecidableEq ν] [DecidableEq V]

/-! ## C08: label queries -/

/-- A label matches a desired one: they are equal, or they assign the same label types and each
value matches the desired value, by the guard semantics of the type if it has one, else by
equality. -/
def Matches (types : Dict String (LabelType V)) (a desired : Attr V) : Prop :=
  SameAttr a desired ∨
  (∀ k, a.has k = desired.has k) ∧
    ∀ k v w t, a.get? k = some v → desired.get? k = some w → types.get? k = some t →
      match t.guard with
      | some f => f v w = true
      | none => v = w

theorem labelLoop_spec (types : Dict String (LabelType V)) (desired : Attr V) (l : Attr V)
    (ht : ∀ p ∈ l, types.has p.1 = true) (hd : ∀ p ∈ l, desired.has p.1 = true) :
    ∃ b, labelLoop types desired l = .ok b ∧ (b = true ↔
      ∀ k v w t, (k, v) ∈ l → desired.get? k = some w → types.get? k = some t →
        match t.guard with
        | some f => f v w = true
        | none => v = w) := by
  induction l with
  | nil => exact ⟨true, rfl, by simp⟩
  | cons p l ih =>
    obtain ⟨k, v⟩ := p
    obtain ⟨b, hb, hb'⟩ := ih (fun p hp => ht p (by simp [hp])) (fun p hp => hd p (by simp [hp]))
    have h1 := ht (k, v) (by simp)
    have h2 := hd (k, v) (by simp)
    rw [has_eq, Option.isSome_iff_exists] at h1 h2
    obtain ⟨t, h1⟩ := h1
    obtain ⟨w, h2⟩ := h2
    have hsplit : (∀ k' v' w' t', (k', v') ∈ (k, v) :: l → desired.get? k' = some w' →
        types.get? k' = some t' → match t'.guard with
        | some f => f v' w' = true
        | none => v' = w') ↔ (match t.guard with
        | some f => f v w = true
        | none => v = w) ∧ (b = true) := by
      rw [hb']
      constructor
      · intro h
        exact ⟨h k v w t (by simp) h2 h1, fun k' v' w' t' hm => h k' v' w' t' (by simp [hm])⟩
      · rintro ⟨h, h'⟩ k' v' w' t' hm e1 e2
        rcases List.mem_cons.1 hm with hm | hm
        · cases hm
          simp only at h1 h2
          rw [h2] at e1; rw [h1] at e2
          cases e1; cases e2
          exact h
        · exact h' k' v' w' t' hm e1 e2
    rw [hsplit]
    simp only at h1 h2
    simp only [labelLoop, h1, h2]
    cases hg : t.guard with
    | some f =>
      simp only
      cases hf : f v w with
      | true => exact ⟨b, by simp [hb], by simp⟩
      | false => exact ⟨false, by simp, by simp⟩
    | none =>
      simp only
      by_cases hvw : v = w
      · exact ⟨b, by simp [hb, hvw], by simp [hvw]⟩
      · exact ⟨false, by simp [hvw], by simp [hvw]⟩

theorem labelIsDesired_spec {types : Dict String (LabelType V)} {a desired : Attr V} (hw : a.Wf)
    (ht : ∀ k, a.has k = true → types.has k = true) :
    ∃ b, labelIsDesired types a desired = .ok b ∧ (b = true ↔ Matches types a desired) := by
  unfold labelIsDesired
  split
  · rename_i h
    exact ⟨true, rfl, by simp [Matches, show SameAttr a desired from (beqv_iff _ _).1 h]⟩
  · rename_i h
    have hns : ¬ SameAttr a desired := fun hs => h ((beqv_iff _ _).2 hs)
    have hmem : ∀ (d : Attr V) p, p ∈ d → d.has p.1 = true := by
      intro d p hp
      rw [← mem_keys_iff_has]
      simp only [Dict.keys, List.mem_map]
      exact ⟨p, hp, rfl⟩
    have hkeys : (∀ k, a.has k = desired.has k) ↔
        ¬ ((a.any (fun p => !desired.has p.1) || desired.any (fun p => !a.has p.1)) = true) := by
      simp only [Bool.or_eq_true, List.any_eq_true, Bool.not_eq_true', not_or, not_exists, not_and,
        Bool.not_eq_false]
      constructor
      · intro hk
        exact ⟨fun p hp => by rw [← hk]; exact hmem a p hp, fun p hp => by rw [hk]; exact hmem _ p hp⟩
      · rintro ⟨h1, h2⟩ k
        rw [Bool.eq_iff_iff]
        constructor
        · intro hk
          rw [← mem_keys_iff_has] at hk
          simp only [Dict.keys, List.mem_map] at hk
          obtain ⟨p, hp, rfl⟩ := hk
          exact h1 p hp
        · intro hk
          rw [← mem_keys_iff_has] at hk
          simp only [Dict.keys, List.mem_map] at hk
          obtain ⟨p, hp, rfl⟩ := hk
          exact h2 p hp
    split
    · rename_i hm
      refine ⟨false, rfl, ?_⟩
      simp only [Bool.false_eq_true, false_iff, Matches, not_or, not_and]
      exact ⟨hns, fun hk => absurd hm (hkeys.1 hk)⟩
    · rename_i hm
      have hk := hkeys.2 hm
      obtain ⟨b, hb, hb'⟩ := labelLoop_spec types desired a
        (fun p hp => ht p.1 (hmem a p hp)) (fun p hp => by rw [← hk]; exact hmem a p hp)
      refine ⟨b, hb, hb'.trans ?_⟩
      simp only [Matches, hns, false_or]
      constructor
      · intro h
        exact ⟨hk, fun k v w t e1 => h k v w t (mem_of_get? e1)⟩
      · rintro ⟨_, h⟩ k v w t e1
        exact h k v w t (get?_of_mem hw e1)

theorem filterM'_spec {α : Type} {f : α → Except PyErr Bool} {P : α → Prop} [DecidablePred P]
    {l : List α} (h : ∀ x ∈ l, ∃ b, f x = .ok b ∧ (b = true ↔ P x)) :
    filterM' f l = .ok (l.filter fun x => decide (P x)) := by
  induction l with
  | nil => rfl
  | cons x l ih =>
    obtain ⟨b, hb, hP⟩ := h x (by simp)
    simp only [filterM', hb, ok_bind, ih fun y hy => h y (by simp [hy]), List.filter_cons]
    by_cases hx : P x
    · simp [hx, hP.2 hx]
    · have : b = false := by simpa using fun e => hx (hP.1 e)
      simp [hx, this]

theorem matches_congr {types : Dict String (LabelType V)} {a b desired : Attr V}
    (h : SameAttr a b) : Matches types a desired ↔ Matches types b desired := by
  have h1 : ∀ k, a.has k = b.has k := fun k => by rw [has_eq, has_eq, h k]
  have h2 : SameAttr a desired ↔ SameAttr b desired :=
    ⟨fun hs k => (h k).symm.trans (hs k), fun hs k => (h k).trans (hs k)⟩
  unfold Matches
  rw [h2]
  simp only [h1, h _]

/-- The labels of the graph use typed keys only: this holds when no call used `check=False`. -/
def KeysTyped (g : LGraph ν V) : Prop :=
  (∀ u v a, (u, v, a) ∈ g.edges → ∀ k, a.has k = true → g.edgeTypes.has k = true) ∧
  (∀ n a, (n, a) ∈ g.nodes → a.Wf ∧ ∀ k, a.has k = true → g.nodeTypes.has k = true)

open Classical in
/-- **C08.** `transitions.find` returns, in the order of the graph and each as often as it occurs,
exactly the edges that leave a state of `from_states`, enter a state of `to_states` and have a
matching label; without a desired label every edge matches, and an unlabeled edge matches always. -/
theorem findEdges_spec {g : LGraph ν V} (hg : g.Ok) (hk : g.KeysTyped)
    (fromStates toStates : Option (List ν)) (desired : Attr V) :
    g.findEdges fromStates toStates desired = .ok (g.edges.filter fun e => decide (
      (∀ us, fromStates = some us → e.1 ∈ us) ∧ (∀ vs, toStates = some vs → e.2.1 ∈ vs) ∧
        (desired = [] ∨ e.2.2 = [] ∨ Matches g.edgeTypes e.2.2 desired))) := by
  have key : ∀ e ∈ g.edges, ∃ b, g.edgeMatches desired e = .ok b ∧
      (b = true ↔ (desired = [] ∨ e.2.2 = [] ∨ Matches g.edgeTypes e.2.2 desired)) := by
    rintro ⟨u, v, a⟩ he
    simp only [edgeMatches]
    split
    · rename_i h; exact ⟨true, rfl, by simp [List.isEmpty_iff.1 h]⟩
    · rename_i h1
      split
      · rename_i h; exact ⟨true, rfl, by simp [List.isEmpty_iff.1 h]⟩
      · rename_i h2
        have e1 : desired ≠ [] := by simpa using h1
        have e2 : a ≠ [] := by simpa using h2
        have hw : a.Wf := hg.wf u v a he
        rw [typedAttr_ok (by intro p hp; simp at hp) (hg.typed u v a he)]
        have e3 : Dict.update (Dict.update [] []) a = Dict.update [] a := rfl
        have hs := sameAttr_update_nil hw
        have hw' : (Dict.update [] a).Wf := Dict.wf_update (by simp [Dict.Wf, Dict.keys]) _
        obtain ⟨b, hb, hb'⟩ := labelIsDesired_spec (desired := desired) hw' (types := g.edgeTypes)
          (fun k hkk => hk.1 u v a he k (by rwa [has_eq, ← hs k, ← has_eq]))
        refine ⟨b, by rw [e3]; exact hb, ?_⟩
        rw [hb', matches_congr hs]
        simp [e1, e2]
  have hall : ∀ l : List (ν × ν × Attr V), (∀ e ∈ l, e ∈ g.edges) →
      filterM' (g.edgeMatches desired) l = .ok (l.filter fun e =>
        decide (desired = [] ∨ e.2.2 = [] ∨ Matches g.edgeTypes e.2.2 desired)) :=
    fun l hl => filterM'_spec fun e he => key e (hl e he)
  unfold findEdges
  cases fromStates <;> cases toStates
  · simp only
    rw [hall _ fun e he => he]
    congr 1
    apply List.filter_congr; intro e _; simp
  · simp only
    rw [hall _ fun e he => List.mem_of_mem_filter he, List.filter_filter]
    congr 1
    apply List.filter_congr; intro e _; rw [Bool.eq_iff_iff]; simp; tauto
  · simp only
    rw [hall _ fun e he => List.mem_of_mem_filter he, List.filter_filter]
    congr 1
    apply List.filter_congr; intro e _; rw [Bool.eq_iff_iff]; simp; tauto
  · simp only
    rw [hall _ fun e he => List.mem_of_mem_filter (List.mem_of_mem_filter he), List.filter_filter,
      List.filter_filter]
    congr 1
    apply List.filter_congr; intro e _; rw [Bool.eq_iff_iff]; simp; tauto

open Classical in
/-- **C08.** `states.find`, likewise; here a state without labels matches no non-empty label. -/
theorem findStates_spec {g : LGraph ν V} (hg : g.Ok) (hk : g.KeysTyped) (states : Option (List ν))
    (desired : Attr V) :
    g.findStates states desired = .ok (g.nodes.filter fun p => decide (
      (∀ l, states = some l → p.1 ∈ l) ∧ (desired = [] ∨ Matches g.nodeTypes p.2 desired))) := by
  have key : ∀ p ∈ g.nodes, ∃ b, g.nodeMatches desired p = .ok b ∧
      (b = true ↔ (desired = [] ∨ Matches g.nodeTypes p.2 desired)) := by
    rintro ⟨n, a⟩ hp
    simp only [nodeMatches]
    split
    · rename_i h; exact ⟨true, rfl, by simp [List.isEmpty_iff.1 h]⟩
    · rename_i h1
      have e1 : desired ≠ [] := by simpa using h1
      obtain ⟨hw, hkk⟩ := hk.2 n a hp
      have hT : Typed g.nodeTypes a := fun p hp' t ht =>
        hg.nodeTyped n a (get?_of_mem hg.nodup hp) p.1 p.2 (get?_of_mem hw hp') t ht
      rw [typedAttr_ok (by intro p hp; simp at hp) hT]
      have e3 : Dict.update (Dict.update [] []) a = Dict.update [] a := rfl
      have hs := sameAttr_update_nil hw
      have hw' : (Dict.update [] a).Wf := Dict.wf_update (by simp [Dict.Wf, Dict.keys]) _
      obtain ⟨b, hb, hb'⟩ := labelIsDesired_spec (desired := desired) hw' (types := g.nodeTypes)
        (fun k h => hkk k (by rwa [has_eq, ← hs k, ← has_eq]))
      refine ⟨b, by rw [e3]; exact hb, ?_⟩
      rw [hb', matches_congr hs]
      simp [e1]
  have hall : ∀ l : List (ν × Attr V), (∀ e ∈ l, e ∈ g.nodes) →
      filterM' (g.nodeMatches desired) l = .ok (l.filter fun p =>
        decide (desired = [] ∨ Matches g.nodeTypes p.2 desired)) :=
    fun l hl => filterM'_spec fun e he => key e (hl e he)
  unfold findStates
  cases states
  · simp only
    rw [hall _ fun e he => he]
    congr 1
    apply List.filter_congr; intro e _; simp
  · simp only
    rw [hall _ fun e he => List.mem_of_mem_filter he, List.filter_filter]
    congr 1
    apply List.filter_congr; intro e _; rw [Bool.eq_iff_iff]; simp; tauto

/-! The hypothesis on keys holds after every history without `check=False`. -/

/-- The call does not pass `check=False`. -/
def GOp.Checked : GOp ν V → Prop
  | .addNode _ _ c => c = true
  | .addNodesFrom _ c => c = true
  | .addEdge _ _ _ c => c = true
  | .addEdgesFrom _ _ c => c = true
  | .addComb _ _ _ c => c = true
  | .addAdj _ _ _ _ _ c => c = true
  | _ => True

theorem seqM_inv {σ α : Type} {P : σ → Prop} {f : σ → α → Except PyErr σ} {l : List α}
    (hf : ∀ s x s', P s → f s x = .ok s' → P s') {s : σ} (hs : P s) : P (seqM f s l).1 := by
  induction l generalizing s with
  | nil => exact hs
  | cons x l ih =>
    simp only [seqM]
    split
    · rename_i s' h; exact ih (hf s x s' hs h)
    · exact hs

theorem orSame_inv {P : LGraph ν V → Prop} {g : LGraph ν V} {r : Except PyErr (LGraph ν V)}
    (hg : P g) (h : ∀ g', r = .ok g' → P g') : P (g.orSame r) := by
  cases r with
  | ok g' => exact h g' rfl
  | error e => exact hg

theorem addEdge_keysTyped {g g' : LGraph ν V} {u v : ν} {attr : Attr V} (hg : g.KeysTyped)
    (h : g.addEdge u v attr true = .ok g') : g'.KeysTyped := by
  obtain ⟨_, _, _, _, _, h3⟩ := addEdge_inv h
  rcases h3 with ⟨_, rfl⟩ | ⟨_, hc, rfl⟩
  · exact hg
  · refine ⟨fun a b c he k hk => ?_, hg.2⟩
    rcases List.mem_append.1 he with he | he
    · exact hg.1 a b c he k hk
    · rw [List.mem_singleton] at he; cases he; exact hc rfl k hk

theorem mem_set {κ α : Type} [DecidableEq κ] {d : Dict κ α} {k : κ} {v : α} {p : κ × α}
    (h : p ∈ d.set k v) : p ∈ d ∨ p = (k, v) := by
  induction d with
  | nil => simp [Dict.set] at h; exact Or.inr h
  | cons q d ih =>
    simp only [Dict.set] at h
    split at h
    · rename_i hq
      rcases List.mem_cons.1 h with h | h
      · exact Or.inr (by rw [h, hq])
      · exact Or.inl (by simp [h])
    · rcases List.mem_cons.1 h with h | h
      · exact Or.inl (by simp [h])
      · rcases ih h with h | h
        · exact Or.inl (by simp [h])
        · exact Or.inr h

theorem addNode_keysTyped {g g' : LGraph ν V} {n : ν} {attr : Attr V} (hg : g.KeysTyped)
    (h : g.addNode n attr true = .ok g') : g'.KeysTyped := by
  simp only [addNode] at h
  cases ht : typedAttr g.nodeTypes g.nodeDefaults attr with
  | error e => rw [ht] at h; cases h
  | ok d =>
    simp only [ht, ok_bind] at h
    split at h
    · cases h
    · rename_i hun
      cases h
      refine ⟨hg.1, fun m a hm => ?_⟩
      rcases mem_set hm with hm | hm
      · exact hg.2 m a hm
      · cases hm
        have hbase : ((g.nodes.get? n).getD []).Wf ∧ ∀ k, ((g.nodes.get? n).getD []).has k = true →
            g.nodeTypes.has k = true := by
          cases hn : g.nodes.get? n with
          | none => exact ⟨by simp [Dict.Wf, Dict.keys], by simp [Dict.has]⟩
          | some b => exact hg.2 n b (mem_of_get? hn)
        refine ⟨Dict.wf_update hbase.1 _, fun k hk => ?_⟩
        rw [has_update, Bool.or_eq_true] at hk
        rcases hk with hk | hk
        · exact hbase.2 k hk
        · by_contra hc
          refine hun ?_
          rw [← mem_keys_iff_has] at hk
          simp only [Dict.keys, List.mem_map] at hk
          obtain ⟨p, hp, rfl⟩ := hk
          simp only [untyped, Bool.true_and, List.any_eq_true, Bool.not_eq_true']
          exact ⟨p, hp, by simpa using hc⟩

theorem removeState_keysTyped {g g' : LGraph ν V} {n : ν} (hg : g.KeysTyped)
    (h : g.removeState n = .ok g') : g'.KeysTyped := by
  obtain ⟨_, rfl⟩ := removeState_inv h
  exact ⟨fun a b c he => hg.1 a b c (List.mem_of_mem_filter he),
    fun m a hm => hg.2 m a (List.mem_of_mem_filter hm)⟩

theorem removeEdge_keysTyped {g : LGraph ν V} (hg : g.KeysTyped) (u v : ν) (a : Attr V) :
    (g.removeEdge u v a).KeysTyped :=
  ⟨fun a b c he => hg.1 a b c (List.mem_of_mem_filter he), hg.2⟩

theorem call_keysTyped {g : LGraph ν V} (hg : g.KeysTyped) {op : GOp ν V} (hc : op.Checked) :
    (g.call op).KeysTyped := by
  cases op with
  | addNode n a c => cases hc; exact orSame_inv hg fun g' h => addNode_keysTyped hg h
  | addNodesFrom l c => cases hc; exact seqM_inv (fun _ _ _ hg h => addNode_keysTyped hg h) hg
  | addEdge u v a c => cases hc; exact orSame_inv hg fun g' h => addEdge_keysTyped hg h
  | addEdgesFrom l a c => cases hc; exact seqM_inv (fun _ _ _ hg h => addEdge_keysTyped hg h) hg
  | addComb us vs a c => cases hc; exact seqM_inv (fun _ _ _ hg h => addEdge_keysTyped hg h) hg
  | addAdj r k es ss a c =>
    cases hc
    simp only [call, addAdj]
    split
    · exact hg
    · split
      · exact hg
      · refine seqM_inv (fun g x g' hg h => ?_) hg
        split at h
        · exact addEdge_keysTyped hg h
        · cases h
  | removeEdge u v a => exact removeEdge_keysTyped hg u v a
  | removeEdgesFrom l a =>
    simp only [call, removeEdgesFrom]
    clear hc
    induction l generalizing g with
    | nil => exact hg
    | cons e l ih => exact ih (removeEdge_keysTyped hg e.1 e.2.1 (a.update e.2.2))
  | removeState n => exact orSame_inv hg fun g' h => removeState_keysTyped hg h
  | removeStates l => exact seqM_inv (fun _ _ _ hg h => removeState_keysTyped hg h) hg
  | removeDeadends o =>
    have key : ∀ (n : Nat) (g : LGraph ν V), g.KeysTyped → (removeDeadendsLoop o n g).1.KeysTyped := by
      intro n
      induction n with
      | zero => intro g hg; exact hg
      | succ n ih =>
        intro g hg
        simp only [removeDeadendsLoop]
        split
        · exact hg
        · have h1 : (g.removeStates (o g.deadends)).1.KeysTyped :=
            seqM_inv (fun _ _ _ hg h => removeState_keysTyped hg h) hg
          split
          · rename_i g' e he; rw [he] at h1; exact h1
          · rename_i g' he; rw [he] at h1; exact ih g' h1
    have h1 := key (g.nodes.length + 1) g hg
    simp only [call, removeDeadends]
    split
    · rename_i g' e he; rw [he] at h1; exact h1
    · rename_i g' he
      rw [he] at h1
      split <;> exact h1
  | addInitial n =>
    refine orSame_inv hg fun g' h => ?_
    simp only [addInitial] at h
    split at h <;> cases h
    exact hg
  | addInitialFrom l =>
    refine orSame_inv hg fun g' h => ?_
    simp only [addInitialFrom] at h
    split at h <;> cases h
    exact hg
  | removeInitial n =>
    refine orSame_inv hg fun g' h => ?_
    simp only [removeInitial] at h
    split at h <;> cases h
    exact hg

/-- **C08.** The hypotheses of `findEdges_spec` and `findStates_spec` hold after every history of
calls that keep the label check on. -/
theorem run_keysTyped (nt : Dict String (LabelType V)) (nd : Attr V)
    (et : Dict String (LabelType V)) (ed : Attr V) (ops : List (GOp ν V))
    (hw : ∀ op ∈ ops, op.Wf) (hc : ∀ op ∈ ops, op.Checked) :
    (run nt nd et ed ops).Ok ∧ (run nt nd et ed ops).KeysTyped := by
  refine ⟨(run_ok nt nd et ed hw).2.2.2, ?_⟩
  unfold run
  generalize hg : ({ nodeTypes := nt, nodeDefaults := nd, edgeTypes := et, edgeDefaults := ed } :
    LGraph ν V) = g
  have h0 : g.KeysTyped := by subst hg; exact ⟨by simp, by simp⟩
  clear hg hw
  induction ops generalizing g with
  | nil => exact h0
  | cons op ops ih =>
    exact ih (fun o ho => hc o (by simp [ho])) _ (call_keysTyped h0 (hc op (by simp)))

/-- A label is compared in full: an edge with the desired value of one label type is not found if
it has another label type too. -/
theorem find_sublabel_counterexample :
    let g : LGraph Nat Nat := run [] [] [("a", ⟨fun _ => true, none⟩), ("b", ⟨fun _ => true, none⟩)] []
      [.addNode 0 [] true, .addEdge 0 0 [("a", 1), ("b", 2)] true]
    (g.findEdges none none [("a", 1)]).toOption = some [] := by
  decide +kernel

/-- A label with a guard: the stored value is a lower bound. -/
example :
    let g : LGraph Nat Nat := run [] [] [("a", ⟨fun _ => true, some fun v w => decide (v ≤ w)⟩)] []
      [.addNodesFrom [(0, []), (1, [])] true, .addEdge 0 1 [("a", 3)] true,
        .addEdge 0 1 [("a", 8)] true, .addEdge 1 0 [("a", 3)] true]
    (g.findEdges (some [0]) (some [1]) [("a", 5)]).toOption = some [(0, 1, [("a", 3)])] := by
  decide +kernel

/-! ## C09: successors and predecessors -/

theorem mem_unionM {f : ν → Except PyErr (List ν)} {l : List ν} {R : ν → ν → Prop}
    (h : ∀ u ∈ l, ∃ r, f u = .ok r ∧ ∀ v, v ∈ r ↔ R u v) :
    ∃ r, unionM f l = .ok r ∧ ∀ v, v ∈ r ↔ ∃ u ∈ l, R u v := by
  induction l with
  | nil => exact ⟨[], rfl, by simp⟩
  | cons u l ih =>
    obtain ⟨a, ha, ha'⟩ := h u (by simp)
    obtain ⟨b, hb, hb'⟩ := ih fun u hu => h u (by simp [hu])
    refine ⟨uniqueLoop a b, by simp [unionM, ha, hb], fun v => ?_⟩
    rw [mem_uniqueLoop, ha', hb']
    simp

theorem unionM_error {f : ν → Except PyErr (List ν)} {l : List ν} {u : ν} (hu : u ∈ l)
    (h : ∃ e, f u = .error e) : ∃ e, unionM f l = .error e := by
  induction l with
  | nil => simp at hu
  | cons x l ih =>
    simp only [unionM]
    cases hx : f x with
    | error e => exact ⟨e, rfl⟩
    | ok r =>
      rcases List.mem_cons.1 hu with rfl | hu
      · obtain ⟨e, he⟩ := h; rw [hx] at he; cases he
      · obtain ⟨e, he⟩ := ih hu
        exact ⟨e, by simp [he]⟩

/-- **C09.** `post` of a collection of states: exactly the targets of edges that leave them; an
exception if one is not a state. -/
theorem post_spec (g : LGraph ν V) (l : List ν) :
    ((∀ u ∈ l, g.hasNode u = true) → ∃ r, g.post (some l) = .ok r ∧
      ∀ v, v ∈ r ↔ ∃ u ∈ l, ∃ a, (u, v, a) ∈ g.edges) ∧
    ((∃ u ∈ l, g.hasNode u = false) → ∃ e, g.post (some l) = .error e) := by
  constructor
  · intro h
    refine mem_unionM fun u hu => ⟨_, by simp only [successors, h u hu, ↓reduceIte]; rfl, fun v => ?_⟩
    rw [mem_unique]
    simp only [List.mem_map, List.mem_filter, beq_iff_eq]
    constructor
    · rintro ⟨⟨a, b, c⟩, ⟨h1, rfl⟩, rfl⟩; exact ⟨c, h1⟩
    · rintro ⟨a, h1⟩; exact ⟨(u, v, a), ⟨h1, rfl⟩, rfl⟩
  · rintro ⟨u, hu, hn⟩
    exact unionM_error hu ⟨.exception, by simp [successors, hn]⟩

/-- **C09.** `pre` of a collection of states: exactly the sources of edges that enter them. -/
theorem pre_spec (g : LGraph ν V) (l : List ν) :
    ((∀ u ∈ l, g.hasNode u = true) → ∃ r, g.pre l = .ok r ∧
      ∀ u, u ∈ r ↔ ∃ v ∈ l, ∃ a, (u, v, a) ∈ g.edges) ∧
    ((∃ u ∈ l, g.hasNode u = false) → ∃ e, g.pre l = .error e) := by
  constructor
  · intro h
    refine mem_unionM (R := fun v u => ∃ a, (u, v, a) ∈ g.edges)
      fun v hv => ⟨_, by simp only [predecessors, h v hv, ↓reduceIte]; rfl, fun u => ?_⟩
    rw [mem_unique]
    simp only [List.mem_map, List.mem_filter, beq_iff_eq]
    constructor
    · rintro ⟨⟨a, b, c⟩, ⟨h1, rfl⟩, rfl⟩; exact ⟨c, h1⟩
    · rintro ⟨a, h1⟩; exact ⟨(u, v, a), ⟨h1, rfl⟩, rfl⟩
  · rintro ⟨u, hu, hn⟩
    exact unionM_error hu ⟨.exception, by simp [predecessors, hn]⟩

/-- **C09.** The two operators are dual: a state is a successor of another one iff that one is among
its predecessors. -/
theorem post_pre_dual (g : LGraph ν V) (u v : ν) (hu : g.hasNode u = true)
    (hv : g.hasNode v = true) :
    ∃ r s, g.post (some [u]) = .ok r ∧ g.pre [v] = .ok s ∧ (v ∈ r ↔ u ∈ s) := by
  obtain ⟨r, hr, hr'⟩ := (post_spec g [u]).1 (by simpa using hu)
  obtain ⟨s, hs, hs'⟩ := (pre_spec g [v]).1 (by simpa using hv)
  exact ⟨r, s, hr, hs, by rw [hr', hs']; simp⟩

example :
    let g : LGraph Nat Nat := run [] [] [] []
      [.addNodesFrom [(0, []), (1, []), (2, [])] true, .addComb [0, 1] [1, 2] [] true]
    (g.post (some [0])).toOption = some [1, 2] ∧ (g.pre [1]).toOption = some [0, 1] ∧
      (g.post (some [0, 7])).toOption = none := by
  decide +kernel

/-! ## C10: dead ends -/

/-- An infinite path leaves the state. -/
def Alive (g : LGraph ν V) (u : ν) : Prop :=
  ∃ f : Nat → ν, f 0 = u ∧ ∀ n, ∃ a, (f n, f (n + 1), a) ∈ g.edges

/-- `h` is the part of `g` on the states in `S`. -/
structure Part (g h : LGraph ν V) (S : ν → Prop) : Prop where
  nodes : ∀ p, p ∈ h.nodes ↔ p ∈ g.nodes ∧ S p.1
  edges : ∀ u v a, (u, v, a) ∈ h.edges ↔ (u, v, a) ∈ g.edges ∧ S u ∧ S v
  initial : ∀ u, u ∈ h.initial ↔ u ∈ g.initial ∧ S u

theorem hasNode_iff (g : LGraph ν V) (u : ν) : g.hasNode u = true ↔ ∃ a, (u, a) ∈ g.nodes := by
  unfold hasNode
  rw [← mem_keys_iff_has]
  simp [Dict.keys]

theorem removeState_part {g : LGraph ν V} (hg : g.Ok) {n : ν} (hn : g.hasNode n = true) :
    ∃ g', g.removeState n = .ok g' ∧ Part g g' (· ≠ n) ∧ g'.nodes.length < g.nodes.length := by
  obtain ⟨g', h, _⟩ := (removeState_spec hg n).1 hn
  refine ⟨g', h, ?_⟩
  obtain ⟨_, rfl⟩ := removeState_inv h
  refine ⟨⟨fun p => by simp [List.mem_filter], fun u v a => by simp [List.mem_filter],
    fun u => by simp only [hg.initialNodup.mem_erase_iff]; exact and_comm⟩, ?_⟩
  obtain ⟨a, ha⟩ := (hasNode_iff g n).1 hn
  exact List.length_filter_lt_length_iff_exists.2 ⟨(n, a), ha, by simp⟩

theorem removeStates_part {g : LGraph ν V} (hg : g.Ok) {l : List ν}
    (hl : ∀ n ∈ l, g.hasNode n = true) (hnd : l.Nodup) :
    ∃ g', g.removeStates l = (g', none) ∧ g'.Ok ∧ Part g g' (· ∉ l) ∧
      g'.nodes.length + l.length ≤ g.nodes.length := by
  induction l generalizing g with
  | nil => exact ⟨g, rfl, hg, ⟨by simp, by simp, by simp⟩, by simp⟩
  | cons n l ih =>
    obtain ⟨g1, h1, hp, hlen⟩ := removeState_part hg (hl n (by simp))
    have hg1 := (removeState_keeps hg h1).2
    rw [List.nodup_cons] at hnd
    have hl1 : ∀ m ∈ l, g1.hasNode m = true := by
      intro m hm
      obtain ⟨a, ha⟩ := (hasNode_iff g m).1 (hl m (by simp [hm]))
      exact (hasNode_iff g1 m).2 ⟨a, (hp.nodes _).2 ⟨ha, fun e => hnd.1 (by simp only at e; rwa [← e])⟩⟩
    obtain ⟨g2, h2, hg2, hp2, hlen2⟩ := ih hg1 hl1 hnd.2
    refine ⟨g2, by simp only [removeStates, seqM, h1]; exact h2, hg2, ⟨?_, ?_, ?_⟩, ?_⟩
    · intro p; rw [hp2.nodes, hp.nodes]; simp only [List.mem_cons, not_or]; tauto
    · intro u v a; rw [hp2.edges, hp.edges]; simp only [List.mem_cons, not_or]; tauto
    · intro u; rw [hp2.initial, hp.initial]; simp only [List.mem_cons, not_or]; tauto
    · simp only [List.length_cons]; omega

theorem mem_deadends (g : LGraph ν V) (u : ν) :
    u ∈ g.deadends ↔ g.hasNode u = true ∧ ∀ v a, (u, v, a) ∉ g.edges := by
  unfold deadends
  rw [List.mem_filter, mem_keys_iff_has]
  refine and_congr Iff.rfl ?_
  simp only [outDegree, beq_iff_eq, List.length_eq_zero_iff, List.filter_eq_nil_iff]
  constructor
  · intro h v a hm; exact h (u, v, a) hm rfl
  · rintro h ⟨a, b, c⟩ hm e; exact h b c (by simp only at e; rwa [← e])

theorem alive_of_no_deadends {h : LGraph ν V} (hok : h.Ok) (hd : h.deadends = []) {u : ν}
    (hu : h.hasNode u = true) : h.Alive u := by
  have step : ∀ x : { x // h.hasNode x = true }, ∃ y : { x // h.hasNode x = true },
      ∃ a, (x.1, y.1, a) ∈ h.edges := by
    rintro ⟨x, hx⟩
    have : x ∉ h.deadends := by simp [hd]
    rw [mem_deadends] at this
    simp only [not_and, not_forall, not_not] at this
    obtain ⟨v, a, hm⟩ := this hx
    exact ⟨⟨v, hok.target x v a hm⟩, a, hm⟩
  choose next hnext using step
  let f : Nat → { x // h.hasNode x = true } := fun n => Nat.rec ⟨u, hu⟩ (fun _ x => next x) n
  exact ⟨fun n => (f n).1, rfl, fun n => hnext (f n)⟩

theorem removeDeadendsLoop_spec {g : LGraph ν V} {order : List ν → List ν}
    (ho : ∀ l, (order l).Perm l) (fuel : Nat) {h : LGraph ν V} {S : ν → Prop} (hok : h.Ok)
    (hp : Part g h S) (hS : ∀ u, g.Alive u → S u) (hf : h.nodes.length < fuel) :
    ∃ h' S', removeDeadendsLoop order fuel h = (h', none) ∧ h'.Ok ∧ Part g h' S' ∧
      (∀ u, g.Alive u → S' u) ∧ h'.deadends = [] := by
  induction fuel generalizing h S with
  | zero => omega
  | succ n ih =>
    simp only [removeDeadendsLoop]
    by_cases hd : h.deadends = []
    · simp only [hd, List.isEmpty_nil, ↓reduceIte]
      exact ⟨h, S, rfl, hok, hp, hS, hd⟩
    · have hne : h.deadends.isEmpty = false := by simpa using hd
      have hperm := ho h.deadends
      have hnd : (order h.deadends).Nodup :=
        hperm.nodup_iff.2 (List.Nodup.filter _ hok.nodup)
      obtain ⟨h1, e1, hok1, hp1, hlen⟩ := removeStates_part hok (l := order h.deadends)
        (fun m hm => ((mem_deadends h m).1 (hperm.mem_iff.1 hm)).1) hnd
      simp only [hne, Bool.false_eq_true, ↓reduceIte, e1]
      have hpos : 0 < (order h.deadends).length := by
        rw [hperm.length_eq]; exact List.length_pos_iff.2 hd
      refine ih (S := fun u => S u ∧ u ∉ order h.deadends) hok1 ⟨?_, ?_, ?_⟩ ?_ (by omega)
      · intro p; rw [hp1.nodes, hp.nodes]; tauto
      · intro u v a; rw [hp1.edges, hp.edges]; tauto
      · intro u; rw [hp1.initial, hp.initial]; tauto
      · intro u ha
        refine ⟨hS u ha, fun hm => ?_⟩
        have hx := ((mem_deadends h u).1 (hperm.mem_iff.1 hm)).2
        obtain ⟨f, h0, hf'⟩ := ha
        obtain ⟨a, hm'⟩ := hf' 0
        refine hx (f 1) a ((hp.edges _ _ _).2 ⟨h0 ▸ hm', hS u ⟨f, h0, hf'⟩, hS _ ?_⟩)
        exact ⟨fun n => f (n + 1), rfl, fun n => hf' (n + 1)⟩

/-- **C10.** `is_terminal` and `has_deadends` say whether the state has no outgoing transition, and
whether some state has none. -/
theorem deadends_spec (g : LGraph ν V) :
    (∀ n, g.isTerminal n = true ↔ ∀ v a, (n, v, a) ∉ g.edges) ∧
    (g.hasDeadends = true ↔ ∃ n, g.hasNode n = true ∧ ∀ v a, (n, v, a) ∉ g.edges) := by
  have h0 : ∀ n, (g.outDegree n == 0) = true ↔ ∀ v a, (n, v, a) ∉ g.edges := by
    intro n
    simp only [outDegree, beq_iff_eq, List.length_eq_zero_iff, List.filter_eq_nil_iff]
    constructor
    · intro h v a hm; exact h _ hm rfl
    · rintro h ⟨u, v, a⟩ hm he; subst he; exact h v a hm
  refine ⟨h0, ?_⟩
  simp only [hasDeadends, List.any_eq_true]
  constructor
  · rintro ⟨⟨n, a⟩, hm, h⟩; exact ⟨n, (hasNode_iff g n).2 ⟨a, hm⟩, (h0 n).1 h⟩
  · rintro ⟨n, hn, h⟩
    obtain ⟨a, hm⟩ := (hasNode_iff g n).1 hn
    exact ⟨(n, a), hm, (h0 n).2 h⟩

/-- **C10.** `remove_deadends` leaves exactly the states from which an infinite path starts in the
original graph, with all edges between them and all their labels, and the initial states among
them; the order in which a round removes dead ends does not matter. It raises `AssertionError`
exactly if a nonempty graph has no such state. -/
theorem removeDeadends_spec {g : LGraph ν V} (hg : g.Ok) {order : List ν → List ν}
    (ho : ∀ l, (order l).Perm l) :
    let g' := (g.removeDeadends order).1
    (∀ n a, (n, a) ∈ g'.nodes ↔ (n, a) ∈ g.nodes ∧ g.Alive n) ∧
    (∀ u v a, (u, v, a) ∈ g'.edges ↔ (u, v, a) ∈ g.edges ∧ g.Alive u ∧ g.Alive v) ∧
    (∀ n, n ∈ g'.initial ↔ n ∈ g.initial ∧ g.Alive n) ∧
    (∀ n, g'.hasNode n = true → ∃ v a, (n, v, a) ∈ g'.edges) ∧
    ((g.removeDeadends order).2 = none ↔
      g.nodes = [] ∨ ∃ n, g.hasNode n = true ∧ g.Alive n) ∧
    ((g.removeDeadends order).2 = none ∨ (g.removeDeadends order).2 = some .assertion) := by
  obtain ⟨h, S, e, hok, hp, hS, hd⟩ := removeDeadendsLoop_spec ho (g.nodes.length + 1) (g := g)
    (S := fun _ => True) hg ⟨by simp, by simp, by simp⟩ (by simp) (by omega)
  have hfst : (g.removeDeadends order).1 = h := by
    simp only [removeDeadends, e]; split <;> rfl
  have hsnd : (g.removeDeadends order).2 =
      if g.nodes.length == 0 || decide (h.nodes.length > 0) then none else some .assertion := by
    simp only [removeDeadends, e]; split <;> rfl
  have halive : ∀ n, h.hasNode n = true → g.Alive n := by
    intro n hn
    obtain ⟨f, h0, hf⟩ := alive_of_no_deadends hok hd hn
    exact ⟨f, h0, fun n => let ⟨a, ha⟩ := hf n; ⟨a, ((hp.edges _ _ _).1 ha).1⟩⟩
  have hN : ∀ n a, (n, a) ∈ h.nodes ↔ (n, a) ∈ g.nodes ∧ g.Alive n := by
    intro n a
    rw [hp.nodes]
    constructor
    · rintro ⟨h1, h2⟩
      exact ⟨h1, halive n ((hasNode_iff h n).2 ⟨a, (hp.nodes _).2 ⟨h1, h2⟩⟩)⟩
    · rintro ⟨h1, h2⟩; exact ⟨h1, hS n h2⟩
  simp only [hfst]
  have hlive : ∀ n, h.hasNode n = true → ∃ v a, (n, v, a) ∈ h.edges := by
    intro n hn
    have : n ∉ h.deadends := by simp [hd]
    rw [mem_deadends] at this
    simp only [not_and, not_forall, not_not] at this
    exact this hn
  refine ⟨hN, ?_, ?_, hlive, ?_, ?_⟩
  · intro u v a
    constructor
    · intro hm
      exact ⟨((hp.edges _ _ _).1 hm).1, halive u (hok.source u v a hm), halive v (hok.target u v a hm)⟩
    · rintro ⟨h1, h2, h3⟩; exact (hp.edges _ _ _).2 ⟨h1, hS u h2, hS v h3⟩
  · intro n
    constructor
    · intro hm; exact ⟨((hp.initial _).1 hm).1, halive n (hok.initial n hm)⟩
    · rintro ⟨h1, h2⟩; exact (hp.initial _).2 ⟨h1, hS n h2⟩
  · rw [hsnd]
    constructor
    · intro hx
      split at hx
      · rename_i hc
        simp only [Bool.or_eq_true, beq_iff_eq, decide_eq_true_eq, List.length_eq_zero_iff] at hc
        rcases hc with hc | hc
        · exact Or.inl hc
        · obtain ⟨⟨n, a⟩, hm⟩ := List.exists_mem_of_length_pos hc
          exact Or.inr ⟨n, (hasNode_iff g n).2 ⟨a, ((hN n a).1 hm).1⟩, ((hN n a).1 hm).2⟩
      · cases hx
    · rintro (hx | ⟨n, hn, ha⟩)
      · simp [hx]
      · obtain ⟨a, hm⟩ := (hasNode_iff g n).1 hn
        have : 0 < h.nodes.length := List.length_pos_of_mem ((hN n a).2 ⟨hm, ha⟩)
        simp [this]
  · rw [hsnd]; split <;> simp

/-- **C10.** After `remove_deadends`, `has_deadends` says that there is none. -/
theorem removeDeadends_hasDeadends {g : LGraph ν V} (hg : g.Ok) {order : List ν → List ν}
    (ho : ∀ l, (order l).Perm l) : (g.removeDeadends order).1.hasDeadends = false := by
  rw [← Bool.not_eq_true, (deadends_spec _).2]
  rintro ⟨n, hn, hx⟩
  obtain ⟨v, a, hm⟩ := (removeDeadends_spec hg ho).2.2.2.1 n hn
  exact hx v a hm

example :
    let g : LGraph Nat Nat := run [] [] [] []
      [.addNodesFrom [(0, []), (1, []), (2, []), (3, [])] true, .addComb [0] [0, 1] [] true,
        .addEdge 1 2 [] true, .addEdge 3 0 [] true, .addInitialFrom [1, 3]]
    (g.removeDeadends List.reverse).1.nodes = [(0, []), (3, [])] ∧
      (g.removeDeadends id).1.initial = [3] ∧ (g.removeDeadends id).2 = none := by
  decide +kernel

end LGraph

end Tulip
