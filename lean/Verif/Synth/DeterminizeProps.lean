import Verif.Synth.StrategyProps

/-!
# Determinizing initial reactions, trimming, masking (C32, C33)
-/

namespace Tulip

namespace Synth

open Mach LGraph

variable {ν V : Type} [DecidableEq ν] [DecidableEq V]

/-- The label `d` has the given values at the outputs that are given. -/
def Wanted (m : Machine ν V) (given : Attr V) (d : Attr V) : Prop :=
  ∀ k, m.outputs.has k = true → given.has k = true → d.get? k = given.get? k

theorem agrees_true {wanted d : Attr V} {ks : List String} {b : Bool}
    (h : agrees wanted d ks = .ok b) : b = true ↔ ∀ k ∈ ks, d.get? k = wanted.get? k := by
  induction ks with
  | nil => cases h; simp
  | cons k ks ih =>
    unfold agrees at h
    obtain ⟨x, h1, h⟩ := bind_ok h
    obtain ⟨y, h2, h⟩ := bind_ok h
    rw [getE_ok] at h1 h2
    by_cases hxy : x = y
    · rw [if_neg (by simpa using hxy)] at h
      rw [ih h]
      simp [h1, h2, hxy]
    · rw [if_pos hxy] at h
      cases h
      simp [h1, h2, hxy]

theorem agrees_total {wanted d : Attr V} {ks : List String}
    (h : ∀ k ∈ ks, d.has k = true ∧ wanted.has k = true) : ∃ b, agrees wanted d ks = .ok b := by
  induction ks with
  | nil => exact ⟨true, rfl⟩
  | cons k ks ih =>
    obtain ⟨b, hb⟩ := ih fun k hk => h k (by simp [hk])
    obtain ⟨x, hx⟩ := (Dict.has_iff _ _).1 (h k (by simp)).1
    obtain ⟨y, hy⟩ := (Dict.has_iff _ _).1 (h k (by simp)).2
    unfold agrees
    rw [getE_ok.2 hx, ok_bind, getE_ok.2 hy, ok_bind]
    split
    · exact ⟨_, rfl⟩
    · exact ⟨b, hb⟩

theorem keepGiven_ok {ports : List String} {wanted : Attr V} {sinit : ν}
    {es r : List (ν × ν × Attr V)} (h : keepGiven ports wanted sinit es = .ok r) :
    r.Sublist es ∧ ∀ e, e ∈ r ↔ e ∈ es ∧
      (e.1 = sinit → ∀ k ∈ ports, e.2.2.get? k = wanted.get? k) := by
  induction es generalizing r with
  | nil => cases h; simp
  | cons e es ih =>
    unfold keepGiven at h
    split at h
    · rename_i he
      obtain ⟨b, h1, h⟩ := bind_ok h
      obtain ⟨r', h2, h⟩ := bind_ok h
      obtain ⟨h3, h4⟩ := ih h2
      have h5 := agrees_true h1
      cases b with
      | true =>
        cases h
        refine ⟨h3.cons_cons e, fun f => ?_⟩
        simp only [if_true, List.mem_cons, h4]
        constructor
        · rintro (rfl | h6)
          · exact ⟨Or.inl rfl, fun _ => h5.1 rfl⟩
          · exact ⟨Or.inr h6.1, h6.2⟩
        · rintro ⟨rfl | h6, h7⟩
          · exact Or.inl rfl
          · exact Or.inr ⟨h6, h7⟩
      | false =>
        cases h
        refine ⟨h3.cons e, fun f => ?_⟩
        simp only [Bool.false_eq_true, if_false, List.mem_cons, h4]
        constructor
        · rintro ⟨h6, h7⟩
          exact ⟨Or.inr h6, h7⟩
        · rintro ⟨rfl | h6, h7⟩
          · exact absurd (h5.2 (h7 he)) (by simp)
          · exact ⟨h6, h7⟩
    · rename_i he
      obtain ⟨r', h2, h⟩ := bind_ok h
      obtain ⟨h3, h4⟩ := ih h2
      cases h
      refine ⟨h3.cons_cons e, fun f => ?_⟩
      simp only [List.mem_cons, h4]
      constructor
      · rintro (rfl | h6)
        · exact ⟨Or.inl rfl, fun h => absurd h he⟩
        · exact ⟨Or.inr h6.1, h6.2⟩
      · rintro ⟨rfl | h6, h7⟩
        · exact Or.inl rfl
        · exact Or.inr ⟨h6, h7⟩

theorem keepFirst_ok {inputs : List String} {sinit : ν} {seen : List (List V)}
    {es r : List (ν × ν × Attr V)} (h : keepFirst inputs sinit seen es = .ok r) :
    r.Sublist es ∧ (∀ e, e.1 ≠ sinit → (e ∈ r ↔ e ∈ es)) ∧
    (∀ e ∈ es, e.1 = sinit → ∃ vals, valuesOf inputs e.2.2 = .ok vals ∧
      (vals ∈ seen ∨ ∃ f ∈ r, f.1 = sinit ∧ valuesOf inputs f.2.2 = .ok vals)) ∧
    (∀ e ∈ r, e.1 = sinit → ∀ vals, valuesOf inputs e.2.2 = .ok vals → vals ∉ seen) ∧
    r.Pairwise fun e f => e.1 = sinit → f.1 = sinit →
      ∀ vals, ¬ (valuesOf inputs e.2.2 = .ok vals ∧ valuesOf inputs f.2.2 = .ok vals) := by
  induction es generalizing r seen with
  | nil => cases h; simp
  | cons e es ih =>
    unfold keepFirst at h
    split at h
    · rename_i he
      obtain ⟨vals, h1, h⟩ := bind_ok h
      split at h
      · rename_i hs
        obtain ⟨h2, h3, h4, h5, h6⟩ := ih h
        refine ⟨h2.cons e, fun f hf => ?_, ?_, h5, h6⟩
        · rw [h3 f hf, List.mem_cons]
          constructor
          · exact Or.inr
          · rintro (rfl | h7)
            · exact absurd he hf
            · exact h7
        · intro f hf hfs
          rcases List.mem_cons.1 hf with rfl | hf
          · exact ⟨vals, h1, Or.inl hs⟩
          · exact h4 f hf hfs
      · rename_i hs
        obtain ⟨r', h7, h⟩ := bind_ok h
        cases h
        obtain ⟨h2, h3, h4, h5, h6⟩ := ih h7
        refine ⟨h2.cons_cons e, fun f hf => ?_, ?_, ?_, ?_⟩
        · rw [List.mem_cons, List.mem_cons, h3 f hf]
        · intro f hf hfs
          rcases List.mem_cons.1 hf with rfl | hf
          · exact ⟨vals, h1, Or.inr ⟨_, List.mem_cons_self, he, h1⟩⟩
          · obtain ⟨x, h8, h9⟩ := h4 f hf hfs
            refine ⟨x, h8, ?_⟩
            rcases h9 with h9 | ⟨f', hf', h9⟩
            · rcases List.mem_cons.1 h9 with rfl | h9
              · exact Or.inr ⟨_, List.mem_cons_self, he, h1⟩
              · exact Or.inl h9
            · exact Or.inr ⟨f', by simp [hf'], h9⟩
        · intro f hf hfs x hx
          rcases List.mem_cons.1 hf with rfl | hf
          · rw [h1] at hx; cases hx; exact hs
          · exact fun hm => h5 f hf hfs x hx (by simp [hm])
        · refine List.pairwise_cons.2 ⟨fun f hf _ hfs x hx => ?_, h6⟩
          have h8 := hx.1
          rw [h1] at h8; cases h8
          exact h5 f hf hfs _ hx.2 (by simp)
    · rename_i he
      obtain ⟨r', h7, h⟩ := bind_ok h
      cases h
      obtain ⟨h2, h3, h4, h5, h6⟩ := ih h7
      refine ⟨h2.cons_cons e, fun f hf => ?_, ?_, ?_, ?_⟩
      · rw [List.mem_cons, List.mem_cons, h3 f hf]
      · intro f hf hfs
        rcases List.mem_cons.1 hf with rfl | hf
        · exact absurd hfs he
        · obtain ⟨x, h8, h9⟩ := h4 f hf hfs
          refine ⟨x, h8, ?_⟩
          rcases h9 with h9 | ⟨f', hf', h9⟩
          · exact Or.inl h9
          · exact Or.inr ⟨f', by simp [hf'], h9⟩
      · intro f hf hfs x hx
        rcases List.mem_cons.1 hf with rfl | hf
        · exact absurd hfs he
        · exact h5 f hf hfs x hx
      · exact List.pairwise_cons.2 ⟨fun f hf hes => absurd hes he, h6⟩

theorem valuesOf_total {keys : List String} {d : Attr V} (h : ∀ k ∈ keys, d.has k = true) :
    ∃ vals, valuesOf keys d = .ok vals := by
  induction keys with
  | nil => exact ⟨[], rfl⟩
  | cons k ks ih =>
    obtain ⟨r, hr⟩ := ih fun k hk => h k (by simp [hk])
    obtain ⟨x, hx⟩ := (Dict.has_iff _ _).1 (h k (by simp))
    unfold valuesOf
    rw [getE_ok.2 hx, ok_bind, hr, ok_bind]
    exact ⟨_, rfl⟩

theorem keepGiven_total {ports : List String} {wanted : Attr V} {sinit : ν}
    {es : List (ν × ν × Attr V)} (hp : ∀ k ∈ ports, wanted.has k = true)
    (h : ∀ e ∈ es, e.1 = sinit → ∀ k ∈ ports, e.2.2.has k = true) :
    ∃ r, keepGiven ports wanted sinit es = .ok r := by
  induction es with
  | nil => exact ⟨[], rfl⟩
  | cons e es ih =>
    obtain ⟨r, hr⟩ := ih fun f hf => h f (by simp [hf])
    unfold keepGiven
    split
    · rename_i he
      obtain ⟨b, hb⟩ := agrees_total (wanted := wanted) (d := e.2.2) (ks := ports)
        fun k hk => ⟨h e (by simp) he k hk, hp k hk⟩
      rw [hb, ok_bind, hr, ok_bind]
      exact ⟨_, rfl⟩
    · rw [hr, ok_bind]
      exact ⟨_, rfl⟩

theorem keepFirst_total {inputs : List String} {sinit : ν} {seen : List (List V)}
    {es : List (ν × ν × Attr V)}
    (h : ∀ e ∈ es, e.1 = sinit → ∀ k ∈ inputs, e.2.2.has k = true) :
    ∃ r, keepFirst inputs sinit seen es = .ok r := by
  induction es generalizing seen with
  | nil => exact ⟨[], rfl⟩
  | cons e es ih =>
    have ih := fun seen => ih (seen := seen) fun f hf => h f (by simp [hf])
    unfold keepFirst
    split
    · rename_i he
      obtain ⟨vals, hv⟩ := valuesOf_total (h e (by simp) he)
      rw [hv, ok_bind]
      split
      · exact ih seen
      · obtain ⟨r, hr⟩ := ih (vals :: seen)
        rw [hr, ok_bind]
        exact ⟨_, rfl⟩
    · obtain ⟨r, hr⟩ := ih seen
      rw [hr, ok_bind]
      exact ⟨_, rfl⟩

theorem mem_given {outputs : Ports V} {given : Attr V} {k : String} :
    k ∈ outputs.keys.filter given.has ↔ outputs.has k = true ∧ given.has k = true := by
  rw [List.mem_filter, mem_keys_iff_has]

theorem restrict_eq_iff {ports : Ports V} {a b : Attr V} {x y : List V}
    (hx : valuesOf ports.keys a = .ok x) (hy : valuesOf ports.keys b = .ok y) :
    restrict ports a = restrict ports b ↔ x = y := by
  rw [valuesOf_eq_iff hx hy]
  constructor
  · intro h k hk
    have := congrFun h k
    simpa [restrict, (mem_keys_iff_has ports k).1 hk] using this
  · intro h
    funext k
    unfold restrict
    split
    · rename_i hk
      exact h k ((mem_keys_iff_has ports k).2 hk)
    · rfl

/-- **C32**. `determinize_machine_init` changes only the edges from the initial state: it keeps edges
with the given values of the outputs, exactly one for each valuation of the inputs for which the
machine has such an edge. -/
theorem determinizeInit_spec {m m' : Machine ν V} {sinit : ν} {given : Attr V}
    (h : determinizeInit m sinit given = .ok m') :
    m'.inputs = m.inputs ∧ m'.outputs = m.outputs ∧ m'.graph.nodes = m.graph.nodes ∧
    m'.graph.initial = m.graph.initial ∧ m'.graph.edges.Sublist m.graph.edges ∧
    (∀ e, e.1 ≠ sinit → (e ∈ m'.graph.edges ↔ e ∈ m.graph.edges)) ∧
    (∀ e ∈ m'.graph.edges, e.1 = sinit → Wanted m given e.2.2) ∧
    (∀ e ∈ m.graph.edges, e.1 = sinit → Wanted m given e.2.2 →
      ∃ f ∈ m'.graph.edges, f.1 = sinit ∧ restrict m.inputs f.2.2 = restrict m.inputs e.2.2) ∧
    (∀ e ∈ m'.graph.edges, ∀ f ∈ m'.graph.edges, e.1 = sinit → f.1 = sinit →
      restrict m.inputs e.2.2 = restrict m.inputs f.2.2 → e = f) := by
  unfold determinizeInit at h
  obtain ⟨es, h1, h⟩ := bind_ok h
  obtain ⟨es', h2, h⟩ := bind_ok h
  cases h
  obtain ⟨h3, h4⟩ := keepGiven_ok h1
  obtain ⟨h5, h6, h7, h8, h9⟩ := keepFirst_ok h2
  have hw : ∀ d : Attr V, (∀ k ∈ m.outputs.keys.filter given.has, d.get? k = given.get? k) ↔
      Wanted m given d := by
    intro d
    constructor
    · exact fun h k hk hk' => h k (mem_given.2 ⟨hk, hk'⟩)
    · exact fun h k hk => h k (mem_given.1 hk).1 (mem_given.1 hk).2
  refine ⟨rfl, rfl, rfl, rfl, h5.trans h3, ?_, ?_, ?_, ?_⟩
  · intro e he
    show e ∈ es' ↔ _
    rw [h6 e he, h4]
    exact ⟨fun h => h.1, fun h => ⟨h, fun h' => absurd h' he⟩⟩
  · intro e he hes
    exact (hw _).1 (((h4 e).1 (h5.subset he)).2 hes)
  · intro e he hes hwe
    obtain ⟨vals, h10, h11⟩ := h7 e ((h4 e).2 ⟨he, fun _ => (hw _).2 hwe⟩) hes
    rcases h11 with h11 | ⟨f, hf, hfs, h11⟩
    · cases h11
    · exact ⟨f, hf, hfs, (restrict_eq_iff h11 h10).2 rfl⟩
  · intro e he f hf hes hfs hr
    by_contra hne
    obtain ⟨x, hx, _⟩ := h7 e (h5.subset he) hes
    obtain ⟨y, hy, _⟩ := h7 f (h5.subset hf) hfs
    have hxy := (restrict_eq_iff hx hy).1 hr
    subst hxy
    have : Std.Symm fun e f : ν × ν × Attr V => e.1 = sinit → f.1 = sinit →
      ∀ vals, ¬ (valuesOf (Dict.keys m.inputs) e.2.2 = .ok vals ∧
        valuesOf (Dict.keys m.inputs) f.2.2 = .ok vals) :=
      ⟨fun a b h h1 h2 v hv => h h2 h1 v ⟨hv.2, hv.1⟩⟩
    exact h9.forall he hf hne hes hfs x ⟨hx, hy⟩

/-- **C32**. No exception is raised if each edge from the initial state has values of all ports. -/
theorem determinizeInit_total {m : Machine ν V} {sinit : ν} {given : Attr V}
    (h : ∀ e ∈ m.graph.edges, e.1 = sinit → ∀ k,
      m.inputs.has k = true ∨ m.outputs.has k = true → e.2.2.has k = true) :
    ∃ m', determinizeInit m sinit given = .ok m' := by
  obtain ⟨es, h1⟩ := keepGiven_total (ports := m.outputs.keys.filter given.has) (wanted := given)
    (sinit := sinit) (es := m.graph.edges) (fun k hk => (mem_given.1 hk).2)
    fun e he hes k hk => h e he hes k (Or.inr (mem_given.1 hk).1)
  obtain ⟨es', h2⟩ := keepFirst_total (inputs := Dict.keys m.inputs) (sinit := sinit) (seen := [])
    (es := es) fun e he hes k hk => h e ((keepGiven_ok h1).1.subset he) hes k
      (Or.inl ((mem_keys_iff_has m.inputs k).1 hk))
  refine ⟨{ m with graph := { m.graph with edges := es' } }, ?_⟩
  unfold determinizeInit
  simp only [h1, h2, ok_bind]

/-- A machine with four initial reactions. -/
def choices : Machine Nat Nat where
  graph := { nodes := [(0, []), (1, []), (9, [])], initial := [9]
             edges := [(9, 0, [("x", 0), ("a", 0)]), (9, 1, [("x", 0), ("a", 1)]),
               (9, 0, [("x", 1), ("a", 1)]), (9, 1, [("x", 1), ("a", 1)]), (0, 0, [("x", 0)])] }
  inputs := [("x", [0, 1])]
  outputs := [("a", [0, 1])]

example : ∀ e ∈ choices.graph.edges, e.1 = 9 → ∀ k,
    choices.inputs.has k = true ∨ choices.outputs.has k = true → e.2.2.has k = true := by
  intro e he hs k hk
  simp [choices, Dict.has] at he hk
  rcases he with rfl | rfl | rfl | rfl | rfl <;> simp [Dict.has] at hs ⊢ <;> tauto

example : (determinizeInit choices 9 []).toOption.map (fun m => m.graph.edges) =
    some [(9, 0, [("x", 0), ("a", 0)]), (9, 0, [("x", 1), ("a", 1)]), (0, 0, [("x", 0)])] := by
  decide +kernel

example : (determinizeInit choices 9 [("a", 1), ("b", 7)]).toOption.map (fun m => m.graph.edges) =
    some [(9, 1, [("x", 0), ("a", 1)]), (9, 0, [("x", 1), ("a", 1)]), (0, 0, [("x", 0)])] := by
  decide +kernel

/-! ## Trimming -/

/-- **C33**. `_trim_strategy` returns `None` for no strategy, and otherwise the machine of the
strategy; with `rm_deadends` its states are those from which some infinite path starts, with all the
edges between them. `AssertionError` is raised if no infinite path exists. -/
theorem trimStrategy_spec {order : List ν → List ν} (ho : ∀ l, (order l).Perm l)
    {A : Strategy ν} {env sys : Dict String Dom} {isInit : Attr Elem → Except PyErr Bool} {sinit : ν}
    {m : Machine ν Elem} (hv : VarsOk env sys) (hA : A.Good (Dict.update env sys))
    (hdep : ∀ a b, (∀ k, (Dict.update env sys).has k = true → Dict.get? a k = Dict.get? b k) →
      isInit a = isInit b)
    (h : strategy2mealy A env sys isInit sinit = .ok m) (rm : Bool) :
    trimStrategy order (none : Option (Strategy ν)) env sys isInit sinit rm = .ok none ∧
    trimStrategy order (some A) env sys isInit sinit false = .ok (some m) ∧
    ((∃ n, m.graph.hasNode n = true ∧ m.graph.Alive n) →
      ∃ m', trimStrategy order (some A) env sys isInit sinit true = .ok (some m') ∧
        m'.inputs = m.inputs ∧ m'.outputs = m.outputs ∧
        (∀ n, m'.graph.hasNode n = true ↔ m.graph.hasNode n = true ∧ m.graph.Alive n) ∧
        (∀ u v d, (u, v, d) ∈ m'.graph.edges ↔
          (u, v, d) ∈ m.graph.edges ∧ m.graph.Alive u ∧ m.graph.Alive v) ∧
        (∀ n, n ∈ m'.graph.initial ↔ n ∈ m.graph.initial ∧ m.graph.Alive n) ∧
        (∀ n, m'.graph.hasNode n = true → ∃ v d, (n, v, d) ∈ m'.graph.edges)) ∧
    ((¬ ∃ n, m.graph.hasNode n = true ∧ m.graph.Alive n) →
      trimStrategy order (some A) env sys isInit sinit true = .error .assertion) := by
  obtain ⟨_, _, _, hn, _, hok, _⟩ := strategy2mealy_spec hv hA hdep h
  obtain ⟨h1, h2, h3, h4, h5, h6⟩ := removeDeadends_spec hok ho
  have hne : m.graph.nodes ≠ [] := by
    intro hc
    have := (hn sinit).2 (Or.inl rfl)
    simp [hasNode, hc, Dict.has] at this
  refine ⟨rfl, ?_, ?_, ?_⟩
  · simp [trimStrategy, h]
  · intro hex
    have h7 := h5.2 (Or.inr hex)
    refine ⟨{ m with graph := (m.graph.removeDeadends order).1 }, ?_, rfl, rfl, ?_, h2, h3, h4⟩
    · simp only [trimStrategy, h, ok_bind, if_true]
      rw [show m.graph.removeDeadends order = ((m.graph.removeDeadends order).1, none) from
        Prod.ext rfl h7]
      rfl
    · intro n
      rw [hasNode_iff, hasNode_iff]
      constructor
      · rintro ⟨a, ha⟩
        exact ⟨⟨a, ((h1 n a).1 ha).1⟩, ((h1 n a).1 ha).2⟩
      · rintro ⟨⟨a, ha⟩, hal⟩
        exact ⟨a, (h1 n a).2 ⟨ha, hal⟩⟩
  · intro hex
    have h7 : (m.graph.removeDeadends order).2 = some .assertion := by
      rcases h6 with h6 | h6
      · rcases h5.1 h6 with h8 | h8
        · exact absurd h8 hne
        · exact absurd h8 hex
      · exact h6
    simp only [trimStrategy, h, ok_bind, if_true]
    rw [show m.graph.removeDeadends order = ((m.graph.removeDeadends order).1, some .assertion) from
      Prod.ext rfl h7]
    rfl

/-- A strategy with a dead-end, node 3. -/
def blocked : Strategy Nat where
  nodes := [(0, [("x", .int 0)]), (1, [("x", .int 1)]), (3, [("x", .int 1)])]
  edges := [(0, 1), (1, 0), (1, 3)]
  initialNodes := some [0, 3]

example : ((trimStrategy id (some blocked) [("x", .boolean)] [] (fun _ => .ok true) 9 true).toOption.bind
    id).map (fun m => (m.graph.nodes.keys, m.graph.edges)) =
    some ([0, 1, 9], [(0, 1, [("x", .int 1)]), (1, 0, [("x", .int 0)]), (9, 0, [("x", .int 0)])]) := by
  rfl

/-! ## Masking -/

/-- **C33**. `mask_outputs` ends normally if and only if no edge has an output with value 0, and then
changes nothing. -/
theorem maskOutputs_spec (outputs : List String) (es : List (ν × ν × Attr Elem)) :
    ((∀ e ∈ es, ∀ k, k ∈ outputs → (k, Elem.int 0) ∉ e.2.2) → maskOutputs outputs es = (es, none)) ∧
    ((∃ e ∈ es, ∃ k, k ∈ outputs ∧ (k, Elem.int 0) ∈ e.2.2) →
      (maskOutputs outputs es).2 = some .runtime) := by
  have hsome : ∀ d : Attr Elem, (∃ k, k ∈ outputs ∧ (k, Elem.int 0) ∈ d) →
      (maskEdge outputs d).2 = some .runtime := by
    rintro d ⟨k, hk, hd⟩
    unfold maskEdge
    cases hf : d.find? (fun p => decide (p.1 ∈ outputs) && decide (p.2 = .int 0)) with
    | some p => rfl
    | none =>
      rw [List.find?_eq_none] at hf
      exact absurd (hf _ hd) (by simp [hk])
  have hnone : ∀ d : Attr Elem, (∀ k, k ∈ outputs → (k, Elem.int 0) ∉ d) →
      maskEdge outputs d = (d, none) := by
    intro d h
    unfold maskEdge
    rw [show d.find? _ = none from List.find?_eq_none.2 ?_]
    rintro ⟨k, v⟩ hp hc
    simp only [Bool.and_eq_true, decide_eq_true_eq] at hc
    obtain ⟨h1, rfl⟩ := hc
    exact h k h1 hp
  induction es with
  | nil => simp [maskOutputs]
  | cons e es ih =>
    constructor
    · intro h
      unfold maskOutputs
      rw [hnone _ (h e (by simp)), ih.1 fun f hf => h f (by simp [hf])]
    · rintro ⟨f, hf, h⟩
      unfold maskOutputs
      by_cases he : ∃ k, k ∈ outputs ∧ (k, Elem.int 0) ∈ e.2.2
      · have := hsome _ he
        cases hm : maskEdge outputs e.2.2 with
        | mk d r => rw [hm] at this; simp only at this; subst this; rfl
      · rw [hnone _ fun k hk hc => he ⟨k, hk, hc⟩]
        rcases List.mem_cons.1 hf with rfl | hf
        · exact absurd h he
        · exact ih.2 ⟨f, hf, h⟩

example : ∀ e ∈ [(0, 1, [("x", Elem.int 0), ("a", .int 1)])], ∀ k, k ∈ ["a"] →
    (k, Elem.int 0) ∉ e.2.2 := by decide

/-- `mask_outputs` is documented to erase the outputs that are zero from each edge: it raises
`RuntimeError` after it has erased one of them. -/
theorem maskOutputs_counterexample :
    maskOutputs ["a", "b"] [(0, 1, [("a", .int 0), ("b", .int 0)]), (1, 0, [("a", .int 0)])] =
      ([(0, 1, [("b", .int 0)]), (1, 0, [("a", .int 0)])], some .runtime) := by
  decide +kernel

end Synth

end Tulip
