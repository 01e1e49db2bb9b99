import Verif.Synth.DeterminizeProps
import Verif.Synth.SynthesizeProps

/-!
# When machines are returned (C31, C33, C80, C81)
-/

namespace Tulip

namespace Synth

open Mach LGraph

variable {ν : Type} [DecidableEq ν]

/-! ## Specification -/

/-- The integer `x` is a value of a variable with domain `t`; values of string variables are positions. -/
def InDomain (t : Dom) (x : Elem) : Prop :=
  match t with
  | .boolean => x = .int 0 ∨ x = .int 1
  | .range lo hi => ∃ n, x = .int n ∧ lo ≤ n ∧ n ≤ hi
  | .strs l => ∃ n : Nat, x = .int n ∧ n < l.length

/-- A strategy with values for all variables in all nodes, whose edges join nodes. -/
structure Strategy.Complete (A : Strategy ν) (vars : Dict String Dom) (isInit : Attr Elem → Except PyErr Bool)
    (sinit : ν) : Prop where
  nonempty : A.nodes ≠ []
  fresh : sinit ∉ A.nodes.keys
  targets : ∀ e ∈ A.edges, e.2 ∈ A.nodes.keys
  values : ∀ u st k t, (u, st) ∈ A.nodes → vars.get? k = some t → ∃ x, Dict.get? st k = some x ∧ InDomain t x
  /-- The initial nodes, if they are listed, are some of the nodes. -/
  initial : ∀ l, A.initialNodes = some l → l ≠ [] ∧ ∀ u ∈ l, u ∈ A.nodes.keys
  /-- Otherwise the initial condition can be evaluated. -/
  evaluates : A.initialNodes = none → ∀ u st, (u, st) ∈ A.nodes → ∃ b, isInit st = .ok b

/-! ## Lemmas -/

theorem int2str_total {sv : Dict String (List String)} : ∀ {d : Attr Elem},
    (∀ p ∈ d, ∃ y, decodeValue sv p.1 p.2 = .ok y) → ∃ r, int2str sv d = .ok r
  | [], _ => ⟨[], rfl⟩
  | p :: d, h => by
    obtain ⟨y, hy⟩ := h p (by simp)
    obtain ⟨r, hr⟩ := int2str_total (d := d) fun q hq => h q (by simp [hq])
    refine ⟨(p.1, y) :: r, ?_⟩
    unfold int2str
    rw [hy, hr]
    rfl

theorem written_of_inDomain {vars : Dict String Dom} {k : String} {t : Dom} {x : Elem} (ht : vars.get? k = some t)
    (hx : InDomain t x) : ∃ y ∈ domValues t, Written vars k x y := by
  unfold Written
  rw [ht]
  cases t with
  | boolean => exact ⟨x, (domValues_spec .boolean x).2 hx, rfl⟩
  | range lo hi => exact ⟨x, (domValues_spec (.range lo hi) x).2 hx, rfl⟩
  | strs l =>
    obtain ⟨n, rfl, hn⟩ := hx
    exact ⟨.str l[n], (domValues_spec (.strs l) _).2 ⟨_, List.getElem_mem hn, rfl⟩, n, l[n], rfl,
      List.getElem?_eq_getElem hn, rfl⟩

/-- The types of the labels of the machine. -/
def typesFor (env sys : Dict String Dom) : Dict String (LabelType Elem) :=
  Dict.update (Dict.update [] (typesOf (machinePorts env))) (typesOf (machinePorts sys))

theorem wf_machinePorts {d : Dict String Dom} (h : d.Wf) : (machinePorts d).Wf := by
  unfold Dict.Wf Dict.keys machinePorts at *
  rw [List.map_map]
  exact h

omit [DecidableEq ν] in
theorem edgeLabel_total {A : Strategy ν} {env sys : Dict String Dom} (hv : VarsOk env sys)
    (hA : A.Good (Dict.update env sys)) {isInit : Attr Elem → Except PyErr Bool} {sinit : ν}
    (hC : A.Complete (Dict.update env sys) isInit sinit) {u : ν} {st : Attr Elem} (hm : (u, st) ∈ A.nodes) :
    ∃ d, edgeLabel (Dict.update env sys) (strVars env sys) st = .ok d ∧ d.Wf ∧ Typed (typesFor env sys) d ∧
      ∀ k, d.has k = true → (typesFor env sys).has k = true := by
  have hst := hA.statesWf u st hm
  have hval : ∀ p ∈ st, (Dict.update env sys).has p.1 = true → ∃ t, (Dict.update env sys).get? p.1 = some t ∧
      InDomain t p.2 := by
    intro p hp hk
    obtain ⟨t, ht⟩ := (Dict.has_iff _ _).1 hk
    obtain ⟨x, hx, hd⟩ := hC.values u st p.1 t hm ht
    rw [get?_of_mem hst (show (p.1, p.2) ∈ st from hp)] at hx
    cases hx
    exact ⟨t, ht, hd⟩
  have hdec : ∀ p ∈ st, (Dict.update env sys).has p.1 = true → ∃ t y, (Dict.update env sys).get? p.1 = some t ∧
      y ∈ domValues t ∧ decodeValue (strVars env sys) p.1 p.2 = .ok y := by
    intro p hp hk
    obtain ⟨t, ht, hd⟩ := hval p hp hk
    obtain ⟨y, hy, hw⟩ := written_of_inDomain ht hd
    refine ⟨t, y, ht, hy, (decodeValue_iff hv hk ?_).2 hw⟩
    intro l n h1 h2
    exact hA.nonneg u st p.1 n l hm h1 (by rw [← h2]; exact get?_of_mem hst hp)
  obtain ⟨d, hd⟩ : ∃ d, edgeLabel (Dict.update env sys) (strVars env sys) st = .ok d := by
    unfold edgeLabel
    refine int2str_total fun p hp => ?_
    rw [List.mem_filter] at hp
    obtain ⟨t, y, _, _, h⟩ := hdec p hp.1 hp.2
    exact ⟨y, h⟩
  have hdw := edgeLabel_wf hst hd
  have hin : ∀ p ∈ d, ∃ t, (Dict.update env sys).get? p.1 = some t ∧ p.2 ∈ domValues t := by
    intro p hp
    have hg := get?_of_mem hdw (show (p.1, p.2) ∈ d from hp)
    have h1 := (int2str_get? hd).2 p.1
    rw [get?_filter_has] at h1
    by_cases hk : (Dict.update env sys).has p.1 = true
    · rw [if_pos hk] at h1
      cases hx : Dict.get? st p.1 with
      | none => rw [hx] at h1; simp only at h1; rw [h1] at hg; cases hg
      | some x =>
        rw [hx] at h1
        simp only at h1
        obtain ⟨y, h2, h3⟩ := h1
        rw [hg] at h2
        cases h2
        obtain ⟨t, y, h4, h5, h6⟩ := hdec (p.1, x) (mem_of_get? hx) hk
        simp only at h6 h4
        rw [h3] at h6
        cases h6
        exact ⟨t, h4, h5⟩
    · rw [if_neg hk] at h1
      simp only at h1
      rw [h1] at hg; cases hg
  have hcase : ∀ k t, (Dict.update env sys).get? k = some t → env.get? k = some t ∨ sys.get? k = some t := by
    intro k t h
    rw [Dict.get?_update_wf hv.sys] at h
    cases hs : sys.get? k with
    | none => rw [hs] at h; exact Or.inl (by simpa using h)
    | some t' => rw [hs] at h; exact Or.inr (by simpa using h)
  refine ⟨d, hd, hdw, ?_, ?_⟩
  · unfold typesFor
    rw [typed_mealy (wf_machinePorts hv.env) (wf_machinePorts hv.sys) (by
      intro k; rw [has_machinePorts, has_machinePorts]; exact hv.disjoint k)]
    intro p hp vs hvs
    obtain ⟨t, ht, hy⟩ := hin p hp
    rw [get?_machinePorts, get?_machinePorts] at hvs
    have : ∀ t', (env.get? p.1 = some t' ∨ sys.get? p.1 = some t') → t' = t := by
      intro t' h
      have : (Dict.update env sys).get? p.1 = some t' := by
        rw [Dict.get?_update_wf hv.sys]
        rcases h with h | h
        · have : sys.get? p.1 = none := by
            rw [← Dict.has_false_iff]
            exact hv.disjoint _ ((Dict.has_iff _ _).2 ⟨_, h⟩)
          rw [this]; simpa using h
        · rw [h]; rfl
      rw [ht] at this
      cases this; rfl
    rcases hvs with h | h
    · obtain ⟨t', h1, rfl⟩ := Option.map_eq_some_iff.1 h
      rw [this t' (Or.inl h1)]; exact hy
    · obtain ⟨t', h1, rfl⟩ := Option.map_eq_some_iff.1 h
      rw [this t' (Or.inr h1)]; exact hy
  · intro k hk
    obtain ⟨y, hy⟩ := (Dict.has_iff _ _).1 hk
    obtain ⟨t, ht, _⟩ := hin (k, y) (mem_of_get? hy)
    unfold typesFor
    rw [has_eq, get?_mealyTypes (wf_machinePorts hv.env) (wf_machinePorts hv.sys), get?_typesOf, get?_typesOf,
      get?_machinePorts, get?_machinePorts]
    rcases hcase k t ht with h | h
    · rw [h]
      cases sys.get? k <;> rfl
    · rw [h]; rfl

theorem addEdge_fresh {g : LGraph ν Elem} {u v : ν} {a : Attr Elem} {c : Bool} (hu : g.hasNode u = true)
    (hv : g.hasNode v = true) (hd : g.edgeDefaults = []) (hw : a.Wf) (ht : Typed g.edgeTypes a)
    (hk : ∀ k, a.has k = true → g.edgeTypes.has k = true) (hno : ∀ d, (u, v, d) ∉ g.edges) :
    g.addEdge u v a c = .ok { g with edges := g.edges ++ [(u, v, a)] } := by
  have e1 : (Dict.update [] g.edgeDefaults).update a = a := by
    rw [hd, show Dict.update ([] : Attr Elem) [] = [] from rfl, update_nil_wf hw]
  have hnd : ∀ d, d ∉ g.edgeData u v := fun d hm => hno d (mem_edgeData.1 hm)
  rcases addEdge_ok (check := c) hu hv (by rw [hd]; simp [Typed]) ht (fun d hm => absurd hm (hnd d))
    (by rw [e1]; exact fun _ => hk) with ⟨⟨d, hm, _⟩, _⟩ | ⟨_, h⟩
  · exact absurd hm (hnd d)
  · rw [h, e1]

/-- What the loops need of the graph. -/
structure LoopOk (A : Strategy ν) (env sys : Dict String Dom) (g : LGraph ν Elem) : Prop where
  types : g.edgeTypes = typesFor env sys
  defaults : g.edgeDefaults = []
  nodes : ∀ u ∈ A.nodes.keys, g.hasNode u = true

section
variable {A : Strategy ν} {env sys : Dict String Dom} {isInit : Attr Elem → Except PyErr Bool} {sinit : ν}

theorem addStrategyEdges_total (hv : VarsOk env sys) (hA : A.Good (Dict.update env sys))
    (hC : A.Complete (Dict.update env sys) isInit sinit) {es : List (ν × ν)} (hes : es.Nodup) {g : LGraph ν Elem}
    (hg : LoopOk A env sys g) (hmem : ∀ e ∈ es, e.1 ∈ A.nodes.keys ∧ e.2 ∈ A.nodes.keys)
    (hno : ∀ e ∈ es, ∀ d, (e.1, e.2, d) ∉ g.edges) :
    ∃ g', foldE (addStrategyEdge A (Dict.update env sys) (strVars env sys)) g es = .ok g' := by
  induction es generalizing g with
  | nil => exact ⟨g, rfl⟩
  | cons e es ih =>
    obtain ⟨h1, h2⟩ := hmem e (by simp)
    obtain ⟨st, hst⟩ := (Dict.mem_keys_iff _ _).1 h2
    obtain ⟨d, hd, hw, ht, hk⟩ := edgeLabel_total hv hA hC (mem_of_get? hst)
    rw [List.nodup_cons] at hes
    have hadd : g.addEdge e.1 e.2 d false = .ok { g with edges := g.edges ++ [(e.1, e.2, d)] } :=
      addEdge_fresh (hg.nodes _ h1) (hg.nodes _ h2) hg.defaults hw (by rw [hg.types]; exact ht)
        (by rw [hg.types]; exact hk) (hno e (by simp))
    obtain ⟨g', hg'⟩ := ih hes.2 (g := { g with edges := g.edges ++ [(e.1, e.2, d)] })
      ⟨hg.types, hg.defaults, hg.nodes⟩ (fun f hf => hmem f (by simp [hf])) (by
        intro f hf d' hm
        simp only [List.mem_append, List.mem_singleton, Prod.mk.injEq] at hm
        rcases hm with hm | ⟨e1, e2, _⟩
        · exact hno f (by simp [hf]) d' hm
        · exact hes.1 (by rw [show e = f from Prod.ext e1.symm e2.symm]; exact hf))
    refine ⟨g', ?_⟩
    unfold foldE addStrategyEdge
    rw [getE_ok.2 hst, ok_bind, hd, ok_bind, hadd, ok_bind]
    exact hg'

omit [DecidableEq ν] in
theorem vals_total (hC : A.Complete (Dict.update env sys) isInit sinit) {u : ν} {st : Attr Elem}
    (hm : (u, st) ∈ A.nodes) : ∃ vals, valuesOf (Dict.update env sys).keys st = .ok vals := by
  refine valuesOf_total fun k hk => ?_
  obtain ⟨t, ht⟩ := (Dict.mem_keys_iff _ _).1 hk
  obtain ⟨x, hx, _⟩ := hC.values u st k t hm ht
  exact (Dict.has_iff _ _).2 ⟨x, hx⟩

theorem initEdges_total (hv : VarsOk env sys) (hA : A.Good (Dict.update env sys))
    (hC : A.Complete (Dict.update env sys) isInit sinit) {l : List ν} (hl : ∀ u ∈ l, u ∈ A.nodes.keys)
    {seen : List (List Elem)} {g : LGraph ν Elem} (hg : LoopOk A env sys g) (hs : g.hasNode sinit = true)
    (hno : ∀ u d, (sinit, u, d) ∈ g.edges → ∃ vals ∈ seen, Vals A (Dict.update env sys) u vals) :
    ∃ r, foldE (initEdge A (Dict.update env sys) (strVars env sys) sinit) (seen, g) l = .ok r := by
  induction l generalizing seen g with
  | nil => exact ⟨_, rfl⟩
  | cons u l ih =>
    obtain ⟨st, hst⟩ := (Dict.mem_keys_iff _ _).1 (hl u (by simp))
    obtain ⟨vals, hvals⟩ := vals_total hC (mem_of_get? hst)
    have hl' : ∀ v ∈ l, v ∈ A.nodes.keys := fun v hv => hl v (by simp [hv])
    unfold foldE initEdge
    rw [getE_ok.2 hst, ok_bind, hvals, ok_bind]
    by_cases hin : vals ∈ seen
    · simp only [hin, if_true, ok_bind]
      exact ih hl' hg hs hno
    · simp only [hin, if_false]
      obtain ⟨d, hd, hw, ht, hk⟩ := edgeLabel_total hv hA hC (mem_of_get? hst)
      have hadd : g.addEdge sinit u d = .ok { g with edges := g.edges ++ [(sinit, u, d)] } := by
        refine addEdge_fresh hs (hg.nodes _ (hl u (by simp))) hg.defaults hw (by rw [hg.types]; exact ht)
          (by rw [hg.types]; exact hk) ?_
        intro d' hm
        obtain ⟨x, hx, h7⟩ := hno u d' hm
        rw [h7.unique ⟨st, hst, hvals⟩] at hx
        exact hin hx
      rw [hd, ok_bind, hadd, ok_bind, ok_bind]
      refine ih hl' ⟨hg.types, hg.defaults, hg.nodes⟩ hs ?_
      intro v d' hm
      simp only [List.mem_append, List.mem_singleton, Prod.mk.injEq] at hm
      rcases hm with hm | ⟨_, rfl, _⟩
      · obtain ⟨x, hx, h7⟩ := hno v d' hm
        exact ⟨x, by simp [hx], h7⟩
      · exact ⟨vals, by simp, st, hst, hvals⟩

theorem initEdgesEval_total (hv : VarsOk env sys) (hA : A.Good (Dict.update env sys))
    (hC : A.Complete (Dict.update env sys) isInit sinit)
    (hdep : ∀ a b, (∀ k, (Dict.update env sys).has k = true → Dict.get? a k = Dict.get? b k) → isInit a = isInit b)
    (hnone : A.initialNodes = none)
    {l : List (ν × Attr Elem)} (hl : ∀ p ∈ l, p ∈ A.nodes)
    {seen : List (List Elem)} {tmp : Attr Elem} {g : LGraph ν Elem} (hg : LoopOk A env sys g)
    (hs : g.hasNode sinit = true)
    (hno : ∀ u d, (sinit, u, d) ∈ g.edges → ∃ vals ∈ seen, Vals A (Dict.update env sys) u vals) :
    ∃ r, foldE (initEdgeEval (Dict.update env sys) (strVars env sys) isInit sinit) ⟨seen, tmp, g⟩ l = .ok r := by
  induction l generalizing seen g tmp with
  | nil => exact ⟨_, rfl⟩
  | cons p l ih =>
    obtain ⟨u, st⟩ := p
    have hmem := hl (u, st) (by simp)
    have hst := get?_of_mem hA.nodesWf hmem
    obtain ⟨vals, hvals⟩ := vals_total hC hmem
    have hl' : ∀ v ∈ l, v ∈ A.nodes := fun v hv => hl v (by simp [hv])
    unfold foldE initEdgeEval
    simp only
    rw [hvals, ok_bind]
    by_cases hin : vals ∈ seen
    · simp only [hin, if_true, ok_bind]
      exact ih hl' hg hs hno
    · simp only [hin, if_false]
      have hinit : isInit (tmp.update st) = isInit st := by
        refine hdep _ _ fun k hk => ?_
        rw [Dict.get?_update_wf (hA.statesWf _ _ hmem)]
        obtain ⟨t, ht⟩ := (Dict.has_iff _ _).1 hk
        obtain ⟨x, hx, _⟩ := hC.values u st k t hmem ht
        rw [hx]; rfl
      obtain ⟨b, hb⟩ := hC.evaluates hnone u st hmem
      rw [hinit, hb, ok_bind]
      cases b with
      | false =>
        simp only [Bool.false_eq_true, if_false, ok_bind]
        exact ih hl' hg hs hno
      | true =>
        simp only [if_true]
        obtain ⟨d, hd, hw, ht, hk⟩ := edgeLabel_total hv hA hC hmem
        have hadd : g.addEdge sinit u d false = .ok { g with edges := g.edges ++ [(sinit, u, d)] } := by
          refine addEdge_fresh hs (hg.nodes _ (List.mem_map_of_mem (f := Prod.fst) hmem)) hg.defaults hw
            (by rw [hg.types]; exact ht) (by rw [hg.types]; exact hk) ?_
          intro d' hm
          obtain ⟨x, hx, h7⟩ := hno u d' hm
          rw [h7.unique ⟨st, hst, hvals⟩] at hx
          exact hin hx
        rw [hd, ok_bind, hadd, ok_bind, ok_bind]
        refine ih hl' ⟨hg.types, hg.defaults, hg.nodes⟩ hs ?_
        intro v d' hm
        simp only [List.mem_append, List.mem_singleton, Prod.mk.injEq] at hm
        rcases hm with hm | ⟨_, rfl, _⟩
        · obtain ⟨x, hx, h7⟩ := hno v d' hm
          exact ⟨x, by simp [hx], h7⟩
        · exact ⟨vals, by simp, st, hst, hvals⟩

/-- **C31.** `strategy2mealy` returns a machine for each strategy that has values in their domains for all variables in all
nodes, whose edges join nodes, whose listed initial nodes are nodes (at least one), or if none are listed, whose initial
nodes can be found by evaluating the initial condition, and that has no node of the name of the new initial state. -/
theorem strategy2mealy_returns (hv : VarsOk env sys) (hA : A.Good (Dict.update env sys))
    (hC : A.Complete (Dict.update env sys) isInit sinit)
    (hdep : ∀ a b, (∀ k, (Dict.update env sys).has k = true → Dict.get? a k = Dict.get? b k) → isInit a = isInit b) :
    ∃ m, strategy2mealy A env sys isInit sinit = .ok m := by
  unfold strategy2mealy
  split
  · rename_i hn
    exact absurd hn hC.nonempty
  rename_i first rest hn
  obtain ⟨nodes, hn1, hn2⟩ := copyNodes_spec
    (g := (newMealy (machinePorts env) (machinePorts sys) : Machine ν Elem).graph) rfl A.nodes.keys
  have e0 : (newMealy (machinePorts env) (machinePorts sys) : Machine ν Elem).graph.addNodesFrom
      (A.nodes.map fun p => (p.1, [])) =
      ({ (newMealy (machinePorts env) (machinePorts sys) : Machine ν Elem).graph with
        nodes := nodes }, none) := by
    rw [← hn1]
    unfold copyNodes Dict.keys
    rw [List.map_map]
    rfl
  have hok0 := (call_keeps (newMealy_ok (ν := ν) (machinePorts env) (machinePorts sys))
    (op := .addNodesFrom (A.nodes.map fun p => (p.1, [])) true) trivial).2
  simp only [call, e0] at hok0
  have hnodes : ∀ n, Dict.has nodes n = true ↔ n ∈ A.nodes.keys := by
    intro n
    rw [hn2 n]
    simp [newMealy, hasNode, Dict.has]
  have hfirst : ∀ k ∈ (Dict.update env sys).keys, first.2.has k = true := by
    intro k hk
    obtain ⟨t, ht⟩ := (Dict.mem_keys_iff _ _).1 hk
    obtain ⟨x, hx, _⟩ := hC.values first.1 first.2 k t (by rw [hn]; simp) ht
    exact (Dict.has_iff _ _).2 ⟨x, hx⟩
  simp only [e0]
  unfold toExcept
  simp only [ok_bind]
  rw [if_neg (by simpa using hfirst)]
  have hes := strategyEdges_nodup hA.nodesWf hA.edgesNodup
  obtain ⟨g1, h1⟩ := addStrategyEdges_total hv hA hC hes
    (g := { (newMealy (machinePorts env) (machinePorts sys) : Machine ν Elem).graph with nodes := nodes })
    ⟨rfl, rfl, fun u hu => (hnodes u).2 hu⟩ (fun e he => by
      have he' := (mem_strategyEdges hA.edges e).1 he
      exact ⟨hA.edges e he', hC.targets e he'⟩) (by simp [newMealy])
  obtain ⟨⟨new, h5, h6⟩, _, h8⟩ := addStrategyEdges_ok hA.statesWf hes (by rfl) (by simp [newMealy]) h1
  have hok1 := h8 hok0
  rw [h1, ok_bind]
  have h2 := addNode_plain (g := g1) (a := []) (by rw [h6]; rfl) (by simp [Dict.Wf, Dict.keys]) (by simp [Typed])
    (by simp [Dict.has]) sinit
  have hok2 := (addNode_ok hok1 h2).2
  rw [h2, ok_bind]
  generalize hg2 : ({ g1 with nodes := g1.nodes.set sinit (((g1.nodes.get? sinit).getD []).update []) } :
    LGraph ν Elem) = g2 at *
  have hn2' : ∀ n, g2.hasNode n = true ↔ n = sinit ∨ n ∈ A.nodes.keys := by
    intro n
    rw [← hg2, hasNode_addNode, h6]
    simp only [Bool.or_eq_true, decide_eq_true_eq, hasNode, hnodes]
    constructor
    · rintro (rfl | h)
      · exact Or.inl rfl
      · exact Or.inr h
    · rintro (rfl | h)
      · exact Or.inl rfl
      · exact Or.inr h
  have h3 : g2.addInitial sinit = .ok { g2 with initial := uniqueLoop g2.initial [sinit] } := by
    unfold addInitial
    rw [if_pos ((hn2' sinit).2 (Or.inl rfl))]
  rw [h3, ok_bind]
  generalize hg3 : ({ g2 with initial := uniqueLoop g2.initial [sinit] } : LGraph ν Elem) = g3
  have hG : LoopOk A env sys g3 := by
    refine ⟨by rw [← hg3, ← hg2, h6]; rfl, by rw [← hg3, ← hg2, h6]; rfl, fun u hu => ?_⟩
    rw [← hg3]
    exact (hn2' u).2 (Or.inr hu)
  have hs3 : g3.hasNode sinit = true := by rw [← hg3]; exact (hn2' sinit).2 (Or.inl rfl)
  have hno : ∀ u d, (sinit, u, d) ∉ g3.edges := by
    intro u d hm
    rw [← hg3, ← hg2, h6] at hm
    simp only [newMealy, List.nil_append] at hm
    obtain ⟨e, he, h9, _⟩ := forall₂_mem_right h5 hm
    have h10 := hA.edges e ((mem_strategyEdges hA.edges e).1 he)
    rw [← h9] at h10
    exact hC.fresh h10
  have h4 : ∃ g4, addInitEdges A (Dict.update env sys) (strVars env sys) isInit sinit g3 = .ok g4 := by
    unfold addInitEdges
    cases hi : A.initialNodes with
    | some l =>
      obtain ⟨k1, k2⟩ := hC.initial l hi
      obtain ⟨r, hr⟩ := initEdges_total hv hA hC k2 (seen := []) hG hs3 (fun u d hm => absurd hm (hno u d))
      simp only
      rw [if_neg (by simpa using k1), hr]
      exact ⟨_, rfl⟩
    | none =>
      obtain ⟨r, hr⟩ := initEdgesEval_total hv hA hC hdep hi (fun p hp => hp) (seen := []) (tmp := []) hG hs3
        (fun u d hm => absurd hm (hno u d))
      simp only
      rw [hr]
      exact ⟨_, rfl⟩
  obtain ⟨g4, h4⟩ := h4
  rw [h4, ok_bind, if_neg]
  · exact ⟨_, rfl⟩
  · simp only [ne_eq, not_not]
    rw [addInitEdges_nodes h4, ← hg3]
    have hk : (sinit :: A.nodes.keys).length = A.nodes.length + 1 := by simp [Dict.keys]
    rw [← hk]
    refine nodes_length hok2.nodup (List.nodup_cons.2 ⟨hC.fresh, hA.nodesWf⟩) fun n => ?_
    rw [List.mem_cons]
    exact hn2' n

end

/-- Each node has a successor, and some node is initial. -/
structure Strategy.Live (A : Strategy ν) (isInit : Attr Elem → Except PyErr Bool) : Prop where
  next : ∀ u ∈ A.nodes.keys, ∃ v, (u, v) ∈ A.edges
  start : ∃ v, IsInitial A isInit v

/-- **C33, C80.** For such a strategy `_synthesize` returns a machine, also if dead ends are removed, provided that each
node has a successor and that there is an initial node; then the initial state is kept. -/
theorem synthesizeSpec_returns {T : Tools ν} (hostates : ∀ l, (T.orderStates l).Perm l) (hinit : InitDepends T.isInit)
    {g : GRSpec} {rm : Bool} {solver : String} {solve : Solve ν} (hpick : T.solvers.pick solver = .ok solve)
    (hv : VarsOk g.envVars g.sysVars) {A : Strategy ν} (hs : solve g = .ok (some A))
    (hA : A.Good (Dict.update g.envVars g.sysVars))
    (hC : A.Complete (Dict.update g.envVars g.sysVars) (T.isInit g) T.sinit) (hL : rm = true → A.Live (T.isInit g)) :
    ∃ m, synthesizeSpec T g solver rm = .ok (some m) ∧ ∀ n, n ∈ m.graph.initial ↔ n = T.sinit := by
  obtain ⟨m, hm⟩ := strategy2mealy_returns hv hA hC (hinit g)
  obtain ⟨_, t2, t3, _⟩ := trimStrategy_spec hostates hv hA (hinit g) hm rm
  obtain ⟨_, _, _, hn, hin, hok, _, hedge, hedge', hi1, hi2, _⟩ := strategy2mealy_spec hv hA (hinit g) hm
  unfold synthesizeSpec
  rw [hpick, ok_bind, hs, ok_bind]
  cases rm with
  | false => exact ⟨m, t2, by simp [hin]⟩
  | true =>
    have hlive := hL rfl
    -- an infinite path from each node
    have halive : ∀ u ∈ A.nodes.keys, m.graph.Alive u := by
      intro u hu
      have hnext : ∀ p : {u // u ∈ A.nodes.keys}, ∃ q : {u // u ∈ A.nodes.keys}, (p.1, q.1) ∈ A.edges := by
        rintro ⟨u, hu⟩
        obtain ⟨v, hv⟩ := hlive.next u hu
        exact ⟨⟨v, hC.targets _ hv⟩, hv⟩
      choose f hf using hnext
      refine ⟨fun n => (f^[n] ⟨u, hu⟩).1, rfl, fun n => ?_⟩
      obtain ⟨d, hd, _⟩ := hedge' _ _ (hf (f^[n] ⟨u, hu⟩))
      refine ⟨d, ?_⟩
      simp only
      rw [Function.iterate_succ_apply']
      exact hd
    obtain ⟨v, hvi⟩ := hlive.start
    obtain ⟨u, d, hu, _⟩ := hi2 v hvi
    obtain ⟨_, hlab⟩ := hi1 u d hu
    obtain ⟨st, hst, _⟩ := hlab
    have hsin : m.graph.Alive T.sinit := by
      obtain ⟨f, h0, hf⟩ := halive u (List.mem_map_of_mem (f := Prod.fst) hst)
      refine ⟨fun n => match n with | 0 => T.sinit | n + 1 => f n, rfl, fun n => ?_⟩
      cases n with
      | zero => exact ⟨d, by simp only [h0]; exact hu⟩
      | succ n => exact hf n
    obtain ⟨m', q1, _, _, _, _, q6, _⟩ := t3 ⟨T.sinit, (hn _).2 (Or.inl rfl), hsin⟩
    refine ⟨m', q1, fun n => ?_⟩
    rw [q6, hin, List.mem_singleton]
    constructor
    · exact fun h => h.1
    · rintro rfl; exact ⟨rfl, hsin⟩

/-- **C80.** `synthesize` returns a machine if the solver returns such a strategy. -/
theorem synthesize_returns {T : Tools ν} (hostates : ∀ l, (T.orderStates l).Perm l) (hinit : InitDepends T.isInit)
    {s g : GRSpec} {env sys : Option TsArg} {ignoreEnv ignoreSys rm : Bool} {solver : String} {solve : Solve ν}
    (hg : specPlusSys T.order s env sys ignoreEnv ignoreSys = .ok g) (hpick : T.solvers.pick solver = .ok solve)
    (hv : VarsOk g.envVars g.sysVars) {A : Strategy ν} (hs : solve g = .ok (some A))
    (hA : A.Good (Dict.update g.envVars g.sysVars))
    (hC : A.Complete (Dict.update g.envVars g.sysVars) (T.isInit g) T.sinit) (hL : rm = true → A.Live (T.isInit g)) :
    ∃ m, synthesize T s env sys ignoreEnv ignoreSys rm solver = .ok (some m) ∧
      ∀ n, n ∈ m.graph.initial ↔ n = T.sinit := by
  unfold synthesize
  rw [hg, ok_bind]
  exact synthesizeSpec_returns hostates hinit hpick hv hs hA hC hL

/-- **C81.** `synthesize_many` returns a machine if the solver returns such a strategy. -/
theorem synthesizeMany_returns {T : Tools ν} (hostates : ∀ l, (T.orderStates l).Perm l) (hinit : InitDepends T.isInit)
    {s g : GRSpec} {ts : Dict String TsArg} {ignore : List String} {solver : String} {solve : Solve ν}
    (hg : foldE (manyStep T.order (some ignore)) s ts = .ok g) (hpick : T.solvers.pick solver = .ok solve)
    (hv : VarsOk g.envVars g.sysVars) {A : Strategy ν} (hs : solve g = .ok (some A))
    (hA : A.Good (Dict.update g.envVars g.sysVars))
    (hC : A.Complete (Dict.update g.envVars g.sysVars) (T.isInit g) T.sinit) (hL : A.Live (T.isInit g)) :
    ∃ m, synthesizeMany T s ts (some ignore) solver = .ok (some m) ∧
      ∀ n, n ∈ m.graph.initial ↔ n = T.sinit := by
  unfold synthesizeMany
  rw [hg, ok_bind]
  exact synthesizeSpec_returns hostates hinit hpick hv hs hA hC fun _ => hL

/-- **C81.** A transition system that does not set options, or the same as the specification, is accepted with any
specification whose variables agree with those of the transition system. -/
theorem manyStep_accepts {order : List (List Char) → List (List Char)} {s g : GRSpec} {name : String} {t : TsArg}
    {ignore : List String} (ho : t.options = none ∨ t.options = some (s.moore, s.plusOne, s.qinit))
    (hs : ∀ x, x ∈ s.envVars.keys → x ∉ s.sysVars.keys)
    (he : ∀ x a b, s.envVars.get? x = some a → g.envVars.get? x = some b → a = b)
    (hy : ∀ x a b, s.sysVars.get? x = some a → g.sysVars.get? x = some b → a = b)
    (hg : match t.fts.owner with
      | .sys => sysToSpec order t.fts (decide (name ∈ ignore)) name false false = .ok g
      | .env => envToSpec t.fts (decide (name ∈ ignore)) name false false = .ok g) :
    ∃ r, manyStep order (some ignore) s (name, t) = .ok r := by
  unfold manyStep
  cases hw : t.fts.owner with
  | sys =>
    rw [hw] at hg
    simp only at hg ⊢
    rw [hg, ok_bind]
    exact union_succeeds hs (by rcases ho with ho | ho <;> simp only [copyOptions, ho] <;> simp)
      (by rcases ho with ho | ho <;> simp only [copyOptions, ho] <;> exact he)
      (by rcases ho with ho | ho <;> simp only [copyOptions, ho] <;> exact hy)
  | env =>
    rw [hw] at hg
    simp only at hg ⊢
    rw [hg, ok_bind]
    exact union_succeeds hs (by rcases ho with ho | ho <;> simp only [copyOptions, ho] <;> simp)
      (by rcases ho with ho | ho <;> simp only [copyOptions, ho] <;> exact he)
      (by rcases ho with ho | ho <;> simp only [copyOptions, ho] <;> exact hy)

/-! ## Examples -/

/-- The strategy `relay` of C31 meets the hypotheses. -/
theorem relay_complete : relay.Complete (Dict.update [("x", .boolean)] [("a", .strs ["go", "stop"])]) relayInit 9 ∧
    relay.Live relayInit := by
  refine ⟨⟨by simp [relay], by decide, by decide, ?_, by simp [relay], fun _ u st _ => ⟨_, rfl⟩⟩, ?_,
    0, [("x", .int 0), ("a", .int 1)], by simp [relay], rfl⟩
  · intro u st k t hm hk
    have hk' : Dict.get? [("x", Dom.boolean), ("a", .strs ["go", "stop"])] k = some t := hk
    rw [Dict.get?_cons, Dict.get?_cons] at hk'
    simp only [relay, List.mem_cons, Prod.mk.injEq, List.not_mem_nil, or_false] at hm
    split at hk'
    · rename_i h
      simp only at h
      subst h
      cases hk'
      rcases hm with ⟨_, rfl⟩ | ⟨_, rfl⟩ | ⟨_, rfl⟩
      · exact ⟨_, rfl, Or.inl rfl⟩
      · exact ⟨_, rfl, Or.inr rfl⟩
      · exact ⟨_, rfl, Or.inl rfl⟩
    · split at hk'
      · rename_i h
        simp only at h
        subst h
        cases hk'
        rcases hm with ⟨_, rfl⟩ | ⟨_, rfl⟩ | ⟨_, rfl⟩
        · exact ⟨_, rfl, 1, rfl, by decide⟩
        · exact ⟨_, rfl, 0, rfl, by decide⟩
        · exact ⟨_, rfl, 1, rfl, by decide⟩
      · cases hk'
  · intro u hu
    simp only [relay, Dict.keys, List.map_cons, List.map_nil, List.mem_cons, List.not_mem_nil, or_false] at hu
    rcases hu with rfl | rfl | rfl
    · exact ⟨1, by simp [relay]⟩
    · exact ⟨0, by simp [relay]⟩
    · exact ⟨2, by simp [relay]⟩

end Synth

end Tulip
