import Verif.Interfaces.Gr1c
import Verif.Synth.StrategyProps
import Verif.Spec.LtlFileProps

/-!
# The interface to `gr1c`

C56: the initial option. C78: strategies read from JSON. C79: messages of interactive sessions.
-/

namespace Tulip

namespace Iface

open Synth

/-! ## C56: the initial option -/

/-! ### Specification

The set of winning states is a relation between values `x` of the variables of the environment and values
`y` of those of the system. -/

/-- What `qinit` requires of the initial states, as documented for `GRSpec`, `form.py:325-383` (for
`plus_one` not set). -/
def QinitMeaning {X Y : Type} (qinit : List Char) (envInit sysInit win : X → Y → Prop) : Prop :=
  (qinit = c!"\\A \\A" ∧ ∀ x y, envInit x y → win x y) ∨
  (qinit = c!"\\A \\E" ∧ ∀ x, ∃ y, envInit x y → sysInit x y ∧ win x y) ∨
  (qinit = c!"\\E \\A" ∧ ∃ y, ∀ x, envInit x y → sysInit x y ∧ win x y) ∨
  (qinit = c!"\\E \\E" ∧ ∃ x y, sysInit x y ∧ win x y)

/-- What the solver checks for each option, as documented in the comments of `select_options`,
`gr1c.py:597-620`: with the option `ONE_SIDE_INIT`, a given condition of the environment is an assumption
about all initial states; if only a condition of the system is given, some initial state is chosen. -/
def OptionMeaning {X Y : Type} (envGiven : Bool) (envInit sysInit win : X → Y → Prop) :
    InitOption → Prop
  | .allEnvExistSysInit => ∀ x, ∃ y, envInit x y → sysInit x y ∧ win x y
  | .oneSideInit =>
    if envGiven then ∀ x y, envInit x y → win x y else ∃ x y, sysInit x y ∧ win x y

/-- The conjunction of clauses; `den` is the meaning of a clause. -/
def AllOf {X Y : Type} (den : List Char → X → Y → Prop) (l : List (List Char)) (x : X) (y : Y) : Prop :=
  ∀ c ∈ l, den c x y

/-! ### Theorems -/

/-- C56. The option is chosen exactly for the supported combinations. -/
theorem selectOptions_ok_iff (spec : GRSpec) (o : InitOption) :
    selectOptions spec = .ok o ↔ spec.moore = false ∧ spec.plusOne = false ∧
      ((spec.qinit = c!"\\A \\E" ∧ o = .allEnvExistSysInit) ∨
       (spec.qinit = c!"\\A \\A" ∧ spec.sysInit = [] ∧ o = .oneSideInit) ∨
       (spec.qinit = c!"\\E \\E" ∧ spec.envInit = [] ∧ o = .oneSideInit)) := by
  unfold selectOptions
  cases spec.moore
  case true => simp
  cases spec.plusOne
  case true => simp
  simp only [Bool.false_eq_true, if_false, true_and]
  split
  · next h => rw [h]; simp; exact eq_comm
  split
  · next h => rw [h]; simp
  split
  · next h =>
    rw [h]
    cases spec.sysInit <;> simp; exact eq_comm
  split
  · next h =>
    rw [h]
    cases spec.envInit <;> simp; exact eq_comm
  · next h1 _ h2 h3 => simp [h1, h2, h3]

/-- C56. The other combinations are rejected: `AssertionError` for Moore strategies, causal
implication and initial conditions that would be ignored, `ValueError` for the other values of `qinit`. -/
theorem selectOptions_error_iff (spec : GRSpec) (e : PyErr) :
    selectOptions spec = .error e ↔
      (e = .assertion ∧ (spec.moore = true ∨ spec.plusOne = true ∨
        (spec.qinit = c!"\\A \\A" ∧ spec.sysInit ≠ []) ∨ (spec.qinit = c!"\\E \\E" ∧ spec.envInit ≠ []))) ∨
      (e = .valueError ∧ spec.moore = false ∧ spec.plusOne = false ∧
        spec.qinit ∉ [c!"\\A \\E", c!"\\A \\A", c!"\\E \\E"]) := by
  unfold selectOptions
  cases spec.moore
  case true => simp; exact eq_comm
  cases spec.plusOne
  case true => simp; exact eq_comm
  simp only [Bool.false_eq_true, if_false, true_and, false_or]
  split
  · next h => rw [h]; simp
  split
  · next h => rw [h]; simp; exact eq_comm
  split
  · next h =>
    rw [h]
    cases spec.sysInit <;> simp; exact eq_comm
  split
  · next h =>
    rw [h]
    cases spec.envInit <;> simp; exact eq_comm
  · next h1 _ h2 h3 => simp [h1, h2, h3]; exact eq_comm

/-- C56. The option requires of the initial states what `qinit` requires, if the solver is given an initial
condition (with the option `ONE_SIDE_INIT`: of the environment if `qinit` is `\A \A`). -/
theorem selectOptions_meaning {X Y : Type} (den : List Char → X → Y → Prop) (win : X → Y → Prop)
    {spec : GRSpec} {o : InitOption} (h : selectOptions spec = .ok o)
    (hgiven : spec.qinit = c!"\\A \\A" → spec.envInit ≠ []) :
    OptionMeaning (!spec.envInit.isEmpty) (AllOf den spec.envInit) (AllOf den spec.sysInit) win o ↔
      QinitMeaning spec.qinit (AllOf den spec.envInit) (AllOf den spec.sysInit) win := by
  rw [selectOptions_ok_iff] at h
  obtain ⟨_, _, ⟨h, rfl⟩ | ⟨h, h', rfl⟩ | ⟨h, h', rfl⟩⟩ := h
  · rw [h]
    simp [OptionMeaning, QinitMeaning]
  · have hg := hgiven h
    rw [h]
    cases he : spec.envInit with
    | nil => exact absurd he hg
    | cons a l => simp [OptionMeaning, QinitMeaning]
  · rw [h, h']
    simp [OptionMeaning, QinitMeaning]

/-- A specification without initial conditions. -/
def noInit (qinit : List Char) : GRSpec :=
  { envVars := [("x", .boolean)], sysVars := [("y", .boolean)], envInit := [], sysInit := [],
    envSafety := [], sysSafety := [c!"y -> x"], envProg := [], sysProg := [c!"y"],
    moore := false, plusOne := false, qinit := qinit, formula := [] }

/-- The values `\A \A` and `\E \E` of `qinit`, without initial conditions, give the same option and the same
input for the solver, although they require different things. -/
theorem selectOptions_counterexample :
    selectOptions (noInit c!"\\A \\A") = .ok .oneSideInit ∧
    selectOptions (noInit c!"\\E \\E") = .ok .oneSideInit ∧
    (∀ q, { noInit q with qinit := [] } = noInit []) ∧
    ¬ QinitMeaning c!"\\A \\A" (AllOf (fun _ _ _ => True) []) (AllOf (fun _ _ _ => True) [])
      (fun x y : Bool => x = y) ∧
    QinitMeaning c!"\\E \\E" (AllOf (fun _ _ _ => True) []) (AllOf (fun _ _ _ => True) [])
      (fun x y : Bool => x = y) := by
  refine ⟨rfl, rfl, fun _ => rfl, ?_, ?_⟩
  · simp [QinitMeaning, AllOf]
  · refine .inr (.inr (.inr ⟨rfl, true, true, ?_, rfl⟩))
    simp [AllOf]

/-- A specification that is accepted. -/
example : selectOptions { noInit c!"\\A \\A" with envInit := [c!"x"] } = .ok .oneSideInit := rfl

example : selectOptions { noInit c!"\\A \\E" with envInit := [c!"x"], sysInit := [c!"y"] } =
    .ok .allEnvExistSysInit := rfl

/-! ## C78: strategies read from JSON -/

variable {ν δ V : Type} [DecidableEq ν]

/-! ### Specification -/

/-- A strategy as the solver prints it: variables with their domains, in the order of the entries of the
state vectors; nodes with state vector, successors and a mark of initial nodes. -/
structure Printed (ν δ V : Type) where
  env : List (String × δ)
  sys : List (String × δ)
  nodes : Dict ν (List V × List ν × Bool)

/-- The names of the variables. -/
def Printed.names (p : Printed ν δ V) : List String := (p.env ++ p.sys).map (·.1)

/-- A strategy: variables and nodes have distinct names, vectors give all variables values, edges lead to
nodes. -/
structure Printed.Ok (p : Printed ν δ V) : Prop where
  names : p.names.Nodup
  nodes : p.nodes.Wf
  states : ∀ u n, (u, n) ∈ p.nodes → n.1.length = p.names.length
  trans : ∀ u n, (u, n) ∈ p.nodes → ∀ v ∈ n.2.1, v ∈ p.nodes.keys

/-- The JSON data of a strategy. -/
def Printed.json (p : Printed ν δ V) : AutJson ν δ V :=
  { version := 1
    env := p.env.map fun x => [x]
    sys := p.sys.map fun x => [x]
    nodes := p.nodes.map fun x => (x.1, ⟨some x.2.1, some x.2.2.1, some x.2.2.2⟩) }

/-! ### Dictionaries and graphs -/

theorem dictOf_nodup {κ β : Type} [DecidableEq κ] {l : List (κ × β)} (h : (l.map (·.1)).Nodup) :
    dictOf l = l := by
  unfold dictOf Dict.update
  suffices H : ∀ acc : Dict κ β, (∀ p ∈ l, p.1 ∉ acc.map (·.1)) →
      l.foldl (fun d p => d.set p.1 p.2) acc = acc ++ l by
    simpa using H [] (by simp)
  induction l with
  | nil => intro acc _; simp
  | cons p l ih =>
    intro acc hacc
    rw [List.map_cons, List.nodup_cons] at h
    rw [List.foldl_cons, LtlFile.set_new _ _ _ (hacc p (by simp)), ih h.2]
    · simp
    · intro q hq
      have : q.1 ≠ p.1 := fun e => h.1 (e ▸ List.mem_map_of_mem hq)
      simp only [List.map_append, List.map_cons, List.map_nil, List.mem_append, List.mem_singleton]
      rintro (h' | h')
      · exact hacc q (by simp [hq]) h'
      · exact this h'

theorem mapE_firstItem (l : List (String × δ)) : mapE firstItem (l.map fun x => [x]) = .ok l := by
  induction l with
  | nil => rfl
  | cons x l ih =>
    rw [List.map_cons, mapE, ih]
    rfl

theorem statePairs_ok (l : List (String × δ)) (vec : List V) (h : vec.length = l.length) :
    statePairs (l.map fun x => [x]) vec = .ok ((l.map (·.1)).zip vec) := by
  induction l generalizing vec with
  | nil => rfl
  | cons x l ih =>
    cases vec with
    | nil => simp at h
    | cons v vec =>
      have e : statePairs (([x] : Dict String δ) :: l.map fun x => [x]) (v :: vec) =
          (statePairs (l.map fun x => [x]) vec).bind fun r => .ok ((x.1, v) :: r) := rfl
      rw [List.map_cons, e, ih vec (by simpa using h)]
      rfl

theorem map_fst_zip {β : Type} (l : List String) (vec : List β) (h : vec.length = l.length) :
    (l.zip vec).map (·.1) = l := by
  induction l generalizing vec with
  | nil => rfl
  | cons x l ih =>
    cases vec with
    | nil => simp at h
    | cons v vec => simp [ih vec (by simpa using h)]

/-- The state of a node. -/
def Printed.stateOf (p : Printed ν δ V) (vec : List V) : Attr V := p.names.zip vec

theorem foldE_loadNode {p : Printed ν δ V} (hn : p.names.Nodup) {l : Dict ν (List V × List ν × Bool)}
    (hl : (l.map (·.1)).Nodup) (hs : ∀ x ∈ l, x.2.1.length = p.names.length) (ini : List ν)
    (g : DiG ν (Attr V)) (hg : ∀ x ∈ l, x.1 ∉ g.nodes.map (·.1)) (hi : ∀ x ∈ l, x.1 ∉ ini) :
    foldE (loadNode (p.json.env ++ p.json.sys)) (ini, g) (l.map fun x => (x.1, ⟨some x.2.1, some x.2.2.1, some x.2.2.2⟩)) =
      .ok (ini ++ (l.filter fun x => x.2.2.2).map (·.1),
        ⟨g.nodes ++ l.map fun x => (x.1, some (p.stateOf x.2.1)), g.edges⟩) := by
  induction l generalizing ini g with
  | nil => simp [foldE]
  | cons x l ih =>
    obtain ⟨u, vec, tr, b⟩ := x
    rw [List.map_cons, List.nodup_cons] at hl
    have h1 : statePairs (p.json.env ++ p.json.sys) vec = .ok (p.names.zip vec) := by
      have := statePairs_ok (p.env ++ p.sys) vec (by simpa [Printed.names] using hs _ (List.mem_cons_self ..))
      simpa [Printed.json, Printed.names] using this
    have h2 : dictOf (p.names.zip vec) = p.names.zip vec := by
      apply dictOf_nodup
      rw [map_fst_zip _ _ (hs (u, vec, tr, b) (List.mem_cons_self ..))]
      exact hn
    have h3 : loadNode (p.json.env ++ p.json.sys) (ini, g) (u, ⟨some vec, some tr, some b⟩) =
        .ok (if b && !decide (u ∈ ini) then ini ++ [u] else ini, g.addNode u (p.names.zip vec)) := by
      have e : loadNode (p.json.env ++ p.json.sys) (ini, g) (u, ⟨some vec, some tr, some b⟩) =
          (statePairs (p.json.env ++ p.json.sys) vec).bind fun l =>
            .ok (if b && !decide (u ∈ ini) then ini ++ [u] else ini, g.addNode u (dictOf l)) := rfl
      rw [e, h1]
      show Except.ok _ = _
      rw [h2]
    have hu : u ∉ ini := hi (u, vec, tr, b) (List.mem_cons_self ..)
    have hg' : g.addNode u (p.names.zip vec) = ⟨g.nodes ++ [(u, some (p.stateOf vec))], g.edges⟩ := by
      unfold DiG.addNode
      rw [LtlFile.set_new _ _ _ (hg (u, vec, tr, b) (List.mem_cons_self ..))]
      rfl
    have hne : ∀ y ∈ l, y.1 ≠ u := fun y hy e => by
      have : y.1 ∈ l.map (·.1) := List.mem_map_of_mem (f := Prod.fst) hy
      rw [e] at this
      exact hl.1 this
    rw [List.map_cons, foldE, h3, ok_bind, hg', ih hl.2 (fun y hy => hs y (by simp [hy]))]
    · cases b
      · simp
      · simp [hu]
    · intro y hy h'
      simp only [List.map_append, List.map_cons, List.map_nil, List.mem_append, List.mem_singleton] at h'
      rcases h' with h' | h'
      · exact hg y (by simp [hy]) h'
      · exact hne y hy h'
    · intro y hy h'
      split at h'
      · rcases List.mem_append.mp h' with h' | h'
        · exact hi y (by simp [hy]) h'
        · exact hne y hy (List.mem_singleton.mp h')
      · exact hi y (by simp [hy]) h'

theorem touch_eq {α : Type} {g : DiG ν α} {u : ν} (h : u ∈ g.nodes.keys) : g.touch u = g := by
  unfold DiG.touch
  rw [if_pos]
  rw [Dict.has_iff, ← Dict.mem_keys_iff]
  exact h

theorem addEdge_eq {α : Type} {g : DiG ν α} {u v : ν} (hu : u ∈ g.nodes.keys) (hv : v ∈ g.nodes.keys) :
    (g.addEdge u v).nodes = g.nodes ∧ (∀ e, e ∈ (g.addEdge u v).edges ↔ e ∈ g.edges ∨ e = (u, v)) ∧
    (g.edges.Nodup → (g.addEdge u v).edges.Nodup) := by
  unfold DiG.addEdge
  rw [touch_eq hu, touch_eq hv]
  simp only
  split
  · next h =>
    refine ⟨rfl, fun e => ⟨.inl, ?_⟩, id⟩
    rintro (h' | rfl)
    exacts [h', h]
  · next h =>
    refine ⟨rfl, fun e => by simp, fun hn => ?_⟩
    rw [List.nodup_append]
    refine ⟨hn, by simp, ?_⟩
    rintro a ha b hb rfl
    rw [List.mem_singleton] at hb
    exact h (hb ▸ ha)

theorem addEdges_eq {α : Type} {u : ν} (l : List ν) (g : DiG ν α) (hu : u ∈ g.nodes.keys)
    (hl : ∀ v ∈ l, v ∈ g.nodes.keys) :
    (l.foldl (fun g v => g.addEdge u v) g).nodes = g.nodes ∧
    (∀ e, e ∈ (l.foldl (fun g v => g.addEdge u v) g).edges ↔ e ∈ g.edges ∨ (e.1 = u ∧ e.2 ∈ l)) ∧
    (g.edges.Nodup → (l.foldl (fun g v => g.addEdge u v) g).edges.Nodup) := by
  induction l generalizing g with
  | nil => simp
  | cons v l ih =>
    obtain ⟨h1, h2, h3⟩ := addEdge_eq hu (hl v (by simp))
    obtain ⟨h4, h5, h6⟩ := ih (g.addEdge u v) (by rw [h1]; exact hu)
      (fun w hw => by rw [h1]; exact hl w (by simp [hw]))
    refine ⟨h4.trans h1, fun e => ?_, fun h => h6 (h3 h)⟩
    rw [List.foldl_cons, h5, h2]
    obtain ⟨a, b⟩ := e
    simp only [Prod.mk.injEq, List.mem_cons]
    tauto

theorem foldE_loadEdges {l : Dict ν (List V × List ν × Bool)} (g : DiG ν (Attr V))
    (hl : ∀ x ∈ l, x.1 ∈ g.nodes.keys ∧ ∀ v ∈ x.2.2.1, v ∈ g.nodes.keys) :
    ∃ E, foldE loadEdges g (l.map fun x => (x.1, ⟨some x.2.1, some x.2.2.1, some x.2.2.2⟩)) =
        .ok ⟨g.nodes, E⟩ ∧
      (∀ e, e ∈ E ↔ e ∈ g.edges ∨ ∃ x ∈ l, e.1 = x.1 ∧ e.2 ∈ x.2.2.1) ∧ (g.edges.Nodup → E.Nodup) := by
  induction l generalizing g with
  | nil => exact ⟨g.edges, rfl, by simp, id⟩
  | cons x l ih =>
    obtain ⟨h0, h0'⟩ := hl x (by simp)
    obtain ⟨h1, h2, h3⟩ := addEdges_eq x.2.2.1 g h0 h0'
    obtain ⟨E, h4, h5, h6⟩ := ih (x.2.2.1.foldl (fun g v => g.addEdge x.1 v) g)
      (fun y hy => by rw [h1]; exact hl y (by simp [hy]))
    refine ⟨E, ?_, fun e => ?_, fun h => h6 (h3 h)⟩
    · rw [List.map_cons, foldE]
      show foldE loadEdges (x.2.2.1.foldl (fun g v => g.addEdge x.1 v) g) _ = _
      rw [h4, h1]
    · rw [h5, h2]
      simp only [List.mem_cons, exists_eq_or_imp]
      tauto

/-- C78. The graph has the nodes, the successors and the initial nodes of the strategy, and the state of each
node gives each variable its entry in the vector: those of the environment come first. -/
theorem loadAutJson_spec {p : Printed ν δ V} (h : p.Ok) :
    ∃ g, loadAutJson p.json = .ok g ∧ g.envVars = p.env ∧ g.sysVars = p.sys ∧
      g.graph.nodes = p.nodes.map (fun x => (x.1, some (p.names.zip x.2.1))) ∧
      (∀ u, u ∈ g.initialNodes ↔ ∃ n, (u, n) ∈ p.nodes ∧ n.2.2 = true) ∧
      (∀ u v, (u, v) ∈ g.graph.edges ↔ ∃ n, (u, n) ∈ p.nodes ∧ v ∈ n.2.1) ∧ g.graph.edges.Nodup := by
  have hnd := h.names
  unfold Printed.names at hnd
  rw [List.map_append, List.nodup_append] at hnd
  have h1 := foldE_loadNode h.names (l := p.nodes) h.nodes (fun x hx => h.states x.1 x.2 hx) [] DiG.empty
    (by intro x _; simp [DiG.empty]) (by simp)
  obtain ⟨E, h2, h3, h4⟩ := foldE_loadEdges (l := p.nodes)
    (⟨p.nodes.map fun x => (x.1, some (p.stateOf x.2.1)), []⟩ : DiG ν (Attr V)) (by
      intro x hx
      have hk : Dict.keys (p.nodes.map fun x => (x.1, some (p.stateOf x.2.1))) = p.nodes.keys := by
        simp [Dict.keys]
      show x.1 ∈ Dict.keys (p.nodes.map fun x => (x.1, some (p.stateOf x.2.1))) ∧ ∀ v ∈ _,
        v ∈ Dict.keys (p.nodes.map fun x => (x.1, some (p.stateOf x.2.1)))
      rw [hk]
      exact ⟨List.mem_map_of_mem (f := Prod.fst) hx, h.trans x.1 x.2 hx⟩)
  refine ⟨⟨p.env, p.sys, (p.nodes.filter fun x => x.2.2.2).map (·.1),
    ⟨p.nodes.map fun x => (x.1, some (p.stateOf x.2.1)), E⟩⟩, ?_, rfl, rfl, rfl, ?_, ?_, h4 List.nodup_nil⟩
  · unfold loadAutJson
    have e1 : mapE firstItem p.json.env = .ok p.env := mapE_firstItem p.env
    have e2 : mapE firstItem p.json.sys = .ok p.sys := mapE_firstItem p.sys
    have e3 : foldE (loadNode (p.json.env ++ p.json.sys)) ([], DiG.empty) p.json.nodes = _ := h1
    rw [if_neg (by simp [Printed.json])]
    simp only [e1, e2, e3, ok_bind]
    have e4 : foldE loadEdges ⟨p.nodes.map fun x => (x.1, some (p.stateOf x.2.1)), []⟩ p.json.nodes = _ := h2
    simp only [DiG.empty, List.nil_append]
    rw [e4, dictOf_nodup hnd.1, dictOf_nodup hnd.2.1]
    rfl
  · intro u
    simp only [List.mem_map, List.mem_filter]
    constructor
    · rintro ⟨x, ⟨hx, hb⟩, rfl⟩
      exact ⟨x.2, hx, hb⟩
    · rintro ⟨n, hx, hb⟩
      exact ⟨(u, n), ⟨hx, hb⟩, rfl⟩
  · intro u v
    rw [h3]
    constructor
    · rintro (h' | ⟨x, hx, rfl, hv⟩)
      · cases h'
      · exact ⟨x.2, hx, hv⟩
    · rintro ⟨n, hx, hv⟩
      exact .inr ⟨(u, n), hx, rfl, hv⟩

/-- C78. Other versions of the format are rejected. -/
theorem loadAutJson_version {j : AutJson ν δ V} (h : j.version ≠ 1) : loadAutJson j = .error .valueError := by
  unfold loadAutJson
  rw [if_pos h]

/-- C78. The strategy meets what the construction of the Mealy machine requires. -/
theorem loadAutJson_good {p : Printed ν δ Synth.Elem} (h : p.Ok) {vars : Dict String Dom}
    (hpos : ∀ u n, (u, n) ∈ p.nodes → ∀ k l z, vars.get? k = some (.strs l) →
      (k, Synth.Elem.int z) ∈ p.names.zip n.1 → 0 ≤ z) {g : AutGraph ν δ Synth.Elem}
    (hg : loadAutJson p.json = .ok g) :
    g.strategy.Good vars ∧ g.strategy.nodes = p.nodes.map (fun x => (x.1, p.names.zip x.2.1)) ∧
      (∀ u v, (u, v) ∈ g.strategy.edges ↔ ∃ n, (u, n) ∈ p.nodes ∧ v ∈ n.2.1) ∧
      ∀ isInit u, IsInitial g.strategy isInit u ↔ ∃ n, (u, n) ∈ p.nodes ∧ n.2.2 = true := by
  obtain ⟨g', h1, _, _, h2, h3, h4, h5⟩ := loadAutJson_spec h
  rw [hg] at h1
  obtain rfl : g = g' := by injection h1
  have hn : g.strategy.nodes = p.nodes.map (fun x => (x.1, p.names.zip x.2.1)) := by
    unfold AutGraph.strategy
    rw [h2, List.filterMap_map]
    simp only [Function.comp_def, Option.map_some]
    exact congrFun List.filterMap_eq_map _
  have hk : g.strategy.nodes.keys = p.nodes.keys := by rw [hn]; simp [Dict.keys]
  refine ⟨⟨?_, ?_, ?_, h5, ?_⟩, hn, h4, fun _ u => h3 u⟩
  · unfold Dict.Wf
    rw [hk]
    exact h.nodes
  · intro u st hm
    rw [hn] at hm
    obtain ⟨x, hx, e⟩ := List.mem_map.mp hm
    cases e
    show List.Nodup _
    unfold Dict.keys
    rw [map_fst_zip _ _ (h.states x.1 x.2 hx)]
    exact h.names
  · rintro ⟨u, v⟩ he
    rw [hk]
    obtain ⟨n, hx, _⟩ := (h4 u v).mp he
    exact List.mem_map_of_mem (f := Prod.fst) hx
  · intro u st k z l hm hl hget
    rw [hn] at hm
    obtain ⟨x, hx, e⟩ := List.mem_map.mp hm
    cases e
    have : (k, Synth.Elem.int z) ∈ p.names.zip x.2.1 := by
      unfold Dict.get? at hget
      obtain ⟨q, hq, e⟩ := Option.map_eq_some_iff.mp hget
      have h6 := List.mem_of_find?_eq_some hq
      have h7 := List.find?_some hq
      have h8 : q.1 = k := by simpa using h7
      rw [← h8, ← e]
      exact h6
    exact hpos x.1 x.2 hx k l z hl this

/-- A strategy of two nodes. -/
def printed : Printed Nat String Synth.Elem :=
  { env := [("x", "boolean")], sys := [("y", "boolean"), ("z", "boolean")]
    nodes := [(0, [.int 0, .int 1, .int 0], [1, 1, 0], true), (1, [.int 1, .int 0, .int 0], [0], false)] }

theorem printed_ok : printed.Ok :=
  ⟨by decide, by unfold Dict.Wf; decide, by
    intro u n h
    simp only [printed, List.mem_cons, Prod.mk.injEq, List.not_mem_nil, or_false] at h
    rcases h with ⟨_, rfl⟩ | ⟨_, rfl⟩ <;> rfl, by
    intro u n h
    simp only [printed, List.mem_cons, Prod.mk.injEq, List.not_mem_nil, or_false] at h
    rcases h with ⟨_, rfl⟩ | ⟨_, rfl⟩ <;> decide⟩

example : ((loadAutJson printed.json).toOption.map fun g => (g.graph.edges, g.initialNodes)) =
    some ([(0, 1), (0, 0), (1, 0)], [0]) := by decide +kernel

end Iface

end Tulip
