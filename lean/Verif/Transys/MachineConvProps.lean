import Verif.Transys.MachineRunProps
import Mathlib.Data.List.Perm.Subperm

/-!
# C18, C19, C20: conversions between Moore and Mealy machines, and removal of ports
-/

namespace Tulip
namespace Mach
open LGraph

variable {ν V : Type} [DecidableEq ν] [DecidableEq V]

/-! ### Dictionaries -/

theorem set_absent {κ α : Type} [DecidableEq κ] (d : Dict κ α) (k : κ) (v : α) (h : k ∉ d.keys) :
    d.set k v = d ++ [(k, v)] := by
  induction d with
  | nil => rfl
  | cons p d ih =>
    have h1 : ¬ p.1 = k := fun e => h (by simp [Dict.keys, e])
    have h2 : k ∉ Dict.keys d := fun e => h (by simp only [Dict.keys, List.map_cons, List.mem_cons]; exact .inr e)
    rw [show (p :: d) = (p.1, p.2) :: d from rfl, Dict.set, if_neg h1, ih h2]
    rfl

theorem set_same {κ α : Type} [DecidableEq κ] (d : Dict κ α) (k : κ) (v : α) (h : d.get? k = some v) :
    d.set k v = d := by
  induction d with
  | nil => simp at h
  | cons p d ih =>
    rw [Dict.get?_cons] at h
    by_cases hp : p.1 = k
    · rw [if_pos hp] at h
      cases h
      rw [show (p :: d) = (p.1, p.2) :: d from rfl, Dict.set, if_pos hp]
    · rw [if_neg hp] at h
      rw [show (p :: d) = (p.1, p.2) :: d from rfl, Dict.set, if_neg hp, ih h]

theorem update_disjoint {κ α : Type} [DecidableEq κ] (d e : Dict κ α) (he : e.Wf)
    (h : ∀ k ∈ e.keys, k ∉ d.keys) : d.update e = d ++ e := by
  induction e generalizing d with
  | nil => simp [Dict.update]
  | cons p e ih =>
    have hp : p.1 ∉ Dict.keys e ∧ Dict.Wf e := by simpa [Dict.Wf, Dict.keys] using he
    have e1 : Dict.update d (p :: e) = Dict.update (d.set p.1 p.2) e := rfl
    rw [e1, set_absent d p.1 p.2 (h p.1 (by simp [Dict.keys])), ih _ hp.2]
    · simp
    · intro k hk hm
      simp only [Dict.keys, List.map_append, List.map_cons, List.map_nil, List.mem_append,
        List.mem_singleton] at hm
      rcases hm with hm | rfl
      · exact h k (by simp only [Dict.keys, List.map_cons, List.mem_cons]; exact .inr hk) hm
      · exact hp.1 hk

theorem update_nil_wf {κ α : Type} [DecidableEq κ] {a : Dict κ α} (h : a.Wf) :
    Dict.update [] a = a := by
  rw [update_disjoint [] a h (by simp [Dict.keys])]; rfl

theorem update_self {κ α : Type} [DecidableEq κ] {d : Dict κ α} (e : Dict κ α)
    (h : ∀ p ∈ e, d.get? p.1 = some p.2) : d.update e = d := by
  induction e with
  | nil => rfl
  | cons p e ih =>
    have e1 : Dict.update d (p :: e) = Dict.update (d.set p.1 p.2) e := rfl
    rw [e1, set_same d p.1 p.2 (h p (by simp)), ih fun q hq => h q (by simp [hq])]

theorem wf_filter {κ α : Type} [DecidableEq κ] {d : Dict κ α} (h : d.Wf) (f : κ × α → Bool) :
    Dict.Wf (d.filter f) :=
  List.Nodup.sublist (List.Sublist.map _ List.filter_sublist) h

/-! ### Ports -/

theorem get?_typesOf (ports : Ports V) (k : String) : (typesOf ports).get? k =
    (ports.get? k).map fun vs => { contains := fun v => decide (v ∈ vs) } := by
  induction ports with
  | nil => rfl
  | cons p ports ih =>
    have e : typesOf (p :: ports) = (p.1, { contains := fun v => decide (v ∈ p.2) }) :: typesOf ports := rfl
    rw [e, Dict.get?_cons, Dict.get?_cons, ih]
    split <;> rfl

theorem keys_typesOf (ports : Ports V) : (typesOf ports).keys = ports.keys := by
  simp [typesOf, Dict.keys, Function.comp_def]

theorem has_typesOf (ports : Ports V) (k : String) : (typesOf ports).has k = ports.has k := by
  rw [Bool.eq_iff_iff, ← mem_keys_iff_has, ← mem_keys_iff_has, keys_typesOf]

theorem wf_typesOf {ports : Ports V} (h : ports.Wf) : (typesOf ports).Wf := by
  rw [Dict.Wf, keys_typesOf]; exact h

/-- The values that the ports allow. -/
def Allowed (ports : Ports V) (k : String) (v : V) : Prop := ∃ vs, ports.get? k = some vs ∧ v ∈ vs

/-- A Mealy machine as its class builds it: the invariant of its graph (`LGraph.run_ok`), ports with
distinct names, and labels whose keys are ports (as long as `check=False` is not used). -/
structure MealyOk (m : Machine ν V) : Prop where
  graph : m.graph.Ok
  types : m.graph.edgeTypes = Dict.update (Dict.update [] (typesOf m.inputs)) (typesOf m.outputs)
  defaults : m.graph.edgeDefaults = []
  inputs : m.inputs.Wf
  outputs : m.outputs.Wf
  disjoint : ∀ k, m.inputs.has k = true → m.outputs.has k = false
  keys : ∀ e ∈ m.graph.edges, ∀ k, e.2.2.has k = true → m.inputs.has k = true ∨ m.outputs.has k = true

/-- A Moore machine as its class builds it. -/
structure MooreOk (m : Machine ν V) : Prop where
  graph : m.graph.Ok
  edgeTypes : m.graph.edgeTypes = Dict.update [] (typesOf m.inputs)
  nodeTypes : ∀ k vs, m.outputs.get? k = some vs →
    m.graph.nodeTypes.get? k = some { contains := fun v => decide (v ∈ vs) }
  defaults : m.graph.edgeDefaults = []
  inputs : m.inputs.Wf
  outputs : m.outputs.Wf
  disjoint : ∀ k, m.inputs.has k = true → m.outputs.has k = false
  keys : ∀ e ∈ m.graph.edges, ∀ k, e.2.2.has k = true → m.inputs.has k = true

theorem get?_mealyTypes {ins outs : Ports V} (h1 : ins.Wf) (h2 : outs.Wf) (k : String) :
    (Dict.update (Dict.update [] (typesOf ins)) (typesOf outs)).get? k =
      ((typesOf outs).get? k).or ((typesOf ins).get? k) := by
  rw [Dict.get?_update_wf (wf_typesOf h2), update_nil_wf (wf_typesOf h1)]

theorem typed_mealy {ins outs : Ports V} (h1 : ins.Wf) (h2 : outs.Wf)
    (hd : ∀ k, ins.has k = true → outs.has k = false) (a : Attr V) :
    Typed (Dict.update (Dict.update [] (typesOf ins)) (typesOf outs)) a ↔
      ∀ p ∈ a, ∀ vs, ins.get? p.1 = some vs ∨ outs.get? p.1 = some vs → p.2 ∈ vs := by
  unfold Typed
  refine forall₂_congr fun p _ => ?_
  rw [get?_mealyTypes h1 h2, get?_typesOf, get?_typesOf]
  cases ho : outs.get? p.1 with
  | none =>
    cases hi : ins.get? p.1 with
    | none => simp
    | some vs => simp
  | some vs =>
    have : ins.get? p.1 = none := by
      cases hi : ins.get? p.1 with
      | none => rfl
      | some us =>
        have := hd p.1 ((Dict.has_iff _ _).2 ⟨us, hi⟩)
        rw [(Dict.has_iff _ _).2 ⟨vs, ho⟩] at this
        cases this
    simp [this]

theorem has_mealyTypes (ins outs : Ports V) (k : String) :
    (Dict.update (Dict.update [] (typesOf ins)) (typesOf outs)).has k = true ↔
      ins.has k = true ∨ outs.has k = true := by
  have gen : ∀ (d e : Dict String (LabelType V)), (d.update e).has k = (d.has k || Dict.has e k) := by
    intro d e
    induction e generalizing d with
    | nil => simp [Dict.update, Dict.has]
    | cons p e ih =>
      have e1 : Dict.update d (p :: e) = Dict.update (d.set p.1 p.2) e := rfl
      rw [e1, ih]
      have h2 : Dict.has (p :: e) k = ((p.1 == k) || Dict.has e k) := by simp [Dict.has]
      have h1 : (d.set p.1 p.2).has k = ((p.1 == k) || d.has k) := by
        rw [has_eq, Dict.get?_set, has_eq]
        by_cases hk : p.1 = k <;> simp [hk]
      rw [h1, h2]
      cases (p.1 == k) <;> cases d.has k <;> simp
  rw [gen, gen, has_typesOf, has_typesOf]
  simp [Dict.has]

/-! ### Building graphs -/

theorem addNode_plain {g : LGraph ν V} (hd : g.nodeDefaults = []) {a : Attr V} (hw : a.Wf)
    (ht : Typed g.nodeTypes a) (hk : ∀ k, a.has k = true → g.nodeTypes.has k = true) (n : ν) :
    g.addNode n a = .ok { g with nodes := g.nodes.set n (((g.nodes.get? n).getD []).update a) } := by
  have h0 : Typed g.nodeTypes g.nodeDefaults := by rw [hd]; simp [Typed]
  have h1 : typedAttr g.nodeTypes g.nodeDefaults a = .ok a := by
    rw [typedAttr_ok h0 ht, hd, show Dict.update ([] : Attr V) [] = [] from rfl, update_nil_wf hw]
  have h2 : untyped g.nodeTypes a true = false := by
    simp only [untyped, Bool.true_and]
    rw [List.any_eq_false]
    intro p hp
    have := hk p.1 ((mem_keys_iff_has a p.1).1 (List.mem_map.2 ⟨p, hp, rfl⟩))
    simp [this]
  simp [addNode, h1, h2]

theorem copyNodes_spec {g : LGraph ν V} (hd : g.nodeDefaults = []) (ns : List ν) :
    ∃ nodes, copyNodes g ns = ({ g with nodes := nodes }, none) ∧
      (∀ n, Dict.has nodes n = true ↔ g.hasNode n = true ∨ n ∈ ns) := by
  unfold copyNodes addNodesFrom
  induction ns generalizing g with
  | nil => exact ⟨g.nodes, rfl, fun n => by simp [hasNode]⟩
  | cons n ns ih =>
    have h1 := addNode_plain hd (a := []) (by simp [Dict.Wf, Dict.keys]) (by simp [Typed])
      (by simp [Dict.has]) n
    obtain ⟨nodes, h2, h3⟩ := ih
      (g := { g with nodes := g.nodes.set n (((g.nodes.get? n).getD []).update []) }) hd
    refine ⟨nodes, ?_, fun m => ?_⟩
    · simp only [List.map_cons, seqM, h1]
      exact h2
    · rw [h3, hasNode_addNode]
      simp only [Bool.or_eq_true, decide_eq_true_eq, List.mem_cons]
      constructor
      · rintro ((rfl | h) | h)
        · exact .inr (.inl rfl)
        · exact .inl h
        · exact .inr (.inr h)
      · rintro (h | rfl | h)
        · exact .inl (.inr h)
        · exact .inl (.inl rfl)
        · exact .inr h

theorem uniqueLoop_nodup {α : Type} [DecidableEq α] (acc l : List α) (h : (acc ++ l).Nodup) :
    uniqueLoop acc l = acc ++ l := by
  induction l generalizing acc with
  | nil => simp [uniqueLoop]
  | cons x l ih =>
    have hx : x ∉ acc := fun hm => (List.nodup_append.1 h).2.2 x hm x (by simp) rfl
    have := ih (acc ++ [x]) (by simpa using h)
    simp only [uniqueLoop, hx]
    simpa using this

theorem addInitialFrom_spec {g : LGraph ν V} (hi : g.initial = []) {l : List ν} (hl : l.Nodup)
    (h : ∀ n ∈ l, g.hasNode n = true) : g.addInitialFrom l = .ok { g with initial := l } := by
  have : l.all g.hasNode = true := List.all_eq_true.2 h
  simp only [addInitialFrom, this, if_true, hi]
  rw [uniqueLoop_nodup [] l (by simpa using hl)]
  rfl

/-- An unlabeled edge is the last between its states. -/
def NoMix (es : List (ν × ν × Attr V)) : Prop :=
  es.Pairwise fun e f => e.1 = f.1 → e.2.1 = f.2.1 → e.2.2 ≠ []

/-- Adding edges between states, with labels that the types allow: exactly these edges are added, up
to repetition; `Exception` is raised if and only if an edge follows an unlabeled one between the same
states. -/
theorem addEdges_spec (es : List (ν × ν × Attr V)) {g : LGraph ν V} (hd : g.edgeDefaults = [])
    (hn : ∀ e ∈ es, g.hasNode e.1 = true ∧ g.hasNode e.2.1 = true)
    (ht : ∀ e ∈ es, Typed g.edgeTypes e.2.2)
    (hk : ∀ e ∈ es, ∀ k, e.2.2.has k = true → g.edgeTypes.has k = true)
    (hw : ∀ e ∈ es, e.2.2.Wf) :
    (NoMix es → (∀ e ∈ g.edges, ∀ f ∈ es, e.1 = f.1 → e.2.1 = f.2.1 → e.2.2 ≠ []) →
      ∃ es', seqM (fun g e => g.addEdge e.1 e.2.1 e.2.2) g es = ({ g with edges := es' }, none) ∧
        (∀ e ∈ es', e ∈ g.edges ∨ e ∈ es) ∧ (∀ e ∈ g.edges, e ∈ es') ∧
        (∀ e ∈ es, ∃ a, (e.1, e.2.1, a) ∈ es' ∧ SameAttr e.2.2 a)) ∧
    ((¬ NoMix es ∨ ∃ e ∈ g.edges, ∃ f ∈ es, e.1 = f.1 ∧ e.2.1 = f.2.1 ∧ e.2.2 = []) →
      (seqM (fun g e => g.addEdge e.1 e.2.1 e.2.2) g es).2 = some .exception) := by
  induction es generalizing g with
  | nil =>
    refine ⟨fun _ _ => ⟨g.edges, rfl, fun e he => .inl he, fun e he => he, by simp⟩, ?_⟩
    rintro (h | ⟨e, _, f, hf, _⟩)
    · exact absurd List.Pairwise.nil h
    · simp at hf
  | cons e es ih =>
    have hdt : Typed g.edgeTypes g.edgeDefaults := by rw [hd]; simp [Typed]
    have hchk : ∀ k, ((Dict.update [] g.edgeDefaults).update e.2.2).has k = true →
        g.edgeTypes.has k = true := by
      intro k h
      rw [hd, show Dict.update ([] : Attr V) [] = [] from rfl, update_nil_wf (hw e (by simp))] at h
      exact hk e (by simp) k h
    have hnew : (Dict.update [] g.edgeDefaults).update e.2.2 = e.2.2 := by
      rw [hd, show Dict.update ([] : Attr V) [] = [] from rfl, update_nil_wf (hw e (by simp))]
    constructor
    · intro hmix hcross
      have hne : ∀ d ∈ g.edgeData e.1 e.2.1, d.isEmpty = false := by
        intro d hdm
        have := hcross _ (mem_edgeData.1 hdm) e (by simp) rfl rfl
        cases d with
        | nil => exact absurd rfl this
        | cons => rfl
      rcases addEdge_ok (check := true) (hn e (by simp)).1 (hn e (by simp)).2 hdt (ht e (by simp)) hne
        (fun _ => hchk) with ⟨⟨d, hdm, hs⟩, h1⟩ | ⟨_, h1⟩
      · obtain ⟨es', k1, k2, k3, k4⟩ := (ih hd (fun e h => hn e (by simp [h])) (fun e h => ht e (by simp [h]))
          (fun e h => hk e (by simp [h])) (fun e h => hw e (by simp [h]))).1
          (List.pairwise_cons.1 hmix).2 (fun e h f hf => hcross e h f (by simp [hf]))
        refine ⟨es', by simp only [seqM, h1]; exact k1, ?_, k3, ?_⟩
        · intro f hf
          rcases k2 f hf with h | h
          · exact .inl h
          · exact .inr (by simp [h])
        · intro f hf
          rcases List.mem_cons.1 hf with rfl | hf
          · exact ⟨d, k3 _ (mem_edgeData.1 hdm), hs⟩
          · exact k4 f hf
      · rw [hnew] at h1
        obtain ⟨es', k1, k2, k3, k4⟩ := (ih (g := { g with edges := g.edges ++ [(e.1, e.2.1, e.2.2)] }) hd
          (fun e h => hn e (by simp [h])) (fun e h => ht e (by simp [h]))
          (fun e h => hk e (by simp [h])) (fun e h => hw e (by simp [h]))).1
          (List.pairwise_cons.1 hmix).2 (fun f h f' hf' => by
            rcases List.mem_append.1 h with h | h
            · exact hcross f h f' (by simp [hf'])
            · rw [List.mem_singleton] at h; subst h
              exact (List.pairwise_cons.1 hmix).1 f' hf')
        refine ⟨es', by simp only [seqM, h1]; exact k1, ?_, ?_, ?_⟩
        · intro f hf
          rcases k2 f hf with h | h
          · rcases List.mem_append.1 h with h | h
            · exact .inl h
            · exact .inr (by rw [List.mem_singleton.1 h]; simp)
          · exact .inr (by simp [h])
        · exact fun f hf => k3 f (by simp [hf])
        · intro f hf
          rcases List.mem_cons.1 hf with rfl | hf
          · exact ⟨f.2.2, k3 _ (by simp), fun _ => rfl⟩
          · exact k4 f hf
    · intro hbad
      by_cases hemp : ∃ d ∈ g.edgeData e.1 e.2.1, d.isEmpty = true
      · have : (g.edgeData e.1 e.2.1).any (fun d => d.isEmpty) = true := List.any_eq_true.2 hemp
        simp only [seqM, addEdge, (hn e (by simp)).1, (hn e (by simp)).2, Bool.not_true,
          Bool.false_eq_true, if_false, typedAttr_ok hdt (ht e (by simp)), ok_bind, this, if_true]
      · have hne : ∀ d ∈ g.edgeData e.1 e.2.1, d.isEmpty = false := by
          intro d hdm
          cases hde : d.isEmpty with
          | false => rfl
          | true => exact absurd ⟨d, hdm, hde⟩ hemp
        have hcross1 : ∀ f ∈ g.edges, f.1 = e.1 → f.2.1 = e.2.1 → f.2.2 ≠ [] := by
          rintro ⟨a, b, c⟩ hf rfl rfl hc
          simp only at hc
          subst hc
          exact absurd (hne [] (mem_edgeData.2 hf)) (by simp)
        rcases addEdge_ok (check := true) (hn e (by simp)).1 (hn e (by simp)).2 hdt (ht e (by simp)) hne
          (fun _ => hchk) with ⟨⟨d, hdm, hs⟩, h1⟩ | ⟨_, h1⟩
        · have hene : e.2.2 ≠ [] := by
            intro he
            rw [he] at hs
            have : d.isEmpty = true := get?_eq_none_of_isEmpty.2 fun k => (hs k).symm
            rw [hne d hdm] at this
            cases this
          simp only [seqM, h1]
          refine (ih hd (fun e h => hn e (by simp [h])) (fun e h => ht e (by simp [h]))
            (fun e h => hk e (by simp [h])) (fun e h => hw e (by simp [h]))).2 ?_
          rcases hbad with hbad | ⟨f, hf, f', hf', h2, h3, h4⟩
          · left
            intro hm
            exact hbad (List.pairwise_cons.2 ⟨fun f hf _ _ => hene, hm⟩)
          · rcases List.mem_cons.1 hf' with rfl | hf'
            · exact absurd h4 (hcross1 f hf h2 h3)
            · exact .inr ⟨f, hf, f', hf', h2, h3, h4⟩
        · rw [hnew] at h1
          simp only [seqM, h1]
          refine (ih (g := { g with edges := g.edges ++ [(e.1, e.2.1, e.2.2)] }) hd
            (fun e h => hn e (by simp [h])) (fun e h => ht e (by simp [h]))
            (fun e h => hk e (by simp [h])) (fun e h => hw e (by simp [h]))).2 ?_
          rcases hbad with hbad | ⟨f, hf, f', hf', h2, h3, h4⟩
          · by_cases hm : NoMix es
            · right
              have : ∃ f ∈ es, e.1 = f.1 ∧ e.2.1 = f.2.1 ∧ e.2.2 = [] := by
                by_contra hc
                refine hbad (List.pairwise_cons.2 ⟨fun f hf k1 k2 k3 => hc ⟨f, hf, k1, k2, k3⟩, hm⟩)
              obtain ⟨f, hf, k1, k2, k3⟩ := this
              exact ⟨(e.1, e.2.1, e.2.2), by simp, f, hf, k1, k2, k3⟩
            · exact .inl hm
          · rcases List.mem_cons.1 hf' with rfl | hf'
            · exact absurd h4 (hcross1 f hf h2 h3)
            · exact .inr ⟨f, by simp [hf], f', hf', h2, h3, h4⟩

/-! ### Moore machines -/

/-- The output of a Moore machine in a state. -/
def mooreOut (m : Machine ν V) (s : ν) : Val V :=
  fun k => if m.outputs.has k then ((m.graph.nodes.get? s).getD []).get? k else none

/-- A transition of a Moore machine. -/
def MooreStep (m : Machine ν V) (s : ν) (i : Val V) (t : ν) : Prop :=
  ∃ a, (s, t, a) ∈ m.graph.edges ∧ i = restrict m.inputs a

/-- An execution of a Moore machine: the output at each step is that of the state it leaves,
`y[k] = g(x[k])`. -/
inductive MooreExec (m : Machine ν V) : ν → List (Val V × Val V) → List ν → Prop
  | nil (s : ν) : MooreExec m s [] []
  | cons {s t : ν} {i : Val V} {w : List (Val V × Val V)} {ts : List ν} :
      MooreStep m s i t → MooreExec m t w ts → MooreExec m s ((i, mooreOut m s) :: w) (t :: ts)

theorem wf_update' {a b : Attr V} (h : a.Wf) : (a.update b).Wf := Dict.wf_update h b

/-- **C18.** `moore2mealy` succeeds, keeps the ports, the states and the initial states, and the Mealy
machine has exactly the executions of the Moore machine: in reaction to an input it emits the output
of the state that it leaves. -/
theorem moore2mealy_spec {m : Machine ν V} (hm : MooreOk m) :
    ∃ m', moore2mealy m = .ok m' ∧ m'.inputs = m.inputs ∧ m'.outputs = m.outputs ∧
      m'.graph.initial = m.graph.initial ∧ (∀ s, m'.graph.hasNode s = m.graph.hasNode s) ∧
      ∀ s w ts, Exec m' s w ts ↔ MooreExec m s w ts := by
  -- the nodes
  obtain ⟨nodes, hn1, hn2⟩ := copyNodes_spec (g := (newMealy m.inputs m.outputs : Machine ν V).graph) rfl
    m.graph.nodes.keys
  have hnode : ∀ n, Dict.has nodes n = m.graph.hasNode n := by
    intro n
    rw [Bool.eq_iff_iff, hn2]
    simp only [newMealy, hasNode, Dict.has, List.any_nil, Bool.false_eq_true, false_or]
    rw [mem_keys_iff_has]; rfl
  -- the edges
  let lab := fun s (e : ν × ν × Attr V) =>
    (s, e.2.1, e.2.2.update (projectDict (nodeAttr m.graph s) m.outputs.has))
  have hnwf : ∀ s, (nodeAttr m.graph s).Wf := by
    intro s
    rw [nodeAttr]
    cases h : m.graph.nodes.get? s with
    | none => simp [Dict.Wf, Dict.keys]
    | some a => exact hm.graph.nodeWf s a h
  have hpwf : ∀ s, (projectDict (nodeAttr m.graph s) m.outputs.has).Wf := fun s => wf_filter (hnwf s) _
  have hes : ∀ s, ∀ e ∈ out m.graph s, e ∈ m.graph.edges ∧ e.1 = s := by
    intro s e he
    simpa [out] using he
  have hupd : ∀ s, ∀ e ∈ m.graph.edges,
      (e.2.2.update (projectDict (nodeAttr m.graph s) m.outputs.has)) =
        e.2.2 ++ projectDict (nodeAttr m.graph s) m.outputs.has := by
    intro s e he
    refine update_disjoint _ _ (hpwf s) fun k hk hk' => ?_
    have h1 := hm.disjoint k (hm.keys e he k ((mem_keys_iff_has _ _).1 hk'))
    obtain ⟨v, hv⟩ := (Dict.mem_keys_iff _ _).1 hk
    rw [get?_projectDict, h1] at hv
    simp at hv
  have key := (addEdges_spec (m.graph.nodes.keys.flatMap fun s => (out m.graph s).map (lab s))
    (g := { (newMealy m.inputs m.outputs : Machine ν V).graph with nodes := nodes, initial := m.graph.initial })
    rfl ?_ ?_ ?_ ?_).1 ?_ (by simp [newMealy])
  · obtain ⟨es, h1, h2, _, h4⟩ := key
    refine ⟨⟨{ (newMealy m.inputs m.outputs : Machine ν V).graph with
        nodes := nodes, initial := m.graph.initial, edges := es }, m.inputs, m.outputs⟩,
        ?_, rfl, rfl, rfl, hnode, ?_⟩
    · simp only [moore2mealy, hn1, toExcept, ok_bind]
      rw [addInitialFrom_spec (g := { (newMealy m.inputs m.outputs : Machine ν V).graph with nodes := nodes })
        rfl hm.graph.initialNodup (fun n hn => by
          show Dict.has nodes n = true
          rw [hnode]; exact hm.graph.initial n hn)]
      simp only [ok_bind]
      rw [h1]
      rfl
    · -- executions
      have hstep : ∀ s i o t, (∃ a, (s, t, a) ∈ es ∧ i = restrict m.inputs a ∧
          o = restrict m.outputs a) ↔ MooreStep m s i t ∧ o = mooreOut m s := by
        intro s i o t
        have hval : ∀ a, (s, t, a) ∈ m.graph.edges → ∀ b,
            SameAttr (a ++ projectDict (nodeAttr m.graph s) m.outputs.has) b →
            restrict m.inputs b = restrict m.inputs a ∧ restrict m.outputs b = mooreOut m s := by
          intro a ha b hb
          have hget : ∀ k, b.get? k = ((projectDict (nodeAttr m.graph s) m.outputs.has).get? k).or
              (a.get? k) := by
            intro k
            rw [← hb k, ← hupd s _ ha, Dict.get?_update_wf (hpwf s)]
          constructor
          · funext k
            simp only [restrict, hget, get?_projectDict]
            split
            · rename_i hk
              simp [hm.disjoint k hk]
            · rfl
          · funext k
            simp only [restrict, mooreOut, hget, get?_projectDict]
            split
            · rename_i hk
              have : a.get? k = none := by
                cases ha' : a.get? k with
                | none => rfl
                | some v =>
                  have := hm.disjoint k (hm.keys _ ha k ((Dict.has_iff _ _).2 ⟨v, ha'⟩))
                  rw [hk] at this; cases this
              rw [this, Option.or_none, nodeAttr]
            · rfl
        constructor
        · rintro ⟨b, hb, rfl, rfl⟩
          rcases h2 _ hb with h | h
          · simp [newMealy] at h
          · obtain ⟨s', _, h⟩ := List.mem_flatMap.1 h
            obtain ⟨⟨x, y, a⟩, he, h⟩ := List.mem_map.1 h
            replace he := hes _ _ he
            obtain ⟨he, rfl⟩ := he
            simp only [lab, Prod.mk.injEq] at h
            obtain ⟨rfl, rfl, rfl⟩ := h
            have := hval a he (a.update (projectDict (nodeAttr m.graph x) m.outputs.has))
              (by rw [hupd x _ he]; exact fun _ => rfl)
            exact ⟨⟨a, he, this.1⟩, this.2⟩
        · rintro ⟨⟨a, ha, rfl⟩, rfl⟩
          obtain ⟨b, hb, hs⟩ := h4 (lab s (s, t, a)) (List.mem_flatMap.2 ⟨s, by
            rw [mem_keys_iff_has]; exact hm.graph.source _ _ _ ha, List.mem_map.2 ⟨(s, t, a), by
              simp [out, ha], rfl⟩⟩)
          refine ⟨b, hb, ?_⟩
          have := hval a ha b (by rw [← hupd s _ ha]; exact hs)
          exact ⟨this.1.symm, this.2.symm⟩
      intro s w ts
      constructor
      · intro h
        induction h with
        | nil s => exact .nil s
        | cons hst _ ih =>
          obtain ⟨k1, rfl⟩ := (hstep _ _ _ _).1 hst
          exact .cons k1 ih
      · intro h
        induction h with
        | nil s => exact .nil s
        | cons hst _ ih => exact .cons ((hstep _ _ _ _).2 ⟨hst, rfl⟩) ih
  · intro f hf
    obtain ⟨s, hs, hf⟩ := List.mem_flatMap.1 hf
    obtain ⟨⟨x, y, a⟩, he, rfl⟩ := List.mem_map.1 hf
    replace he := hes _ _ he
    obtain ⟨he, rfl⟩ := he
    constructor
    · show Dict.has nodes _ = true
      rw [hnode]; exact hm.graph.source _ _ _ he
    · show Dict.has nodes _ = true
      rw [hnode]; exact hm.graph.target _ _ _ he
  · intro f hf
    obtain ⟨s, hs, hf⟩ := List.mem_flatMap.1 hf
    obtain ⟨⟨x, y, a⟩, he, rfl⟩ := List.mem_map.1 hf
    replace he := hes _ _ he
    obtain ⟨he, rfl⟩ := he
    show Typed _ _
    simp only [newMealy, lab]
    rw [typed_mealy hm.inputs hm.outputs hm.disjoint, hupd _ _ he]
    intro p hp vs hvs
    rcases List.mem_append.1 hp with hp | hp
    · have ht := hm.graph.typed _ _ _ he p hp
      rw [hm.edgeTypes, update_nil_wf (wf_typesOf hm.inputs)] at ht
      have hin : m.inputs.has p.1 = true := hm.keys _ he p.1
        ((mem_keys_iff_has _ _).1 (List.mem_map.2 ⟨p, hp, rfl⟩))
      rcases hvs with hvs | hvs
      · have := ht { contains := fun v => decide (v ∈ vs) } (by rw [get?_typesOf, hvs]; rfl)
        simpa using this
      · have := hm.disjoint _ hin
        rw [(Dict.has_iff _ _).2 ⟨vs, hvs⟩] at this; cases this
    · simp only [projectDict, List.mem_filter] at hp
      rcases hvs with hvs | hvs
      · have := hm.disjoint _ ((Dict.has_iff _ _).2 ⟨vs, hvs⟩)
        rw [hp.2] at this; cases this
      · simp only [nodeAttr] at hp
        cases hg : m.graph.nodes.get? x with
        | none => rw [hg] at hp; simp at hp
        | some b =>
          rw [hg] at hp
          have := hm.graph.nodeTyped x b hg p.1 p.2 (get?_of_mem (hm.graph.nodeWf x b hg) hp.1) _
            (hm.nodeTypes p.1 vs hvs)
          simpa using this
  · intro f hf k hk
    obtain ⟨s, hs, hf⟩ := List.mem_flatMap.1 hf
    obtain ⟨⟨x, y, a⟩, he, rfl⟩ := List.mem_map.1 hf
    replace he := hes _ _ he
    obtain ⟨he, rfl⟩ := he
    show (Dict.update (Dict.update [] (typesOf m.inputs)) (typesOf m.outputs)).has k = true
    rw [has_mealyTypes]
    simp only [lab] at hk
    rw [has_update, Bool.or_eq_true] at hk
    rcases hk with hk | hk
    · exact .inl (hm.keys _ he k hk)
    · right
      obtain ⟨v, hv⟩ := (Dict.has_iff _ _).1 hk
      rw [get?_projectDict] at hv
      by_contra hc
      rw [if_neg hc] at hv; cases hv
  · intro f hf
    obtain ⟨s, hs, hf⟩ := List.mem_flatMap.1 hf
    obtain ⟨⟨x, y, a⟩, he, rfl⟩ := List.mem_map.1 hf
    replace he := hes _ _ he
    obtain ⟨he, rfl⟩ := he
    exact Dict.wf_update (hm.graph.wf _ _ _ he) _
  · rw [NoMix, List.pairwise_flatMap]
    refine ⟨fun s _ => ?_, ?_⟩
    · rw [List.pairwise_map]
      refine (hm.graph.noMix.filter _).imp_of_mem fun {e f} he hf h => ?_
      intro _ h2 h3
      replace he := hes s e he
      obtain ⟨he, rfl⟩ := he
      replace hf := hes _ f hf
      obtain ⟨hf, h1⟩ := hf
      simp only [lab] at h2 h3
      rw [hupd _ _ he] at h3
      exact h h1.symm h2 (List.append_eq_nil_iff.1 h3).1
    · refine (show m.graph.nodes.keys.Nodup from hm.graph.nodup).imp fun {s s'} hne x hx y hy h => ?_
      obtain ⟨e, _, rfl⟩ := List.mem_map.1 hx
      obtain ⟨e', _, rfl⟩ := List.mem_map.1 hy
      exact absurd h hne

/-! ### Ports removed -/

/-- A valuation without the named ports. -/
def erase (names : List String) (v : Val V) : Val V := fun k => if k ∈ names then none else v k

theorem get?_trimDict {α : Type} (x : Dict String α) (names : List String) (k : String) :
    (trimDict x names).get? k = if k ∈ names then none else x.get? k := by
  have := get?_filter x (fun k => !decide (k ∈ names)) k
  simp only [trimDict]
  rw [this]
  by_cases h : k ∈ names <;> simp [h]

theorem has_trimDict {α : Type} (x : Dict String α) (names : List String) (k : String) :
    (trimDict x names).has k = true ↔ k ∉ names ∧ x.has k = true := by
  rw [has_eq, get?_trimDict, has_eq]
  by_cases h : k ∈ names <;> simp [h]

theorem restrict_trim (ports : Ports V) (names : List String) (a : Attr V) :
    restrict (trimDict ports names) (trimDict a names) = erase names (restrict ports a) := by
  funext k
  simp only [restrict, erase, has_trimDict, get?_trimDict]
  by_cases h : k ∈ names <;> simp [h]

/-- The labels with the named ports removed. -/
def stripped (m : Machine ν V) (names : List String) : List (ν × ν × Attr V) :=
  m.graph.edges.map fun e => (e.1, e.2.1, trimDict e.2.2 names)

theorem strip_edges {m : Machine ν V} (hm : MealyOk m) (names : List String) :
    ∀ f ∈ stripped m names, m.graph.hasNode f.1 = true ∧ m.graph.hasNode f.2.1 = true ∧
      Typed (Dict.update (Dict.update [] (typesOf (trimDict m.inputs names)))
        (typesOf (trimDict m.outputs names))) f.2.2 ∧
      (∀ k, f.2.2.has k = true → (Dict.update (Dict.update [] (typesOf (trimDict m.inputs names)))
        (typesOf (trimDict m.outputs names))).has k = true) ∧ f.2.2.Wf := by
  intro f hf
  obtain ⟨⟨x, y, a⟩, he, rfl⟩ := List.mem_map.1 hf
  refine ⟨hm.graph.source _ _ _ he, hm.graph.target _ _ _ he, ?_, ?_, wf_filter (hm.graph.wf _ _ _ he) _⟩
  · refine (typed_mealy (ins := trimDict m.inputs names) (outs := trimDict m.outputs names)
      (wf_filter hm.inputs _) (wf_filter hm.outputs _) ?_ _).2 ?_
    rotate_left
    · intro p hp vs hvs
      have ht := hm.graph.typed _ _ _ he
      rw [hm.types, typed_mealy hm.inputs hm.outputs hm.disjoint] at ht
      simp only [trimDict, List.mem_filter, Bool.not_eq_true', decide_eq_false_iff_not] at hp
      refine ht p hp.1 vs ?_
      rw [get?_trimDict, get?_trimDict, if_neg hp.2, if_neg hp.2] at hvs
      exact hvs
    · intro k hk
      rw [has_trimDict] at hk
      by_contra hc
      rw [Bool.not_eq_false, has_trimDict] at hc
      have := hm.disjoint k hk.2
      rw [hc.2] at this; cases this
  · intro k hk
    rw [has_mealyTypes, has_trimDict, has_trimDict]
    simp only at hk
    rw [has_trimDict] at hk
    rcases hm.keys _ he k hk.2 with h | h
    · exact .inl ⟨hk.1, h⟩
    · exact .inr ⟨hk.1, h⟩

theorem strip_nodes (m : Machine ν V) (names : List String) : ∃ nodes,
    copyNodes (newMealy (trimDict m.inputs names) (trimDict m.outputs names) : Machine ν V).graph
      m.graph.nodes.keys =
      ({ (newMealy (trimDict m.inputs names) (trimDict m.outputs names) : Machine ν V).graph with
        nodes := nodes }, none) ∧ (∀ n, Dict.has nodes n = m.graph.hasNode n) := by
  obtain ⟨nodes, hn1, hn2⟩ := copyNodes_spec
    (g := (newMealy (trimDict m.inputs names) (trimDict m.outputs names) : Machine ν V).graph) rfl
    m.graph.nodes.keys
  refine ⟨nodes, hn1, fun n => ?_⟩
  rw [Bool.eq_iff_iff, hn2]
  simp only [newMealy, hasNode, Dict.has, List.any_nil, Bool.false_eq_true, false_or]
  rw [mem_keys_iff_has]; rfl

/-- **C20.** `strip_ports` succeeds, unless removing the ports leaves an edge unlabeled that another
edge follows between the same states; it keeps the states and the initial states, and the executions of
the result are exactly those of the machine with the named ports erased. -/
theorem stripPorts_spec {m : Machine ν V} (hm : MealyOk m) (names : List String)
    (h : NoMix (stripped m names)) :
    ∃ m', stripPorts m names = .ok m' ∧
      (∀ k, m'.inputs.get? k = if k ∈ names then none else m.inputs.get? k) ∧
      (∀ k, m'.outputs.get? k = if k ∈ names then none else m.outputs.get? k) ∧
      m'.graph.initial = m.graph.initial ∧ (∀ s, m'.graph.hasNode s = m.graph.hasNode s) ∧
      ∀ s w' ts, Exec m' s w' ts ↔
        ∃ w, Exec m s w ts ∧ w' = w.map fun io => (erase names io.1, erase names io.2) := by
  obtain ⟨nodes, hn1, hnode⟩ := strip_nodes m names
  obtain ⟨es, h1, h2, _, h4⟩ := (addEdges_spec (stripped m names)
    (g := { (newMealy (trimDict m.inputs names) (trimDict m.outputs names) : Machine ν V).graph with
      nodes := nodes, initial := m.graph.initial }) rfl
    (fun f hf => ⟨(hnode _).trans (strip_edges hm names f hf).1,
      (hnode _).trans (strip_edges hm names f hf).2.1⟩)
    (fun f hf => (strip_edges hm names f hf).2.2.1) (fun f hf => (strip_edges hm names f hf).2.2.2.1)
    (fun f hf => (strip_edges hm names f hf).2.2.2.2)).1 h (by simp [newMealy])
  refine ⟨⟨{ (newMealy (trimDict m.inputs names) (trimDict m.outputs names) : Machine ν V).graph with
        nodes := nodes, initial := m.graph.initial, edges := es }, trimDict m.inputs names,
        trimDict m.outputs names⟩, ?_, get?_trimDict m.inputs names, get?_trimDict m.outputs names, rfl,
        hnode, ?_⟩
  · simp only [stripPorts, hn1, toExcept, ok_bind]
    rw [addInitialFrom_spec (g := { (newMealy (trimDict m.inputs names) (trimDict m.outputs names) :
        Machine ν V).graph with nodes := nodes }) rfl hm.graph.initialNodup (fun n hn => by
          show Dict.has nodes n = true
          rw [hnode]; exact hm.graph.initial n hn)]
    simp only [ok_bind]
    rw [show (m.graph.edges.map fun e => (e.1, e.2.1, trimDict e.2.2 names)) = stripped m names from rfl, h1]
    rfl
  · have hstep : ∀ s i o t, (∃ a, (s, t, a) ∈ es ∧ i = restrict (trimDict m.inputs names) a ∧
        o = restrict (trimDict m.outputs names) a) ↔
        ∃ i' o', Step m s i' o' t ∧ i = erase names i' ∧ o = erase names o' := by
      intro s i o t
      constructor
      · rintro ⟨b, hb, rfl, rfl⟩
        rcases h2 _ hb with h | h
        · simp [newMealy] at h
        · obtain ⟨⟨x, y, a⟩, he, h⟩ := List.mem_map.1 h
          simp only [Prod.mk.injEq] at h
          obtain ⟨rfl, rfl, rfl⟩ := h
          exact ⟨_, _, ⟨a, he, rfl, rfl⟩, restrict_trim _ _ _, restrict_trim _ _ _⟩
      · rintro ⟨_, _, ⟨a, ha, rfl, rfl⟩, rfl, rfl⟩
        obtain ⟨b, hb, hs⟩ := h4 (s, t, trimDict a names) (List.mem_map.2 ⟨_, ha, rfl⟩)
        refine ⟨b, hb, ?_, ?_⟩ <;>
        · rw [← restrict_trim]
          funext k
          simp only [restrict]
          rw [hs k]
    intro s w' ts
    constructor
    · intro h
      induction h with
      | nil s => exact ⟨[], .nil s, rfl⟩
      | cons hst _ ih =>
        obtain ⟨w, hw, rfl⟩ := ih
        obtain ⟨i', o', k1, rfl, rfl⟩ := (hstep _ _ _ _).1 hst
        exact ⟨(i', o') :: w, .cons k1 hw, rfl⟩
    · rintro ⟨w, hw, rfl⟩
      induction hw with
      | nil s => exact .nil s
      | cons hst _ ih => exact .cons ((hstep _ _ _ _).2 ⟨_, _, hst, rfl, rfl⟩) ih

/-- In the remaining case `strip_ports` raises `Exception`. -/
theorem stripPorts_raises {m : Machine ν V} (hm : MealyOk m) (names : List String)
    (h : ¬ NoMix (stripped m names)) : stripPorts m names = .error .exception := by
  obtain ⟨nodes, hn1, hnode⟩ := strip_nodes m names
  have h1 := (addEdges_spec (stripped m names)
    (g := { (newMealy (trimDict m.inputs names) (trimDict m.outputs names) : Machine ν V).graph with
      nodes := nodes, initial := m.graph.initial }) rfl
    (fun f hf => ⟨(hnode _).trans (strip_edges hm names f hf).1,
      (hnode _).trans (strip_edges hm names f hf).2.1⟩)
    (fun f hf => (strip_edges hm names f hf).2.2.1) (fun f hf => (strip_edges hm names f hf).2.2.2.1)
    (fun f hf => (strip_edges hm names f hf).2.2.2.2)).2 (.inl h)
  simp only [stripPorts, hn1, toExcept, ok_bind]
  rw [addInitialFrom_spec (g := { (newMealy (trimDict m.inputs names) (trimDict m.outputs names) :
        Machine ν V).graph with nodes := nodes }) rfl hm.graph.initialNodup (fun n hn => by
          show Dict.has nodes n = true
          rw [hnode]; exact hm.graph.initial n hn)]
  simp only [ok_bind]
  rw [show (m.graph.edges.map fun e => (e.1, e.2.1, trimDict e.2.2 names)) = stripped m names from rfl]
  revert h1
  generalize seqM _ _ _ = r
  obtain ⟨g, e⟩ := r
  intro h1
  simp only at h1
  subst h1
  rfl

/-! ### From Mealy to Moore -/

/-- An execution of a Moore machine whose outputs are those of the states that it enters. -/
inductive Entered (m : Machine ν V) : ν → List (Val V × Val V) → List ν → Prop
  | nil (s : ν) : Entered m s [] []
  | cons {s t : ν} {i : Val V} {w : List (Val V × Val V)} {ts : List ν} :
      MooreStep m s i t → Entered m t w ts → Entered m s ((i, mooreOut m t) :: w) (t :: ts)

/-- The pairs of a state and an output that can become states of the Moore machine. -/
def pairs (m : Machine ν V) (s0 : ν) (out0 : Attr V) : List (ν × Val V) :=
  (s0, out0.get?) :: m.graph.edges.map fun e => (e.2.1, restrict m.outputs e.2.2)

/-- What holds of the machine under construction. -/
structure ConvOk (m : Machine ν V) (s0 : ν) (out0 : Attr V) (c : Conv ν V) : Prop where
  nodeTypes : c.graph.nodeTypes = Dict.update [] (typesOf m.outputs)
  edgeTypes : c.graph.edgeTypes = Dict.update [] (typesOf m.inputs)
  nodeDefaults : c.graph.nodeDefaults = []
  edgeDefaults : c.graph.edgeDefaults = []
  keys : c.graph.nodes.keys = List.range c.graph.nodes.length
  back : c.back.keys = c.graph.nodes.keys
  inj : ∀ p q s, c.back.get? p = some s → c.back.get? q = some s →
    SameAttr (nodeAttr c.graph p) (nodeAttr c.graph q) → p = q
  pairs : ∀ q s, c.back.get? q = some s → (s, (nodeAttr c.graph q).get?) ∈ pairs m s0 out0
  sound : ∀ q r b, (q, r, b) ∈ c.graph.edges → ∃ s t a, c.back.get? q = some s ∧
    c.back.get? r = some t ∧ (s, t, a) ∈ m.graph.edges ∧ b.get? = restrict m.inputs a ∧
    (nodeAttr c.graph r).get? = restrict m.outputs a

theorem ConvOk.wf {m : Machine ν V} {s0 : ν} {out0 : Attr V} {c : Conv ν V} (h : ConvOk m s0 out0 c) :
    c.back.Wf := by
  rw [Dict.Wf, h.back, h.keys]; exact List.nodup_range

theorem ConvOk.hasNode {m : Machine ν V} {s0 : ν} {out0 : Attr V} {c : Conv ν V} (h : ConvOk m s0 out0 c)
    (q : Nat) : c.graph.hasNode q = true ↔ ∃ s, c.back.get? q = some s := by
  rw [LGraph.hasNode, ← mem_keys_iff_has, ← h.back, Dict.mem_keys_iff]

theorem typed_ports {ports : Ports V} (h : ports.Wf) (a : Attr V) :
    Typed (Dict.update [] (typesOf ports)) a ↔ ∀ p ∈ a, ∀ vs, ports.get? p.1 = some vs → p.2 ∈ vs := by
  rw [update_nil_wf (wf_typesOf h)]
  unfold Typed
  refine forall₂_congr fun p _ => ?_
  rw [get?_typesOf]
  cases ports.get? p.1 <;> simp

theorem has_ports {ports : Ports V} (h : ports.Wf) (k : String) :
    (Dict.update [] (typesOf ports)).has k = ports.has k := by
  rw [update_nil_wf (wf_typesOf h), has_typesOf]

/-- `_create_state_str`: the state for a Mealy state and an output. -/
theorem createState_spec {m : Machine ν V} (hm : MealyOk m) {s0 : ν} {out0 : Attr V} {c : Conv ν V}
    (hc : ConvOk m s0 out0 c) {s : ν} {output : Attr V} (hw : output.Wf)
    (ht : ∀ p ∈ output, ∀ vs, m.outputs.get? p.1 = some vs → p.2 ∈ vs)
    (hk : ∀ k, output.has k = true → m.outputs.has k = true)
    (hp : (s, output.get?) ∈ pairs m s0 out0) :
    ∃ r c', createState c s output = .ok (r, c') ∧ ConvOk m s0 out0 c' ∧ c'.back.get? r = some s ∧
      (nodeAttr c'.graph r).get? = output.get? ∧ (∀ p v, (p, v) ∈ output → (nodeAttr c'.graph r).get? p = some v) ∧
      c'.graph.edges = c.graph.edges ∧ c'.graph.initial = c.graph.initial ∧
      (∀ p t, c.back.get? p = some t → c'.back.get? p = some t ∧ nodeAttr c'.graph p = nodeAttr c.graph p) ∧
      (∀ q, c'.graph.hasNode q = true ↔ c.graph.hasNode q = true ∨ q = r) := by
  unfold createState
  cases hf : c.back.find? (fun p => decide (p.2 = s) && (nodeAttr c.graph p.1).beqv output) with
  | some p =>
    obtain ⟨q, t⟩ := p
    have h1 := List.find?_some hf
    have h2 := List.mem_of_find?_eq_some hf
    simp only [Bool.and_eq_true, decide_eq_true_eq] at h1
    obtain ⟨rfl, h1⟩ := h1
    rw [beqv_iff] at h1
    have hb := get?_of_mem hc.wf h2
    refine ⟨q, c, rfl, hc, hb, funext h1, fun p v hpv => ?_, rfl, rfl, fun p t h => ⟨h, rfl⟩, fun x => ?_⟩
    · rw [h1 p]; exact get?_of_mem hw hpv
    · constructor
      · exact .inl
      · rintro (h | rfl)
        · exact h
        · exact (hc.hasNode _).2 ⟨_, hb⟩
  | none =>
    have hnone : ∀ q, c.back.get? q = some s → ¬ SameAttr (nodeAttr c.graph q) output := by
      intro q hq hs
      have := List.find?_eq_none.1 hf (q, s) (mem_of_get? hq)
      simp only [decide_true, Bool.true_and] at this
      exact this ((beqv_iff _ _).2 hs)
    have hnew : c.graph.nodes.length ∉ c.graph.nodes.keys := by rw [hc.keys]; simp
    have hnew' : c.back.get? c.graph.nodes.length = none := by
      cases h : c.back.get? c.graph.nodes.length with
      | none => rfl
      | some t => exact absurd ((mem_keys_iff_has _ _).2 ((hc.hasNode _).2 ⟨t, h⟩)) hnew
    have hget : c.graph.nodes.get? c.graph.nodes.length = none := by
      cases h : c.graph.nodes.get? c.graph.nodes.length with
      | none => rfl
      | some t => exact absurd ((Dict.mem_keys_iff _ _).2 ⟨t, h⟩) hnew
    have hadd := addNode_plain (g := c.graph) hc.nodeDefaults hw
      (by rw [hc.nodeTypes, typed_ports hm.outputs]; exact ht)
      (by intro k; rw [hc.nodeTypes, has_ports hm.outputs]; exact hk k) c.graph.nodes.length
    rw [hget, Option.getD_none, update_nil_wf hw, set_absent _ _ _ hnew] at hadd
    simp only [hadd, ok_bind]
    have hback : c.back.set c.graph.nodes.length s = c.back ++ [(c.graph.nodes.length, s)] :=
      set_absent _ _ _ (by rw [hc.back]; exact hnew)
    have hattr : ∀ q, nodeAttr { c.graph with nodes := c.graph.nodes ++ [(c.graph.nodes.length, output)] } q =
        if c.graph.nodes.length = q then output else nodeAttr c.graph q := by
      intro q
      simp only [nodeAttr]
      rw [← set_absent _ _ output hnew, Dict.get?_set]
      split <;> rfl
    have hattr' : ∀ q t, c.back.get? q = some t →
        nodeAttr { c.graph with nodes := c.graph.nodes ++ [(c.graph.nodes.length, output)] } q =
          nodeAttr c.graph q := by
      intro q t hq
      rw [hattr, if_neg]
      rintro rfl
      rw [hnew'] at hq; cases hq
    refine ⟨_, _, rfl, ?_, ?_, ?_, ?_, rfl, rfl, ?_, ?_⟩
    · constructor
      · exact hc.nodeTypes
      · exact hc.edgeTypes
      · exact hc.nodeDefaults
      · exact hc.edgeDefaults
      · simp only [Dict.keys, List.map_append, List.length_append, List.map_cons, List.map_nil,
          List.length_cons, List.length_nil, List.range_succ]
        have := hc.keys
        rw [Dict.keys] at this
        rw [this]
      · simp only [hback]
        simp only [Dict.keys, List.map_append, List.map_cons, List.map_nil]
        have := hc.back
        simp only [Dict.keys] at this
        rw [this]
      · intro p q t hp hq hs
        simp only [Dict.get?_set] at hp hq
        simp only [hattr] at hs
        by_cases h1 : c.graph.nodes.length = p <;> by_cases h2 : c.graph.nodes.length = q
        · rw [← h1, ← h2]
        · rw [if_pos h1] at hp hs; rw [if_neg h2] at hq hs
          cases hp
          exact absurd (fun k => (hs k).symm) (hnone q hq)
        · rw [if_neg h1] at hp hs; rw [if_pos h2] at hq hs
          cases hq
          exact absurd hs (hnone p hp)
        · rw [if_neg h1] at hp hs; rw [if_neg h2] at hq hs
          exact hc.inj p q t hp hq hs
      · intro q t hq
        simp only [Dict.get?_set] at hq
        rw [hattr]
        by_cases h1 : c.graph.nodes.length = q
        · rw [if_pos h1] at hq ⊢; cases hq; exact hp
        · rw [if_neg h1] at hq ⊢; exact hc.pairs q t hq
      · intro q r b hb
        obtain ⟨x, t, a, k1, k2, k3, k4, k5⟩ := hc.sound q r b hb
        refine ⟨x, t, a, ?_, ?_, k3, k4, ?_⟩
        · simp only [Dict.get?_set]
          rw [if_neg, k1]
          intro e; rw [← e, hnew'] at k1; cases k1
        · simp only [Dict.get?_set]
          rw [if_neg, k2]
          intro e; rw [← e, hnew'] at k2; cases k2
        · rw [hattr' r t k2]; exact k5
    · simp only [Dict.get?_set, if_pos]
    · rw [hattr, if_pos rfl]
    · intro p v hpv
      rw [hattr, if_pos rfl]
      exact get?_of_mem hw hpv
    · intro p t hpt
      refine ⟨?_, hattr' p t hpt⟩
      simp only [Dict.get?_set]
      rw [if_neg, hpt]
      intro e; rw [← e, hnew'] at hpt; cases hpt
    · intro q
      simp only [LGraph.hasNode, Dict.has, List.any_append, List.any_cons, List.any_nil, Bool.or_false,
        Bool.or_eq_true, beq_iff_eq]
      rw [eq_comm (a := q)]

/-- Every edge of the machine has a value for each of its ports. -/
def Labeled (m : Machine ν V) : Prop :=
  ∀ e ∈ m.graph.edges, ∀ k, m.inputs.has k = true ∨ m.outputs.has k = true → e.2.2.has k = true

theorem out_spec {m : Machine ν V} (hm : MealyOk m) {e : ν × ν × Attr V} (he : e ∈ m.graph.edges) :
    (projectDict e.2.2 m.outputs.has).Wf ∧
    (∀ p ∈ projectDict e.2.2 m.outputs.has, ∀ vs, m.outputs.get? p.1 = some vs → p.2 ∈ vs) ∧
    (∀ k, (projectDict e.2.2 m.outputs.has).has k = true → m.outputs.has k = true) := by
  refine ⟨wf_filter (hm.graph.wf _ _ _ he) _, fun p hp vs hvs => ?_, fun k hk => ?_⟩
  · have ht := hm.graph.typed _ _ _ he
    rw [hm.types, typed_mealy hm.inputs hm.outputs hm.disjoint] at ht
    simp only [projectDict, List.mem_filter] at hp
    exact ht p hp.1 vs (.inr hvs)
  · rw [has_eq, get?_projectDict] at hk
    by_contra hc
    rw [if_neg hc] at hk; simp at hk

theorem in_spec {m : Machine ν V} (hm : MealyOk m) {e : ν × ν × Attr V} (he : e ∈ m.graph.edges) :
    (projectDict e.2.2 m.inputs.has).Wf ∧
    (∀ p ∈ projectDict e.2.2 m.inputs.has, ∀ vs, m.inputs.get? p.1 = some vs → p.2 ∈ vs) ∧
    (∀ k, (projectDict e.2.2 m.inputs.has).has k = true → m.inputs.has k = true) := by
  refine ⟨wf_filter (hm.graph.wf _ _ _ he) _, fun p hp vs hvs => ?_, fun k hk => ?_⟩
  · have ht := hm.graph.typed _ _ _ he
    rw [hm.types, typed_mealy hm.inputs hm.outputs hm.disjoint] at ht
    simp only [projectDict, List.mem_filter] at hp
    exact ht p hp.1 vs (.inl hvs)
  · rw [has_eq, get?_projectDict] at hk
    by_contra hc
    rw [if_neg hc] at hk; simp at hk

theorem same_of_parts {m : Machine ν V} (hm : MealyOk m) {e f : ν × ν × Attr V}
    (he : e ∈ m.graph.edges) (hf : f ∈ m.graph.edges)
    (hi : restrict m.inputs e.2.2 = restrict m.inputs f.2.2)
    (ho : restrict m.outputs e.2.2 = restrict m.outputs f.2.2) : SameAttr e.2.2 f.2.2 := by
  intro k
  by_cases h1 : m.inputs.has k = true
  · have := congrFun hi k; simpa [restrict, h1] using this
  · by_cases h2 : m.outputs.has k = true
    · have := congrFun ho k; simpa [restrict, h2] using this
    · have : ∀ g ∈ m.graph.edges, g.2.2.get? k = none := by
        intro g hg
        cases hgk : g.2.2.get? k with
        | none => rfl
        | some v => rcases hm.keys g hg k ((Dict.has_iff _ _).2 ⟨v, hgk⟩) with h | h <;> contradiction
      rw [this e he, this f hf]

/-- Complete for a state: each edge of the Mealy machine has its image. -/
def Done (m : Machine ν V) (c : Conv ν V) (q : Nat) (es : List (ν × ν × Attr V)) : Prop :=
  ∀ e ∈ es, ∃ r b, (q, r, b) ∈ c.graph.edges ∧ c.back.get? r = some e.2.1 ∧
    b.get? = restrict m.inputs e.2.2 ∧ (nodeAttr c.graph r).get? = restrict m.outputs e.2.2

theorem convEdges_spec {m : Machine ν V} (hm : MealyOk m) (hl : Labeled m) {s0 : ν} {out0 : Attr V} {q : Nat} {s : ν}
    (es : List (ν × ν × Attr V)) :
    ∀ (old : List (ν × ν × Attr V)) (c : Conv ν V) (Q S : List Nat), ConvOk m s0 out0 c →
      c.back.get? q = some s → out m.graph s = old ++ es → Done m c q old →
      (∀ r b, (q, r, b) ∈ c.graph.edges → ∃ e ∈ old, c.back.get? r = some e.2.1 ∧
        b.get? = restrict m.inputs e.2.2 ∧ (nodeAttr c.graph r).get? = restrict m.outputs e.2.2) →
      (∀ p, p ∈ S ↔ c.graph.hasNode p = true) → S.Nodup → Q.Nodup → (∀ p ∈ Q, p ∈ S) →
      ∃ c' new, convEdges m q es c Q S = .ok (c', Q ++ new, S ++ new) ∧ ConvOk m s0 out0 c' ∧
        Done m c' q (old ++ es) ∧ c'.graph.initial = c.graph.initial ∧
        (∀ p t, c.back.get? p = some t → c'.back.get? p = some t ∧
          nodeAttr c'.graph p = nodeAttr c.graph p) ∧
        (∀ e, e.1 ≠ q → (e ∈ c'.graph.edges ↔ e ∈ c.graph.edges)) ∧
        (∀ p, p ∈ S ++ new ↔ c'.graph.hasNode p = true) ∧ (S ++ new).Nodup ∧ (Q ++ new).Nodup := by
  induction es with
  | nil =>
    intro old c Q S hc _ _ hdone _ hS hnd hQ _
    exact ⟨c, [], by simp [convEdges], hc, by simpa using hdone, rfl, fun p t h => ⟨h, rfl⟩,
      fun e _ => Iff.rfl, by simpa using hS, by simpa using hnd, by simpa using hQ⟩
  | cons e es ih =>
    intro old c Q S hc hq hout hdone hold hS hnd hQ hQS
    have hmem : ∀ f ∈ old ++ e :: es, f ∈ m.graph.edges ∧ f.1 = s := by
      intro f hf; rw [← hout] at hf; simpa [out] using hf
    have heE := (hmem e (by simp)).1
    have heS := (hmem e (by simp)).2
    obtain ⟨hw, ht, hk⟩ := out_spec hm heE
    obtain ⟨r, c1, h1, hc1, hr, hra, _, hedges, hinit, hkeep, hnodes⟩ := createState_spec hm hc
      (s := e.2.1) hw ht hk (by
        rw [← restrict_eq, pairs]
        exact List.mem_cons_of_mem _ (List.mem_map.2 ⟨e, heE, rfl⟩))
    rw [← restrict_eq] at hra
    have hq1 := (hkeep q s hq).1
    obtain ⟨hw', ht', hk'⟩ := in_spec hm heE
    have hnoempty : ∀ f ∈ c1.graph.edges, f.1 = q → f.2.1 = r → f.2.2 ≠ [] := by
      rintro ⟨x, y, b⟩ hf rfl rfl hb
      simp only at hb
      subst hb
      rw [hedges] at hf
      obtain ⟨f, hfo, k1, k2, k3⟩ := hold _ _ hf
      rw [← (hkeep _ _ k1).2, hra] at k3
      rw [(hkeep _ _ k1).1] at hr
      have htgt : f.2.1 = e.2.1 := by simpa using hr
      have hin : ∀ k, m.inputs.has k = false := by
        intro k
        by_contra hki
        rw [Bool.not_eq_false] at hki
        have := congrFun k2 k
        simp only [restrict, hki, if_true] at this
        have hh := hl f (hmem f (by simp [hfo])).1 k (.inl hki)
        rw [has_eq, ← this] at hh
        simp at hh
      have hsame := same_of_parts hm heE (hmem f (by simp [hfo])).1 (by funext k; simp [restrict, hin]) k3
      have hdist := hm.graph.distinct hm.defaults
      have hpw := hdist.filter fun e => decide (e.1 = s)
      have hpw' : (old ++ e :: es).Pairwise fun e f =>
          ¬ (e.1 = f.1 ∧ e.2.1 = f.2.1 ∧ SameAttr e.2.2 f.2.2) := by rw [← hout]; exact hpw
      exact (List.pairwise_append.1 hpw').2.2 f hfo e (by simp)
        ⟨by rw [heS, (hmem f (by simp [hfo])).2], htgt, fun k => (hsame k).symm⟩
    have hadd := (addEdges_spec [(q, r, projectDict e.2.2 m.inputs.has)] (g := c1.graph) hc1.edgeDefaults
      (by
        intro f hf
        rw [List.mem_singleton] at hf; subst hf
        exact ⟨(hc1.hasNode q).2 ⟨s, hq1⟩, (hc1.hasNode r).2 ⟨_, hr⟩⟩)
      (by
        intro f hf
        rw [List.mem_singleton] at hf; subst hf
        rw [hc1.edgeTypes, typed_ports hm.inputs]; exact ht')
      (by
        intro f hf k hfk
        rw [List.mem_singleton] at hf; subst hf
        rw [hc1.edgeTypes, has_ports hm.inputs]; exact hk' k hfk)
      (by
        intro f hf
        rw [List.mem_singleton] at hf; subst hf
        exact hw')).1 (List.pairwise_singleton _ _) (by
          intro f hf g hg k1 k2
          rw [List.mem_singleton] at hg; subst hg
          exact hnoempty f hf k1 k2)
    obtain ⟨es', k1, k2, k3, k4⟩ := hadd
    have hadd' : c1.graph.addEdge q r (projectDict e.2.2 m.inputs.has) =
        .ok { c1.graph with edges := es' } := by
      simp only [seqM] at k1
      cases ha : c1.graph.addEdge q r (projectDict e.2.2 m.inputs.has) with
      | error err => rw [ha] at k1; simp at k1
      | ok g => rw [ha] at k1; simp only [Prod.mk.injEq, and_true] at k1; rw [k1]
    let c2 : Conv ν V := { c1 with graph := { c1.graph with edges := es' } }
    have hattr2 : ∀ p, nodeAttr c2.graph p = nodeAttr c1.graph p := fun p => rfl
    have hc2 : ConvOk m s0 out0 c2 := by
      refine ⟨hc1.nodeTypes, hc1.edgeTypes, hc1.nodeDefaults, hc1.edgeDefaults, hc1.keys, hc1.back,
        hc1.inj, hc1.pairs, ?_⟩
      intro x y b hb
      rcases k2 _ hb with hb | hb
      · exact hc1.sound x y b hb
      · simp only [List.mem_singleton, Prod.mk.injEq] at hb
        obtain ⟨rfl, rfl, rfl⟩ := hb
        exact ⟨s, e.2.1, e.2.2, hq1, hr, by rw [← heS]; exact heE, (restrict_eq _ _).symm, hra⟩
    have hdone2 : Done m c2 q (old ++ [e]) := by
      intro f hf
      rcases List.mem_append.1 hf with hf | hf
      · obtain ⟨r', b, j1, j2, j3, j4⟩ := hdone f hf
        refine ⟨r', b, k3 _ (by rw [hedges]; exact j1), (hkeep _ _ j2).1, j3, ?_⟩
        rw [hattr2, (hkeep _ _ j2).2]; exact j4
      · rw [List.mem_singleton] at hf; subst hf
        obtain ⟨b, j1, j2⟩ := k4 (q, r, projectDict f.2.2 m.inputs.has) (by simp)
        exact ⟨r, b, j1, hr, (funext fun k => (j2 k).symm).trans (restrict_eq _ _).symm, hra⟩
    have hold2 : ∀ r b, (q, r, b) ∈ c2.graph.edges → ∃ e' ∈ old ++ [e], c2.back.get? r = some e'.2.1 ∧
        b.get? = restrict m.inputs e'.2.2 ∧ (nodeAttr c2.graph r).get? = restrict m.outputs e'.2.2 := by
      intro r' b hb
      rcases k2 _ hb with hb | hb
      · rw [hedges] at hb
        obtain ⟨f, hf, j1, j2, j3⟩ := hold r' b hb
        exact ⟨f, by simp [hf], (hkeep _ _ j1).1, j2, by rw [hattr2, (hkeep _ _ j1).2]; exact j3⟩
      · simp only [List.mem_singleton, Prod.mk.injEq, true_and] at hb
        obtain ⟨rfl, rfl⟩ := hb
        exact ⟨e, by simp, hr, (restrict_eq _ _).symm, hra⟩
    have hother : ∀ f, f.1 ≠ q → (f ∈ c2.graph.edges ↔ f ∈ c.graph.edges) := by
      intro f hf
      constructor
      · intro h
        rcases k2 _ h with h | h
        · rwa [hedges] at h
        · rw [List.mem_singleton] at h; subst h; exact absurd rfl hf
      · intro h; exact k3 _ (by rw [hedges]; exact h)
    have hnodes2 : ∀ p, c2.graph.hasNode p = true ↔ c.graph.hasNode p = true ∨ p = r := hnodes
    simp only [convEdges, h1, ok_bind, hadd']
    have hout2 : out m.graph s = (old ++ [e]) ++ es := by rw [hout]; simp
    by_cases hrS : r ∈ S
    · rw [if_pos hrS]
      obtain ⟨c', new, j1, j2, j3, j4, j5, j6, j7, j8, j9⟩ := ih (old ++ [e]) c2 Q S hc2 hq1 hout2 hdone2 hold2
        (by
          intro p
          rw [hnodes2, hS]
          constructor
          · exact .inl
          · rintro (h | rfl)
            · exact h
            · exact (hS _).1 hrS) hnd hQ hQS
      refine ⟨c', new, j1, j2, by simpa using j3, j4.trans hinit, ?_, ?_, j7, j8, j9⟩
      · intro p t hp
        have := j5 p t (hkeep p t hp).1
        exact ⟨this.1, by rw [this.2, hattr2, (hkeep p t hp).2]⟩
      · intro f hf; rw [j6 f hf, hother f hf]
    · rw [if_neg hrS]
      have hrQ : r ∉ Q := fun h => hrS (hQS r h)
      obtain ⟨c', new, j1, j2, j3, j4, j5, j6, j7, j8, j9⟩ := ih (old ++ [e]) c2 (Q ++ [r]) (S ++ [r]) hc2
        hq1 hout2 hdone2 hold2
        (by
          intro p
          rw [hnodes2, List.mem_append, hS, List.mem_singleton])
        (by
          rw [List.nodup_append]
          exact ⟨hnd, by simp, by intro a ha b hb; rw [List.mem_singleton] at hb; subst hb; rintro rfl; exact hrS ha⟩)
        (by
          rw [List.nodup_append]
          exact ⟨hQ, by simp, by intro a ha b hb; rw [List.mem_singleton] at hb; subst hb; rintro rfl; exact hrQ ha⟩)
        (by
          intro p hp
          rcases List.mem_append.1 hp with hp | hp
          · exact List.mem_append.2 (.inl (hQS p hp))
          · exact List.mem_append.2 (.inr hp))
      refine ⟨c', r :: new, by simpa using j1, j2, by simpa using j3, j4.trans hinit, ?_, ?_,
        by simpa using j7, by simpa using j8, by simpa using j9⟩
      · intro p t hp
        have := j5 p t (hkeep p t hp).1
        exact ⟨this.1, by rw [this.2, hattr2, (hkeep p t hp).2]⟩
      · intro f hf; rw [j6 f hf, hother f hf]

/-- There are no more states than pairs. -/
theorem nodes_le {m : Machine ν V} {s0 : ν} {out0 : Attr V} {c : Conv ν V} (hc : ConvOk m s0 out0 c)
    {S : List Nat} (hS : ∀ p, p ∈ S ↔ c.graph.hasNode p = true) (hnd : S.Nodup) :
    S.length ≤ m.graph.edges.length + 1 := by
  classical
  let f : Nat → Option ν × Val V := fun q => (c.back.get? q, (nodeAttr c.graph q).get?)
  have hinj : (S.map f).Nodup := by
    refine (List.nodup_map_iff_inj_on hnd).2 fun p hp q hq h => ?_
    simp only [f, Prod.mk.injEq] at h
    obtain ⟨s, hs⟩ := (hc.hasNode p).1 ((hS p).1 hp)
    exact hc.inj p q s hs (by rw [← h.1, hs]) (fun k => congrFun h.2 k)
  have hsub : S.map f ⊆ (pairs m s0 out0).map fun p => (some p.1, p.2) := by
    intro x hx
    obtain ⟨p, hp, rfl⟩ := List.mem_map.1 hx
    obtain ⟨s, hs⟩ := (hc.hasNode p).1 ((hS p).1 hp)
    exact List.mem_map.2 ⟨_, hc.pairs p s hs, by simp [f, hs]⟩
  have := (List.subperm_of_subset hinj hsub).length_le
  simpa [pairs] using this

theorem convLoop_spec {m : Machine ν V} (hm : MealyOk m) (hl : Labeled m) {s0 : ν} {out0 : Attr V}
    {pick : List Nat → Nat} (hpick : ∀ Q, Q ≠ [] → pick Q ∈ Q) (fuel : Nat) :
    ∀ (c : Conv ν V) (Q S : List Nat), ConvOk m s0 out0 c →
      (∀ p, p ∈ S ↔ c.graph.hasNode p = true) → S.Nodup → Q.Nodup → (∀ p ∈ Q, p ∈ S) →
      (∀ p s, p ∈ S → p ∉ Q → c.back.get? p = some s → Done m c p (out m.graph s)) →
      (∀ e ∈ c.graph.edges, e.1 ∉ Q) →
      m.graph.edges.length + 1 + Q.length + 1 ≤ fuel + S.length →
      ∃ c', convLoop m pick fuel c Q S = .ok c' ∧ ConvOk m s0 out0 c' ∧
        c'.graph.initial = c.graph.initial ∧
        (∀ p t, c.back.get? p = some t → c'.back.get? p = some t ∧
          nodeAttr c'.graph p = nodeAttr c.graph p) ∧
        (∀ p s, c'.back.get? p = some s → Done m c' p (out m.graph s)) := by
  induction fuel with
  | zero =>
    intro c Q S hc hS hnd _ _ _ _ hf
    have := nodes_le hc hS hnd
    omega
  | succ fuel ih =>
    intro c Q S hc hS hnd hQ hQS hdone hfresh hfuel
    unfold convLoop
    by_cases hQe : Q = []
    · subst hQe
      refine ⟨c, by simp, hc, rfl, fun p t h => ⟨h, rfl⟩, fun p s hp => ?_⟩
      exact hdone p s ((hS p).2 ((hc.hasNode p).2 ⟨s, hp⟩)) (by simp) hp
    · have hq := hpick Q hQe
      have hemp : Q.isEmpty = false := by cases Q with
        | nil => exact absurd rfl hQe
        | cons => rfl
      obtain ⟨s, hs⟩ := (hc.hasNode (pick Q)).1 ((hS _).1 (hQS _ hq))
      obtain ⟨c', new, j1, j2, j3, j4, j5, j6, j7, j8, j9⟩ := convEdges_spec hm hl (q := pick Q) (s := s)
        (out m.graph s) [] c (Q.erase (pick Q)) S hc hs (by simp) (by intro e he; simp at he)
        (by intro r b hb; exact absurd hq (hfresh _ hb)) hS hnd (hQ.erase _)
        (fun p hp => hQS p (List.mem_of_mem_erase hp))
      have hdisj : ∀ p ∈ new, p ∉ S := by
        intro p hp hpS
        exact (List.nodup_append.1 j8).2.2 p hpS p hp rfl
      have hqnew : pick Q ∉ Q.erase (pick Q) ++ new := by
        rw [List.mem_append]
        rintro (h | h)
        · exact (hQ.mem_erase_iff.1 h).1 rfl
        · exact hdisj _ h (hQS _ hq)
      obtain ⟨c'', l1, l2, l3, l4, l5⟩ := ih c' (Q.erase (pick Q) ++ new) (S ++ new) j2 j7 j8 j9
        (by
          intro p hp
          rcases List.mem_append.1 hp with hp | hp
          · exact List.mem_append.2 (.inl (hQS p (List.mem_of_mem_erase hp)))
          · exact List.mem_append.2 (.inr hp))
        (by
          intro p t hpS hpQ hpt
          by_cases hpq : p = pick Q
          · subst hpq
            rw [(j5 _ _ hs).1] at hpt
            cases hpt
            simpa using j3
          · have hpS' : p ∈ S := by
              rcases List.mem_append.1 hpS with h | h
              · exact h
              · exact absurd (List.mem_append.2 (.inr h)) hpQ
            have hpQ' : p ∉ Q := fun h => hpQ (List.mem_append.2 (.inl ((List.mem_erase_of_ne hpq).2 h)))
            obtain ⟨t', ht'⟩ := (hc.hasNode p).1 ((hS p).1 hpS')
            rw [(j5 _ _ ht').1] at hpt
            cases hpt
            intro e he
            obtain ⟨r, b, i1, i2, i3, i4⟩ := hdone p t hpS' hpQ' ht' e he
            exact ⟨r, b, (j6 _ hpq).2 i1, (j5 _ _ i2).1, i3, by rw [(j5 _ _ i2).2]; exact i4⟩)
        (by
          intro e he heQ
          by_cases heq : e.1 = pick Q
          · rw [heq] at heQ; exact hqnew heQ
          · have hec := (j6 e heq).1 he
            obtain ⟨x, _, _, hx, _⟩ := hc.sound e.1 e.2.1 e.2.2 hec
            have heS : e.1 ∈ S := (hS _).2 ((hc.hasNode _).2 ⟨x, hx⟩)
            rcases List.mem_append.1 heQ with h | h
            · exact hfresh e hec (List.mem_of_mem_erase h)
            · exact hdisj _ h heS)
        (by
          have h1 : (Q.erase (pick Q)).length = Q.length - 1 := List.length_erase_of_mem hq
          have h2 : 0 < Q.length := List.length_pos_of_mem hq
          simp only [List.length_append, h1]
          omega)
      refine ⟨c'', ?_, l2, l3.trans j4, ?_, l5⟩
      · simp only [hemp, Bool.false_eq_true, if_false, hs, j1, ok_bind]
        exact l1
      · intro p t hp
        have h1 := j5 p t hp
        have h2 := l4 p t h1.1
        exact ⟨h2.1, h2.2.trans h1.2⟩

theorem firstValues_spec {ports : Ports V} (hw : ports.Wf) (h : ∀ p ∈ ports, p.2 ≠ []) :
    ∃ a, firstValues ports = .ok a ∧ Dict.keys a = ports.keys ∧
      ∀ k, a.get? k = (ports.get? k).bind List.head? := by
  induction ports with
  | nil => exact ⟨[], rfl, rfl, fun k => rfl⟩
  | cons p ports ih =>
    have hp : p.1 ∉ Dict.keys ports ∧ Dict.Wf ports := by simpa [Dict.Wf, Dict.keys] using hw
    obtain ⟨a, h1, h2, h3⟩ := ih hp.2 fun q hq => h q (by simp [hq])
    cases hv : p.2 with
    | nil => exact absurd hv (h p (by simp))
    | cons v vs =>
      refine ⟨(p.1, v) :: a, by simp [firstValues, hv, h1], ?_, fun k => ?_⟩
      · simp only [Dict.keys, List.map_cons] at h2 ⊢; rw [h2]
      · rw [Dict.get?_cons, Dict.get?_cons, h3]
        split
        · simp [hv]
        · rfl

/-- **C19.** For a Mealy machine with an initial state, nonempty output types, and a value for each
port on each edge, `mealy2moore` terminates and succeeds, in whatever order the states are taken from
the set of pending ones. Its only initial state is labeled with the first value of each output type
and stands for the Mealy machine's first initial state. From a state that stands for `s`, its
executions are exactly those of the Mealy machine from `s`: the same inputs, and the outputs are those of the
states entered. -/
theorem mealy2moore_spec {m : Machine ν V} (hm : MealyOk m) (hl : Labeled m)
    (hout : ∀ p ∈ m.outputs, p.2 ≠ []) {s0 : ν} (hs0 : m.graph.initial.head? = some s0)
    {pick : List Nat → Nat} (hpick : ∀ Q, Q ≠ [] → pick Q ∈ Q) :
    ∃ m' back, mealy2moore m pick = .ok (m', back) ∧ m'.inputs = m.inputs ∧ m'.outputs = m.outputs ∧
      (∃ q0, m'.graph.initial = [q0] ∧ back.get? q0 = some s0 ∧
        ∀ k, mooreOut m' q0 k = (m.outputs.get? k).bind List.head?) ∧
      ∀ q s, back.get? q = some s → ∀ w ts,
        Exec m s w ts ↔ ∃ qs, Entered m' q w qs ∧ qs.map back.get? = ts.map some := by
  obtain ⟨out0, ho, hok, hog⟩ := firstValues_spec hm.outputs hout
  have ho_wf : out0.Wf := by rw [Dict.Wf, hok]; exact hm.outputs
  have ho_typed : ∀ p ∈ out0, ∀ vs, m.outputs.get? p.1 = some vs → p.2 ∈ vs := by
    intro p hp vs hvs
    have h1 := get?_of_mem ho_wf hp
    rw [hog, hvs, Option.bind_some] at h1
    exact List.mem_of_head? h1
  have ho_has : ∀ k, out0.has k = true → m.outputs.has k = true := by
    intro k hk
    rw [← mem_keys_iff_has, hok, mem_keys_iff_has] at hk
    exact hk
  let c0 : Conv ν V := { graph := (newMoore m.inputs m.outputs : Machine Nat V).graph, back := [] }
  have hc0 : ConvOk m s0 out0 c0 := by
    refine ⟨rfl, rfl, rfl, rfl, rfl, rfl, ?_, ?_, ?_⟩
    · intro p q s hp; simp [c0] at hp
    · intro q s hq; simp [c0] at hq
    · intro q r b hb; simp [c0, newMoore] at hb
  obtain ⟨q0, c1, h1, hc1, hq0, hqa, hqm, hedges, hinit, _, hnodes⟩ := createState_spec hm hc0 (s := s0)
    ho_wf ho_typed ho_has (by simp [pairs])
  have hadd := addNode_plain (g := c1.graph) hc1.nodeDefaults ho_wf
      (by rw [hc1.nodeTypes, typed_ports hm.outputs]; exact ho_typed)
      (by intro k; rw [hc1.nodeTypes, has_ports hm.outputs]; exact ho_has k) q0
  have hnode0 : c1.graph.hasNode q0 = true := (hc1.hasNode q0).2 ⟨s0, hq0⟩
  obtain ⟨b0, hb0⟩ := (Dict.has_iff _ _).1 hnode0
  have hself : c1.graph.nodes.set q0 (((c1.graph.nodes.get? q0).getD []).update out0) = c1.graph.nodes := by
    have : (nodeAttr c1.graph q0).update out0 = nodeAttr c1.graph q0 :=
      update_self out0 fun p hp => hqm p.1 p.2 hp
    rw [show (c1.graph.nodes.get? q0).getD [] = nodeAttr c1.graph q0 from rfl, this]
    exact set_same _ _ _ (by rw [nodeAttr, hb0]; rfl)
  rw [hself] at hadd
  have hini : c1.graph.initial = [] := hinit
  have hed : c1.graph.edges = [] := hedges
  let c2 : Conv ν V := { c1 with graph := { c1.graph with initial := [q0] } }
  have hc2 : ConvOk m s0 out0 c2 := ⟨hc1.nodeTypes, hc1.edgeTypes, hc1.nodeDefaults, hc1.edgeDefaults, hc1.keys,
    hc1.back, hc1.inj, hc1.pairs, hc1.sound⟩
  obtain ⟨c', l1, l2, l3, l4, l5⟩ := convLoop_spec hm hl hpick (m.graph.edges.length + 2) c2 [q0] [q0] hc2
    (by
      intro p
      rw [List.mem_singleton]
      show p = q0 ↔ c1.graph.hasNode p = true
      rw [hnodes]
      simp [c0, newMoore, LGraph.hasNode, Dict.has])
    (by simp) (by simp) (by simp) (by intro p s hp hp'; exact absurd hp hp')
    (by intro e he; rw [show c2.graph.edges = [] from hed] at he; simp at he) (by simp)
  refine ⟨⟨c'.graph, m.inputs, m.outputs⟩, c'.back, ?_, rfl, rfl, ⟨q0, l3, (l4 q0 s0 hq0).1, ?_⟩, ?_⟩
  · simp only [mealy2moore, ho, ok_bind, hs0]
    rw [show createState { graph := (newMoore m.inputs m.outputs : Machine Nat V).graph, back := [] } s0 out0 =
      .ok (q0, c1) from h1]
    simp only [ok_bind, hadd]
    have : LGraph.addInitial ({ c1.graph with nodes := c1.graph.nodes }) q0 =
        .ok { c1.graph with initial := [q0] } := by
      simp only [addInitial]
      rw [show LGraph.hasNode { c1.graph with nodes := c1.graph.nodes } q0 = true from hnode0]
      simp [hini, uniqueLoop]
    rw [this]
    simp only [ok_bind]
    rw [show convLoop m pick (m.graph.edges.length + 2)
      { c1 with graph := { c1.graph with initial := [q0] } } [q0] [q0] = .ok c' from l1]
    rfl
  · intro k
    have h2 : nodeAttr c'.graph q0 = nodeAttr c1.graph q0 := (l4 q0 s0 hq0).2
    simp only [mooreOut]
    rw [show (c'.graph.nodes.get? q0).getD [] = nodeAttr c'.graph q0 from rfl, h2, hqa, hog]
    cases hk : m.outputs.has k with
    | true => simp
    | false =>
      have : m.outputs.get? k = none := by
        cases hg : m.outputs.get? k with
        | none => rfl
        | some v => rw [(Dict.has_iff _ _).2 ⟨v, hg⟩] at hk; cases hk
      simp [this]
  · -- executions
    have hmo : ∀ r o, (nodeAttr c'.graph r).get? = restrict m.outputs o →
        mooreOut (⟨c'.graph, m.inputs, m.outputs⟩ : Machine Nat V) r = restrict m.outputs o := by
      intro r o h
      funext k
      simp only [mooreOut]
      rw [show (c'.graph.nodes.get? r).getD [] = nodeAttr c'.graph r from rfl, h]
      simp only [restrict]
      split <;> rfl
    have hin : ∀ (b a : Attr V), b.get? = restrict m.inputs a → restrict m.inputs b = restrict m.inputs a := by
      intro b a h
      funext k
      have := congrFun h k
      simp only [restrict] at this ⊢
      split
      · rename_i hk; rw [this, if_pos hk]
      · rfl
    intro q s hq w ts
    constructor
    · intro h
      induction h generalizing q with
      | nil s => exact ⟨[], .nil q, rfl⟩
      | @cons s t i o w ts hst _ ih =>
        obtain ⟨a, ha, rfl, rfl⟩ := hst
        obtain ⟨r, b, i1, i2, i3, i4⟩ := l5 q s hq (s, t, a) (by simp [out, ha])
        obtain ⟨qs, k1, k2⟩ := ih r i2
        refine ⟨r :: qs, ?_, by simp only [List.map_cons, i2, k2]⟩
        rw [← hmo r a i4, ← hin b a i3]
        exact .cons ⟨b, i1, rfl⟩ k1
    · rintro ⟨qs, h, hts⟩
      induction h generalizing s ts with
      | nil q =>
        cases ts with
        | nil => exact .nil s
        | cons => simp at hts
      | @cons q r i w qs hst _ ih =>
        obtain ⟨b, hb, rfl⟩ := hst
        obtain ⟨x, t, a, i1, i2, i3, i4, i5⟩ := l2.sound q r b hb
        rw [i1] at hq; cases hq
        cases ts with
        | nil => simp at hts
        | cons t' ts =>
          simp only [List.map_cons, List.cons.injEq] at hts
          rw [i2] at hts
          obtain ⟨h', hts⟩ := hts
          cases h'
          refine .cons ⟨a, i3, hin b a i4, hmo r a i5⟩ (ih t i2 ts hts)

/-! ### The hypotheses are met -/

/-- A Mealy machine built by calls: it copies its input with a delay of one step. -/
def delay' : Machine String Nat where
  graph := LGraph.run [] [] (Dict.update (Dict.update [] (typesOf [("in", [0, 1])])) (typesOf [("out", [0, 1])])) []
    [.addNodesFrom [("a", []), ("b", [])] true, .addInitialFrom ["a"],
     .addEdge "a" "a" [("in", 0), ("out", 0)] true, .addEdge "a" "b" [("in", 1), ("out", 0)] true,
     .addEdge "b" "a" [("in", 0), ("out", 1)] true, .addEdge "b" "b" [("in", 1), ("out", 1)] true]
  inputs := [("in", [0, 1])]
  outputs := [("out", [0, 1])]

/-- A Moore machine built by calls. -/
def toggle : Machine String Nat where
  graph := LGraph.run (typesOf [("out", [0, 1])]) [] (Dict.update [] (typesOf [("in", [0, 1])])) []
    [.addNodesFrom [("a", [("out", 0)]), ("b", [("out", 1)])] true, .addInitialFrom ["a"],
     .addEdge "a" "a" [("in", 0)] true, .addEdge "a" "b" [("in", 1)] true,
     .addEdge "b" "b" [("in", 0)] true, .addEdge "b" "a" [("in", 1)] true]
  inputs := [("in", [0, 1])]
  outputs := [("out", [0, 1])]

theorem delay'_ok : MealyOk delay' ∧ Labeled delay' ∧ NoMix (stripped delay' ["out"]) ∧
    delay'.graph.edges.length = 4 ∧ delay'.graph.initial.head? = some "a" := by
  obtain ⟨h1, h2, h3, h4⟩ := LGraph.run_ok (ν := String) (V := Nat) []
    [] (Dict.update (Dict.update [] (typesOf [("in", [0, 1])])) (typesOf [("out", [0, 1])])) []
    (ops := [.addNodesFrom [("a", []), ("b", [])] true, .addInitialFrom ["a"],
     .addEdge "a" "a" [("in", 0), ("out", 0)] true, .addEdge "a" "b" [("in", 1), ("out", 0)] true,
     .addEdge "b" "a" [("in", 0), ("out", 1)] true, .addEdge "b" "b" [("in", 1), ("out", 1)] true])
    (by simp [GOp.Wf, Dict.Wf, Dict.keys])
  have hkeys : ∀ k, (delay'.inputs.has k = true ↔ k = "in") ∧ (delay'.outputs.has k = true ↔ k = "out") := by
    intro k
    constructor <;> rw [← mem_keys_iff_has] <;> simp [delay', Dict.keys]
  refine ⟨⟨h4, h2, h3, by unfold Dict.Wf; decide +kernel, by unfold Dict.Wf; decide +kernel, fun k hk => ?_, fun e he k hk => ?_⟩, ?_, ?_,
    by decide +kernel, by decide +kernel⟩
  · rw [(hkeys k).1] at hk; subst hk; decide +kernel
  · rw [(hkeys k).1, (hkeys k).2]
    have : ∀ e ∈ delay'.graph.edges, e.2.2.keys = ["in", "out"] := by decide +kernel
    rw [← mem_keys_iff_has, this e he] at hk
    simpa using hk
  · intro e he k hk
    rw [(hkeys k).1, (hkeys k).2] at hk
    have : ∀ e ∈ delay'.graph.edges, e.2.2.keys = ["in", "out"] := by decide +kernel
    rw [← mem_keys_iff_has, this e he]
    simpa using hk
  · unfold NoMix; decide +kernel

theorem toggle_ok : MooreOk toggle ∧ toggle.graph.edges.length = 4 := by
  obtain ⟨h1, h2, h3, h4⟩ := LGraph.run_ok (ν := String) (V := Nat) (typesOf [("out", [0, 1])])
    [] (Dict.update [] (typesOf [("in", [0, 1])])) []
    (ops := [.addNodesFrom [("a", [("out", 0)]), ("b", [("out", 1)])] true, .addInitialFrom ["a"],
     .addEdge "a" "a" [("in", 0)] true, .addEdge "a" "b" [("in", 1)] true,
     .addEdge "b" "b" [("in", 0)] true, .addEdge "b" "a" [("in", 1)] true])
    (by simp [GOp.Wf, Dict.Wf, Dict.keys])
  have hkeys : ∀ k, (toggle.inputs.has k = true ↔ k = "in") ∧ (toggle.outputs.has k = true ↔ k = "out") := by
    intro k
    constructor <;> rw [← mem_keys_iff_has] <;> simp [toggle, Dict.keys]
  refine ⟨⟨h4, h2, ?_, h3, by unfold Dict.Wf; decide +kernel, by unfold Dict.Wf; decide +kernel, fun k hk => ?_, fun e he k hk => ?_⟩,
    by decide +kernel⟩
  · intro k vs hk
    show Dict.get? (LGraph.run _ _ _ _ _).nodeTypes k = _
    rw [h1, get?_typesOf, show Dict.get? [("out", [0, 1])] k = some vs from hk]
    rfl
  · rw [(hkeys k).1] at hk; subst hk; decide +kernel
  · rw [(hkeys k).1]
    have : ∀ e ∈ toggle.graph.edges, e.2.2.keys = ["in"] := by decide +kernel
    rw [← mem_keys_iff_has, this e he] at hk
    simpa using hk

example : ∃ m', moore2mealy toggle = .ok m' ∧ m'.graph.initial = ["a"] := by
  obtain ⟨m', h1, _, _, h2, _⟩ := moore2mealy_spec toggle_ok.1
  exact ⟨m', h1, h2.trans (by decide +kernel)⟩

example : ((mealy2moore delay' fun Q => Q.headD 0).toOption.map fun r => (r.1.graph.nodes.length,
    r.1.graph.edges.length)) = some (4, 8) := by decide +kernel

/-- Removing all ports from the labels of parallel edges raises. -/
theorem stripPorts_counterexample : ∃ m : Machine String Nat, MealyOk m ∧
    stripPorts m ["in"] = .error .exception := by
  refine ⟨⟨LGraph.run [] [] (Dict.update (Dict.update [] (typesOf [("in", [0, 1])])) (typesOf [])) []
    [.addNodesFrom [("a", [])] true, .addEdge "a" "a" [("in", 0)] true, .addEdge "a" "a" [("in", 1)] true],
    [("in", [0, 1])], []⟩, ?_, ?_⟩
  · obtain ⟨h1, h2, h3, h4⟩ := LGraph.run_ok (ν := String) (V := Nat) []
      [] (Dict.update (Dict.update [] (typesOf [("in", [0, 1])])) (typesOf [])) []
      (ops := [.addNodesFrom [("a", [])] true, .addEdge "a" "a" [("in", 0)] true,
        .addEdge "a" "a" [("in", 1)] true]) (by simp [GOp.Wf, Dict.Wf, Dict.keys])
    refine ⟨h4, h2, h3, by unfold Dict.Wf; decide +kernel, by unfold Dict.Wf; decide +kernel, fun k _ => rfl, fun e he k hk => ?_⟩
    left
    have : ∀ e ∈ (LGraph.run [] [] (Dict.update (Dict.update [] (typesOf [("in", [0, 1])])) (typesOf [])) []
      [.addNodesFrom [("a", [])] true, .addEdge "a" "a" [("in", 0)] true,
        .addEdge "a" "a" [("in", 1)] true] : LGraph String Nat).edges, e.2.2.keys = ["in"] := by decide +kernel
    rw [← mem_keys_iff_has, this e he] at hk
    rw [← mem_keys_iff_has]
    exact hk
  · rfl

end Mach
end Tulip
