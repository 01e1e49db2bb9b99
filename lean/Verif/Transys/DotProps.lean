import Verif.Transys.Dot
import Verif.Transys.GraphProps

/-!
# Pictures of labeled graphs (C119)

The DOT graph of a labeled graph has one node for each state, one more node with an arrow for each initial state, and
one edge for each transition, with the labels that are declared and not hidden. The files that `save` writes.
-/

namespace Tulip.Dot

variable {ν : Type} [DecidableEq ν]

/-! ### Specification -/

/-- `{a, b, c}` as written in labels, with the elements wrapped by `w`. -/
def braces (w : Str → Str) (l : List Str) : Str := c!"\\\\{" ++ w (joinWith c!", " l) ++ c!"\\\\}"

/-- The elements of a value that is a collection. -/
def elements : DVal → Option (List Str)
  | .iter l => some l
  | .mix l => some (l.map (·.1))
  | _ => none

/-- The text of a value that is no collection. -/
def plainText : DVal → Str
  | .str s => s
  | .other s => s
  | _ => []

/-- `fmt` is the format of the labels of states: the one of the graph, or else the empty names. -/
def FormatIs (g : DGraph ν) (fmt : Dict String Str) : Prop :=
  g.nodeFmt = some fmt ∨ g.nodeFmt = none ∧ fmt = [("type?label", []), ("separator", c!"\\\\n")]

/-- The name of a state without quotes, then its declared labels: name of the label, colon, value. -/
def NodeText (P : Env ν) (w : Nat) (g : DGraph ν) (fmt : Dict String Str) (u : ν) (d : Attr DVal) (t : Str) : Prop :=
  ∃ colon sep, ((∃ q ∈ d, q.1 ∈ g.nodeDef) → fmt.get? "type?label" = some colon) ∧ fmt.get? "separator" = some sep ∧
    t = (P.str u).filter (· != '\'') ++ (if d = [] then [] else c!"\\\\n") ++
      joinWith sep ((d.filter fun q => q.1 ∈ g.nodeDef).map fun q => ((fmt.get? q.1).getD []) ++ colon ++
        match elements q.2 with
        | some l => braces (P.fill w) l
        | none => P.fill w (plainText q.2))

/-- The attributes with which a state is drawn: its text, the shape of the graph, its colors if they are strings. -/
def NodeDrawn (P : Env ν) (w : Nat) (g : DGraph ν) (fmt : Dict String Str) (u : ν) (d : Attr DVal) (a : GvAttr) :
    Prop :=
  (∃ t, a.get? "label" = some t ∧ NodeText P w g fmt u d t) ∧
  (a.get? "shape" = g.shape.get? "normal" ∧ a.get? "shape" ≠ none) ∧
  (∀ c, d.get? "color" = some (.str c) → a.get? "color" = some ('"' :: c ++ ['"'])) ∧
  (d.get? "color" = none → a.get? "color" = some c!"\"black\"") ∧
  (∀ c, d.get? "fillcolor" = some (.str c) → c ≠ c!"gradient" → a.get? "fillcolor" = some ('"' :: c ++ ['"'])) ∧
  (d.get? "fillcolor" = none → a.get? "fillcolor" = some c!"\"none\"") ∧
  (g.shape.get? "normal" ≠ some c!"rectangle" →
    (d.get? "fillcolor" = none → a.get? "style" = some c!"\"\"") ∧
    (∀ c, d.get? "fillcolor" = some (.str c) → c ≠ c!"none" → a.get? "style" = some c!"\"filled\""))

/-- The labels of a transition that are declared and not hidden by their mask. -/
def visible (g : DGraph ν) (mask : Dict String (DVal → Bool)) (d : Attr DVal) : Attr DVal :=
  d.filter fun q => decide (q.1 ∈ g.edgeDef) && ((mask.get? q.1).map fun f => f q.2).getD true

/-- The text of one label of a transition. -/
def labelText (P : Env ν) (fmt : Dict String Str) (sep : Str) (q : String × DVal) : Str :=
  (match fmt.get? q.1, fmt.get? "type?label" with
    | some n, some colon => n ++ colon
    | _, _ => c!":,\\\\n") ++
  (match elements q.2 with
    | some l => braces (P.fill 70) l
    | none => plainText q.2) ++ sep

/-- The attributes with which a transition is drawn. -/
def EdgeDrawn (P : Env ν) (g : DGraph ν) (fmt : Dict String Str) (mask : Dict String (DVal → Bool))
    (d : Attr DVal) (a : GvAttr) : Prop :=
  (∃ sep, fmt.get? "separator" = some sep ∧
    a.get? "label" = some ('"' :: ((visible g mask d).flatMap (labelText P fmt sep)) ++ ['"'])) ∧
  (∀ c, d.get? "color" = some (.str c) → a.get? "color" = some c) ∧
  (d.get? "color" = none → a.get? "color" = some c!"black")

/-- The graph is one of networkx (nodes are distinct, edges have distinct keys and end at nodes), different initial
states have different texts, and no state is called like the phantom node of an initial state. -/
structure Clean (P : Env ν) (g : DGraph ν) : Prop where
  nodes : (g.nodes.map (·.1)).Nodup
  keys : (g.edges.map fun e => (e.1, e.2.1, e.2.2.1)).Nodup
  ends : ∀ e ∈ g.edges, e.1 ∈ g.nodes.map (·.1) ∧ e.2.1 ∈ g.nodes.map (·.1)
  phantomStr : ∀ i ∈ g.initial, P.str (P.phantom i) = c!"phantominit" ++ P.str i
  texts : ∀ i ∈ g.initial, ∀ j ∈ g.initial, P.str i = P.str j → i = j
  phantoms : ∀ u ∈ g.nodes.map (·.1), ∀ i ∈ g.initial, u ≠ P.phantom i

/-- The phantom node of an initial state. -/
def phantomAttr : GvAttr := [("label", c!"\"\""), ("shape", c!"none"), ("width", c!"0")]

/-! ### Dictionaries -/

theorem dset_append {κ α : Type} [DecidableEq κ] {d : Dict κ α} {k : κ} (v : α) (h : k ∉ d.map (·.1)) :
    d.set k v = d ++ [(k, v)] := by
  induction d with
  | nil => rfl
  | cons p d ih =>
    obtain ⟨a, b⟩ := p
    simp only [List.map_cons, List.mem_cons, not_or] at h
    simp only [Dict.set, if_neg (Ne.symm h.1), List.cons_append, ih h.2]

theorem dset_last {κ α : Type} [DecidableEq κ] {d : Dict κ α} {k : κ} (a v : α) (h : k ∉ d.map (·.1)) :
    Dict.set (d ++ [(k, a)]) k v = d ++ [(k, v)] := by
  induction d with
  | nil => simp [Dict.set]
  | cons p d ih =>
    obtain ⟨x, b⟩ := p
    simp only [List.map_cons, List.mem_cons, not_or] at h
    simp only [List.cons_append, Dict.set, if_neg (Ne.symm h.1), ih h.2]

theorem dget_none {κ α : Type} [DecidableEq κ] {d : Dict κ α} {k : κ} (h : k ∉ d.map (·.1)) : d.get? k = none := by
  induction d with
  | nil => rfl
  | cons p d ih =>
    simp only [List.map_cons, List.mem_cons, not_or] at h
    rw [Dict.get?_cons, if_neg (Ne.symm h.1), ih h.2]

theorem dget_last {κ α : Type} [DecidableEq κ] {d : Dict κ α} {k : κ} (a : α) (h : k ∉ d.map (·.1)) :
    Dict.get? (d ++ [(k, a)]) k = some a := by
  induction d with
  | nil => simp [Dict.get?_cons]
  | cons p d ih =>
    simp only [List.map_cons, List.mem_cons, not_or] at h
    rw [List.cons_append, Dict.get?_cons, if_neg (Ne.symm h.1), ih h.2]

theorem dset_same {κ α : Type} [DecidableEq κ] {d : Dict κ α} {k : κ} {v : α} (h : d.get? k = some v) :
    d.set k v = d := by
  induction d with
  | nil => simp at h
  | cons p d ih =>
    obtain ⟨a, b⟩ := p
    rw [Dict.get?_cons] at h
    by_cases e : a = k
    · simp only [e, if_true, Option.some.injEq] at h
      simp [Dict.set, e, h]
    · simp only [if_neg e] at h
      simp only [Dict.set, if_neg e, ih h]

theorem addNode_fresh {x : Nx ν} {u : ν} (a : GvAttr) (h : u ∉ x.nodes.map (·.1)) :
    x.addNode u a = { x with nodes := x.nodes ++ [(u, Dict.update [] a)] } := by
  unfold Nx.addNode
  rw [dget_none h, dset_append _ h]
  rfl

theorem addNode_known {x : Nx ν} {u : ν} (h : u ∈ x.nodes.map (·.1)) : x.addNode u [] = x := by
  unfold Nx.addNode
  obtain ⟨v, hv⟩ := (Dict.mem_keys_iff x.nodes u).1 h
  rw [hv]
  show ({ x with nodes := x.nodes.set u v } : Nx ν) = x
  rw [dset_same hv]

/-- The statement of a phantom node. -/
theorem addIncoming_fresh {P : Env ν} {x : Nx ν} {u : ν} (h1 : P.phantom u ∉ x.nodes.map (·.1))
    (h2 : u ∉ x.nodes.map (·.1)) (h3 : u ≠ P.phantom u) (h4 : ∀ e ∈ x.edges, e.1.2.1 ∈ x.nodes.map (·.1)) :
    addIncoming P x u =
      { nodes := x.nodes ++ [(P.phantom u, phantomAttr)] ++ [(u, [])], edges := x.edges ++ [((P.phantom u, u, 0), [])] } := by
  unfold addIncoming
  rw [addNode_fresh _ h1]
  have hk : (Nx.freshKey { x with nodes := x.nodes ++ [(P.phantom u, Dict.update [] phantomAttr)] } (P.phantom u) u) = 0 := by
    unfold Nx.freshKey
    rw [List.length_eq_zero_iff, List.filter_eq_nil_iff]
    intro e he hc
    simp only [Bool.and_eq_true, beq_iff_eq] at hc
    exact h2 (hc.2 ▸ h4 e he)
  simp only
  change Nx.addEdge { x with nodes := x.nodes ++ [(P.phantom u, Dict.update [] phantomAttr)] } (P.phantom u) u
    (Nx.freshKey { x with nodes := x.nodes ++ [(P.phantom u, Dict.update [] phantomAttr)] } (P.phantom u) u) [] = _
  rw [hk]
  unfold Nx.addEdge
  rw [addNode_known (u := P.phantom u) (by simp), addNode_fresh]
  · have he : (P.phantom u, u, 0) ∉ x.edges.map (·.1) := by
      intro hc
      obtain ⟨e, he, hh⟩ := List.mem_map.1 hc
      have := h4 e he
      rw [hh] at this
      exact h2 this
    simp only
    rw [dget_none he, dset_append _ he]
    rfl
  · simp only [List.map_append, List.map_cons, List.map_nil, List.mem_append, List.mem_singleton, not_or]
    exact ⟨h2, h3⟩

/-! ### Nodes -/

/-- The nodes that are drawn for one state. -/
def groupOf (P : Env ν) (g : DGraph ν) (A : ν → Attr DVal → GvAttr) (p : ν × Attr DVal) : Dict ν GvAttr :=
  (if p.1 ∈ g.initial then [(P.phantom p.1, phantomAttr)] else []) ++ [(p.1, A p.1 p.2)]

/-- The attributes of a state, when they can be computed. -/
def attrOf (P : Env ν) (w : Nat) (g : DGraph ν) (u : ν) (d : Attr DVal) : GvAttr :=
  match nodeLabel P w g.nodeDef (nodeFormat g) u d with
  | .ok t => match nodeAttr P g u d t with
    | .ok a => a
    | .error _ => []
  | .error _ => []

theorem nodeAttr_inv {P : Env ν} {g : DGraph ν} {u : ν} {d : Attr DVal} {t : Str} {a : GvAttr}
    (h : nodeAttr P g u d t = .ok a) :
    ∃ normal rim fill, g.shape.get? "normal" = some normal ∧
      formatColor P ((d.get? "color").getD (.str c!"black")) = .ok rim ∧
      fillOf P d = .ok fill ∧
      a = [("label", t), ("shape", normal), ("style", nodeStyle (normal == c!"rectangle")
        ((d.get? "fillcolor").getD (.str c!"none") != .str c!"none")),
        ("color", c!"\"" ++ rim ++ c!"\""), ("fillcolor", c!"\"" ++ fill ++ c!"\"")] := by
  unfold nodeAttr getK at h
  cases hn : g.shape.get? "normal" with
  | none => rw [hn] at h; cases h
  | some normal =>
    rw [hn] at h
    simp only [ok_bind] at h
    cases hr : formatColor P ((d.get? "color").getD (.str c!"black")) with
    | error e => rw [hr] at h; cases h
    | ok rim =>
      rw [hr] at h
      simp only [ok_bind] at h
      cases hF : fillOf P d with
      | error e => rw [hF] at h; cases h
      | ok fill =>
        rw [hF] at h
        refine ⟨normal, rim, fill, rfl, rfl, rfl, ?_⟩
        simp only [ok_bind, isAccepting, statesHaveAccepting, Bool.false_and, Bool.false_eq_true, if_false,
          Except.ok.injEq] at h
        exact h.symm

theorem update_nil_of_nodeAttr {P : Env ν} {g : DGraph ν} {u : ν} {d : Attr DVal} {t : Str} {a : GvAttr}
    (h : nodeAttr P g u d t = .ok a) : Dict.update [] a = a := by
  obtain ⟨n, r, f, -, -, -, rfl⟩ := nodeAttr_inv h
  simp [Dict.update, Dict.set]

theorem states2dot_spec {P : Env ν} {w : Nat} {g : DGraph ν} (hT : ∀ i ∈ g.initial, ∀ j ∈ g.initial,
    P.phantom i = P.phantom j → i = j) :
    ∀ (ps : Dict ν (Attr DVal)) (x y : Nx ν), states2dot P w g x ps = .ok y →
      (ps.map (·.1)).Nodup → (∀ p ∈ ps, p.1 ∉ x.nodes.map (·.1)) →
      (∀ p ∈ ps, p.1 ∈ g.initial → P.phantom p.1 ∉ x.nodes.map (·.1)) →
      (∀ p ∈ ps, ∀ i ∈ g.initial, p.1 ≠ P.phantom i) →
      (∀ e ∈ x.edges, e.1.2.1 ∈ x.nodes.map (·.1)) →
      y.nodes = x.nodes ++ ps.flatMap (groupOf P g (attrOf P w g)) ∧
      y.edges = x.edges ++ (ps.filter fun p => p.1 ∈ g.initial).map (fun p => ((P.phantom p.1, p.1, 0), [])) ∧
      ∀ p ∈ ps, ∃ t, nodeLabel P w g.nodeDef (nodeFormat g) p.1 p.2 = .ok t ∧
        nodeAttr P g p.1 p.2 t = .ok (attrOf P w g p.1 p.2) := by
  intro ps
  induction ps with
  | nil =>
    intro x y h _ _ _ _ _
    cases h
    simp
  | cons p ps ih =>
    intro x y h hd hf hp hne hx
    unfold states2dot at h
    cases hl : nodeLabel P w g.nodeDef (nodeFormat g) p.1 p.2 with
    | error e => rw [hl] at h; cases h
    | ok t =>
      rw [hl] at h
      simp only [ok_bind] at h
      cases ha : nodeAttr P g p.1 p.2 t with
      | error e => rw [ha] at h; cases h
      | ok a =>
        rw [ha] at h
        simp only [ok_bind] at h
        have hA : attrOf P w g p.1 p.2 = a := by simp [attrOf, hl, ha]
        have hu := update_nil_of_nodeAttr ha
        rw [List.map_cons, List.nodup_cons] at hd
        have hfp := hf p (by simp)
        -- the graph after this state
        have hstep : (if p.1 ∈ g.initial then addIncoming P x p.1 else x).addNode p.1 a =
            { nodes := x.nodes ++ groupOf P g (attrOf P w g) p,
              edges := x.edges ++ (if p.1 ∈ g.initial then [((P.phantom p.1, p.1, 0), [])] else []) } := by
          by_cases hi : p.1 ∈ g.initial
          · rw [if_pos hi, addIncoming_fresh (hp p (by simp) hi) hfp (hne p (by simp) p.1 hi) hx]
            have hn : p.1 ∉ (x.nodes ++ [(P.phantom p.1, phantomAttr)]).map (·.1) := by
              simp only [List.map_append, List.map_cons, List.map_nil, List.mem_append, List.mem_singleton, not_or]
              exact ⟨hfp, hne p (by simp) p.1 hi⟩
            unfold Nx.addNode
            simp only
            rw [dget_last _ hn, dset_last _ _ hn]
            simp [groupOf, hi, hA, hu]
          · rw [if_neg hi, addNode_fresh _ hfp]
            simp [groupOf, hi, hA, hu]
        rw [hstep] at h
        have hk : ∀ u, u ∈ (x.nodes ++ groupOf P g (attrOf P w g) p).map (·.1) →
            u ∈ x.nodes.map (·.1) ∨ (p.1 ∈ g.initial ∧ u = P.phantom p.1) ∨ u = p.1 := by
          intro u hu
          rw [List.map_append, List.mem_append] at hu
          rcases hu with hu | hu
          · exact Or.inl hu
          · unfold groupOf at hu
            by_cases hi : p.1 ∈ g.initial
            · simp only [if_pos hi, List.singleton_append, List.map_cons, List.map_nil, List.mem_cons,
                List.not_mem_nil, or_false] at hu
              rcases hu with hu | hu
              · exact Or.inr (Or.inl ⟨hi, hu⟩)
              · exact Or.inr (Or.inr hu)
            · simp only [if_neg hi, List.nil_append, List.map_cons, List.map_nil, List.mem_singleton] at hu
              exact Or.inr (Or.inr hu)
        obtain ⟨h1, h2, h3⟩ := ih _ y h hd.2
          (fun q hq hc => by
            rcases hk _ hc with hc | ⟨hi, hc⟩ | hc
            · exact hf q (by simp [hq]) hc
            · exact hne q (by simp [hq]) p.1 hi hc
            · exact hd.1 (hc ▸ List.mem_map_of_mem hq))
          (fun q hq hqi hc => by
            rcases hk _ hc with hc | ⟨hi, hc⟩ | hc
            · exact hp q (by simp [hq]) hqi hc
            · exact hd.1 (hT _ hqi _ hi hc ▸ List.mem_map_of_mem hq)
            · exact hne p (by simp) q.1 hqi hc.symm)
          (fun q hq => hne q (by simp [hq]))
          (fun e he => by
            simp only [List.mem_append] at he
            rcases he with he | he
            · simp only [List.map_append, List.mem_append]
              exact Or.inl (hx e he)
            · by_cases hi : p.1 ∈ g.initial
              · simp only [if_pos hi, List.mem_singleton] at he
                subst he
                simp [groupOf]
              · simp [if_neg hi] at he)
        refine ⟨?_, ?_, ?_⟩
        · rw [h1]; simp
        · rw [h2]
          by_cases hi : p.1 ∈ g.initial <;> simp [hi]
        · intro q hq
          rcases List.mem_cons.1 hq with rfl | hq
          · exact ⟨t, hl, by rw [hA, ha]⟩
          · exact h3 q hq

/-! ### Edges -/

/-- The attributes of a transition, when they can be computed. -/
def edgeAttrOf (P : Env ν) (g : DGraph ν) (fmt : Dict String Str) (mask : Dict String (DVal → Bool)) (d : Attr DVal) :
    GvAttr :=
  match edgeLabel P g.edgeDef fmt mask d with
  | .ok t => [("label", t), ("color", edgeColor d)]
  | .error _ => []

theorem transLoop_spec {P : Env ν} {g : DGraph ν} {fmt : Dict String Str} {mask : Dict String (DVal → Bool)} :
    ∀ (es : List (ν × ν × Nat × Attr DVal)) (x y : Nx ν), transLoop P g fmt mask x es = .ok y →
      (es.map fun e => (e.1, e.2.1, e.2.2.1)).Nodup →
      (∀ e ∈ es, e.1 ∈ x.nodes.map (·.1) ∧ e.2.1 ∈ x.nodes.map (·.1)) →
      (∀ e ∈ es, (e.1, e.2.1, e.2.2.1) ∉ x.edges.map (·.1)) →
      y.nodes = x.nodes ∧
      y.edges = x.edges ++ es.map (fun e => ((e.1, e.2.1, e.2.2.1), edgeAttrOf P g fmt mask e.2.2.2)) ∧
      ∀ e ∈ es, ∃ t, edgeLabel P g.edgeDef fmt mask e.2.2.2 = .ok t := by
  intro es
  induction es with
  | nil =>
    intro x y h _ _ _
    cases h
    simp
  | cons e es ih =>
    obtain ⟨u, v, key, d⟩ := e
    intro x y h hd hn hf
    unfold transLoop at h
    cases hl : edgeLabel P g.edgeDef fmt mask d with
    | error e => rw [hl] at h; cases h
    | ok t =>
      rw [hl] at h
      simp only [ok_bind] at h
      obtain ⟨hu, hv⟩ := hn (u, v, key, d) (by simp)
      have hfe := hf (u, v, key, d) (by simp)
      simp only at hu hv hfe
      have hstep : x.addEdge u v key [("label", t), ("color", edgeColor d)] =
          { nodes := x.nodes, edges := x.edges ++ [((u, v, key), edgeAttrOf P g fmt mask d)] } := by
        unfold Nx.addEdge
        rw [addNode_known hu, addNode_known hv]
        simp only
        rw [dget_none hfe, dset_append _ hfe]
        simp [edgeAttrOf, hl, Dict.update, Dict.set]
      rw [hstep] at h
      rw [List.map_cons, List.nodup_cons] at hd
      obtain ⟨h1, h2, h3⟩ := ih _ y h hd.2 (fun e he => hn e (by simp [he]))
        (fun e he hc => by
          simp only [List.map_append, List.map_cons, List.map_nil, List.mem_append, List.mem_singleton] at hc
          rcases hc with hc | hc
          · exact hf e (by simp [he]) hc
          · exact hd.1 (hc ▸ List.mem_map_of_mem (f := fun e : ν × ν × Nat × Attr DVal => (e.1, e.2.1, e.2.2.1)) he))
      refine ⟨h1, ?_, ?_⟩
      · rw [h2]; simp
      · intro e he
        rcases List.mem_cons.1 he with rfl | he
        · exact ⟨t, hl⟩
        · exact h3 e he

/-! ### Labels -/

theorem nodeValue_eq (P : Env ν) (w : Nat) (v : DVal) : nodeValue P w v =
    match elements v with
    | some l => braces (P.fill w) l
    | none => P.fill w (plainText v) := by
  cases v <;> rfl

theorem edgeValue_eq (P : Env ν) (v : DVal) : edgeValue P v =
    match elements v with
    | some l => braces (P.fill 70) l
    | none => plainText v := by
  cases v <;> rfl

theorem nodePieces_inv {P : Env ν} {w : Nat} {defs : List String} {fmt : Dict String Str} :
    ∀ (d : Attr DVal) (l : List Str), nodePieces P w defs fmt d = .ok l →
      (∀ q ∈ d, q.1 ∈ defs → ∃ c, fmt.get? "type?label" = some c) ∧
      ∀ colon, fmt.get? "type?label" = some colon →
        l = (d.filter fun q => q.1 ∈ defs).map fun q => ((fmt.get? q.1).getD []) ++ colon ++ nodeValue P w q.2 := by
  intro d
  induction d with
  | nil =>
    intro l h
    cases h
    simp
  | cons p ps ih =>
    intro l h
    unfold nodePieces getK at h
    by_cases hp : p.1 ∈ defs
    · rw [if_pos hp] at h
      cases hn : fmt.get? p.1 with
      | none => rw [hn] at h; cases h
      | some n =>
        cases hc : fmt.get? "type?label" with
        | none => rw [hn, hc] at h; cases h
        | some c =>
          rw [hn, hc] at h
          simp only [ok_bind] at h
          cases hr : nodePieces P w defs fmt ps with
          | error e => rw [hr] at h; cases h
          | ok r =>
            rw [hr] at h
            simp only [ok_bind, Except.ok.injEq] at h
            refine ⟨fun q _ _ => ⟨c, rfl⟩, ?_⟩
            intro colon hcol
            cases hcol
            have := (ih r hr).2 c hc
            subst this
            rw [← h, List.filter_cons_of_pos (by simpa using hp), List.map_cons, hn]
            rfl
    · rw [if_neg hp] at h
      obtain ⟨h1, h2⟩ := ih l h
      refine ⟨?_, ?_⟩
      · intro q hq hqd
        rcases List.mem_cons.1 hq with rfl | hq
        · exact absurd hqd hp
        · exact h1 q hq hqd
      · intro colon hcol
        rw [List.filter_cons_of_neg (by simpa using hp)]
        exact h2 colon hcol

theorem nodeFormat_eq {g : DGraph ν} {fmt : Dict String Str} (h : FormatIs g fmt) : nodeFormat g = fmt := by
  rcases h with h | ⟨h, rfl⟩ <;> simp [nodeFormat, h]

theorem nodeLabel_text {P : Env ν} {w : Nat} {g : DGraph ν} {fmt : Dict String Str} {u : ν} {d : Attr DVal} {t : Str}
    (h : nodeLabel P w g.nodeDef fmt u d = .ok t) : NodeText P w g fmt u d t := by
  unfold nodeLabel at h
  cases hp : nodePieces P w g.nodeDef fmt d with
  | error e => rw [hp] at h; cases h
  | ok l =>
    rw [hp] at h
    simp only [ok_bind] at h
    unfold getK at h
    cases hs : fmt.get? "separator" with
    | none => rw [hs] at h; cases h
    | some sep =>
      rw [hs] at h
      simp only [ok_bind, Except.ok.injEq] at h
      obtain ⟨h1, h2⟩ := nodePieces_inv d l hp
      have hempty : (if d.isEmpty then ([] : Str) else c!"\\\\n") = if d = [] then [] else c!"\\\\n" := by
        cases d <;> rfl
      by_cases hex : ∃ q ∈ d, q.1 ∈ g.nodeDef
      · obtain ⟨q, hq, hqd⟩ := hex
        obtain ⟨c, hc⟩ := h1 q hq hqd
        refine ⟨c, sep, fun _ => hc, hs, ?_⟩
        rw [← h, h2 c hc, hempty]
        congr 3
        funext q
        rw [nodeValue_eq]
      · refine ⟨[], sep, fun hc => absurd hc hex, hs, ?_⟩
        have hf : d.filter (fun q => q.1 ∈ g.nodeDef) = [] := by
          rw [List.filter_eq_nil_iff]
          intro q hq hc
          exact hex ⟨q, hq, by simpa using hc⟩
        have hl : l = [] := by
          clear h h2 hempty
          induction d generalizing l with
          | nil => cases hp; rfl
          | cons q d ih =>
            unfold nodePieces at hp
            rw [if_neg (fun hc => hex ⟨q, by simp, hc⟩)] at hp
            exact ih l hp (fun a ha => h1 a (by simp [ha])) (fun ⟨a, ha, hb⟩ => hex ⟨a, by simp [ha], hb⟩)
              (by rw [List.filter_eq_nil_iff]
                  intro a ha hc
                  exact hex ⟨a, by simp [ha], by simpa using hc⟩)
        rw [← h, hl, hf, hempty]
        rfl

theorem edgeShown_eq (g : DGraph ν) (mask : Dict String (DVal → Bool)) (q : String × DVal) :
    edgeShown g.edgeDef mask q = (decide (q.1 ∈ g.edgeDef) && ((mask.get? q.1).map fun f => f q.2).getD true) := by
  unfold edgeShown
  cases mask.get? q.1 <;> rfl

theorem edgePieces_inv {P : Env ν} {g : DGraph ν} {fmt : Dict String Str} {mask : Dict String (DVal → Bool)}
    {sep : Str} : ∀ (d : Attr DVal) (t : Str), edgePieces P g.edgeDef fmt mask sep d = .ok t →
      t = (visible g mask d).flatMap (labelText P fmt sep) := by
  intro d
  induction d with
  | nil =>
    intro t h
    cases h
    rfl
  | cons p ps ih =>
    intro t h
    unfold edgePieces at h
    by_cases hs : edgeShown g.edgeDef mask p = true
    · rw [if_pos hs] at h
      have hv : visible g mask (p :: ps) = p :: visible g mask ps := by
        unfold visible
        rw [List.filter_cons_of_pos]
        rw [← edgeShown_eq]; exact hs
      rw [hv, List.flatMap_cons]
      cases hn : fmt.get? p.1 with
      | none =>
        rw [hn] at h
        simp only [ok_bind] at h
        cases hr : edgePieces P g.edgeDef fmt mask sep ps with
        | error e => rw [hr] at h; cases h
        | ok r =>
          rw [hr] at h
          simp only [ok_bind, Except.ok.injEq] at h
          rw [← h, ← ih r hr, edgeValue_eq]
          unfold labelText
          rw [hn]
          simp only [List.append_assoc, List.cons_append, List.nil_append]
      | some n =>
        rw [hn] at h
        unfold getK at h
        cases hc : fmt.get? "type?label" with
        | none => rw [hc] at h; cases h
        | some c =>
          rw [hc] at h
          simp only [ok_bind] at h
          cases hr : edgePieces P g.edgeDef fmt mask sep ps with
          | error e => rw [hr] at h; cases h
          | ok r =>
            rw [hr] at h
            simp only [ok_bind, Except.ok.injEq] at h
            rw [← h, ← ih r hr, edgeValue_eq]
            unfold labelText
            rw [hn, hc]
    · rw [if_neg hs] at h
      have hv : visible g mask (p :: ps) = visible g mask ps := by
        unfold visible
        rw [List.filter_cons_of_neg]
        rw [← edgeShown_eq]; exact hs
      rw [hv]
      exact ih t h

theorem edgeDrawn_of {P : Env ν} {g : DGraph ν} {fmt : Dict String Str} {mask : Dict String (DVal → Bool)}
    {d : Attr DVal} {t : Str} (h : edgeLabel P g.edgeDef fmt mask d = .ok t) :
    EdgeDrawn P g fmt mask d (edgeAttrOf P g fmt mask d) := by
  have hA : edgeAttrOf P g fmt mask d = [("label", t), ("color", edgeColor d)] := by simp [edgeAttrOf, h]
  rw [hA]
  unfold edgeLabel getK at h
  cases hs : fmt.get? "separator" with
  | none => rw [hs] at h; cases h
  | some sep =>
    rw [hs] at h
    simp only [ok_bind] at h
    cases hp : edgePieces P g.edgeDef fmt mask sep d with
    | error e => rw [hp] at h; cases h
    | ok r =>
      rw [hp] at h
      simp only [ok_bind, Except.ok.injEq] at h
      refine ⟨⟨sep, hs, ?_⟩, ?_, ?_⟩
      · rw [Dict.get?_cons, if_pos rfl, ← h, edgePieces_inv d r hp]
        rfl
      · intro c hc
        simp [Dict.get?_cons, edgeColor, hc]
      · intro hc
        simp [Dict.get?_cons, edgeColor, hc]

theorem nodeDrawn_of {P : Env ν} {w : Nat} {g : DGraph ν} {fmt : Dict String Str} (hf : FormatIs g fmt) {u : ν}
    {d : Attr DVal} {t : Str} {a : GvAttr} (h : nodeLabel P w g.nodeDef (nodeFormat g) u d = .ok t)
    (ha : nodeAttr P g u d t = .ok a) : NodeDrawn P w g fmt u d a := by
  obtain ⟨normal, rim, fill, h1, h2, h3, rfl⟩ := nodeAttr_inv ha
  rw [nodeFormat_eq hf] at h
  refine ⟨⟨t, rfl, nodeLabel_text h⟩, ⟨by simp [Dict.get?_cons, h1], by simp [Dict.get?_cons]⟩, ?_, ?_, ?_, ?_, ?_⟩
  · intro c hc
    rw [hc] at h2
    simp only [Option.getD_some, formatColor, Except.ok.injEq] at h2
    subst h2
    simp [Dict.get?_cons]
  · intro hc
    rw [hc] at h2
    simp only [Option.getD_none, formatColor, Except.ok.injEq] at h2
    subst h2
    simp [Dict.get?_cons]
  · intro c hc hg
    unfold fillOf at h3
    rw [hc] at h3
    simp only [Option.getD_some, formatColor] at h3
    rw [if_neg (by simpa using hg)] at h3
    cases h3
    simp [Dict.get?_cons]
  · intro hc
    unfold fillOf at h3
    rw [hc] at h3
    simp only [Option.getD_none, formatColor] at h3
    rw [if_neg (by decide)] at h3
    cases h3
    simp [Dict.get?_cons]
  · intro hr
    rw [h1] at hr
    have hr' : (normal == c!"rectangle") = false := by
      rw [beq_eq_false_iff_ne]
      exact fun e => hr (by rw [e])
    refine ⟨?_, ?_⟩
    · intro hc
      simp only [hc, Option.getD_none, hr']
      rfl
    · intro c hc hn
      have : ((DVal.str c) != DVal.str c!"none") = true := by simpa using hn
      simp only [hc, Option.getD_some, hr', this]
      rfl

/-! ### The DOT graph -/

/-- C119. The DOT graph of a labeled graph. Its nodes are the states, in their order, each initial one preceded by an
invisible node; its edges are one arrow into each initial state, and the transitions in their order; states and
transitions are drawn with their declared and visible labels and with their colors; initial states are in the first
rank. -/
theorem graph2dot_spec {P : Env ν} {w : Nat} {g : DGraph ν} {fmt efmt : Dict String Str}
    {mask : Dict String (DVal → Bool)} {D : Gv} (hc : Clean P g) (hf : FormatIs g fmt) (he : g.edgeFmt = some efmt)
    (hm : g.edgeMask = some mask) (h : graph2dot P w g = .ok D) :
    ∃ (A : ν → Attr DVal → GvAttr) (B : Attr DVal → GvAttr),
      D.nodes = g.nodes.flatMap (fun p =>
        (if p.1 ∈ g.initial then [(c!"phantominit" ++ P.str p.1, phantomAttr)] else []) ++ [(P.str p.1, A p.1 p.2)]) ∧
      (∀ p ∈ g.nodes, NodeDrawn P w g fmt p.1 p.2 (A p.1 p.2)) ∧
      D.edges = ((g.nodes.map (·.1)).filter (· ∈ g.initial)).map
          (fun i => (c!"phantominit" ++ P.str i, P.str i, [])) ++
        g.edges.map (fun e => (P.str e.1, P.str e.2.1, B e.2.2.2)) ∧
      (∀ e ∈ g.edges, EdgeDrawn P g efmt mask e.2.2.2 (B e.2.2.2)) ∧
      (∀ s, s ∈ D.source ↔ ∃ i ∈ g.initial, s = P.str i ∨ s = c!"phantominit" ++ P.str i) := by
  unfold graph2dot at h
  cases hx : states2dot P w g {} g.nodes with
  | error e => rw [hx] at h; cases h
  | ok x =>
    rw [hx] at h
    simp only [ok_bind] at h
    have hT : ∀ i ∈ g.initial, ∀ j ∈ g.initial, P.phantom i = P.phantom j → i = j := by
      intro i hi j hj hij
      have := congrArg P.str hij
      rw [hc.phantomStr i hi, hc.phantomStr j hj] at this
      exact hc.texts i hi j hj (List.append_cancel_left this)
    obtain ⟨n1, n2, n3⟩ := states2dot_spec hT g.nodes {} x hx hc.nodes (by simp) (by simp)
      (fun p hp i hi => hc.phantoms p.1 (List.mem_map_of_mem hp) i hi) (by simp)
    simp only [List.nil_append] at n1 n2
    unfold transitions2dot at h
    rw [he, hm] at h
    simp only at h
    cases hy : transLoop P g efmt mask x g.edges with
    | error e => rw [hy] at h; cases h
    | ok y =>
      rw [hy] at h
      simp only [ok_bind, Except.ok.injEq] at h
      have hmem : ∀ u, u ∈ g.nodes.map (·.1) → u ∈ x.nodes.map (·.1) := by
        intro u hu
        obtain ⟨p, hp, rfl⟩ := List.mem_map.1 hu
        rw [n1]
        refine List.mem_map.2 ⟨(p.1, attrOf P w g p.1 p.2), List.mem_flatMap.2 ⟨p, hp, ?_⟩, rfl⟩
        simp [groupOf]
      obtain ⟨e1, e2, e3⟩ := transLoop_spec g.edges x y hy hc.keys
        (fun e hem => ⟨hmem _ (hc.ends e hem).1, hmem _ (hc.ends e hem).2⟩)
        (fun e hem hcc => by
          rw [n2] at hcc
          obtain ⟨q, hq, hqe⟩ := List.mem_map.1 hcc
          obtain ⟨p, hp, rfl⟩ := List.mem_map.1 hq
          simp only [Prod.mk.injEq] at hqe
          have hpi : p.1 ∈ g.initial := by simpa using (List.mem_filter.1 hp).2
          exact hc.phantoms e.1 (hc.ends e hem).1 p.1 hpi hqe.1.symm)
      refine ⟨attrOf P w g, edgeAttrOf P g efmt mask, ?_, ?_, ?_, ?_, ?_⟩
      · rw [← h]
        show y.nodes.map _ = _
        rw [e1, n1, List.map_flatMap]
        have : ∀ l : Dict ν (Attr DVal), l.flatMap (fun p => (groupOf P g (attrOf P w g) p).map
            fun q => (P.str q.1, q.2)) = l.flatMap fun p =>
            (if p.1 ∈ g.initial then [(c!"phantominit" ++ P.str p.1, phantomAttr)] else []) ++
              [(P.str p.1, attrOf P w g p.1 p.2)] := by
          intro l
          congr 1
          funext p
          unfold groupOf
          by_cases hi : p.1 ∈ g.initial
          · simp only [if_pos hi, List.singleton_append, List.map_cons, List.map_nil, hc.phantomStr _ hi]
          · simp only [if_neg hi, List.nil_append, List.map_cons, List.map_nil]
        exact this g.nodes
      · intro p hp
        obtain ⟨t, ht1, ht2⟩ := n3 p hp
        exact nodeDrawn_of hf ht1 ht2
      · rw [← h]
        show y.edges.map _ = _
        rw [e2, n2, List.map_append, List.map_map, List.map_map]
        congr 1
        rw [List.filter_map, List.map_map]
        refine List.map_congr_left ?_
        intro p hp
        have hpi : p.1 ∈ g.initial := by simpa using (List.mem_filter.1 hp).2
        simp only [Function.comp, hc.phantomStr _ hpi]
      · intro e hem
        obtain ⟨t, ht⟩ := e3 e hem
        exact edgeDrawn_of ht
      · intro s
        rw [← h]
        show s ∈ g.initial.flatMap _ ↔ _
        simp only [List.mem_flatMap, List.mem_cons, List.not_mem_nil, or_false]

/-- C119. Nodes of the DOT graph have different names, so no two states are drawn as one, if states have different
texts and none has the text of a phantom node. -/
theorem names_distinct {P : Env ν} {w : Nat} {g : DGraph ν} {fmt efmt : Dict String Str}
    {mask : Dict String (DVal → Bool)} {D : Gv} (hc : Clean P g) (hf : FormatIs g fmt) (he : g.edgeFmt = some efmt)
    (hm : g.edgeMask = some mask) (h : graph2dot P w g = .ok D)
    (hs : ∀ u ∈ g.nodes.map (·.1), ∀ v ∈ g.nodes.map (·.1), P.str u = P.str v → u = v)
    (hp : ∀ u ∈ g.nodes.map (·.1), ∀ i ∈ g.initial, P.str u ≠ c!"phantominit" ++ P.str i) :
    (D.nodes.map (·.1)).Nodup := by
  obtain ⟨A, B, h1, -⟩ := graph2dot_spec hc hf he hm h
  rw [h1, List.map_flatMap]
  have hn := hc.nodes
  clear h1 h
  have key : ∀ l : Dict ν (Attr DVal), (∀ p ∈ l, p.1 ∈ g.nodes.map (·.1)) → (l.map (·.1)).Nodup →
      (l.flatMap fun p => ((if p.1 ∈ g.initial then [(c!"phantominit" ++ P.str p.1, phantomAttr)] else []) ++
        [(P.str p.1, A p.1 p.2)]).map (·.1)).Nodup := by
    intro l
    induction l with
    | nil => intro _ _; simp
    | cons p l ih =>
      intro hl hd
      rw [List.map_cons, List.nodup_cons] at hd
      have hpn := hl p (by simp)
      rw [List.flatMap_cons, List.nodup_append]
      refine ⟨?_, ih (fun q hq => hl q (by simp [hq])) hd.2, ?_⟩
      · by_cases hi : p.1 ∈ g.initial
        · simp only [if_pos hi, List.singleton_append, List.map_cons, List.map_nil, List.nodup_cons,
            List.mem_singleton, List.not_mem_nil, not_false_eq_true, List.nodup_nil, and_true]
          exact fun e => hp p.1 hpn p.1 hi e.symm
        · simp [if_neg hi]
      · intro a ha b hb hab
        subst hab
        obtain ⟨q, hq, hqa⟩ := List.mem_flatMap.1 hb
        have hqn := hl q (by simp [hq])
        have hne : p.1 ≠ q.1 := fun e => hd.1 (e ▸ List.mem_map_of_mem hq)
        have cases_of : ∀ r : ν × Attr DVal, a ∈ ((if r.1 ∈ g.initial then
            [(c!"phantominit" ++ P.str r.1, phantomAttr)] else []) ++ [(P.str r.1, A r.1 r.2)]).map (·.1) →
            (r.1 ∈ g.initial ∧ a = c!"phantominit" ++ P.str r.1) ∨ a = P.str r.1 := by
          intro r hr
          by_cases hi : r.1 ∈ g.initial
          · simp only [if_pos hi, List.singleton_append, List.map_cons, List.map_nil, List.mem_cons,
              List.not_mem_nil, or_false] at hr
            rcases hr with hr | hr
            · exact Or.inl ⟨hi, hr⟩
            · exact Or.inr hr
          · simp only [if_neg hi, List.nil_append, List.map_cons, List.map_nil, List.mem_singleton] at hr
            exact Or.inr hr
        rcases cases_of p ha with ⟨i1, e1⟩ | e1 <;> rcases cases_of q hqa with ⟨i2, e2⟩ | e2
        · exact hne (hs _ hpn _ hqn (List.append_cancel_left (e1.symm.trans e2)))
        · exact hp _ hqn _ i1 (e2.symm.trans e1)
        · exact hp _ hpn _ i2 (e1.symm.trans e2)
        · exact hne (hs _ hpn _ hqn (e1.symm.trans e2))
  exact key g.nodes (fun p hp => List.mem_map_of_mem hp) hn

/-- What the export needs: formats of the labels of states, separators, a shape, and colors that are strings or
mixtures. -/
structure Ready (g : DGraph ν) (fmt efmt : Dict String Str) : Prop where
  names : ∀ p ∈ g.nodes, ∀ q ∈ p.2, q.1 ∈ g.nodeDef → fmt.has q.1 = true
  colon : fmt.has "type?label" = true
  sep : fmt.has "separator" = true
  shape : g.shape.has "normal" = true
  ecolon : efmt.has "type?label" = true
  esep : efmt.has "separator" = true
  colors : ∀ p ∈ g.nodes, ∀ k ∈ ["color", "fillcolor"], ∀ v, p.2.get? k = some v →
    (∃ s, v = .str s ∧ s ≠ c!"gradient") ∨ ∃ l, v = .mix l

/-- C119. Every graph with these attributes can be exported. -/
theorem graph2dot_ok {P : Env ν} {w : Nat} {g : DGraph ν} {fmt efmt : Dict String Str} (hf : FormatIs g fmt)
    (he : g.edgeFmt = some efmt) (h : Ready g fmt efmt) : ∃ D, graph2dot P w g = .ok D := by
  obtain ⟨colon, hcolon⟩ := (Dict.has_iff _ _).1 h.colon
  obtain ⟨sep, hsep⟩ := (Dict.has_iff _ _).1 h.sep
  obtain ⟨shape, hshape⟩ := (Dict.has_iff _ _).1 h.shape
  obtain ⟨ecolon, hecolon⟩ := (Dict.has_iff _ _).1 h.ecolon
  obtain ⟨esep, hesep⟩ := (Dict.has_iff _ _).1 h.esep
  have hpieces : ∀ d : Attr DVal, (∀ q ∈ d, q.1 ∈ g.nodeDef → fmt.has q.1 = true) →
      ∃ l, nodePieces P w g.nodeDef fmt d = .ok l := by
    intro d
    induction d with
    | nil => intro _; exact ⟨[], rfl⟩
    | cons q d ih =>
      intro hd
      obtain ⟨l, hl⟩ := ih fun a ha => hd a (by simp [ha])
      unfold nodePieces
      by_cases hq : q.1 ∈ g.nodeDef
      · obtain ⟨n, hn⟩ := (Dict.has_iff _ _).1 (hd q (by simp) hq)
        refine ⟨(n ++ colon ++ nodeValue P w q.2) :: l, ?_⟩
        rw [if_pos hq]
        simp only [getK, hn, hcolon, hl, ok_bind]
      · exact ⟨l, by rw [if_neg hq, hl]⟩
  have hcolor : ∀ (d : Attr DVal) (k : String) (c : Str), c ≠ c!"gradient" → (∀ v, d.get? k = some v →
      (∃ s, v = .str s ∧ s ≠ c!"gradient") ∨ ∃ l, v = .mix l) →
      (d.get? k).getD (.str c) ≠ .str c!"gradient" ∧ ∃ s, formatColor P ((d.get? k).getD (.str c)) = .ok s := by
    intro d k c hne hv
    cases hk : d.get? k with
    | none => exact ⟨by simpa using hne, c, rfl⟩
    | some v =>
      rcases hv v hk with ⟨s, rfl, hs⟩ | ⟨l, rfl⟩
      · exact ⟨by simpa using hs, s, rfl⟩
      · exact ⟨by simp, P.blend l, rfl⟩
  have hstates : ∀ (ps : Dict ν (Attr DVal)) (x : Nx ν), (∀ p ∈ ps, p ∈ g.nodes) →
      ∃ y, states2dot P w g x ps = .ok y := by
    intro ps
    induction ps with
    | nil => intro x _; exact ⟨x, rfl⟩
    | cons p ps ih =>
      intro x hm
      have hp := hm p (by simp)
      obtain ⟨l, hl⟩ := hpieces p.2 (h.names p hp)
      obtain ⟨-, r, hr⟩ := hcolor p.2 "color" c!"black" (by decide) (h.colors p hp "color" (by simp))
      obtain ⟨hn, f, hfl⟩ := hcolor p.2 "fillcolor" c!"none" (by decide) (h.colors p hp "fillcolor" (by simp))
      have hlab : ∃ t, nodeLabel P w g.nodeDef (nodeFormat g) p.1 p.2 = .ok t := by
        rw [nodeFormat_eq hf]
        unfold nodeLabel
        simp only [hl, ok_bind, getK, hsep]
        exact ⟨_, rfl⟩
      obtain ⟨t, ht⟩ := hlab
      have hattr : ∃ a, nodeAttr P g p.1 p.2 t = .ok a := by
        unfold nodeAttr fillOf
        simp only [getK, hshape, ok_bind, hr, if_neg hn, hfl]
        exact ⟨_, rfl⟩
      obtain ⟨a, ha⟩ := hattr
      unfold states2dot
      simp only [ht, ok_bind, ha]
      exact ih _ fun q hq => hm q (by simp [hq])
  have hedge : ∀ (mask : Dict String (DVal → Bool)) (d : Attr DVal), ∃ t, edgePieces P g.edgeDef efmt mask esep d = .ok t := by
    intro mask d
    induction d with
    | nil => exact ⟨[], rfl⟩
    | cons q d ih =>
      obtain ⟨t, ht⟩ := ih
      unfold edgePieces
      by_cases hs : edgeShown g.edgeDef mask q = true
      · rw [if_pos hs]
        cases hn : efmt.get? q.1 with
        | none => simp only [ok_bind, ht]; exact ⟨_, rfl⟩
        | some n => simp only [getK, hecolon, ok_bind, ht]; exact ⟨_, rfl⟩
      · rw [if_neg hs]; exact ⟨t, ht⟩
  have htrans : ∀ (mask : Dict String (DVal → Bool)) (es : List (ν × ν × Nat × Attr DVal)) (x : Nx ν),
      ∃ y, transLoop P g efmt mask x es = .ok y := by
    intro mask es
    induction es with
    | nil => intro x; exact ⟨x, rfl⟩
    | cons e es ih =>
      obtain ⟨u, v, k, d⟩ := e
      intro x
      obtain ⟨t, ht⟩ := hedge mask d
      unfold transLoop edgeLabel
      simp only [getK, hesep, ok_bind, ht]
      exact ih _
  obtain ⟨x, hx⟩ := hstates g.nodes {} fun p hp => hp
  unfold graph2dot transitions2dot
  simp only [hx, ok_bind, he]
  cases g.edgeMask with
  | none => exact ⟨_, rfl⟩
  | some mask =>
    obtain ⟨y, hy⟩ := htrans mask g.edges x
    simp only [hy, ok_bind]
    exact ⟨_, rfl⟩

/-! ### What is not drawn -/

/-- C119. Accepting states are not distinguished: the DOT graph does not depend on them. -/
theorem accepting_hidden (P : Env ν) (w : Nat) (g : DGraph ν) (acc : List ν) :
    graph2dot P w { g with accepting := acc } = graph2dot P w g := by
  have h1 : ∀ (ps : Dict ν (Attr DVal)) (x : Nx ν),
      states2dot P w { g with accepting := acc } x ps = states2dot P w g x ps := by
    intro ps
    induction ps with
    | nil => intro x; rfl
    | cons p ps ih =>
      intro x
      unfold states2dot
      simp only [ih]
      rfl
  have h2 : ∀ (fmt : Dict String Str) (mask : Dict String (DVal → Bool)) (es : List (ν × ν × Nat × Attr DVal))
      (x : Nx ν), transLoop P { g with accepting := acc } fmt mask x es = transLoop P g fmt mask x es := by
    intro fmt mask es
    induction es with
    | nil => intro x; rfl
    | cons e es ih =>
      obtain ⟨u, v, k, d⟩ := e
      intro x
      unfold transLoop
      simp only [ih]
  unfold graph2dot transitions2dot
  simp only [h1, h2]
  rfl

/-- C119. Without formats or masks for the labels of transitions, which only subclasses set, no transition is drawn. -/
theorem no_format_no_edges {P : Env ν} {w : Nat} {g : DGraph ν} {D : Gv} (hi : g.initial = [])
    (he : g.edgeFmt = none ∨ g.edgeMask = none) (h : graph2dot P w g = .ok D) : D.edges = [] := by
  have key : ∀ (ps : Dict ν (Attr DVal)) (x y : Nx ν), states2dot P w g x ps = .ok y → y.edges = x.edges := by
    intro ps
    induction ps with
    | nil => intro x y hy; cases hy; rfl
    | cons p ps ih =>
      intro x y hy
      unfold states2dot at hy
      cases hl : nodeLabel P w g.nodeDef (nodeFormat g) p.1 p.2 with
      | error e => rw [hl] at hy; cases hy
      | ok t =>
        rw [hl] at hy
        simp only [ok_bind] at hy
        cases ha : nodeAttr P g p.1 p.2 t with
        | error e => rw [ha] at hy; cases hy
        | ok a =>
          rw [ha] at hy
          simp only [ok_bind, hi, List.not_mem_nil, if_false] at hy
          rw [ih (x.addNode p.1 a) y hy]
          rfl
  unfold graph2dot at h
  cases hx : states2dot P w g {} g.nodes with
  | error e => rw [hx] at h; cases h
  | ok x =>
    rw [hx] at h
    simp only [ok_bind] at h
    have ht : transitions2dot P g x = .ok x := by
      unfold transitions2dot
      rcases he with he | he
      · rw [he]
      · rw [he]
        cases g.edgeFmt <;> rfl
    rw [ht] at h
    simp only [ok_bind, Except.ok.injEq] at h
    rw [← h]
    show x.edges.map _ = _
    rw [key g.nodes {} x hx]
    rfl

/-- C119. With `tikz` the export of every graph with a state raises an exception: `NameError`, if nothing else. -/
theorem tikz_raises (P : Env ν) (w : Nat) (g : DGraph ν) (rankdir : Str) (h : g.nodes ≠ []) :
    ∃ e, graph2tikz P w g rankdir = .error e := by
  unfold graph2tikz
  cases hn : g.nodes with
  | nil => exact absurd hn h
  | cons p ps =>
    unfold states2tikz
    cases hl : nodeLabel P w g.nodeDef (nodeFormat g) p.1 p.2 with
    | error e => exact ⟨e, rfl⟩
    | ok t =>
      simp only [ok_bind]
      have : ∃ e, state2tikz P g rankdir p.2 = .error e := by
        unfold state2tikz
        by_cases hr : rankdir ∈ [c!"LR", c!"RL", c!"TB", c!"BT"]
        · rw [if_pos hr]
          simp only [ok_bind]
          cases getK g.shape "normal" with
          | error e => exact ⟨e, rfl⟩
          | ok s =>
            simp only [ok_bind]
            cases formatColor P ((p.2.get? "color").getD (.str c!"black")) with
            | error e => exact ⟨e, rfl⟩
            | ok c => exact ⟨_, rfl⟩
        · rw [if_neg hr]
          exact ⟨_, rfl⟩
      obtain ⟨e, he⟩ := this
      rw [he]
      exact ⟨e, rfl⟩

/-! ### `save` -/

/-- C119. With `tikz` and a direction that is not one of the four, the first state whose label can be made is a `ValueError`; with
one of the four a `NameError`, if shape and color are as they should. -/
theorem tikz_exception {P : Env ν} {w : Nat} {g : DGraph ν} {p : ν × Attr DVal} {ps : List (ν × Attr DVal)}
    (hn : g.nodes = p :: ps) {t : Str} (hl : nodeLabel P w g.nodeDef (nodeFormat g) p.1 p.2 = .ok t) (rankdir : Str) :
    (rankdir ∉ [c!"LR", c!"RL", c!"TB", c!"BT"] → graph2tikz P w g rankdir = .error .valueError) ∧
    (rankdir ∈ [c!"LR", c!"RL", c!"TB", c!"BT"] → (∃ s, g.shape.get? "normal" = some s) →
      (∃ c, (p.2.get? "color").getD (.str c!"black") = .str c) → graph2tikz P w g rankdir = .error .nameError) := by
  unfold graph2tikz
  rw [hn]
  unfold states2tikz state2tikz
  rw [hl]
  constructor
  · intro hr
    rw [if_neg hr]
    rfl
  · rintro hr ⟨s, hs⟩ ⟨c, hc⟩
    rw [if_pos hr, getK, hs, hc]
    rfl

/-- C119. A gradient is drawn from the color at the left, or else at the top, to the color at the right, or else at the bottom;
the colors at the top and at the bottom must be given: without one of them a `KeyError` is raised. -/
theorem gradient_spec (P : Env ν) {d : Attr DVal} (hg : d.get? "fillcolor" = some (.str c!"gradient")) :
    (∀ t b l r, d.get? "top_color" = some t → d.get? "bottom_color" = some b →
      (d.get? "left_color").getD t = .str l → (d.get? "right_color").getD b = .str r →
      fillOf P d = .ok (l ++ c!":" ++ r)) ∧
    ((d.get? "top_color" = none ∨ d.get? "bottom_color" = none) → fillOf P d = .error .keyError) := by
  have hf : fillOf P d = gradient d := by
    unfold fillOf
    rw [hg]
    rfl
  rw [hf]
  constructor
  · intro t b l r ht hb hl hr
    simp only [gradient, gradColor, ht, hb, hl, hr, ok_bind]
  · rintro (h | h)
    · simp only [gradient, h]
    · simp only [gradient, h]
      cases d.get? "top_color" <;> rfl

/-- C119. A list of colors that is empty is an `IndexError`, as the color of a side of a gradient; other values are
`TypeError`s. -/
theorem gradient_raises (P : Env ν) {d : Attr DVal} (hg : d.get? "fillcolor" = some (.str c!"gradient")) {t b : DVal}
    (ht : d.get? "top_color" = some t) (hb : d.get? "bottom_color" = some b) :
    ((d.get? "left_color").getD t = .mix [] → fillOf P d = .error .indexError) ∧
    (∀ l, (d.get? "left_color").getD t = .iter l → fillOf P d = .error .typeError) ∧
    ∀ s, (d.get? "left_color").getD t = .other s → fillOf P d = .error .typeError := by
  have hf : fillOf P d = gradient d := by
    unfold fillOf
    rw [hg]
    rfl
  rw [hf]
  refine ⟨fun h => ?_, fun l h => ?_, fun s h => ?_⟩ <;> simp only [gradient, gradColor, ht, hb, h] <;> rfl

/-- C119. The exceptions for the attributes of a node: `KeyError` if the graph gives no shape, and `Exception` for a color that is
neither a text nor a mixture of colors. -/
theorem nodeAttr_raises (P : Env ν) (g : DGraph ν) (u : ν) (d : Attr DVal) (t : Str) :
    (g.shape.get? "normal" = none → nodeAttr P g u d t = .error .keyError) ∧
    (∀ s, g.shape.get? "normal" = some s →
      ((∃ l, (d.get? "color").getD (.str c!"black") = .iter l) ∨
        ∃ x, (d.get? "color").getD (.str c!"black") = .other x) → nodeAttr P g u d t = .error .exception) := by
  constructor
  · intro h
    unfold nodeAttr getK
    rw [h]
    rfl
  · rintro s hs (⟨l, h⟩ | ⟨x, h⟩) <;>
    · unfold nodeAttr getK
      rw [hs]
      simp only [ok_bind, h, formatColor]
      rfl

theorem afterLast_none {c : Char} {l : Str} (h : c ∉ l) : afterLast c l = 0 := by
  induction l with
  | nil => rfl
  | cons x l ih =>
    simp only [List.mem_cons, not_or] at h
    unfold afterLast
    rw [ih h.2, if_neg (by simp), if_neg (Ne.symm h.1)]

theorem afterLast_some {c : Char} (a : Str) {b : Str} (h : c ∉ b) : afterLast c (a ++ c :: b) = a.length + 1 := by
  induction a with
  | nil =>
    show afterLast c (c :: b) = 1
    unfold afterLast
    rw [afterLast_none h, if_neg (by simp), if_pos rfl]
  | cons x a ih =>
    show afterLast c (x :: (a ++ c :: b)) = _
    unfold afterLast
    rw [ih, if_pos (by simp)]
    rfl

/-- A directory: nothing, or a text that ends with a slash. -/
def IsDir (d : Str) : Prop := d = [] ∨ ∃ e, d = e ++ ['/']

theorem afterLast_dir {d b : Str} (hd : IsDir d) (hb : '/' ∉ b) : afterLast '/' (d ++ b) = d.length := by
  rcases hd with rfl | ⟨e, rfl⟩
  · exact afterLast_none hb
  · rw [List.append_assoc]
    show afterLast '/' (e ++ '/' :: b) = _
    rw [afterLast_some e hb]
    simp

/-- C119. The extension of a file name is what follows its last dot. -/
theorem splitext_spec {dir base ext : Str} (hd : IsDir dir) (hb : '/' ∉ base) (hn : ∃ c ∈ base, c ≠ '.')
    (he : '/' ∉ ext) (he' : '.' ∉ ext) : splitext (dir ++ (base ++ '.' :: ext)) = (dir ++ base, '.' :: ext) := by
  unfold splitext
  have h1 : afterLast '/' (dir ++ (base ++ '.' :: ext)) = dir.length :=
    afterLast_dir hd (by
      simp only [List.mem_append, List.mem_cons, not_or]
      exact ⟨hb, by decide, he⟩)
  have h2 : afterLast '.' (base ++ '.' :: ext) = base.length + 1 := afterLast_some base he'
  simp only [h1, List.drop_left, List.take_left, h2, Nat.add_sub_cancel, Nat.add_eq_zero_iff, Nat.succ_ne_zero,
    and_false, false_or]
  rw [if_neg]
  · intro hc
    obtain ⟨c, hc1, hc2⟩ := hn
    simp only [Nat.one_ne_zero, and_false, false_or, List.all_eq_true, beq_iff_eq] at hc
    exact hc2 (hc c hc1)

/-- A file name without a dot in its last component has no extension. -/
theorem splitext_none {dir base : Str} (hd : IsDir dir) (hb : '/' ∉ base) (hn : '.' ∉ base) :
    splitext (dir ++ base) = (dir ++ base, []) := by
  unfold splitext
  simp only [afterLast_dir hd hb, List.drop_left, afterLast_none hn, true_or, if_true]

/-- C119. The path and the format of `save`: the extension of the file name decides, unless a format is given, which
replaces it. -/
theorem target_spec (name : Str) {dir base ext : Str} (hd : IsDir dir) (hb : '/' ∉ base) (hn : ∃ c ∈ base, c ≠ '.')
    (he : '/' ∉ ext) (he' : '.' ∉ ext) (hne : ext ≠ []) :
    target name (some (dir ++ (base ++ '.' :: ext))) none = (dir ++ (base ++ '.' :: ext), ext) ∧
    ∀ f, f ≠ [] → target name (some (dir ++ (base ++ '.' :: ext))) (some f) = (dir ++ (base ++ '.' :: f), f) := by
  have hx : ¬(('.' :: ext).isEmpty = true ∨ '.' :: ext = c!".") := by
    intro hc
    rcases hc with hc | hc
    · cases hc
    · exact hne (by simpa using hc)
  unfold target
  simp only [Option.getD_some, splitext_spec hd hb hn he he', if_neg hx]
  refine ⟨by simp, ?_⟩
  intro f hf
  have : f.isEmpty = false := by cases f with
    | nil => exact absurd rfl hf
    | cons => rfl
  simp [this]

/-- C119. Without extension and format, `save` writes PDF. -/
theorem target_default (name : Str) {dir base : Str} (hd : IsDir dir) (hb : '/' ∉ base) (hn : '.' ∉ base) :
    target name (some (dir ++ base)) none = (dir ++ base ++ c!".pdf", c!"pdf") := by
  unfold target
  simp [splitext_none hd hb hn]

/-- C119. The picture that `save` makes with GraphViz is not at the path: there is its DOT source. -/
theorem save_picture {k : Kind} {name : Str} {filename fileformat : Option Str} {l : List File}
    (h : save k name filename fileformat = .ok l) {p f : Str} (hp : File.picture p f ∈ l) :
    (target name filename fileformat) = ((target name filename fileformat).1, f) ∧
    p = (target name filename fileformat).1 ++ '.' :: f ∧ File.source (target name filename fileformat).1 ∈ l := by
  unfold save at h
  generalize target name filename fileformat = t at h ⊢
  obtain ⟨path, format⟩ := t
  simp only at h
  by_cases hh : format = c!"html"
  · rw [if_pos hh] at h
    cases h
    simp at hp
  · rw [if_neg hh] at h
    cases ho : ownSave k format with
    | some e => rw [ho] at h; cases h
    | none =>
      rw [ho] at h
      cases h
      simp only [List.mem_cons, reduceCtorEq, File.picture.injEq, List.not_mem_nil, or_false, false_or] at hp
      obtain ⟨rfl, rfl⟩ := hp
      simp

/-- C119. A transition system cannot be saved as Promela: `save` raises `AttributeError`. -/
theorem save_promela_raises (name : Str) {dir base f : Str} (hd : IsDir dir) (hb : '/' ∉ base)
    (hn : ∃ c ∈ base, c ≠ '.') (hf : f ∈ [c!"promela", c!"Promela", c!"pml"]) :
    save .fts name (some (dir ++ (base ++ '.' :: f))) none = .error .attribute := by
  have hf' : '/' ∉ f ∧ '.' ∉ f ∧ f ≠ [] ∧ f ≠ c!"html" := by
    simp only [List.mem_cons, List.not_mem_nil, or_false] at hf
    rcases hf with rfl | rfl | rfl <;> decide
  unfold save
  rw [(target_spec name hd hb hn hf'.1 hf'.2.1 hf'.2.2.1).1]
  simp only [if_neg hf'.2.2.2, ownSave, if_pos hf]

/-- C119. A Mealy machine cannot be saved as a state chart: `save` raises `TypeError`. -/
theorem save_scxml_raises (name : Str) {dir base : Str} (hd : IsDir dir) (hb : '/' ∉ base) (hn : ∃ c ∈ base, c ≠ '.') :
    save .mealy name (some (dir ++ (base ++ '.' :: c!"scxml"))) none = .error .typeError := by
  unfold save
  rw [(target_spec name hd hb hn (ext := c!"scxml") (by decide) (by decide) (by decide)).1]
  rfl

/-- C119. In all other cases `save` succeeds. -/
theorem save_ok {k : Kind} {name : Str} {filename fileformat : Option Str}
    (h1 : k = .fts → (target name filename fileformat).2 ∉ [c!"promela", c!"Promela", c!"pml"])
    (h2 : k = .mealy → (target name filename fileformat).2 ≠ c!"scxml") :
    ∃ l, save k name filename fileformat = .ok l := by
  unfold save
  generalize target name filename fileformat = t at h1 h2 ⊢
  obtain ⟨path, format⟩ := t
  simp only at h1 h2 ⊢
  by_cases hh : format = c!"html"
  · rw [if_pos hh]; exact ⟨_, rfl⟩
  · rw [if_neg hh]
    have : ownSave k format = none := by
      cases k with
      | plain => rfl
      | fts => exact if_neg (h1 rfl)
      | mealy => exact if_neg (h2 rfl)
    rw [this]
    exact ⟨_, rfl⟩

/-! ### Examples -/

/-- Strings as nodes; no text is wrapped. -/
def exEnv : Env Str where
  str u := u
  phantom u := c!"phantominit" ++ u
  fill _ s := s
  blend l := joinWith c!":" (l.map (·.1))

/-- A transition system with two states, one initial and painted, and two transitions with labels. -/
def exFts : DGraph Str where
  nodes := [(c!"a", [("ap", .iter [c!"p", c!"q"])]), (c!"b", [("ap", .iter []), ("fillcolor", .str c!"red")])]
  edges := [(c!"a", c!"b", 0, [("sys_actions", .str c!"go")]), (c!"b", c!"b", 0, [("env_actions", .str c!"wait"),
    ("cost", .other c!"3")])]
  initial := [c!"a"]
  nodeDef := ["ap"]
  nodeFmt := some [("ap", []), ("type?label", []), ("separator", c!"\\\\n")]
  edgeDef := ["sys_actions", "env_actions"]
  edgeFmt := some [("sys_actions", c!"sys"), ("env_actions", c!"env"), ("type?label", c!":"), ("separator", c!"\\\\n")]
  edgeMask := some []
  shape := [("normal", c!"box")]

theorem exFts_clean : Clean exEnv exFts where
  nodes := by decide
  keys := by decide
  ends := by decide
  phantomStr := by intro i _; rfl
  texts := by decide
  phantoms := by decide

/-- The example is exported; the hypotheses of the theorems hold of it. -/
theorem exFts_dot : graph2dot exEnv 10 exFts = .ok
    { nodes := [(c!"phantominita", phantomAttr),
        (c!"a", [("label", c!"a\\\\n\\\\{p, q\\\\}"), ("shape", c!"box"), ("style", c!"\"\""), ("color", c!"\"black\""),
          ("fillcolor", c!"\"none\"")]),
        (c!"b", [("label", c!"b\\\\n\\\\{\\\\}"), ("shape", c!"box"), ("style", c!"\"filled\""), ("color", c!"\"black\""),
          ("fillcolor", c!"\"red\"")])],
      edges := [(c!"phantominita", c!"a", []),
        (c!"a", c!"b", [("label", c!"\"sys:go\\\\n\""), ("color", c!"black")]),
        (c!"b", c!"b", [("label", c!"\"env:wait\\\\n\""), ("color", c!"black")])],
      source := [c!"a", c!"phantominita"] } := by
  rfl

example : ∃ fmt efmt mask D, FormatIs exFts fmt ∧ exFts.edgeFmt = some efmt ∧ exFts.edgeMask = some mask ∧
    graph2dot exEnv 10 exFts = .ok D ∧ D.nodes.length = 3 :=
  ⟨_, _, _, _, Or.inl rfl, rfl, rfl, exFts_dot, rfl⟩

example : Ready exFts [("ap", []), ("type?label", []), ("separator", c!"\\\\n")]
    [("sys_actions", c!"sys"), ("env_actions", c!"env"), ("type?label", c!":"), ("separator", c!"\\\\n")] where
  names := by decide
  colon := by decide
  sep := by decide
  shape := by decide
  ecolon := by decide
  esep := by decide
  colors := by
    intro p hp k hk v hv
    simp only [exFts, List.mem_cons, List.not_mem_nil, or_false] at hp hk
    rcases hp with rfl | rfl <;> rcases hk with rfl | rfl <;> simp [Dict.get?_cons] at hv
    subst hv
    exact Or.inl ⟨_, rfl, by decide⟩

example : ∀ u ∈ exFts.nodes.map (·.1), ∀ i ∈ exFts.initial, exEnv.str u ≠ c!"phantominit" ++ exEnv.str i := by decide

/-- An automaton with an accepting state. -/
def exBa : DGraph Str where
  nodes := [(c!"s", []), (c!"t", [])]
  initial := [c!"s"]
  accepting := [c!"t"]
  edgeDef := ["letter"]
  edgeFmt := some [("letter", []), ("type?label", []), ("separator", c!"\\\\n")]
  edgeMask := some []
  shape := [("normal", c!"circle"), ("accepting", c!"doublecircle")]

/-- The accepting state is drawn as a circle, like the other one, though the automaton gives a shape to accepting
states. -/
theorem accepting_shape_counterexample : ∃ D, graph2dot exEnv 10 exBa = .ok D ∧
    ∀ p ∈ D.nodes, p.2.get? "shape" ≠ some c!"doublecircle" := by
  refine ⟨_, rfl, ?_⟩
  decide

/-- A state with the name of a phantom node: it loses its own node, so the two states are drawn as two nodes, not
three, and the phantom node is visible. -/
theorem phantom_clash_counterexample : ∃ D, graph2dot exEnv 10
    { exBa with nodes := [(c!"s", []), (c!"phantominits", [])] } = .ok D ∧
    D.nodes.map (·.1) = [c!"phantominits", c!"s"] := ⟨_, rfl, rfl⟩

/-- A gradient from left to right cannot be drawn: the colors at the top and at the bottom are read first. -/
theorem gradient_counterexample : graph2dot exEnv 10
    { exBa with nodes := [(c!"s", [("fillcolor", .str c!"gradient"), ("left_color", .str c!"red"),
      ("right_color", .str c!"blue")])] } = .error .keyError := rfl

/-- `save('fig.pdf')` writes the DOT source to `fig.pdf`, and the picture to `fig.pdf.pdf`. -/
theorem save_path_counterexample : save .plain [] (some c!"fig.pdf") none =
    .ok [.source c!"fig.pdf", .picture c!"fig.pdf.pdf" c!"pdf"] := rfl

example : target c!"g" (some c!"out/fig.svg") none = (c!"out/fig.svg", c!"svg") ∧
    target c!"g" (some c!"out/fig.svg") (some c!"png") = (c!"out/fig.png", c!"png") ∧
    target c!"g" (some c!"out.d/fig") none = (c!"out.d/fig.pdf", c!"pdf") ∧
    target c!"g" none none = (c!"g.pdf", c!"pdf") ∧ IsDir c!"out/" := by
  refine ⟨rfl, rfl, rfl, rfl, Or.inr ⟨c!"out", rfl⟩⟩

example : save .mealy [] (some c!"m.html") none = .ok [.html c!"m.html"] := rfl

end Tulip.Dot
