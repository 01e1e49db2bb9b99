import Verif.Transys.BaTsProduct
import Verif.Transys.ProductsProps

/-!
# C83: the products that are Büchi automata
-/

namespace Tulip
namespace Prod'

open LGraph Mach

/-! ## Graphs whose edges carry letters -/

section Letters

variable {ν V : Type} [DecidableEq ν] [DecidableEq V]

/-- An automaton under construction: states without labels, edges with letters. -/
structure LG (et : Dict String (LabelType V)) (g : LGraph ν V) : Prop where
  nodeTypes : g.nodeTypes = []
  nodeDefaults : g.nodeDefaults = []
  edgeTypes : g.edgeTypes = et
  edgeDefaults : g.edgeDefaults = []
  letters : ∀ e ∈ g.edges, ∃ v, e.2.2 = [("letter", v)]

theorem addNode_lg {et : Dict String (LabelType V)} {g : LGraph ν V} (hg : LG et g) (n : ν) :
    ∃ b, g.addNode n [] = .ok { g with nodes := g.nodes.set n b } := by
  refine ⟨((g.nodes.get? n).getD []).update [], ?_⟩
  simp only [addNode, hg.nodeTypes, hg.nodeDefaults, typedAttr, TDict.update, allowedOf]
  rfl

theorem hasNode_set {g : LGraph ν V} {n m : ν} {b : Attr V} {init : List ν} {es : List (ν × ν × Attr V)} :
    LGraph.hasNode { g with nodes := g.nodes.set n b, initial := init, edges := es } m = true ↔
      g.hasNode m = true ∨ m = n := by
  simp only [LGraph.hasNode, has_eq, Dict.get?_set]
  by_cases h : n = m
  · simp [h]
  · rw [if_neg h]
    constructor
    · exact .inl
    · rintro (h' | rfl)
      · exact h'
      · exact absurd rfl h

theorem lg_set {et : Dict String (LabelType V)} {g : LGraph ν V} (hg : LG et g) (n : ν) (b : Attr V)
    (init : List ν) : LG et { g with nodes := g.nodes.set n b, initial := init } :=
  ⟨hg.nodeTypes, hg.nodeDefaults, hg.edgeTypes, hg.edgeDefaults, hg.letters⟩

theorem sameAttr_letter {u v : V} (h : SameAttr [("letter", u)] [("letter", v)]) : u = v := by
  have := h "letter"
  simpa [Dict.get?_cons] using this

/-- An edge with an allowed letter is added. -/
theorem addEdge_letter {et : Dict String (LabelType V)} {g : LGraph ν V} (hg : LG et g) {m n : ν} {v : V}
    (hm : g.hasNode m = true) (hn : g.hasNode n = true) {t : LabelType V} (ht : et.get? "letter" = some t)
    (hv : t.contains v = true) :
    ∃ es, g.addEdge m n [("letter", v)] = .ok { g with edges := es } ∧ LG et { g with edges := es } ∧
      ∀ e, e ∈ es ↔ e ∈ g.edges ∨ e = (m, n, [("letter", v)]) := by
  have hdt : Typed g.edgeTypes g.edgeDefaults := by rw [hg.edgeDefaults]; simp [Typed]
  have hat : Typed g.edgeTypes [("letter", v)] := by
    intro p hp t' ht'
    rw [List.mem_singleton] at hp; subst hp
    rw [hg.edgeTypes] at ht'
    rw [ht] at ht'; cases ht'; exact hv
  rcases addEdge_ok (attr := [("letter", v)]) (check := true) hm hn hdt hat (by
      intro d hd
      obtain ⟨u, hu⟩ := hg.letters _ (mem_edgeData.1 hd)
      simp only at hu
      rw [hu]; rfl) (by
      intro _ k hk
      rw [hg.edgeDefaults] at hk
      have hk' : Dict.has [("letter", v)] k = true := hk
      rw [has_eq, Dict.get?_cons] at hk'
      by_cases h : "letter" = k
      · subst h; rw [hg.edgeTypes, has_eq, ht]; rfl
      · simp [h] at hk') with ⟨⟨d, hd, hs⟩, h⟩ | ⟨_, h⟩
  · refine ⟨g.edges, h, ⟨hg.nodeTypes, hg.nodeDefaults, hg.edgeTypes, hg.edgeDefaults, hg.letters⟩, ?_⟩
    have hd' := mem_edgeData.1 hd
    obtain ⟨u, hu⟩ := hg.letters _ hd'
    simp only at hu
    subst hu
    have := sameAttr_letter hs
    subst this
    intro e
    constructor
    · exact .inl
    · rintro (h' | rfl)
      · exact h'
      · exact hd'
  · have he : (Dict.update [] g.edgeDefaults).update [("letter", v)] = [("letter", v)] := by
      rw [hg.edgeDefaults]; rfl
    rw [he] at h
    refine ⟨_, h, ⟨hg.nodeTypes, hg.nodeDefaults, hg.edgeTypes, hg.edgeDefaults, ?_⟩, ?_⟩
    · intro e he
      rw [List.mem_append, List.mem_singleton] at he
      rcases he with he | rfl
      · exact hg.letters e he
      · exact ⟨v, rfl⟩
    · intro e; rw [List.mem_append, List.mem_singleton]

theorem addNodes_lg {et : Dict String (LabelType V)} (l : List ν) : ∀ (g : LGraph ν V), LG et g →
    ∃ ns, loopM (fun g n => g.addNode n []) g l = .ok { g with nodes := ns } ∧
      ∀ m, Dict.has ns m = true ↔ g.hasNode m = true ∨ m ∈ l := by
  induction l with
  | nil => intro g hg; exact ⟨g.nodes, rfl, by simp [LGraph.hasNode]⟩
  | cons n l ih =>
    intro g hg
    obtain ⟨b, hb⟩ := addNode_lg hg n
    obtain ⟨ns, h1, h2⟩ := ih { g with nodes := g.nodes.set n b } (lg_set hg n b g.initial)
    refine ⟨ns, by simp only [loopM, hb, ok_bind, h1], ?_⟩
    intro m
    rw [h2]
    have := hasNode_set (g := g) (n := n) (m := m) (b := b) (init := g.initial) (es := g.edges)
    rw [List.mem_cons]
    constructor
    · rintro (h | h)
      · rcases this.1 h with h | h
        · exact .inl h
        · exact .inr (.inl h)
      · exact .inr (.inr h)
    · rintro (h | h | h)
      · exact .inl (this.2 (.inl h))
      · exact .inl (this.2 (.inr h))
      · exact .inr h

end Letters

/-! ## `ba_ts_sync_prod` -/

section BaTs

variable {κ V : Type} [DecidableEq κ] [DecidableEq V]

/-- The edge of the product automaton between two product states carries the label of the state of
the transition system that is entered. -/
def LetterEdge {σ : Type} [DecidableEq σ] (x : Args σ κ V) (m n : σ × κ) (a : Attr V) : Prop :=
  Edge x m n ∧ ∃ v, Label x n.1 v ∧ a = [("letter", v)]

/-- Different states have names that are not substrings of each other. -/
def NamesApart {V : Type} (g : LGraph String V) : Prop :=
  ∀ s t, g.hasNode s = true → g.hasNode t = true → s.toList <:+: t.toList → s = t

theorem findLabelOf_spec {g : LGraph String V} (hg : g.Ok) (hn : NamesApart g) {s : String} {a : Attr V}
    (ha : g.nodes.get? s = some a) : findLabelOf g s = .ok a := by
  have hs : g.hasNode s = true := (Dict.has_iff _ _).2 ⟨a, ha⟩
  have hmem : (s, a) ∈ g.nodes.filter fun p => decide (p.1.toList <:+: s.toList) := by
    rw [List.mem_filter]
    exact ⟨mem_of_get? ha, by simp⟩
  have hall : ∀ p ∈ g.nodes.filter (fun p => decide (p.1.toList <:+: s.toList)), p = (s, a) := by
    rintro ⟨k, b⟩ hp
    rw [List.mem_filter, decide_eq_true_eq] at hp
    have hb := get?_of_mem hg.nodup hp.1
    have hk : k = s := hn k s ((Dict.has_iff _ _).2 ⟨b, hb⟩) hs hp.2
    subst hk
    rw [ha] at hb; cases hb; rfl
  unfold findLabelOf
  revert hmem hall
  generalize g.nodes.filter _ = l
  intro hmem hall
  cases l with
  | nil => simp at hmem
  | cons p l => simp only [hall p (by simp)]

theorem relabel_spec {x : Args String κ V} (hx : Ok x) (hn : NamesApart x.fts)
    {t : LabelType V} (ht : x.ba.edgeTypes.get? "letter" = some t)
    (hl : ∀ s v, Label x s v → t.contains v = true) (l : List ((String × κ) × (String × κ) × Attr (List κ))) :
    ∀ g : LGraph (String × κ) V, LG x.ba.edgeTypes g →
      (∀ e ∈ l, g.hasNode e.1 = true ∧ g.hasNode e.2.1 = true ∧ x.fts.hasNode e.2.1.1 = true) →
      ∃ es, loopM (relabel x) g l = .ok { g with edges := es } ∧
        ∀ m n a, (m, n, a) ∈ es ↔ (m, n, a) ∈ g.edges ∨
          (∃ b, (m, n, b) ∈ l) ∧ ∃ v, Label x n.1 v ∧ a = [("letter", v)] := by
  induction l with
  | nil => intro g hg _; exact ⟨g.edges, rfl, by simp⟩
  | cons e l ih =>
    intro g hg he
    obtain ⟨h1, h2, h3⟩ := he e (by simp)
    obtain ⟨v, a, ha, hv⟩ := hx.labeled _ h3
    have hlab : Label x e.2.1.1 v := ⟨a, ha, hv⟩
    obtain ⟨es, k1, k2, k3⟩ := addEdge_letter hg h1 h2 ht (hl _ _ hlab)
    obtain ⟨es', j1, j2⟩ := ih { g with edges := es } k2 (fun e' he' => he e' (by simp [he']))
    refine ⟨es', ?_, ?_⟩
    · simp only [loopM, relabel, findLabelOf_spec hx.fts hn ha, ok_bind, hv, k1]
      exact j1
    · intro m n c
      rw [j2]
      simp only [k3]
      constructor
      · rintro ((h | h) | ⟨⟨b, hb⟩, h⟩)
        · exact .inl h
        · simp only [Prod.mk.injEq] at h
          obtain ⟨rfl, rfl, rfl⟩ := h
          exact .inr ⟨⟨e.2.2, by simp⟩, v, hlab, rfl⟩
        · exact .inr ⟨⟨b, by simp [hb]⟩, h⟩
      · rintro (h | ⟨⟨b, hb⟩, u, hu, rfl⟩)
        · exact .inl (.inl h)
        · rw [List.mem_cons] at hb
          rcases hb with rfl | hb
          · refine .inl (.inr ?_)
            obtain ⟨a', ha', hu'⟩ := hu
            simp only at ha' ha
            rw [ha] at ha'; cases ha'
            rw [hv] at hu'; cases hu'
            rfl
          · exact .inr ⟨⟨b, hb⟩, u, hu, rfl⟩

/-- **C83.** `ba_ts_sync_prod` succeeds, if no state of the transition system has a name that is a
substring of another and the labels are letters of the automaton. The states of the returned
automaton are exactly the reachable product states; initial states and accepting states are those of the
product; and its transitions are those of the product, each with the label of the state of the
transition system that it enters as letter. -/
theorem baTsSyncProd_spec {x : Args String κ V} (hx : Ok x) (hn : NamesApart x.fts)
    (ht : x.ba.edgeTypes.has "letter" = true)
    (hl : ∀ s v t, Label x s v → x.ba.edgeTypes.get? "letter" = some t → t.contains v = true)
    {pick : List (String × κ) → String × κ} (hpick : ∀ Q, Q ≠ [] → pick Q ∈ Q) :
    ∃ g acc, baTsSyncProd x pick = .ok (g, acc) ∧ (∀ n, g.hasNode n = true ↔ Reach x n) ∧
      (∀ m n a, (m, n, a) ∈ g.edges ↔ Reach x m ∧ LetterEdge x m n a) ∧
      (∀ n, n ∈ g.initial ↔ Init x n) ∧ (∀ n, n ∈ acc ↔ Reach x n ∧ n.2 ∈ x.accepting) := by
  obtain ⟨st, h1, h2, h3, h4, h5, _⟩ := tsBaSyncProd_spec hx hpick
  obtain ⟨t, ht⟩ := (Dict.has_iff _ _).1 ht
  have hlg : LG x.ba.edgeTypes ({ edgeTypes := x.ba.edgeTypes } : LGraph (String × κ) V) :=
    ⟨rfl, rfl, rfl, rfl, by simp⟩
  obtain ⟨ns, k1, k2⟩ := addNodes_lg st.graph.nodes.keys _ hlg
  have hns : ∀ m, Dict.has ns m = true ↔ Reach x m := by
    intro m
    rw [k2, mem_keys_iff_has, ← h2]
    simp [LGraph.hasNode, Dict.has]
  have hinit : st.graph.initial.all
      (LGraph.hasNode ({ edgeTypes := x.ba.edgeTypes, nodes := ns } : LGraph (String × κ) V)) = true := by
    rw [List.all_eq_true]
    intro n hn
    exact (hns n).2 (.init ((h4 n).1 hn))
  have hacc : st.accepting.all (LGraph.hasNode (
      { edgeTypes := x.ba.edgeTypes, nodes := ns, initial := uniqueLoop [] st.graph.initial } :
        LGraph (String × κ) V)) = true := by
    rw [List.all_eq_true]
    intro n hn
    exact (hns n).2 ((h5 n).1 hn).1
  obtain ⟨es, j1, j2⟩ := relabel_spec hx hn ht (fun s v h => hl s v t h ht) st.graph.edges
    { edgeTypes := x.ba.edgeTypes, nodes := ns, initial := uniqueLoop [] st.graph.initial }
    ⟨rfl, rfl, rfl, rfl, by simp⟩ (by
      rintro ⟨m, n, a⟩ he
      obtain ⟨_, hm, hmn⟩ := (h3 _ _ _).1 he
      exact ⟨(hns m).2 hm, (hns n).2 (.step hm hmn), (reach_mem hx (.step hm hmn)).1⟩)
  refine ⟨{ edgeTypes := x.ba.edgeTypes, nodes := ns, initial := uniqueLoop [] st.graph.initial, edges := es },
    st.accepting, ?_, hns, ?_, ?_, h5⟩
  · simp only [baTsSyncProd, h1, ok_bind, k1, addInitialFrom, hinit, if_true, hacc, j1]
    rfl
  · intro m n a
    show (m, n, a) ∈ es ↔ _
    rw [j2]
    simp only [h3, List.not_mem_nil, false_or, LetterEdge]
    constructor
    · rintro ⟨⟨b, _, h, h'⟩, h''⟩; exact ⟨h, h', h''⟩
    · rintro ⟨h, h', h''⟩; exact ⟨⟨[], rfl, h, h'⟩, h''⟩
  · intro n
    show n ∈ uniqueLoop [] st.graph.initial ↔ _
    rw [mem_uniqueLoop, ← h4]; simp

/-- The word `w` is accepted: there is a run over it from an initial state that visits accepting
states infinitely often. -/
def AcceptsWord {ν : Type} (g : LGraph ν V) (acc : List ν) (w : Nat → V) : Prop :=
  ∃ r : Nat → ν, r 0 ∈ g.initial ∧ (∀ i, (r i, r (i + 1), [("letter", w i)]) ∈ g.edges) ∧
    ∀ i, ∃ j, i ≤ j ∧ r j ∈ acc

/-- An automaton with the states, transitions, initial and accepting states of the product accepts
exactly the words that are read along those paths of the transition system that the given automaton
accepts, without the label of the first state. -/
theorem product_words {σ : Type} [DecidableEq σ] {x : Args σ κ V} {g : LGraph (σ × κ) V}
    {acc : List (σ × κ)} (he : ∀ m n a, (m, n, a) ∈ g.edges ↔ Reach x m ∧ LetterEdge x m n a)
    (hi : ∀ n, n ∈ g.initial ↔ Init x n) (ha : ∀ n, n ∈ acc ↔ Reach x n ∧ n.2 ∈ x.accepting)
    (w : Nat → V) :
    AcceptsWord g acc w ↔ ∃ p : Nat → σ, Path x p ∧ Accepts x p ∧ ∀ i, Label x (p (i + 1)) (w i) := by
  constructor
  · rintro ⟨r, hr0, hr, hacc⟩
    obtain ⟨hs, q0, hq0, hrd⟩ := (hi _).1 hr0
    have hedge : ∀ i, LetterEdge x (r i) (r (i + 1)) [("letter", w i)] := fun i => ((he _ _ _).1 (hr i)).2
    refine ⟨fun i => (r i).1, ⟨hs, fun i => (hedge i).1.1⟩,
      ⟨fun i => match i with | 0 => q0 | i + 1 => (r i).2, hq0, ?_, ?_⟩, ?_⟩
    · intro i
      cases i with
      | zero => exact hrd
      | succ i => exact (hedge i).1.2
    · intro i
      obtain ⟨j, hj, h⟩ := hacc i
      exact ⟨j + 1, by omega, ((ha _).1 h).2⟩
    · intro i
      obtain ⟨_, v, hv, h⟩ := hedge i
      simp only [List.cons.injEq, Prod.mk.injEq, true_and, and_true] at h
      rw [h]; exact hv
  · rintro ⟨p, ⟨hp0, hp⟩, ⟨r, hr0, hr, hacc⟩, hw⟩
    have hinit : Init x (p 0, r 1) := ⟨hp0, r 0, hr0, hr 0⟩
    have hedge : ∀ i, Edge x (p i, r (i + 1)) (p (i + 1), r (i + 1 + 1)) := fun i => ⟨hp i, hr (i + 1)⟩
    have hreach : ∀ i, Reach x (p i, r (i + 1)) := by
      intro i
      induction i with
      | zero => exact .init hinit
      | succ i ih => exact .step ih (hedge i)
    refine ⟨fun i => (p i, r (i + 1)), (hi _).2 hinit,
      fun i => (he _ _ _).2 ⟨hreach i, hedge i, w i, hw i, rfl⟩, fun i => ?_⟩
    obtain ⟨j, hj, h⟩ := hacc (i + 1)
    obtain ⟨k, rfl⟩ : ∃ k, j = k + 1 := ⟨j - 1, by omega⟩
    exact ⟨k, by omega, (ha _).2 ⟨hreach k, h⟩⟩

/-- **C83.** The language of the automaton that `ba_ts_sync_prod` returns. -/
theorem baTsSyncProd_language {x : Args String κ V} (hx : Ok x) (hn : NamesApart x.fts)
    (ht : x.ba.edgeTypes.has "letter" = true)
    (hl : ∀ s v t, Label x s v → x.ba.edgeTypes.get? "letter" = some t → t.contains v = true)
    {pick : List (String × κ) → String × κ} (hpick : ∀ Q, Q ≠ [] → pick Q ∈ Q)
    {g : LGraph (String × κ) V} {acc : List (String × κ)} (h : baTsSyncProd x pick = .ok (g, acc))
    (w : Nat → V) :
    AcceptsWord g acc w ↔
      ∃ p : Nat → String, Path x p ∧ Accepts x p ∧ ∀ i, Label x (p (i + 1)) (w i) := by
  obtain ⟨g', acc', h1, h2, h3, h4, h5⟩ := baTsSyncProd_spec hx hn ht hl hpick
  rw [h] at h1; cases h1
  exact product_words h3 h4 h5 w

end BaTs

/-! ## `OnTheFlyProductAutomaton` -/

section OnTheFly

variable {σ κ V : Type} [DecidableEq σ] [DecidableEq κ] [DecidableEq V]

/-- The graph of an on-the-fly product. -/
abbrev OG (letters : V → Bool) (g : LGraph (σ × κ) V) : Prop :=
  LG [("letter", { contains := letters })] g

/-- `st'` is `st` with the states `T`, and transitions from `sq` to them. -/
structure Added (x : Args σ κ V) (letters : V → Bool) (sq : σ × κ) (T : σ × κ → Prop)
    (st st' : Otf σ κ V) : Prop where
  og : OG letters st'.graph
  nodes : ∀ n, st'.graph.hasNode n = true ↔ st.graph.hasNode n = true ∨ T n
  edges : ∀ m n a, (m, n, a) ∈ st'.graph.edges ↔ (m, n, a) ∈ st.graph.edges ∨
    m = sq ∧ T n ∧ ∃ v, Label x n.1 v ∧ a = [("letter", v)]
  initial : st'.graph.initial = st.graph.initial
  accepting : ∀ n, n ∈ st'.accepting ↔ n ∈ st.accepting ∨ T n ∧ n.2 ∈ x.accepting

theorem Added.refl {x : Args σ κ V} {letters : V → Bool} {sq : σ × κ} {T : σ × κ → Prop} {st : Otf σ κ V}
    (hg : OG letters st.graph) (hT : ∀ n, ¬ T n) : Added x letters sq T st st :=
  ⟨hg, fun n => by simp [hT n], fun m n a => by simp [hT n], rfl, fun n => by simp [hT n]⟩

theorem Added.trans {x : Args σ κ V} {letters : V → Bool} {sq : σ × κ} {T T' T'' : σ × κ → Prop}
    {st st' st'' : Otf σ κ V} (h : Added x letters sq T st st') (h' : Added x letters sq T' st' st'')
    (hT : ∀ n, T'' n ↔ T n ∨ T' n) : Added x letters sq T'' st st'' := by
  refine ⟨h'.og, ?_, ?_, h'.initial.trans h.initial, ?_⟩
  · intro n; rw [h'.nodes, h.nodes, hT, or_assoc]
  · intro m n a
    rw [h'.edges, h.edges, hT]
    constructor
    · rintro ((h | ⟨h1, h2, h3⟩) | ⟨h1, h2, h3⟩)
      · exact .inl h
      · exact .inr ⟨h1, .inl h2, h3⟩
      · exact .inr ⟨h1, .inr h2, h3⟩
    · rintro (h | ⟨h1, h2 | h2, h3⟩)
      · exact .inl (.inl h)
      · exact .inl (.inr ⟨h1, h2, h3⟩)
      · exact .inr ⟨h1, h2, h3⟩
  · intro n
    rw [h'.accepting, h.accepting, hT]
    constructor
    · rintro ((h | ⟨h1, h2⟩) | ⟨h1, h2⟩)
      · exact .inl h
      · exact .inr ⟨.inl h1, h2⟩
      · exact .inr ⟨.inr h1, h2⟩
    · rintro (h | ⟨h1 | h1, h2⟩)
      · exact .inl (.inl h)
      · exact .inl (.inr ⟨h1, h2⟩)
      · exact .inr ⟨h1, h2⟩

theorem Added.congr {x : Args σ κ V} {letters : V → Bool} {sq : σ × κ} {T T' : σ × κ → Prop}
    {st st' : Otf σ κ V} (h : Added x letters sq T st st') (hT : ∀ n, T n ↔ T' n) :
    Added x letters sq T' st st' := by
  have : T = T' := funext fun n => propext (hT n)
  rw [← this]; exact h

theorem otfEdges_spec {x : Args σ κ V} (hx : Ok x) {letters : V → Bool}
    (hl : ∀ s v, Label x s v → letters v = true) {g : LGraph (σ × κ) V} (hg : OG letters g) {m n : σ × κ}
    (ht : Trans x m.1 n.1) (hm : g.hasNode m = true) (hn : g.hasNode n = true) :
    ∃ es, otfEdges x g m n = .ok { g with edges := es } ∧ OG letters { g with edges := es } ∧
      ∀ m' n' a, (m', n', a) ∈ es ↔ (m', n', a) ∈ g.edges ∨ m' = m ∧ n' = n ∧
        ∃ v, Label x n'.1 v ∧ a = [("letter", v)] := by
  obtain ⟨c, hc⟩ := ht
  obtain ⟨v, b, hb, hv⟩ := hx.labeled _ (hx.fts.target _ _ _ hc)
  have hap : apOf x.fts n.1 = .ok v := by simp only [apOf, hb, hv]
  obtain ⟨es, h1, h2, h3⟩ := addEdge_letter hg (v := v) hm hn (t := { contains := letters }) rfl
    (hl _ _ ⟨b, hb, hv⟩)
  refine ⟨es, by simp only [otfEdges, find_trans hx ⟨c, hc⟩, ok_bind, loopM, hap, h1], h2, ?_⟩
  intro m' n' a
  rw [h3]
  constructor
  · rintro (h | h)
    · exact .inl h
    · simp only [Prod.mk.injEq] at h
      obtain ⟨rfl, rfl, rfl⟩ := h
      exact .inr ⟨rfl, rfl, v, ⟨b, hb, hv⟩, rfl⟩
  · rintro (h | ⟨rfl, rfl, u, ⟨b', hb', hu⟩, rfl⟩)
    · exact .inl h
    · rw [hb] at hb'; cases hb'
      rw [hv] at hu; cases hu
      exact .inr rfl

theorem otfStep_spec {x : Args σ κ V} (hx : Ok x) {letters : V → Bool}
    (hl : ∀ s v, Label x s v → letters v = true) {sq n : σ × κ} {st : Otf σ κ V} {new : List (σ × κ)}
    (hg : OG letters st.graph) (hsq : st.graph.hasNode sq = true) (ht : Trans x sq.1 n.1) :
    ∃ st', otfStep x sq (st, new) n = .ok (st', if st.graph.hasNode n then new else new ++ [n]) ∧
      Added x letters sq (fun m => m = n) st st' := by
  have key : ∃ b, (if !st.graph.hasNode n then st.graph.addNode n [] else .ok st.graph) =
        .ok { st.graph with nodes := st.graph.nodes.set n b } := by
    cases h : st.graph.hasNode n with
    | true =>
      obtain ⟨a, ha⟩ := (Dict.has_iff _ _).1 h
      exact ⟨a, by rw [set_same _ _ _ ha]; simp⟩
    | false =>
      obtain ⟨b, hb⟩ := addNode_lg hg n
      exact ⟨b, by simpa using hb⟩
  obtain ⟨b, hb⟩ := key
  have hnode : ∀ m, LGraph.hasNode { st.graph with nodes := st.graph.nodes.set n b } m = true ↔
      st.graph.hasNode m = true ∨ m = n := fun m => hasNode_set
  obtain ⟨es, h1, h2, h3⟩ := otfEdges_spec hx hl (g := { st.graph with nodes := st.graph.nodes.set n b })
    (lg_set hg n b _) ht ((hnode sq).2 (.inl hsq)) ((hnode n).2 (.inr rfl))
  refine ⟨⟨_, if n.2 ∈ x.accepting then insertNew st.accepting n else st.accepting⟩, ?_, h2, hnode, h3, rfl, ?_⟩
  · simp only [otfStep]
    cases h : st.graph.hasNode n with
    | true =>
      simp only [h, Bool.not_true, Bool.false_eq_true, if_false] at hb
      simp only [Bool.not_true, Bool.false_eq_true, if_false, hb, ok_bind, h1, if_true]
    | false =>
      simp only [h, Bool.not_false, if_true] at hb
      simp only [Bool.not_false, if_true, hb, ok_bind, h1, Bool.false_eq_true, if_false]
  · intro m
    simp only
    split
    · rename_i hacc
      rw [mem_insertNew]
      constructor
      · rintro (h | rfl)
        · exact .inl h
        · exact .inr ⟨rfl, hacc⟩
      · rintro (h | ⟨rfl, _⟩)
        · exact .inl h
        · exact .inr rfl
    · rename_i hacc
      constructor
      · exact .inl
      · rintro (h | ⟨rfl, h⟩)
        · exact h
        · exact absurd h hacc

theorem otfLoop_spec {x : Args σ κ V} (hx : Ok x) {letters : V → Bool}
    (hl : ∀ s v, Label x s v → letters v = true) {sq : σ × κ} (T : List (σ × κ)) :
    ∀ (st : Otf σ κ V) (new : List (σ × κ)), T.Nodup → OG letters st.graph → st.graph.hasNode sq = true →
      (∀ n ∈ T, Trans x sq.1 n.1) →
      ∃ st', loopM (otfStep x sq) (st, new) T = .ok (st', new ++ T.filter fun n => !st.graph.hasNode n) ∧
        Added x letters sq (fun m => m ∈ T) st st' := by
  induction T with
  | nil => intro st new _ hg _ _; exact ⟨st, by simp [loopM], Added.refl hg (by simp)⟩
  | cons n T ih =>
    intro st new hnd hg hsq hT
    rw [List.nodup_cons] at hnd
    obtain ⟨st1, h1, h2⟩ := otfStep_spec hx hl (new := new) hg hsq (hT n (by simp))
    obtain ⟨st2, k1, k2⟩ := ih st1 (if st.graph.hasNode n then new else new ++ [n]) hnd.2 h2.og
      ((h2.nodes sq).2 (.inl hsq)) (fun m hm => hT m (by simp [hm]))
    refine ⟨st2, ?_, h2.trans k2 (by intro m; simp)⟩
    simp only [loopM, h1, ok_bind, k1]
    have hf : (T.filter fun n => !st1.graph.hasNode n) = T.filter fun n => !st.graph.hasNode n := by
      apply List.filter_congr
      intro m hm
      have hne : m ≠ n := by rintro rfl; exact hnd.1 hm
      have := h2.nodes m
      simp only [hne, or_false] at this
      rw [Bool.eq_iff_iff.2 this]
    rw [hf, List.filter_cons]
    cases st.graph.hasNode n <;> simp

/-- The rounds of `add_successors`. -/
theorem otfRounds_spec {x : Args σ κ V} (hx : Ok x) {letters : V → Bool}
    (hl : ∀ s v, Label x s v → letters v = true) {sq : σ × κ} (L : List σ) :
    ∀ (st : Otf σ κ V) (o : Option (List (σ × κ))), L.Nodup → OG letters st.graph →
      st.graph.hasNode sq = true → (∀ t ∈ L, Trans x sq.1 t) →
      ∃ st' o', loopM (otfRound x sq) (st, o) L = .ok (st', o') ∧
        Added x letters sq (fun n => n.1 ∈ L ∧ Edge x sq n) st st' ∧
        ((∀ n, n.1 ∈ L → ¬ Edge x sq n) ∧ o' = o ∨
          ∃ s ∈ L, ∃ new, o' = some new ∧ (∃ n, n.1 = s ∧ Edge x sq n) ∧ new.Nodup ∧
            ∀ n, n ∈ new ↔ n.1 = s ∧ Edge x sq n ∧ st.graph.hasNode n = false) := by
  induction L with
  | nil =>
    intro st o _ hg _ _
    exact ⟨st, o, rfl, Added.refl hg (by simp), .inl ⟨by simp, rfl⟩⟩
  | cons t L ih =>
    intro st o hnd hg hsq hL
    rw [List.nodup_cons] at hnd
    have htr := hL t (by simp)
    have htn : x.fts.hasNode t = true := by
      obtain ⟨c, hc⟩ := htr; exact hx.fts.target _ _ _ hc
    obtain ⟨es, e1, e2, e3, e4⟩ := findBaSucc_spec hx sq.2 htn
    let T := es.map fun e => (t, e.2.1)
    have hTn : T.Nodup := by
      rw [← List.nodup_map_iff (f := fun q => (t, q)) (by intro a b h; simpa using h), List.map_map] at e3
      exact e3
    have hTm : ∀ n, n ∈ T ↔ n.1 = t ∧ Edge x sq n := by
      intro n
      simp only [T, List.mem_map]
      constructor
      · rintro ⟨e, he, rfl⟩
        exact ⟨rfl, htr, (e4 _).1 (List.mem_map.2 ⟨e, he, rfl⟩)⟩
      · rintro ⟨rfl, _, h⟩
        obtain ⟨e, he, hee⟩ := List.mem_map.1 ((e4 _).2 h)
        exact ⟨e, he, by rw [hee]⟩
    obtain ⟨st1, k1, k2⟩ := otfLoop_spec hx hl (sq := sq) T st [] hTn hg hsq
      (by intro n hn; rw [((hTm n).1 hn).1]; exact htr)
    have hprod : otfProdSucc x sq t es st = .ok (st1, T.filter fun n => !st.graph.hasNode n) := by
      rw [List.nil_append] at k1
      rw [← k1]
      simp only [otfProdSucc, T]
      rw [loopM_map]
      apply loopM_congr
      intro e he b
      rw [if_pos (e2 e he)]
    by_cases hemp : es = []
    · have hTe : ∀ n, n.1 = t → ¬ Edge x sq n := by
        intro n h1 h2
        have := (hTm n).2 ⟨h1, h2⟩
        simp [T, hemp] at this
      obtain ⟨st2, o', j1, j2, j3⟩ := ih st o hnd.2 hg hsq (fun s hs => hL s (by simp [hs]))
      refine ⟨st2, o', ?_, j2.congr ?_, ?_⟩
      · simp only [loopM, otfRound, e1, ok_bind, hemp, List.isEmpty_nil, if_true]
        exact j1
      · intro n
        rw [List.mem_cons]
        constructor
        · rintro ⟨h1, h2⟩; exact ⟨.inr h1, h2⟩
        · rintro ⟨h1 | h1, h2⟩
          · exact absurd h2 (hTe n h1)
          · exact ⟨h1, h2⟩
      · rcases j3 with ⟨h1, h2⟩ | ⟨s, hs, h⟩
        · refine .inl ⟨?_, h2⟩
          intro n hn
          rw [List.mem_cons] at hn
          rcases hn with hn | hn
          · exact hTe n hn
          · exact h1 n hn
        · exact .inr ⟨s, by simp [hs], h⟩
    · obtain ⟨st2, o', j1, j2, j3⟩ := ih st1 (some (T.filter fun n => !st.graph.hasNode n)) hnd.2 k2.og
        ((k2.nodes sq).2 (.inl hsq)) (fun s hs => hL s (by simp [hs]))
      refine ⟨st2, o', ?_, k2.trans j2 ?_, .inr ?_⟩
      · have : es.isEmpty = false := by cases es with
          | nil => exact absurd rfl hemp
          | cons => rfl
        simp only [loopM, otfRound, e1, ok_bind, this, Bool.false_eq_true, if_false, hprod]
        exact j1
      · intro n
        rw [hTm, List.mem_cons]
        constructor
        · rintro ⟨h1 | h1, h2⟩
          · exact .inl ⟨h1, h2⟩
          · exact .inr ⟨h1, h2⟩
        · rintro (⟨h1, h2⟩ | ⟨h1, h2⟩)
          · exact ⟨.inl h1, h2⟩
          · exact ⟨.inr h1, h2⟩
      · rcases j3 with ⟨_, h2⟩ | ⟨s, hs, new, h1, h2, h3, h4⟩
        · refine ⟨t, by simp, _, h2, ?_, hTn.filter _, ?_⟩
          · obtain ⟨e, he⟩ := List.exists_mem_of_ne_nil es hemp
            exact ⟨(t, e.2.1), rfl, ((hTm _).1 (List.mem_map.2 ⟨e, he, rfl⟩)).2⟩
          · intro n
            rw [List.mem_filter, hTm, and_assoc]
            simp
        · refine ⟨s, by simp [hs], new, h1, h2, h3, ?_⟩
          intro n
          rw [h4]
          have hst : s ≠ t := by rintro rfl; exact hnd.1 hs
          constructor
          · rintro ⟨h5, h6, h7⟩
            refine ⟨h5, h6, ?_⟩
            cases hb : st.graph.hasNode n with
            | false => rfl
            | true => rw [(k2.nodes n).2 (.inl hb)] at h7; cases h7
          · rintro ⟨h5, h6, h7⟩
            refine ⟨h5, h6, ?_⟩
            cases hb : st1.graph.hasNode n with
            | false => rfl
            | true =>
              rcases (k2.nodes n).1 hb with h | h
              · rw [h] at h7; cases h7
              · exact absurd (h5.symm.trans ((hTm n).1 h).1) hst

/-- **C83.** `add_successors(s, q)` for a state of the product: it adds exactly the successors of
`(s, q)`, transitions to them labeled with the label of the entered state, and the accepting ones to the
accepting states. It returns the new ones among those that belong to *one* successor of `s`; it raises
`UnboundLocalError`, without an effect, if there is no successor. -/
theorem addSuccessors_spec {x : Args σ κ V} (hx : Ok x) {letters : V → Bool}
    (hl : ∀ s v, Label x s v → letters v = true) {sq : σ × κ} {st : Otf σ κ V}
    (hs : x.fts.hasNode sq.1 = true) (hg : OG letters st.graph) (hsq : st.graph.hasNode sq = true) :
    ((∀ n, ¬ Edge x sq n) → addSuccessors x sq st = .error .unboundLocal) ∧
    ((∃ n, Edge x sq n) → ∃ st' new s, addSuccessors x sq st = .ok (st', new) ∧
      Added x letters sq (Edge x sq) st st' ∧ Trans x sq.1 s ∧ new.Nodup ∧
      ∀ n, n ∈ new ↔ n.1 = s ∧ Edge x sq n ∧ st.graph.hasNode n = false) := by
  obtain ⟨nexts, hn1, hn2⟩ := (post_spec x.fts [sq.1]).1 (by simpa using hs)
  have hn3 := post_nodup hn1
  have hnt : ∀ t, t ∈ nexts ↔ Trans x sq.1 t := by
    intro t
    rw [hn2]
    constructor
    · rintro ⟨u, hu, a, ha⟩
      rw [List.mem_singleton] at hu; subst hu
      exact ⟨a, ha⟩
    · rintro ⟨a, ha⟩; exact ⟨sq.1, by simp, a, ha⟩
  obtain ⟨st', o', k1, k2, k3⟩ := otfRounds_spec hx hl (sq := sq) nexts st none hn3 hg hsq
    (fun t ht => (hnt t).1 ht)
  have hT : ∀ n, n.1 ∈ nexts ∧ Edge x sq n ↔ Edge x sq n := by
    intro n; rw [hnt]; exact ⟨fun h => h.2, fun h => ⟨h.1, h⟩⟩
  rcases k3 with ⟨h1, h2⟩ | ⟨s, hs', new, h1, ⟨n, h2, h3⟩, h4, h5⟩
  · constructor
    · intro _
      subst h2
      simp only [addSuccessors, hn1, ok_bind, k1]
    · rintro ⟨n, hn⟩
      exact absurd hn (h1 n ((hnt _).2 hn.1))
  · constructor
    · intro h; exact absurd h3 (h n)
    · intro _
      subst h1
      exact ⟨st', new, s, by simp only [addSuccessors, hn1, ok_bind, k1]; rfl, k2.congr hT, (hnt s).1 hs',
        h4, h5⟩

/-- The constructor: the initial states of the product, and no transition. -/
theorem otfInit_spec {x : Args σ κ V} (hx : Ok x) (letters : V → Bool) :
    ∃ st, otfInit x letters = .ok st ∧ OG letters st.graph ∧
      (∀ m, st.graph.hasNode m = true ↔ Init x m) ∧ st.graph.edges = [] ∧ st.graph.nodes.Wf ∧
      (∀ m, m ∈ st.graph.initial ↔ Init x m) ∧ (∀ m, m ∈ st.accepting ↔ Init x m ∧ m.2 ∈ x.accepting) := by
  have hex : ∀ p : σ × κ, ∃ es, x.fts.hasNode p.1 = true → findBaSucc x p.2 p.1 = .ok es ∧
      ∀ q', q' ∈ es.map (·.2.1) ↔ Reads x p.2 p.1 q' := by
    intro p
    by_cases h : x.fts.hasNode p.1 = true
    · obtain ⟨es, h1, _, _, h2⟩ := findBaSucc_spec hx p.2 h
      exact ⟨es, fun _ => ⟨h1, h2⟩⟩
    · exact ⟨[], fun h' => absurd h' h⟩
  obtain ⟨es, hes⟩ := Classical.axiomOfChoice hex
  let T := x.fts.initial.flatMap fun s0 => x.ba.initial.flatMap fun q0 => (es (s0, q0)).map fun e => (s0, e.2.1)
  have hmem : ∀ n, n ∈ T ↔ Init x n := by
    intro n
    simp only [T, List.mem_flatMap, Init]
    constructor
    · rintro ⟨s0, hs, q0, hq, h⟩
      obtain ⟨e, he, rfl⟩ := List.mem_map.1 h
      exact ⟨hs, q0, hq, ((hes (s0, q0) (hx.fts.initial _ hs)).2 _).1 (List.mem_map.2 ⟨e, he, rfl⟩)⟩
    · rintro ⟨hs, q0, hq, h⟩
      obtain ⟨e, he, hee⟩ := List.mem_map.1 (((hes (n.1, q0) (hx.fts.initial _ hs)).2 n.2).2 h)
      exact ⟨n.1, hs, q0, hq, List.mem_map.2 ⟨e, he, by rw [hee]⟩⟩
  have hloop : ∀ (T : List (σ × κ)) (st : Otf σ κ V), OG letters st.graph → st.graph.nodes.Wf →
      ∃ st', loopM (otfAddInit x) st T = .ok st' ∧ OG letters st'.graph ∧
        (∀ m, st'.graph.hasNode m = true ↔ st.graph.hasNode m = true ∨ m ∈ T) ∧
        st'.graph.edges = st.graph.edges ∧ st'.graph.nodes.Wf ∧
        (∀ m, m ∈ st'.graph.initial ↔ m ∈ st.graph.initial ∨ m ∈ T) ∧
        (∀ m, m ∈ st'.accepting ↔ m ∈ st.accepting ∨ m ∈ T ∧ m.2 ∈ x.accepting) := by
    intro T
    induction T with
    | nil => intro st hg hw; exact ⟨st, rfl, hg, by simp, rfl, hw, by simp, by simp⟩
    | cons n T ih =>
      intro st hg hw
      obtain ⟨b, hb⟩ := addNode_lg hg n
      have hnode : ∀ m, LGraph.hasNode
          { st.graph with nodes := st.graph.nodes.set n b, initial := uniqueLoop st.graph.initial [n] } m = true ↔ st.graph.hasNode m = true ∨ m = n :=
        fun m => hasNode_set
      obtain ⟨st', k1, k2, k3, k4, k5, k6, k7⟩ := ih
        ⟨{ st.graph with nodes := st.graph.nodes.set n b, initial := uniqueLoop st.graph.initial [n] },
          if n.2 ∈ x.accepting then insertNew st.accepting n else st.accepting⟩ (lg_set hg n b _)
        (Dict.wf_set hw _ _)
      refine ⟨st', ?_, k2, ?_, k4, k5, ?_, ?_⟩
      · simp only [loopM, otfAddInit, hb, ok_bind, addInitial]
        rw [if_pos ((hasNode_set (init := st.graph.initial) (es := st.graph.edges)).2 (.inr rfl))]
        simp only [ok_bind]
        exact k1
      · intro m; rw [k3, hnode, List.mem_cons, or_assoc]
      · intro m
        rw [k6, mem_uniqueLoop]
        simp only [List.mem_cons, List.not_mem_nil, or_false, or_assoc]
      · intro m
        rw [k7, List.mem_cons]
        simp only
        split
        · rename_i hacc
          rw [mem_insertNew]
          constructor
          · rintro ((h | rfl) | ⟨h, h'⟩)
            · exact .inl h
            · exact .inr ⟨.inl rfl, hacc⟩
            · exact .inr ⟨.inr h, h'⟩
          · rintro (h | ⟨rfl | h, h'⟩)
            · exact .inl (.inl h)
            · exact .inl (.inr rfl)
            · exact .inr ⟨h, h'⟩
        · rename_i hacc
          constructor
          · rintro (h | ⟨h, h'⟩)
            · exact .inl h
            · exact .inr ⟨.inr h, h'⟩
          · rintro (h | ⟨rfl | h, h'⟩)
            · exact .inl h
            · exact absurd h' hacc
            · exact .inr ⟨h, h'⟩
  obtain ⟨st, k1, k2, k3, k4, k5, k6, k7⟩ := hloop T (otfEmpty letters)
    ⟨rfl, rfl, rfl, rfl, by simp [otfEmpty]⟩ (by simp [otfEmpty, Dict.Wf, Dict.keys])
  refine ⟨st, ?_, k2, ?_, k4, k5, ?_, ?_⟩
  · rw [← k1]
    simp only [otfInit, T]
    rw [loopM_flatMap]
    apply loopM_congr
    intro s0 hs b
    rw [loopM_flatMap]
    apply loopM_congr
    intro q0 _ b
    rw [(hes (s0, q0) (hx.fts.initial _ hs)).1, loopM_map]
    rfl
  · intro m; rw [k3, hmem]; simp [otfEmpty, LGraph.hasNode, Dict.has]
  · intro m; rw [k6, hmem]; simp [otfEmpty]
  · intro m; rw [k7, hmem]; simp [otfEmpty]

/-! ## Histories -/

/-- A call of `add_successors` in a program that catches `UnboundLocalError`. -/
def otfCall (x : Args σ κ V) (st : Otf σ κ V) (sq : σ × κ) : Except PyErr (Otf σ κ V) :=
  match addSuccessors x sq st with
  | .ok r => .ok r.1
  | .error .unboundLocal => .ok st
  | .error e => .error e

/-- What an on-the-fly product is after successors of the states `calls` have been added. -/
structure Grown (x : Args σ κ V) (letters : V → Bool) (calls : List (σ × κ)) (st : Otf σ κ V) : Prop where
  og : OG letters st.graph
  present : ∀ m ∈ calls, st.graph.hasNode m = true
  nodes : ∀ n, st.graph.hasNode n = true ↔ Init x n ∨ ∃ m ∈ calls, Edge x m n
  edges : ∀ m n a, (m, n, a) ∈ st.graph.edges ↔ m ∈ calls ∧ LetterEdge x m n a
  initial : ∀ n, n ∈ st.graph.initial ↔ Init x n
  accepting : ∀ n, n ∈ st.accepting ↔ st.graph.hasNode n = true ∧ n.2 ∈ x.accepting

theorem Grown.reach {x : Args σ κ V} {letters : V → Bool} {calls : List (σ × κ)} :
    ∀ {st : Otf σ κ V}, Grown x letters calls st → (∀ m ∈ calls, Reach x m) →
      ∀ n, st.graph.hasNode n = true → Reach x n := by
  intro st h hc n hn
  rcases (h.nodes n).1 hn with hi | ⟨m, hm, he⟩
  · exact .init hi
  · exact .step (hc m hm) he

theorem Grown.add {x : Args σ κ V} {letters : V → Bool} {calls : List (σ × κ)} {st st' : Otf σ κ V}
    {sq : σ × κ} (h : Grown x letters calls st) (hsq : st.graph.hasNode sq = true)
    (ha : Added x letters sq (Edge x sq) st st') : Grown x letters (calls ++ [sq]) st' := by
  refine ⟨ha.og, ?_, ?_, ?_, ?_, ?_⟩
  · intro m hm
    rw [List.mem_append, List.mem_singleton] at hm
    rw [ha.nodes]
    rcases hm with hm | rfl
    · exact .inl (h.present m hm)
    · exact .inl hsq
  · intro n
    rw [ha.nodes, h.nodes]
    constructor
    · rintro ((h1 | ⟨m, hm, h1⟩) | h1)
      · exact .inl h1
      · exact .inr ⟨m, by simp [hm], h1⟩
      · exact .inr ⟨sq, by simp, h1⟩
    · rintro (h1 | ⟨m, hm, h1⟩)
      · exact .inl (.inl h1)
      · rw [List.mem_append, List.mem_singleton] at hm
        rcases hm with hm | rfl
        · exact .inl (.inr ⟨m, hm, h1⟩)
        · exact .inr h1
  · intro m n a
    rw [ha.edges, h.edges, List.mem_append, List.mem_singleton]
    constructor
    · rintro (⟨h1, h2⟩ | ⟨rfl, h1, h2⟩)
      · exact ⟨.inl h1, h2⟩
      · exact ⟨.inr rfl, h1, h2⟩
    · rintro ⟨h1 | rfl, h2⟩
      · exact .inl ⟨h1, h2⟩
      · exact .inr ⟨rfl, h2⟩
  · intro n; rw [ha.initial]; exact h.initial n
  · intro n
    rw [ha.accepting, h.accepting, ha.nodes]
    constructor
    · rintro (⟨h1, h2⟩ | ⟨h1, h2⟩)
      · exact ⟨.inl h1, h2⟩
      · exact ⟨.inr h1, h2⟩
    · rintro ⟨h1 | h1, h2⟩
      · exact .inl ⟨h1, h2⟩
      · exact .inr ⟨h1, h2⟩

/-- A call for a state without successors has no effect. -/
theorem Grown.blocked {x : Args σ κ V} {letters : V → Bool} {calls : List (σ × κ)} {st : Otf σ κ V}
    {sq : σ × κ} (h : Grown x letters calls st) (hsq : st.graph.hasNode sq = true)
    (hb : ∀ n, ¬ Edge x sq n) : Grown x letters (calls ++ [sq]) st :=
  h.add hsq (Added.refl h.og hb)

theorem otfInit_history {x : Args σ κ V} (hx : Ok x) (letters : V → Bool) :
    ∃ st, otfInit x letters = .ok st ∧ Grown x letters [] st ∧ st.graph.nodes.Wf := by
  obtain ⟨st, h1, h2, h3, h4, h5, h6, h7⟩ := otfInit_spec hx letters
  refine ⟨st, h1, ⟨h2, by simp, ?_, ?_, h6, ?_⟩, h5⟩
  · intro n; rw [h3]; simp
  · intro m n a; rw [h4]; simp
  · intro n; rw [h7, h3]

theorem otfCalls_spec {x : Args σ κ V} (hx : Ok x) {letters : V → Bool}
    (hl : ∀ s v, Label x s v → letters v = true) (calls : List (σ × κ)) :
    ∀ (before : List (σ × κ)) (st : Otf σ κ V), Grown x letters before st → (∀ m ∈ before, Reach x m) →
      (∀ l m r, calls = l ++ m :: r → Init x m ∨ ∃ p ∈ before ++ l, Edge x p m) →
      ∃ st', loopM (otfCall x) st calls = .ok st' ∧ Grown x letters (before ++ calls) st' ∧
        ∀ m ∈ before ++ calls, Reach x m := by
  induction calls with
  | nil => intro before st h hb _; exact ⟨st, rfl, by simpa using h, by simpa using hb⟩
  | cons sq calls ih =>
    intro before st h hb hc
    have hsq : st.graph.hasNode sq = true := by
      rw [h.nodes]
      simpa using hc [] sq calls rfl
    have hr := h.reach hb sq hsq
    obtain ⟨h1, h2⟩ := addSuccessors_spec hx hl (reach_mem hx hr).1 h.og hsq
    have hcall : ∃ st1, otfCall x st sq = .ok st1 ∧ Grown x letters (before ++ [sq]) st1 := by
      by_cases he : ∃ n, Edge x sq n
      · obtain ⟨st1, new, s, k1, k2, _⟩ := h2 he
        exact ⟨st1, by simp only [otfCall, k1], h.add hsq k2⟩
      · have he' : ∀ n, ¬ Edge x sq n := fun n hn => he ⟨n, hn⟩
        exact ⟨st, by simp only [otfCall, h1 he'], h.blocked hsq he'⟩
    obtain ⟨st1, k1, k2⟩ := hcall
    obtain ⟨st2, j1, j2, j3⟩ := ih (before ++ [sq]) st1 k2 (by
        intro m hm
        rw [List.mem_append, List.mem_singleton] at hm
        rcases hm with hm | rfl
        · exact hb m hm
        · exact hr) (by
        intro l m r hlr
        have := hc (sq :: l) m r (by rw [hlr]; rfl)
        simpa using this)
    refine ⟨st2, by simp only [loopM, k1, ok_bind, j1], by simpa using j2, by simpa using j3⟩

/-- **C83.** Any history of calls of `add_successors`, each for a state that is in the product when
the call is made: the automaton then has the initial states of the product and the successors of the
states of the calls, all of them reachable; exactly the transitions of the product that leave those
states; its initial states; and its accepting states are the product states with an accepting state of
the given automaton. -/
theorem onTheFly_history {x : Args σ κ V} (hx : Ok x) {letters : V → Bool}
    (hl : ∀ s v, Label x s v → letters v = true) (calls : List (σ × κ))
    (hc : ∀ l m r, calls = l ++ m :: r → Init x m ∨ ∃ p ∈ l, Edge x p m) :
    ∃ st, (otfInit x letters >>= fun st => loopM (otfCall x) st calls) = .ok st ∧
      (∀ n, st.graph.hasNode n = true ↔ Init x n ∨ ∃ m ∈ calls, Edge x m n) ∧
      (∀ n, st.graph.hasNode n = true → Reach x n) ∧
      (∀ m n a, (m, n, a) ∈ st.graph.edges ↔ m ∈ calls ∧ LetterEdge x m n a) ∧
      (∀ n, n ∈ st.graph.initial ↔ Init x n) ∧
      (∀ n, n ∈ st.accepting ↔ st.graph.hasNode n = true ∧ n.2 ∈ x.accepting) := by
  obtain ⟨st0, h1, h2, _⟩ := otfInit_history hx letters
  obtain ⟨st, k1, k2, k3⟩ := otfCalls_spec hx hl calls [] st0 h2 (by simp) (by simpa using hc)
  exact ⟨st, by simp only [h1, ok_bind, k1], by simpa using k2.nodes, k2.reach k3, by simpa using k2.edges,
    k2.initial, k2.accepting⟩

/-- If successors have been added for every state, the automaton is the whole product. -/
theorem Grown.complete {x : Args σ κ V} {letters : V → Bool} {calls : List (σ × κ)} {st : Otf σ κ V}
    (h : Grown x letters calls st) (hr : ∀ m ∈ calls, Reach x m)
    (hc : ∀ n, st.graph.hasNode n = true → n ∈ calls) :
    (∀ n, st.graph.hasNode n = true ↔ Reach x n) ∧
      (∀ m n a, (m, n, a) ∈ st.graph.edges ↔ Reach x m ∧ LetterEdge x m n a) ∧
      (∀ n, n ∈ st.accepting ↔ Reach x n ∧ n.2 ∈ x.accepting) := by
  have hnode : ∀ n, st.graph.hasNode n = true ↔ Reach x n := by
    intro n
    refine ⟨h.reach hr n, fun hn => ?_⟩
    induction hn with
    | init hi => exact (h.nodes _).2 (.inl hi)
    | step _ he ih => exact (h.nodes _).2 (.inr ⟨_, hc _ ih, he⟩)
  refine ⟨hnode, ?_, ?_⟩
  · intro m n a
    rw [h.edges]
    constructor
    · rintro ⟨h1, h2⟩; exact ⟨hr m h1, h2⟩
    · rintro ⟨h1, h2⟩; exact ⟨hc m ((hnode m).2 h1), h2⟩
  · intro n; rw [h.accepting, hnode]

/-! ## `add_all_states` -/

/-- One sweep over `Q`: `start` is the graph when the sweep begins. -/
theorem otfSweep_spec {x : Args σ κ V} (hx : Ok x) {letters : V → Bool}
    (hl : ∀ s v, Label x s v → letters v = true) (hb : ∀ m, Reach x m → ∃ n, Edge x m n)
    (start : σ × κ → Prop) (Q : List (σ × κ)) :
    ∀ (calls acc : List (σ × κ)) (st : Otf σ κ V), Grown x letters calls st → (∀ m ∈ calls, Reach x m) →
      (∀ q ∈ Q, st.graph.hasNode q = true) → acc.Nodup →
      (∀ n, start n → st.graph.hasNode n = true) →
      (∀ n ∈ acc, st.graph.hasNode n = true ∧ ¬ start n) →
      ∃ st' acc', loopM (otfSweep x) (st, acc) Q = .ok (st', acc') ∧ Grown x letters (calls ++ Q) st' ∧
        (∀ m ∈ calls ++ Q, Reach x m) ∧ acc'.Nodup ∧
        (∀ n, start n → st'.graph.hasNode n = true) ∧
        (∀ n ∈ acc', st'.graph.hasNode n = true ∧ ¬ start n) ∧
        ((∀ s t t', Trans x s t → Trans x s t' → t = t') →
          (∀ n, st.graph.hasNode n = true → start n ∨ n ∈ acc) →
          ∀ n, st'.graph.hasNode n = true → start n ∨ n ∈ acc') := by
  induction Q with
  | nil =>
    intro calls acc st h hr _ hn hs ha
    exact ⟨st, acc, rfl, by simpa using h, by simpa using hr, hn, hs, ha, fun _ h => h⟩
  | cons sq Q ih =>
    intro calls acc st h hr hQ hn hs ha
    have hsq := hQ sq (by simp)
    have hre := h.reach hr sq hsq
    obtain ⟨st1, new, s, k1, k2, k3, k4, k5⟩ := (addSuccessors_spec hx hl (reach_mem hx hre).1 h.og hsq).2 (hb sq hre)
    have hmono : ∀ n, st.graph.hasNode n = true → st1.graph.hasNode n = true :=
      fun n hn => (k2.nodes n).2 (.inl hn)
    obtain ⟨st2, acc2, j1, j2, j3, j4, j5, j6, j7⟩ := ih (calls ++ [sq]) (uniqueLoop acc new) st1
      (h.add hsq k2) (by
        intro m hm
        rw [List.mem_append, List.mem_singleton] at hm
        rcases hm with hm | rfl
        · exact hr m hm
        · exact hre) (fun q hq => hmono q (hQ q (by simp [hq]))) (nodup_uniqueLoop _ _ hn)
      (fun n h => hmono n (hs n h)) (by
        intro n hn
        rw [mem_uniqueLoop] at hn
        rcases hn with hn | hn
        · exact ⟨hmono n (ha n hn).1, (ha n hn).2⟩
        · obtain ⟨_, h2, h3⟩ := (k5 n).1 hn
          refine ⟨(k2.nodes n).2 (.inr h2), fun h' => ?_⟩
          rw [hs n h'] at h3; cases h3)
    refine ⟨st2, acc2, ?_, by simpa using j2, by simpa using j3, j4, j5, j6, ?_⟩
    · simp only [loopM, otfSweep, k1, ok_bind]
      exact j1
    · intro hu hall
      apply j7 hu
      intro n hn
      rw [mem_uniqueLoop]
      rcases (k2.nodes n).1 hn with h' | h'
      · rcases hall n h' with h'' | h''
        · exact .inl h''
        · exact .inr (.inl h'')
      · cases hb' : st.graph.hasNode n with
        | true =>
          rcases hall n hb' with h'' | h''
          · exact .inl h''
          · exact .inr (.inl h'')
        | false => exact .inr (.inr ((k5 n).2 ⟨hu _ _ _ h'.1 k3, h', hb'⟩))

theorem otfAll_spec {x : Args σ κ V} (hx : Ok x) {letters : V → Bool}
    (hl : ∀ s v, Label x s v → letters v = true) (hb : ∀ m, Reach x m → ∃ n, Edge x m n) (fuel : Nat) :
    ∀ (calls Q : List (σ × κ)) (st : Otf σ κ V), Grown x letters calls st → (∀ m ∈ calls, Reach x m) →
      calls.Nodup → Q.Nodup → (∀ q ∈ Q, st.graph.hasNode q = true ∧ q ∉ calls) →
      x.fts.nodes.length * x.ba.nodes.length + 2 ≤ fuel + calls.length + (if Q = [] then 1 else 0) →
      ∃ st' calls', otfAll x fuel st Q = .ok st' ∧ Grown x letters calls' st' ∧
        (∀ m ∈ calls', Reach x m) ∧
        ((∀ s t t', Trans x s t → Trans x s t' → t = t') →
          (∀ n, st.graph.hasNode n = true → n ∈ calls ∨ n ∈ Q) →
          ∀ n, st'.graph.hasNode n = true → n ∈ calls') := by
  have hle : ∀ calls : List (σ × κ), calls.Nodup → (∀ m ∈ calls, Reach x m) →
      calls.length ≤ x.fts.nodes.length * x.ba.nodes.length := by
    intro calls hn hr
    have hsub : calls ⊆ x.fts.nodes.keys ×ˢ x.ba.nodes.keys := by
      intro n hm
      have := reach_mem hx (hr n hm)
      rw [show n = (n.1, n.2) from rfl, List.mem_product]
      exact ⟨(mem_keys_iff_has _ _).2 this.1, (mem_keys_iff_has _ _).2 this.2⟩
    have := (List.subperm_of_subset hn hsub).length_le
    simpa [List.length_product, Dict.keys] using this
  induction fuel with
  | zero =>
    intro calls Q st h hr hn hQn hQ hf
    exfalso
    have := hle calls hn hr
    split at hf <;> omega
  | succ fuel ih =>
    intro calls Q st h hr hn hQn hQ hf
    unfold otfAll
    by_cases hQe : Q = []
    · subst hQe
      exact ⟨st, calls, by simp, h, hr, fun _ hall n hn => by simpa using hall n hn⟩
    · have hemp : Q.isEmpty = false := by cases Q with
        | nil => exact absurd rfl hQe
        | cons => rfl
      obtain ⟨st1, acc, j1, j2, j3, j4, j5, j6, j7⟩ := otfSweep_spec hx hl hb
        (fun n => st.graph.hasNode n = true) Q calls [] st h hr (fun q hq => (hQ q hq).1) (by simp)
        (fun _ h => h) (by simp)
      have hnd : (calls ++ Q).Nodup := by
        rw [List.nodup_append]
        refine ⟨hn, hQn, ?_⟩
        intro a ha b hb'
        rintro rfl
        exact (hQ _ hb').2 ha
      have hnode : ∀ m ∈ calls ++ Q, st.graph.hasNode m = true := by
        intro m hm
        rw [List.mem_append] at hm
        rcases hm with hm | hm
        · exact h.present m hm
        · exact (hQ m hm).1
      obtain ⟨st2, calls', k1, k2, k3, k4⟩ := ih (calls ++ Q) acc st1 j2 j3 hnd j4 (by
          intro q hq
          exact ⟨(j6 q hq).1, fun h' => (j6 q hq).2 (hnode q h')⟩) (by
          have : 1 ≤ Q.length := by
            cases Q with
            | nil => exact absurd rfl hQe
            | cons => simp
          rw [if_neg hQe] at hf
          rw [List.length_append]
          omega)
      refine ⟨st2, calls', ?_, k2, k3, ?_⟩
      · simp only [hemp, Bool.false_eq_true, if_false, j1, ok_bind]
        exact k1
      · intro hu hall
        apply k4 hu
        intro n hn
        rcases j7 hu (fun n hn => .inl hn) n hn with h' | h'
        · left
          rw [List.mem_append]
          exact hall n h'
        · exact .inr h'

/-- **C83.** `add_all_states` ends without an exception if every reachable product state has a
successor, after at most as many rounds as there are pairs of states, and two. All states it adds are
reachable, and the transitions, initial and accepting states are those of the product. If no state of the
transition system has two different successors, the automaton is the whole reachable product and accepts
exactly the words along the paths of the transition system that the given automaton accepts. -/
theorem onTheFly_spec {x : Args σ κ V} (hx : Ok x) {letters : V → Bool}
    (hl : ∀ s v, Label x s v → letters v = true) (hb : ∀ m, Reach x m → ∃ n, Edge x m n) {fuel : Nat}
    (hf : x.fts.nodes.length * x.ba.nodes.length + 2 ≤ fuel) :
    ∃ st, onTheFly x letters fuel = .ok st ∧
      (∀ n, st.graph.hasNode n = true → Reach x n) ∧
      (∀ m n a, (m, n, a) ∈ st.graph.edges → Reach x m ∧ LetterEdge x m n a) ∧
      (∀ n, n ∈ st.graph.initial ↔ Init x n) ∧
      (∀ n, n ∈ st.accepting ↔ st.graph.hasNode n = true ∧ n.2 ∈ x.accepting) ∧
      ((∀ s t t', Trans x s t → Trans x s t' → t = t') →
        (∀ n, st.graph.hasNode n = true ↔ Reach x n) ∧
        (∀ m n a, (m, n, a) ∈ st.graph.edges ↔ Reach x m ∧ LetterEdge x m n a) ∧
        ∀ w, AcceptsWord st.graph st.accepting w ↔
          ∃ p : Nat → σ, Path x p ∧ Accepts x p ∧ ∀ i, Label x (p (i + 1)) (w i)) := by
  obtain ⟨st0, h1, h2, h3⟩ := otfInit_history hx letters
  obtain ⟨st, calls, k1, k2, k3, k4⟩ := otfAll_spec hx hl hb fuel [] st0.graph.nodes.keys st0 h2 (by simp) (by simp)
    h3 (by intro q hq; exact ⟨(mem_keys_iff_has _ _).1 hq, by simp⟩) (by simp; omega)
  refine ⟨st, by simp only [onTheFly, h1, ok_bind, k1], k2.reach k3, ?_, k2.initial, k2.accepting, ?_⟩
  · intro m n a h
    obtain ⟨h1, h2⟩ := (k2.edges _ _ _).1 h
    exact ⟨k3 m h1, h2⟩
  · intro hu
    obtain ⟨j1, j2, j3⟩ := k2.complete k3 (k4 hu fun n hn => .inr ((mem_keys_iff_has _ _).2 hn))
    exact ⟨j1, j2, product_words j2 k2.initial j3⟩

end OnTheFly

/-! ## Examples -/

/-- The letters of the examples are sets of propositions, here numbers; `9` is `{True}`. -/
def anyLetter : Dict String (LabelType Nat) := [("letter", { contains := fun _ => true })]

/-- A transition system that goes back and forth between two states with the given names. -/
def twoStates (a b : String) : LGraph String Nat :=
  run [("ap", { contains := fun _ => true })] [("ap", 0)] [] []
    [.addNode a [("ap", 1)] true, .addNode b [("ap", 2)] true, .addEdge a b [] true, .addEdge b a [] true,
      .addInitial a]

/-- States `s1` and `t2`. -/
def exampleNamed : Args String Nat Nat := ⟨twoStates "s1" "t2", exampleBa, [1], 9⟩

theorem exampleNamed_ok : Ok exampleNamed := by
  have h1 : (twoStates "s1" "t2").Ok ∧ (twoStates "s1" "t2").KeysTyped := by
    apply run_keysTyped
    · intro op hop; fin_cases hop <;> simp [GOp.Wf, Dict.Wf, Dict.keys]
    · intro op hop; fin_cases hop <;> simp [GOp.Checked]
  have h2 := exampleArgs_ok
  have he : exampleBa.edges = [(0, 0, [("letter", 1)]), (0, 1, [("letter", 2)]), (1, 0, [("letter", 9)])] := by
    decide +kernel
  have hn : (twoStates "s1" "t2").nodes = [("s1", [("ap", 1)]), ("t2", [("ap", 2)])] := by decide +kernel
  have hlab : ∀ s v, Label exampleNamed s v → v = 1 ∨ v = 2 := by
    rintro s v ⟨a, ha, hv⟩
    rw [show exampleNamed.fts.nodes = _ from hn] at ha
    simp only [Dict.get?_cons] at ha
    split at ha
    · cases ha; simp only [Dict.get?_cons, if_true, Option.some.injEq] at hv; omega
    · split at ha
      · cases ha; simp only [Dict.get?_cons, if_true, Option.some.injEq] at hv; omega
      · simp at ha
  refine ⟨h1.1, h1.2, by decide +kernel, ?_, h2.ba, h2.baKeys, h2.baDefaults, h2.letter, h2.noGuard, ?_⟩
  · intro s hs
    rw [LGraph.hasNode, show exampleNamed.fts.nodes = _ from hn] at hs
    obtain ⟨a, ha⟩ := (Dict.has_iff _ _).1 hs
    simp only [Dict.get?_cons] at ha
    unfold Label
    rw [show exampleNamed.fts.nodes = _ from hn]
    simp only [Dict.get?_cons]
    split at ha
    · rename_i h; subst h; exact ⟨1, [("ap", 1)], by simp, rfl⟩
    · split at ha
      · rename_i h h'; subst h'; exact ⟨2, [("ap", 2)], by simp, rfl⟩
      · simp at ha
  · intro q q' s v hl h h'
    rw [show exampleNamed.ba.edges = _ from he] at h h'
    have hv' := hlab s v hl
    simp only [exampleNamed, List.mem_cons, Prod.mk.injEq, List.cons.injEq, and_true, true_and,
      List.not_mem_nil, or_false] at h h'
    omega

theorem exampleNamed_apart : NamesApart exampleNamed.fts := by
  have hk : exampleNamed.fts.nodes.keys = ["s1", "t2"] := by decide +kernel
  have : ∀ s ∈ ["s1", "t2"], ∀ t ∈ ["s1", "t2"], s.toList <:+: t.toList → s = t := by decide +kernel
  intro s t hs ht
  rw [LGraph.hasNode, ← mem_keys_iff_has, hk] at hs ht
  exact this s hs t ht

/-- The hypotheses of `baTsSyncProd_spec` are met by a product with a cycle. -/
example : exampleNamed.ba.edgeTypes.has "letter" = true ∧
    (∀ s v t, Label exampleNamed s v → exampleNamed.ba.edgeTypes.get? "letter" = some t → t.contains v = true) ∧
    ((baTsSyncProd exampleNamed (fun Q => Q.headD ("", 0))).toOption.map fun r =>
      r.1.edges.flatMap fun e => [(e.1, e.2.1, e.2.2.get? "letter")]) =
    some [(("s1", 0), ("t2", 1), some 2), (("t2", 1), ("s1", 0), some 1)] := by
  refine ⟨by decide +kernel, ?_, by decide +kernel⟩
  intro s v t _ ht
  have : exampleBa.edgeTypes.get? "letter" = some { contains := fun _ => true } := rfl
  rw [show exampleNamed.ba = exampleBa from rfl, this] at ht
  cases ht; rfl

/-- The label of the entered state is looked up with `states.find(name)`, a substring test: with states
named `s1` and `s10`, the transition that enters `s10` gets the label of `s1`. -/
theorem baTsSyncProd_substring_counterexample :
    ((baTsSyncProd ⟨twoStates "s1" "s10", exampleBa, [1], 9⟩ (fun Q => Q.headD ("", 0))).toOption.map fun r =>
      r.1.edges.flatMap fun e => [(e.1, e.2.1, e.2.2.get? "letter")]) =
      some [(("s1", 0), ("s10", 1), some 1), (("s10", 1), ("s1", 0), some 1)] ∧
    (twoStates "s1" "s10").nodes.get? "s10" = some [("ap", 2)] := by
  decide +kernel

/-- The hypotheses of `onTheFly_spec` are met, with at most one successor for each state. -/
example : (∀ m, Reach exampleArgs m → ∃ n, Edge exampleArgs m n) ∧
    (∀ s t t', Trans exampleArgs s t → Trans exampleArgs s t' → t = t') ∧
    ((onTheFly exampleArgs (fun _ => true) 6).toOption.map fun st =>
      st.graph.edges.flatMap fun e => [(e.1, e.2.1, e.2.2.get? "letter")]) =
    some [((0, 0), (1, 1), some 2), ((1, 1), (0, 0), some 1)] := by
  have hf : exampleArgs.fts.edges = [(0, 1, []), (1, 0, [])] := by decide +kernel
  have he : exampleArgs.ba.edges =
      [(0, 0, [("letter", 1)]), (0, 1, [("letter", 2)]), (1, 0, [("letter", 9)])] := by decide +kernel
  have hi : exampleArgs.fts.initial = [0] ∧ exampleArgs.ba.initial = [0] := by decide +kernel
  have hn : exampleArgs.fts.nodes = [(0, [("ap", 1)]), (1, [("ap", 2)])] := by decide +kernel
  have hr : ∀ m, Reach exampleArgs m → m = (0, 0) ∨ m = (1, 1) := by
    intro m hm
    induction hm with
    | @init n h =>
      obtain ⟨h1, q0, h2, v, h3, h4⟩ := h
      rw [hi.1, List.mem_singleton] at h1
      rw [hi.2, List.mem_singleton] at h2
      subst h2
      rw [he] at h3
      have : Label exampleArgs n.1 v → v = 1 := by
        rintro ⟨a, ha, hv⟩
        rw [h1, hn] at ha
        cases ha; cases hv; rfl
      have h9 : exampleArgs.trueLetter = 9 := rfl
      simp only [List.mem_cons, Prod.mk.injEq, List.cons.injEq, and_true, true_and, List.not_mem_nil,
        or_false] at h3
      left
      ext
      · exact h1
      · rcases h4 with h4 | h4
        · have := this h4; simp; omega
        · rw [h9] at h4; simp; omega
    | @step m n _ h ih =>
      obtain ⟨⟨a, h1⟩, v, h3, h4⟩ := h
      rw [hf] at h1
      rw [he] at h3
      have h9 : exampleArgs.trueLetter = 9 := rfl
      rw [h9] at h4
      simp only [List.mem_cons, Prod.mk.injEq, List.cons.injEq, and_true, true_and, List.not_mem_nil,
        or_false] at h1 h3
      rcases ih with rfl | rfl
      · simp only [true_and, false_and, or_false, Nat.zero_ne_one] at h1 h3
        have hl : Label exampleArgs n.1 v → v = 2 := by
          rintro ⟨b, hb, hv⟩
          rw [h1.1, hn] at hb
          cases hb; cases hv; rfl
        right
        ext
        · exact h1.1
        · rcases h4 with h4 | h4
          · have := hl h4; simp; omega
          · simp; omega
      · simp only [true_and, false_and, false_or, Nat.one_ne_zero] at h1 h3
        left
        ext
        · exact h1.1
        · exact h3.1
  refine ⟨?_, ?_, by decide +kernel⟩
  · intro m hm
    rcases hr m hm with rfl | rfl
    · exact ⟨(1, 1), ⟨[], by rw [hf]; simp⟩, 2, by rw [he]; simp, .inl ⟨[("ap", 2)], by rw [hn]; rfl, rfl⟩⟩
    · exact ⟨(0, 0), ⟨[], by rw [hf]; simp⟩, 9, by rw [he]; simp, .inr rfl⟩
  · rintro s t t' ⟨a, ha⟩ ⟨b, hb⟩
    rw [hf] at ha hb
    simp only [List.mem_cons, Prod.mk.injEq, List.not_mem_nil, or_false] at ha hb
    omega

/-- The hypotheses of `onTheFly_history` are met by two calls, the second for a state that the first
has added. -/
example : ∃ st, (otfInit exampleArgs (fun _ => true) >>= fun st => loopM (otfCall exampleArgs) st [(0, 0), (1, 1)]) =
    .ok st ∧ st.graph.edges.map (fun e => (e.1, e.2.1)) = [((0, 0), (1, 1)), ((1, 1), (0, 0))] :=
  ⟨_, rfl, by decide +kernel⟩

/-- A transition system where `0` has the successors `1` and `2`, and these only `0`. -/
def branching : LGraph Nat Nat :=
  run [("ap", { contains := fun _ => true })] [("ap", 0)] [] []
    [.addNode 0 [("ap", 1)] true, .addNode 1 [("ap", 1)] true, .addNode 2 [("ap", 1)] true,
      .addNode 3 [("ap", 1)] true, .addEdge 0 1 [] true, .addEdge 0 2 [] true, .addEdge 1 3 [] true,
      .addEdge 3 0 [] true, .addEdge 2 0 [] true, .addInitial 0]

/-- `add_all_states` misses states: it continues only with the new states for the last successor of `0`,
so that `3`, which is reached through `1`, is not added. -/
theorem onTheFly_branching_counterexample :
    let x : Args Nat Nat Nat := ⟨branching, exampleBa, [1], 9⟩
    ((onTheFly x (fun _ => true) 100).toOption.map fun st => st.graph.nodes.keys) =
      some [(0, 0), (1, 0), (2, 0)] ∧
    ((tsBaSyncProd x (fun Q => Q.headD (0, 0))).toOption.map fun st => st.graph.nodes.keys) =
      some [(0, 0), (1, 0), (2, 0), (3, 0)] := by
  decide +kernel

/-- A product state without successors makes `add_all_states` raise `UnboundLocalError`. -/
theorem onTheFly_blocked_counterexample :
    onTheFly ⟨exampleTs, run [] [] anyLetter []
      [.addNode 0 [] true, .addEdge 0 0 [("letter", 1)] true, .addInitial 0], [0], 9⟩ (fun _ => true) 100 =
      .error .unboundLocal := by
  rfl

end Prod'
end Tulip
