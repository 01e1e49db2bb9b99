import Verif.Transys.Products
import Verif.Transys.GraphQueryProps
import Verif.Transys.MachineConvProps
import Mathlib.Data.List.ProdSigma
import Mathlib.Tactic.FinCases

/-!
# C22: the synchronous product of a transition system and a Büchi automaton
-/

namespace Tulip
namespace Prod'

open LGraph Mach

variable {σ κ V : Type} [DecidableEq σ] [DecidableEq κ] [DecidableEq V]

/-! ## Specification -/

/-- The set of atomic propositions that labels a state. -/
def Label (x : Args σ κ V) (s : σ) (v : V) : Prop :=
  ∃ a, x.fts.nodes.get? s = some a ∧ a.get? "ap" = some v

/-- A transition of the transition system. -/
def Trans (x : Args σ κ V) (s t : σ) : Prop := ∃ a, (s, t, a) ∈ x.fts.edges

/-- In `q` the automaton can read the label of `s` and go to `q'`: a transition whose letter is that
label, or `{True}`. -/
def Reads (x : Args σ κ V) (q : κ) (s : σ) (q' : κ) : Prop :=
  ∃ v, (q, q', [("letter", v)]) ∈ x.ba.edges ∧ (Label x s v ∨ v = x.trueLetter)

/-- The transition relation of the product. -/
def Edge (x : Args σ κ V) (m n : σ × κ) : Prop := Trans x m.1 n.1 ∧ Reads x m.2 n.1 n.2

/-- The initial states of the product. -/
def Init (x : Args σ κ V) (n : σ × κ) : Prop :=
  n.1 ∈ x.fts.initial ∧ ∃ q0 ∈ x.ba.initial, Reads x q0 n.1 n.2

/-- The reachable states of the product. -/
inductive Reach (x : Args σ κ V) : σ × κ → Prop
  | init {n : σ × κ} : Init x n → Reach x n
  | step {m n : σ × κ} : Reach x m → Edge x m n → Reach x n

/-- What is assumed: a transition system without edge labels (an edge with an action makes
`find_prod_succ` raise `KeyError`), whose states are labeled; an automaton whose edges have letters,
without guard semantics; and no pair of states of the automaton joined both by the label of a state and
by `{True}` (then the product's edge is added twice, which raises). -/
structure Ok (x : Args σ κ V) : Prop where
  fts : x.fts.Ok
  ftsKeys : x.fts.KeysTyped
  plain : ∀ e ∈ x.fts.edges, e.2.2 = []
  labeled : ∀ s, x.fts.hasNode s = true → ∃ v, Label x s v
  ba : x.ba.Ok
  baKeys : x.ba.KeysTyped
  baDefaults : x.ba.edgeDefaults = []
  letter : ∀ e ∈ x.ba.edges, ∃ v, e.2.2 = [("letter", v)]
  noGuard : ∀ t, x.ba.edgeTypes.get? "letter" = some t → t.guard = none
  single : ∀ q q' s v, Label x s v → (q, q', [("letter", v)]) ∈ x.ba.edges →
    (q, q', [("letter", x.trueLetter)]) ∉ x.ba.edges

/-! ## Enabled transitions of the automaton -/

theorem matches_letter {x : Args σ κ V} (hx : Ok x) {q q' : κ} {u v : V}
    (he : (q, q', [("letter", u)]) ∈ x.ba.edges) :
    Matches x.ba.edgeTypes [("letter", u)] [("letter", v)] ↔ u = v := by
  constructor
  · rintro (h | ⟨_, h⟩)
    · have := h "letter"; simpa [Dict.get?_cons] using this
    · have ht : x.ba.edgeTypes.has "letter" = true := hx.baKeys.1 _ _ _ he "letter" rfl
      obtain ⟨t, ht⟩ := (Dict.has_iff _ _).1 ht
      have := h "letter" u v t (by simp [Dict.get?_cons]) (by simp [Dict.get?_cons]) ht
      rw [hx.noGuard t ht] at this
      exact this
  · rintro rfl; exact .inl fun _ => rfl

open Classical in
theorem find_letter {x : Args σ κ V} (hx : Ok x) (q : κ) (v : V) :
    x.ba.findEdges (some [q]) none [("letter", v)] =
      .ok (x.ba.edges.filter fun e => decide (e.1 = q ∧ e.2.2 = [("letter", v)])) := by
  rw [findEdges_spec hx.ba hx.baKeys]
  congr 1
  apply List.filter_congr
  rintro ⟨a, b, c⟩ he
  obtain ⟨u, hu⟩ := hx.letter _ he
  simp only at hu
  subst hu
  rw [decide_eq_decide]
  simp only [Option.some.injEq, forall_eq', List.mem_singleton, reduceCtorEq, false_implies, implies_true,
    List.cons_ne_self, true_and, false_or, List.cons.injEq, Prod.mk.injEq, and_true]
  rw [matches_letter hx he]

theorem findBaSucc_spec {x : Args σ κ V} (hx : Ok x) (q : κ) {s : σ} (hs : x.fts.hasNode s = true) :
    ∃ es, findBaSucc x q s = .ok es ∧ (∀ e ∈ es, e.1 = q) ∧ (es.map (·.2.1)).Nodup ∧
      ∀ q', q' ∈ es.map (·.2.1) ↔ Reads x q s q' := by
  classical
  obtain ⟨v, a, ha, hv⟩ := hx.labeled s hs
  have hl : Label x s v := ⟨a, ha, hv⟩
  have hap : apOf x.fts s = .ok v := by simp only [apOf, ha, hv]
  have hmem : ∀ u e, e ∈ x.ba.edges.filter (fun e => decide (e.1 = q ∧ e.2.2 = [("letter", u)])) ↔
      e ∈ x.ba.edges ∧ e.1 = q ∧ e.2.2 = [("letter", u)] := by
    intro u e; simp
  have hnd : ∀ u, ((x.ba.edges.filter fun e => decide (e.1 = q ∧ e.2.2 = [("letter", u)])).map (·.2.1)).Nodup := by
    intro u
    refine List.Nodup.map_on ?_ ((edges_nodup hx.ba hx.baDefaults).filter _)
    rintro ⟨a, b, c⟩ h1 ⟨a', b', c'⟩ h2 h3
    rw [hmem] at h1 h2
    obtain ⟨_, rfl, rfl⟩ := h1
    obtain ⟨_, rfl, rfl⟩ := h2
    simp only at h3
    subst h3; rfl
  refine ⟨_, by simp only [findBaSucc, hap, ok_bind, find_letter hx]; rfl, ?_, ?_, ?_⟩
  · intro e he
    rcases List.mem_append.1 he with h | h <;> exact ((hmem _ _).1 h).2.1
  · rw [List.map_append, List.nodup_append]
    refine ⟨hnd v, hnd _, ?_⟩
    intro b hb b' hb' hbb
    subst hbb
    obtain ⟨⟨a1, b1, c1⟩, h1, rfl⟩ := List.mem_map.1 hb
    obtain ⟨⟨a2, b2, c2⟩, h2, h3⟩ := List.mem_map.1 hb'
    rw [hmem] at h1 h2
    obtain ⟨k1, rfl, rfl⟩ := h1
    obtain ⟨k2, rfl, rfl⟩ := h2
    simp only at h3
    subst h3
    exact hx.single _ _ s v hl k1 k2
  · intro q'
    rw [List.map_append, List.mem_append, List.mem_map, List.mem_map]
    constructor
    · rintro (⟨⟨a1, b1, c1⟩, h, rfl⟩ | ⟨⟨a1, b1, c1⟩, h, rfl⟩)
      · rw [hmem] at h
        obtain ⟨k, rfl, rfl⟩ := h
        exact ⟨v, k, .inl hl⟩
      · rw [hmem] at h
        obtain ⟨k, rfl, rfl⟩ := h
        exact ⟨_, k, .inr rfl⟩
    · rintro ⟨u, h1, ⟨a', ha', hv'⟩ | rfl⟩
      · rw [ha] at ha'; cases ha'
        rw [hv] at hv'; cases hv'
        exact .inl ⟨_, (hmem _ _).2 ⟨h1, rfl, rfl⟩, rfl⟩
      · exact .inr ⟨_, (hmem _ _).2 ⟨h1, rfl, rfl⟩, rfl⟩

/-! ## The product graph -/

/-- The types of the product, and the labels of its states. -/
structure PG (x : Args σ κ V) (g : LGraph (σ × κ) (List κ)) : Prop where
  nodeTypes : g.nodeTypes = [("ap", { contains := fun l => l.all x.ba.hasNode })]
  nodeDefaults : g.nodeDefaults = [("ap", [])]
  edgeTypes : g.edgeTypes = []
  edgeDefaults : g.edgeDefaults = []
  labels : ∀ n a, g.nodes.get? n = some a → a.get? "ap" = some [n.2]

theorem addNode_default {x : Args σ κ V} {g : LGraph (σ × κ) (List κ)} (hg : PG x g) (n : σ × κ) :
    g.addNode n [] = .ok { g with nodes := g.nodes.set n (((g.nodes.get? n).getD []).update [("ap", [])]) } := by
  simp only [addNode, hg.nodeTypes, hg.nodeDefaults, typedAttr, TDict.update, allowedOf]
  rfl

theorem setAp_ok {x : Args σ κ V} {g : LGraph (σ × κ) (List κ)}
    (ht : g.nodeTypes = [("ap", { contains := fun l => l.all x.ba.hasNode })]) {n : σ × κ} {q : κ} {a : Attr (List κ)}
    (ha : g.nodes.get? n = some a) (hq : x.ba.hasNode q = true) :
    setAp g n q = .ok { g with nodes := g.nodes.set n (a.set "ap" [q]) } := by
  have : g.nodeTypes.get? "ap" = some { contains := fun l => l.all x.ba.hasNode } := by
    rw [ht]; rfl
  simp only [setAp, ha, this, List.all_cons, hq, List.all_nil, Bool.and_true, if_true]

/-- A state is added and labeled. -/
theorem node_spec {x : Args σ κ V} {g : LGraph (σ × κ) (List κ)} (hg : PG x g) {n : σ × κ}
    (hq : x.ba.hasNode n.2 = true) (b : Attr (List κ)) (init : List (σ × κ)) :
    setAp { g with nodes := g.nodes.set n b, initial := init } n n.2 =
      .ok { g with nodes := (g.nodes.set n b).set n (b.set "ap" [n.2]), initial := init } ∧
    PG x { g with nodes := (g.nodes.set n b).set n (b.set "ap" [n.2]), initial := init } ∧
    ∀ m, LGraph.hasNode { g with nodes := (g.nodes.set n b).set n (b.set "ap" [n.2]), initial := init } m = true ↔
      g.hasNode m = true ∨ m = n := by
  refine ⟨setAp_ok (x := x) (g := { g with nodes := g.nodes.set n b, initial := init }) hg.nodeTypes
    (by simp [Dict.get?_set]) hq, ⟨hg.nodeTypes, hg.nodeDefaults, hg.edgeTypes,
    hg.edgeDefaults, ?_⟩, ?_⟩
  · intro m a hm
    simp only [Dict.get?_set] at hm
    by_cases h : n = m
    · subst h
      rw [if_pos rfl] at hm
      cases hm
      rw [Dict.get?_set, if_pos rfl]
    · rw [if_neg h, if_neg h] at hm
      exact hg.labels m a hm
  · intro m
    simp only [LGraph.hasNode, has_eq, Dict.get?_set]
    by_cases h : n = m
    · simp [h]
    · rw [if_neg h, if_neg h]
      constructor
      · exact .inl
      · rintro (h' | rfl)
        · exact h'
        · exact absurd rfl h

theorem mem_insertNew {α : Type} [DecidableEq α] (l : List α) (a b : α) :
    b ∈ insertNew l a ↔ b ∈ l ∨ b = a := by
  unfold insertNew
  split
  · rename_i h
    constructor
    · exact .inl
    · rintro (h' | rfl)
      · exact h'
      · exact h
  · simp

/-- The transition system has one edge between two states that it joins. -/
theorem find_trans {x : Args σ κ V} (hx : Ok x) {s t : σ} (ht : Trans x s t) :
    x.fts.findEdges (some [s]) (some [t]) [] = .ok [(s, t, [])] := by
  classical
  rw [findEdges_spec hx.fts hx.ftsKeys]
  congr 1
  have hmem : ∀ e, e ∈ x.fts.edges.filter (fun e => decide (
    (∀ us, some [s] = some us → e.1 ∈ us) ∧ (∀ vs, some [t] = some vs → e.2.1 ∈ vs) ∧
      (([] : Attr V) = [] ∨ e.2.2 = [] ∨ Matches x.fts.edgeTypes e.2.2 []))) ↔
      e ∈ x.fts.edges ∧ e.1 = s ∧ e.2.1 = t := by
    intro e
    rw [List.mem_filter, decide_eq_true_eq]
    simp
  have hpw := hx.fts.noMix.filter (fun e => decide (
    (∀ us, some [s] = some us → e.1 ∈ us) ∧ (∀ vs, some [t] = some vs → e.2.1 ∈ vs) ∧
      (([] : Attr V) = [] ∨ e.2.2 = [] ∨ Matches x.fts.edgeTypes e.2.2 [])))
  obtain ⟨a, ha⟩ := ht
  have ha' := (hmem (s, t, a)).2 ⟨ha, rfl, rfl⟩
  revert hpw ha' hmem
  generalize x.fts.edges.filter _ = l
  intro hmem hpw ha'
  have hall : ∀ e ∈ l, e = (s, t, []) := by
    rintro ⟨p, q, c⟩ he
    obtain ⟨h1, h2, h3⟩ := (hmem _).1 he
    have := hx.plain _ h1
    simp only at this h2 h3
    rw [this, h2, h3]
  cases l with
  | nil => simp at ha'
  | cons e l =>
    cases l with
    | nil => rw [hall e (by simp)]
    | cons f l =>
      exfalso
      have h1 := hall e (by simp)
      have h2 := hall f (by simp)
      exact (List.pairwise_cons.1 hpw).1 f (by simp) (by rw [h1, h2]) (by rw [h1, h2]) (by rw [h1])

/-- The edge of the transition system. -/
theorem addEdges_ok {x : Args σ κ V} (hx : Ok x) {g : LGraph (σ × κ) (List κ)} (hg : PG x g) {m n : σ × κ}
    (ht : Trans x m.1 n.1) (hm : g.hasNode m = true) (hn : g.hasNode n = true)
    (hno : ∀ a, (m, n, a) ∉ g.edges) :
    addEdges x g m n = .ok { g with edges := g.edges ++ [(m, n, [])] } := by
  have hfind := find_trans hx ht
  simp only [addEdges, hfind, ok_bind, loopM, List.isEmpty_nil, if_true]
  have hdt : Typed g.edgeTypes g.edgeDefaults := by rw [hg.edgeDefaults]; simp [Typed]
  rcases addEdge_ok (attr := []) (check := true) hm hn hdt (by simp [Typed]) (by
      intro d hd; exact absurd (mem_edgeData.1 hd) (hno d)) (by
      intro _ k hk
      rw [hg.edgeDefaults] at hk
      simp [Dict.update, Dict.has] at hk) with ⟨⟨d, hd, _⟩, _⟩ | ⟨_, h⟩
  · exact absurd (mem_edgeData.1 hd) (hno d)
  · rw [h, ok_bind, hg.edgeDefaults]
    rfl

/-! ## One state of the product -/

theorem prodStep_spec {x : Args σ κ V} (hx : Ok x) {sq n : σ × κ} {st : State σ κ} {new : List (σ × κ)}
    (hg : PG x st.graph) (hsq : st.graph.hasNode sq = true) (hq : x.ba.hasNode n.2 = true)
    (ht : Trans x sq.1 n.1) (hno : ∀ a, (sq, n, a) ∉ st.graph.edges) :
    ∃ st', prodStep x sq (st, new) n = .ok (st', if st.graph.hasNode n then new else new ++ [n]) ∧
      PG x st'.graph ∧ (∀ m, st'.graph.hasNode m = true ↔ st.graph.hasNode m = true ∨ m = n) ∧
      st'.graph.edges = st.graph.edges ++ [(sq, n, [])] ∧ st'.graph.initial = st.graph.initial ∧
      (∀ m, m ∈ st'.accepting ↔ m ∈ st.accepting ∨ m = n ∧ m.2 ∈ x.accepting) := by
  have key : ∃ b, (if !st.graph.hasNode n then st.graph.addNode n [] else .ok st.graph) =
        .ok { st.graph with nodes := st.graph.nodes.set n b } := by
    cases h : st.graph.hasNode n with
    | true =>
      obtain ⟨a, ha⟩ := (Dict.has_iff _ _).1 h
      exact ⟨a, by rw [set_same _ _ _ ha]; simp⟩
    | false => exact ⟨_, by simpa using addNode_default hg n⟩
  obtain ⟨b, hb⟩ := key
  obtain ⟨h1, h2, h3⟩ := node_spec hg hq b st.graph.initial
  have h4 := addEdges_ok hx (g := { st.graph with nodes := (st.graph.nodes.set n b).set n (b.set "ap" [n.2]) }) h2
    ht ((h3 sq).2 (.inl hsq)) ((h3 n).2 (.inr rfl)) hno
  refine ⟨⟨{ st.graph with nodes := (st.graph.nodes.set n b).set n (b.set "ap" [n.2]),
                            edges := st.graph.edges ++ [(sq, n, [])] },
      if n.2 ∈ x.accepting then insertNew st.accepting n else st.accepting⟩, ?_, ?_, ?_, rfl, rfl, ?_⟩
  · have h1' : setAp { st.graph with nodes := st.graph.nodes.set n b } n n.2 = _ := h1
    simp only [prodStep]
    cases h : st.graph.hasNode n with
    | true =>
      simp only [h, Bool.not_true, Bool.false_eq_true, if_false, Except.ok.injEq] at hb
      simp only [Bool.not_true, Bool.false_eq_true, if_false, ok_bind]
      rw [← hb] at h1'
      rw [h1']
      simp only [ok_bind, h4, if_true]
    | false =>
      simp only [h, Bool.not_false, if_true] at hb
      simp only [Bool.not_false, if_true, hb, ok_bind]
      rw [h1']
      simp only [ok_bind, h4, Bool.false_eq_true, if_false]
  · exact ⟨h2.nodeTypes, h2.nodeDefaults, h2.edgeTypes, h2.edgeDefaults, h2.labels⟩
  · exact h3
  · intro m
    simp only
    split
    · rename_i hacc
      rw [mem_insertNew]
      constructor
      · rintro (h | rfl)
        · exact .inl h
        · exact .inr ⟨rfl, hacc⟩
      · rintro (h | ⟨rfl, _⟩)
        · exact .inl h
        · exact .inr rfl
    · rename_i hacc
      constructor
      · exact .inl
      · rintro (h | ⟨rfl, h⟩)
        · exact h
        · exact absurd h hacc

theorem loopM_append {α β : Type} (f : β → α → Except PyErr β) (b : β) (l l' : List α) :
    loopM f b (l ++ l') = (loopM f b l >>= fun b => loopM f b l') := by
  induction l generalizing b with
  | nil => rfl
  | cons a l ih =>
    simp only [List.cons_append, loopM]
    cases f b a with
    | error e => rfl
    | ok b' => simp only [ok_bind]; exact ih b'

theorem prodLoop_spec {x : Args σ κ V} (hx : Ok x) {sq : σ × κ} (T : List (σ × κ)) :
    ∀ (st : State σ κ) (new : List (σ × κ)), T.Nodup → PG x st.graph → st.graph.hasNode sq = true →
      (∀ n ∈ T, x.ba.hasNode n.2 = true ∧ Trans x sq.1 n.1) → (∀ n ∈ T, ∀ a, (sq, n, a) ∉ st.graph.edges) →
      ∃ st', loopM (prodStep x sq) (st, new) T =
          .ok (st', new ++ T.filter fun n => !st.graph.hasNode n) ∧
        PG x st'.graph ∧ (∀ m, st'.graph.hasNode m = true ↔ st.graph.hasNode m = true ∨ m ∈ T) ∧
        st'.graph.edges = st.graph.edges ++ T.map (fun n => (sq, n, [])) ∧
        st'.graph.initial = st.graph.initial ∧
        (∀ m, m ∈ st'.accepting ↔ m ∈ st.accepting ∨ m ∈ T ∧ m.2 ∈ x.accepting) := by
  induction T with
  | nil =>
    intro st new _ hg _ _ _
    exact ⟨st, by simp [loopM], hg, by simp, by simp, rfl, by simp⟩
  | cons n T ih =>
    intro st new hnd hg hsq hT hno
    obtain ⟨st1, h1, h2, h3, h4, h5, h6⟩ := prodStep_spec hx (new := new) hg hsq (hT n (by simp)).1
      (hT n (by simp)).2 (hno n (by simp))
    obtain ⟨hn, hnd⟩ := List.nodup_cons.1 hnd
    obtain ⟨st2, k1, k2, k3, k4, k5, k6⟩ := ih st1 (if st.graph.hasNode n then new else new ++ [n]) hnd h2
      ((h3 sq).2 (.inl hsq)) (fun m hm => hT m (by simp [hm])) (by
        intro m hm a ha
        rw [h4, List.mem_append] at ha
        rcases ha with ha | ha
        · exact hno m (by simp [hm]) a ha
        · simp only [List.mem_singleton, Prod.mk.injEq, true_and] at ha
          exact hn (ha.1 ▸ hm))
    refine ⟨st2, ?_, k2, ?_, ?_, k5.trans h5, ?_⟩
    · simp only [loopM, h1, ok_bind, k1]
      have hf : (T.filter fun m => !st1.graph.hasNode m) = T.filter fun m => !st.graph.hasNode m := by
        apply List.filter_congr
        intro m hm
        have : m ≠ n := fun e => hn (e ▸ hm)
        have h := h3 m
        rw [or_iff_left this] at h
        rw [Bool.eq_iff_iff.2 h]
      rw [hf, List.filter_cons]
      cases st.graph.hasNode n <;> simp
    · intro m
      rw [k3, h3, List.mem_cons]; tauto
    · rw [k4, h4]; simp
    · intro m
      rw [k6, h6, List.mem_cons]
      constructor
      · rintro ((h | ⟨rfl, h⟩) | ⟨h, h'⟩)
        · exact .inl h
        · exact .inr ⟨.inl rfl, h⟩
        · exact .inr ⟨.inr h, h'⟩
      · rintro (h | ⟨rfl | h, h'⟩)
        · exact .inl (.inl h)
        · exact .inl (.inr ⟨rfl, h'⟩)
        · exact .inr ⟨h, h'⟩

theorem loopM_map {α β γ : Type} (f : β → γ → Except PyErr β) (g : α → γ) (b : β) (l : List α) :
    loopM f b (l.map g) = loopM (fun b a => f b (g a)) b l := by
  induction l generalizing b with
  | nil => rfl
  | cons a l ih =>
    simp only [List.map_cons, loopM]
    cases f b (g a) with
    | error e => rfl
    | ok b' => simp only [ok_bind]; exact ih b'

theorem loopM_congr {α β : Type} {f g : β → α → Except PyErr β} {l : List α}
    (h : ∀ a ∈ l, ∀ b, f b a = g b a) (b : β) : loopM f b l = loopM g b l := by
  induction l generalizing b with
  | nil => rfl
  | cons a l ih =>
    simp only [loopM, h a (by simp) b]
    cases g b a with
    | error e => rfl
    | ok b' => simp only [ok_bind]; exact ih (fun a ha => h a (by simp [ha])) b'

theorem loopM_flatMap {α β γ : Type} (f : β → γ → Except PyErr β) (g : α → List γ) (b : β) (l : List α) :
    loopM f b (l.flatMap g) = loopM (fun b a => loopM f b (g a)) b l := by
  induction l generalizing b with
  | nil => rfl
  | cons a l ih =>
    rw [List.flatMap_cons, loopM_append]
    simp only [loopM]
    cases loopM f b (g a) with
    | error e => rfl
    | ok b' => simp only [ok_bind]; exact ih b'

theorem post_nodup {g : LGraph σ V} {s : σ} {r : List σ} (h : g.post (some [s]) = .ok r) : r.Nodup := by
  simp only [post, unionM] at h
  cases hs : g.successors s with
  | error e => rw [hs] at h; cases h
  | ok a =>
    rw [hs] at h
    simp only [ok_bind, uniqueLoop, Except.ok.injEq] at h
    subst h
    unfold successors at hs
    split at hs
    · simp only [Except.ok.injEq] at hs
      rw [← hs]
      exact nodup_uniqueLoop [] _ (by simp)
    · cases hs

/-- The successors of a product state. -/
theorem expand_spec {x : Args σ κ V} (hx : Ok x) {sq : σ × κ} (hs : x.fts.hasNode sq.1 = true)
    {st : State σ κ} (hg : PG x st.graph) (hsq : st.graph.hasNode sq = true)
    (hno : ∀ n a, (sq, n, a) ∉ st.graph.edges) :
    ∃ (T : List (σ × κ)) (st' : State σ κ), T.Nodup ∧ (∀ n, n ∈ T ↔ Edge x sq n) ∧
      expand x sq st = .ok (st', T.filter fun n => !st.graph.hasNode n) ∧
      PG x st'.graph ∧ (∀ m, st'.graph.hasNode m = true ↔ st.graph.hasNode m = true ∨ m ∈ T) ∧
      st'.graph.edges = st.graph.edges ++ T.map (fun n => (sq, n, [])) ∧
      st'.graph.initial = st.graph.initial ∧
      (∀ m, m ∈ st'.accepting ↔ m ∈ st.accepting ∨ m ∈ T ∧ m.2 ∈ x.accepting) := by
  obtain ⟨nexts, hn1, hn2⟩ := (post_spec x.fts [sq.1]).1 (by simpa using hs)
  have hn3 := post_nodup hn1
  have hnt : ∀ t ∈ nexts, x.fts.hasNode t = true := by
    intro t ht
    obtain ⟨u, _, a, ha⟩ := (hn2 t).1 ht
    exact hx.fts.target _ _ _ ha
  have hex : ∀ t, ∃ es, t ∈ nexts → findBaSucc x sq.2 t = .ok es ∧ (∀ e ∈ es, e.1 = sq.2) ∧
      (es.map (·.2.1)).Nodup ∧ ∀ q', q' ∈ es.map (·.2.1) ↔ Reads x sq.2 t q' := by
    intro t
    by_cases ht : t ∈ nexts
    · obtain ⟨es, h⟩ := findBaSucc_spec hx sq.2 (hnt t ht)
      exact ⟨es, fun _ => h⟩
    · exact ⟨[], fun h => absurd h ht⟩
  obtain ⟨es, hes⟩ := Classical.axiomOfChoice hex
  let T := nexts.flatMap fun t => (es t).map fun e => (t, e.2.1)
  have hmem : ∀ n, n ∈ T ↔ Edge x sq n := by
    intro n
    simp only [T, List.mem_flatMap, Edge]
    constructor
    · rintro ⟨t, ht, h⟩
      obtain ⟨e, he, rfl⟩ := List.mem_map.1 h
      refine ⟨?_, ((hes t ht).2.2.2 _).1 (List.mem_map.2 ⟨e, he, rfl⟩)⟩
      obtain ⟨u, hu, a, ha⟩ := (hn2 t).1 ht
      rw [List.mem_singleton] at hu; subst hu
      exact ⟨a, ha⟩
    · rintro ⟨⟨a, ha⟩, h⟩
      have ht : n.1 ∈ nexts := (hn2 n.1).2 ⟨sq.1, by simp, a, ha⟩
      obtain ⟨e, he, hee⟩ := List.mem_map.1 (((hes _ ht).2.2.2 n.2).2 h)
      exact ⟨n.1, ht, List.mem_map.2 ⟨e, he, by rw [hee]⟩⟩
  have hnd : T.Nodup := by
    rw [List.nodup_flatMap]
    constructor
    · intro t ht
      have := (hes t ht).2.2.1
      rw [← List.nodup_map_iff (f := fun q => (t, q)) (by intro a b h; simpa using h), List.map_map] at this
      exact this
    · refine hn3.imp fun {t t'} hne n h1 h2 => ?_
      obtain ⟨e, _, rfl⟩ := List.mem_map.1 h1
      obtain ⟨e', _, h⟩ := List.mem_map.1 h2
      simp only [Prod.mk.injEq] at h
      exact hne h.1.symm
  have hba : ∀ n ∈ T, x.ba.hasNode n.2 = true ∧ Trans x sq.1 n.1 := by
    intro n hn
    obtain ⟨h1, v, h2, _⟩ := (hmem n).1 hn
    exact ⟨hx.ba.target _ _ _ h2, h1⟩
  obtain ⟨st', k1, k2, k3, k4, k5, k6⟩ := prodLoop_spec hx T st [] hnd hg hsq hba fun n _ a => hno n a
  refine ⟨T, st', hnd, hmem, ?_, k2, k3, k4, k5, k6⟩
  rw [← List.nil_append (T.filter _), ← k1]
  simp only [expand, hn1, ok_bind]
  rw [loopM_flatMap]
  apply loopM_congr
  intro t ht b
  obtain ⟨e1, e2, _, _⟩ := hes t ht
  simp only [e1, ok_bind]
  rw [loopM_map]
  split
  · rename_i hemp
    rw [List.isEmpty_iff.1 hemp]; rfl
  · simp only [findProdSucc]
    apply loopM_congr
    intro e he b
    rw [if_pos (e2 e he)]

/-! ## The initial states -/

theorem addInit_spec {x : Args σ κ V} {st : State σ κ} (hg : PG x st.graph) {n : σ × κ}
    (hq : x.ba.hasNode n.2 = true) :
    ∃ st', addInit x st n = .ok st' ∧ PG x st'.graph ∧
      (∀ m, st'.graph.hasNode m = true ↔ st.graph.hasNode m = true ∨ m = n) ∧
      st'.graph.edges = st.graph.edges ∧
      st'.graph.initial = uniqueLoop st.graph.initial [n] ∧
      (∀ m, m ∈ st'.accepting ↔ m ∈ st.accepting ∨ m = n ∧ m.2 ∈ x.accepting) := by
  obtain ⟨h1, h2, h3⟩ := node_spec hg hq (((st.graph.nodes.get? n).getD []).update [("ap", [])])
    (uniqueLoop st.graph.initial [n])
  refine ⟨⟨_, if n.2 ∈ x.accepting then insertNew st.accepting n else st.accepting⟩, by
    simp only [addInit, addNode_default hg, ok_bind, addInitial]
    rw [if_pos (by simp [LGraph.hasNode, has_eq, Dict.get?_set])]
    simp only [ok_bind, h1], h2, h3, rfl, rfl, ?_⟩
  intro m
  simp only
  split
  · rename_i hacc
    rw [mem_insertNew]
    constructor
    · rintro (h | rfl)
      · exact .inl h
      · exact .inr ⟨rfl, hacc⟩
    · rintro (h | ⟨rfl, _⟩)
      · exact .inl h
      · exact .inr rfl
  · rename_i hacc
    constructor
    · exact .inl
    · rintro (h | ⟨rfl, h⟩)
      · exact h
      · exact absurd h hacc

theorem addInits_spec {x : Args σ κ V} (T : List (σ × κ)) :
    ∀ (st : State σ κ), PG x st.graph → (∀ n ∈ T, x.ba.hasNode n.2 = true) → st.graph.initial.Nodup →
    ∃ st', loopM (addInit x) st T = .ok st' ∧ PG x st'.graph ∧
      (∀ m, st'.graph.hasNode m = true ↔ st.graph.hasNode m = true ∨ m ∈ T) ∧
      st'.graph.edges = st.graph.edges ∧ st'.graph.initial.Nodup ∧
      (∀ m, m ∈ st'.graph.initial ↔ m ∈ st.graph.initial ∨ m ∈ T) ∧
      (∀ m, m ∈ st'.accepting ↔ m ∈ st.accepting ∨ m ∈ T ∧ m.2 ∈ x.accepting) := by
  induction T with
  | nil => intro st hg _ hn; exact ⟨st, rfl, hg, by simp, rfl, hn, by simp, by simp⟩
  | cons n T ih =>
    intro st hg hT hi
    obtain ⟨st1, h1, h2, h3, h4, h5, h6⟩ := addInit_spec hg (hT n (by simp))
    obtain ⟨st2, k1, k2, k3, k4, k5, k6, k7⟩ := ih st1 h2 (fun m hm => hT m (by simp [hm]))
      (by rw [h5]; exact nodup_uniqueLoop _ _ hi)
    refine ⟨st2, by simp only [loopM, h1, ok_bind, k1], k2, ?_, k4.trans h4, k5, ?_, ?_⟩
    · intro m; rw [k3, h3, List.mem_cons]; tauto
    · intro m; rw [k6, h5, mem_uniqueLoop]; simp only [List.mem_cons, List.not_mem_nil, or_false]; tauto
    · intro m
      rw [k7, h6, List.mem_cons]
      constructor
      · rintro ((h | ⟨rfl, h⟩) | ⟨h, h'⟩)
        · exact .inl h
        · exact .inr ⟨.inl rfl, h⟩
        · exact .inr ⟨.inr h, h'⟩
      · rintro (h | ⟨rfl | h, h'⟩)
        · exact .inl (.inl h)
        · exact .inl (.inr ⟨rfl, h'⟩)
        · exact .inr ⟨h, h'⟩

theorem initLoop_spec {x : Args σ κ V} (hx : Ok x) :
    ∃ st, initLoop x (empty x) = .ok st ∧ PG x st.graph ∧ (∀ m, st.graph.hasNode m = true ↔ Init x m) ∧
      st.graph.edges = [] ∧ st.graph.initial.Nodup ∧ (∀ m, m ∈ st.graph.initial ↔ Init x m) ∧
      (∀ m, m ∈ st.accepting ↔ Init x m ∧ m.2 ∈ x.accepting) := by
  have hex : ∀ p : σ × κ, ∃ es, x.fts.hasNode p.1 = true → findBaSucc x p.2 p.1 = .ok es ∧
      ∀ q', q' ∈ es.map (·.2.1) ↔ Reads x p.2 p.1 q' := by
    intro p
    by_cases h : x.fts.hasNode p.1 = true
    · obtain ⟨es, h1, _, _, h2⟩ := findBaSucc_spec hx p.2 h
      exact ⟨es, fun _ => ⟨h1, h2⟩⟩
    · exact ⟨[], fun h' => absurd h' h⟩
  obtain ⟨es, hes⟩ := Classical.axiomOfChoice hex
  let T := x.fts.initial.flatMap fun s0 => x.ba.initial.flatMap fun q0 => (es (s0, q0)).map fun e => (s0, e.2.1)
  have hmem : ∀ n, n ∈ T ↔ Init x n := by
    intro n
    simp only [T, List.mem_flatMap, Init]
    constructor
    · rintro ⟨s0, hs, q0, hq, h⟩
      obtain ⟨e, he, rfl⟩ := List.mem_map.1 h
      exact ⟨hs, q0, hq, ((hes (s0, q0) (hx.fts.initial _ hs)).2 _).1 (List.mem_map.2 ⟨e, he, rfl⟩)⟩
    · rintro ⟨hs, q0, hq, h⟩
      obtain ⟨e, he, hee⟩ := List.mem_map.1 (((hes (n.1, q0) (hx.fts.initial _ hs)).2 n.2).2 h)
      exact ⟨n.1, hs, q0, hq, List.mem_map.2 ⟨e, he, by rw [hee]⟩⟩
  obtain ⟨st, k1, k2, k3, k4, k5, k6, k7⟩ := addInits_spec (x := x) T (empty x)
    ⟨rfl, rfl, rfl, rfl, by intro n a h; simp [empty] at h⟩
    (by
      intro n hn
      obtain ⟨_, _, _, v, h, _⟩ := (hmem n).1 hn
      exact hx.ba.target _ _ _ h) (by simp [empty])
  refine ⟨st, ?_, k2, ?_, k4, k5, ?_, ?_⟩
  · rw [← k1]
    simp only [initLoop, T]
    rw [loopM_flatMap]
    apply loopM_congr
    intro s0 hs b
    rw [loopM_flatMap]
    apply loopM_congr
    intro q0 _ b
    rw [(hes (s0, q0) (hx.fts.initial _ hs)).1, loopM_map]
    rfl
  · intro m; rw [k3, hmem]; simp [empty, LGraph.hasNode, Dict.has]
  · intro m; rw [k6, hmem]; simp [empty]
  · intro m; rw [k7, hmem]; simp [empty]

/-! ## The exploration -/

theorem reach_mem {x : Args σ κ V} (hx : Ok x) {n : σ × κ} (h : Reach x n) :
    x.fts.hasNode n.1 = true ∧ x.ba.hasNode n.2 = true := by
  cases h with
  | init h =>
    obtain ⟨h1, _, _, v, h2, _⟩ := h
    exact ⟨hx.fts.initial _ h1, hx.ba.target _ _ _ h2⟩
  | step _ h =>
    obtain ⟨⟨a, h1⟩, v, h2, _⟩ := h
    exact ⟨hx.fts.target _ _ _ h1, hx.ba.target _ _ _ h2⟩

/-- The invariant of the loop. -/
structure Inv (x : Args σ κ V) (st : State σ κ) (queue visited : List (σ × κ)) : Prop where
  pg : PG x st.graph
  nodes : ∀ n, st.graph.hasNode n = true ↔ n ∈ queue ∨ n ∈ visited
  disjoint : ∀ n ∈ queue, n ∉ visited
  queueNodup : queue.Nodup
  visitedNodup : visited.Nodup
  reach : ∀ n, st.graph.hasNode n = true → Reach x n
  edges : ∀ m n a, (m, n, a) ∈ st.graph.edges ↔ a = [] ∧ m ∈ visited ∧ Edge x m n
  closed : ∀ m ∈ visited, ∀ n, Edge x m n → st.graph.hasNode n = true
  accepting : ∀ n, n ∈ st.accepting ↔ st.graph.hasNode n = true ∧ n.2 ∈ x.accepting

theorem visited_le {x : Args σ κ V} (hx : Ok x) {st : State σ κ} {queue visited : List (σ × κ)}
    (h : Inv x st queue visited) : visited.length ≤ x.fts.nodes.length * x.ba.nodes.length := by
  have hsub : visited ⊆ x.fts.nodes.keys ×ˢ x.ba.nodes.keys := by
    intro n hn
    have := reach_mem hx (h.reach n ((h.nodes n).2 (.inr hn)))
    rw [show n = (n.1, n.2) from rfl, List.mem_product]
    exact ⟨(mem_keys_iff_has _ _).2 this.1, (mem_keys_iff_has _ _).2 this.2⟩
  have := (List.subperm_of_subset h.visitedNodup hsub).length_le
  simpa [List.length_product, Dict.keys] using this

theorem explore_spec {x : Args σ κ V} (hx : Ok x) {pick : List (σ × κ) → σ × κ}
    (hpick : ∀ Q, Q ≠ [] → pick Q ∈ Q) (fuel : Nat) :
    ∀ (st : State σ κ) (queue visited : List (σ × κ)), Inv x st queue visited →
      x.fts.nodes.length * x.ba.nodes.length + 1 ≤ fuel + visited.length →
      ∃ st' visited', explore x pick fuel st queue visited = .ok st' ∧ Inv x st' [] visited' ∧
        st'.graph.initial = st.graph.initial ∧
        (∀ n, st.graph.hasNode n = true → st'.graph.hasNode n = true) := by
  induction fuel with
  | zero =>
    intro st queue visited h hf
    have := visited_le hx h
    omega
  | succ fuel ih =>
    intro st queue visited h hf
    unfold explore
    by_cases hQ : queue = []
    · subst hQ
      exact ⟨st, visited, by simp, h, rfl, fun _ h => h⟩
    · have hemp : queue.isEmpty = false := by cases queue with
        | nil => exact absurd rfl hQ
        | cons => rfl
      have hp := hpick queue hQ
      have hpn : st.graph.hasNode (pick queue) = true := (h.nodes _).2 (.inl hp)
      have hpv : pick queue ∉ visited := h.disjoint _ hp
      have hre := h.reach _ hpn
      obtain ⟨T, st1, t1, t2, t3, t4, t5, t6, t7, t8⟩ := expand_spec hx (reach_mem hx hre).1 h.pg hpn
        (by intro n a ha; exact hpv ((h.edges _ _ _).1 ha).2.1)
      have hvis : insertNew visited (pick queue) = visited ++ [pick queue] := by
        rw [insertNew, if_neg hpv]
      have hnew : ((T.filter fun n => !st.graph.hasNode n).filter fun n =>
          !decide (n ∈ visited ++ [pick queue])) = T.filter fun n => !st.graph.hasNode n := by
        apply List.filter_eq_self.2
        intro n hn
        have hn' : st.graph.hasNode n = false := by simpa using (List.mem_filter.1 hn).2
        rw [Bool.not_eq_true', decide_eq_false_iff_not, List.mem_append, List.mem_singleton]
        rintro (h' | rfl)
        · rw [(h.nodes n).2 (.inr h')] at hn'; cases hn'
        · rw [hpn] at hn'; cases hn'
      have hmemT : ∀ n, n ∈ (T.filter fun n => !st.graph.hasNode n) ↔ n ∈ T ∧ st.graph.hasNode n = false := by
        intro n; simp
      have hmemQ : ∀ n, n ∈ uniqueLoop (queue.filter fun n => !decide (n = pick queue))
          (T.filter fun n => !st.graph.hasNode n) ↔
          (n ∈ queue ∧ n ≠ pick queue) ∨ (n ∈ T ∧ st.graph.hasNode n = false) := by
        intro n
        rw [mem_uniqueLoop, hmemT]
        simp
      have hinv : Inv x st1 (uniqueLoop (queue.filter fun n => !decide (n = pick queue))
          (T.filter fun n => !st.graph.hasNode n)) (visited ++ [pick queue]) := by
        refine ⟨t4, ?_, ?_, ?_, ?_, ?_, ?_, ?_, ?_⟩
        · intro n
          rw [t5, hmemQ, List.mem_append, List.mem_singleton, h.nodes]
          by_cases hnp : n = pick queue
          · subst hnp; simp [hp]
          · cases hn : st.graph.hasNode n with
            | true =>
              have := (h.nodes n).1 hn
              simp only [hnp, not_false_eq_true, and_true, or_false, Bool.true_eq_false, and_false, ne_eq]
              constructor
              · rintro (h' | _)
                · exact h'
                · exact this
              · exact .inl
            | false =>
              have h1 : ¬ (n ∈ queue ∨ n ∈ visited) := by
                intro h'; rw [(h.nodes n).2 h'] at hn; cases hn
              have h2 : n ∉ queue := fun h' => h1 (.inl h')
              have h3 : n ∉ visited := fun h' => h1 (.inr h')
              simp [h2, h3, hnp]
        · intro n hn
          rw [hmemQ] at hn
          rw [List.mem_append, List.mem_singleton]
          rcases hn with ⟨h1, h2⟩ | ⟨h1, h2⟩
          · rintro (h' | h')
            · exact h.disjoint n h1 h'
            · exact h2 h'
          · rintro (h' | rfl)
            · rw [(h.nodes n).2 (.inr h')] at h2; cases h2
            · rw [hpn] at h2; cases h2
        · exact nodup_uniqueLoop _ _ (h.queueNodup.filter _)
        · rw [List.nodup_append]
          refine ⟨h.visitedNodup, by simp, ?_⟩
          intro a ha b hb
          rw [List.mem_singleton] at hb; subst hb
          rintro rfl; exact hpv ha
        · intro n hn
          rw [t5] at hn
          rcases hn with hn | hn
          · exact h.reach n hn
          · exact .step hre ((t2 n).1 hn)
        · intro m n a
          rw [t6, List.mem_append, h.edges, List.mem_map, List.mem_append, List.mem_singleton]
          constructor
          · rintro (⟨h1, h2, h3⟩ | ⟨n', hn', he⟩)
            · exact ⟨h1, .inl h2, h3⟩
            · simp only [Prod.mk.injEq] at he
              obtain ⟨rfl, rfl, rfl⟩ := he
              exact ⟨rfl, .inr rfl, (t2 _).1 hn'⟩
          · rintro ⟨h1, h2 | h2, h3⟩
            · exact .inl ⟨h1, h2, h3⟩
            · subst h1 h2
              exact .inr ⟨n, (t2 n).2 h3, rfl⟩
        · intro m hm n hmn
          rw [List.mem_append, List.mem_singleton] at hm
          rw [t5]
          rcases hm with hm | rfl
          · exact .inl (h.closed m hm n hmn)
          · exact .inr ((t2 n).2 hmn)
        · intro n
          rw [t8, h.accepting, t5]; tauto
      obtain ⟨st', visited', k1, k2, k3, k4⟩ := ih st1 _ _ hinv (by simp; omega)
      refine ⟨st', visited', ?_, k2, k3.trans t7, fun n hn => k4 n ((t5 n).2 (.inl hn))⟩
      simp only [hemp, Bool.false_eq_true, if_false, t3, ok_bind, hvis, hnew]
      exact k1

/-- **C22.** `ts_ba_sync_prod` succeeds, whatever the order in which states are taken from the queue.
The states of the product are exactly the reachable ones; its edges are those of the product's transition
relation between them; its initial states are those where the automaton has read the label of an
initial state of the transition system; the returned set is that of the reachable states with an accepting
state of the automaton; and each state `(s, q)` is labeled `{q}`. -/
theorem tsBaSyncProd_spec {x : Args σ κ V} (hx : Ok x) {pick : List (σ × κ) → σ × κ}
    (hpick : ∀ Q, Q ≠ [] → pick Q ∈ Q) :
    ∃ st, tsBaSyncProd x pick = .ok st ∧ (∀ n, st.graph.hasNode n = true ↔ Reach x n) ∧
      (∀ m n a, (m, n, a) ∈ st.graph.edges ↔ a = [] ∧ Reach x m ∧ Edge x m n) ∧
      (∀ n, n ∈ st.graph.initial ↔ Init x n) ∧
      (∀ n, n ∈ st.accepting ↔ Reach x n ∧ n.2 ∈ x.accepting) ∧
      (∀ n a, st.graph.nodes.get? n = some a → a.get? "ap" = some [n.2]) := by
  obtain ⟨st, h1, h2, h3, h4, h5, h6, h7⟩ := initLoop_spec hx
  have hinv : Inv x st st.graph.initial [] := by
    refine ⟨h2, ?_, by simp, h5, by simp, ?_, ?_, by simp, ?_⟩
    · intro n; rw [h3, h6]; simp
    · intro n hn; exact .init ((h3 n).1 hn)
    · intro m n a; rw [h4]; simp
    · intro n; rw [h7, h3]
  obtain ⟨st', visited, k1, k2, k3, k4⟩ := explore_spec hx hpick
    (x.fts.nodes.length * x.ba.nodes.length + 1) st st.graph.initial [] hinv (by simp)
  have hnode : ∀ n, st'.graph.hasNode n = true ↔ Reach x n := by
    intro n
    constructor
    · exact k2.reach n
    · intro h
      induction h with
      | init h => exact k4 _ ((h3 _).2 h)
      | step _ he ih =>
        have := (k2.nodes _).1 ih
        exact k2.closed _ (by simpa using this) _ he
  have hvis : ∀ n, n ∈ visited ↔ Reach x n := by
    intro n; rw [← hnode, k2.nodes]; simp
  refine ⟨st', by simp only [tsBaSyncProd, h1, ok_bind, k1], hnode, ?_, ?_, ?_, k2.pg.labels⟩
  · intro m n a; rw [k2.edges, hvis]
  · intro n; rw [k3, h6]
  · intro n; rw [k2.accepting, hnode]

/-! ## Languages -/

/-- An infinite path of the transition system from an initial state. -/
def Path (x : Args σ κ V) (p : Nat → σ) : Prop := p 0 ∈ x.fts.initial ∧ ∀ i, Trans x (p i) (p (i + 1))

/-- The automaton accepts the labels along a path: it has a run that reads them and visits
accepting states infinitely often. -/
def Accepts (x : Args σ κ V) (p : Nat → σ) : Prop :=
  ∃ r : Nat → κ, r 0 ∈ x.ba.initial ∧ (∀ i, Reads x (r i) (p i) (r (i + 1))) ∧
    ∀ i, ∃ j, i ≤ j ∧ r j ∈ x.accepting

/-- **C22.** A path of the transition system is accepted by the automaton if and only if the product
has an infinite path that projects on it and visits the returned set infinitely often. -/
theorem tsBaSyncProd_language {x : Args σ κ V} (hx : Ok x) {pick : List (σ × κ) → σ × κ}
    (hpick : ∀ Q, Q ≠ [] → pick Q ∈ Q) {st : State σ κ} (h : tsBaSyncProd x pick = .ok st)
    (p : Nat → σ) :
    Path x p ∧ Accepts x p ↔
      ∃ w : Nat → σ × κ, (∀ i, (w i).1 = p i) ∧ w 0 ∈ st.graph.initial ∧
        (∀ i, (w i, w (i + 1), []) ∈ st.graph.edges) ∧ ∀ i, ∃ j, i ≤ j ∧ w j ∈ st.accepting := by
  obtain ⟨st', h1, h2, h3, h4, h5, _⟩ := tsBaSyncProd_spec hx hpick
  rw [h] at h1; cases h1
  constructor
  · rintro ⟨⟨hp0, hp⟩, r, hr0, hr, hacc⟩
    have hinit : Init x (p 0, r 1) := ⟨hp0, r 0, hr0, hr 0⟩
    have hedge : ∀ i, Edge x (p i, r (i + 1)) (p (i + 1), r (i + 1 + 1)) := fun i => ⟨hp i, hr (i + 1)⟩
    have hreach : ∀ i, Reach x (p i, r (i + 1)) := by
      intro i
      induction i with
      | zero => exact .init hinit
      | succ i ih => exact .step ih (hedge i)
    refine ⟨fun i => (p i, r (i + 1)), fun i => rfl, (h4 _).2 hinit,
      fun i => (h3 _ _ _).2 ⟨rfl, hreach i, hedge i⟩, fun i => ?_⟩
    obtain ⟨j, hj, ha⟩ := hacc (i + 1)
    obtain ⟨k, rfl⟩ : ∃ k, j = k + 1 := ⟨j - 1, by omega⟩
    exact ⟨k, by omega, (h5 _).2 ⟨hreach k, ha⟩⟩
  · rintro ⟨w, hw, hw0, hwe, hacc⟩
    have hinit := (h4 _).1 hw0
    have hedge : ∀ i, Edge x (w i) (w (i + 1)) := fun i => ((h3 _ _ _).1 (hwe i)).2.2
    obtain ⟨hs, q0, hq0, hrd⟩ := hinit
    refine ⟨⟨by rw [← hw]; exact hs, fun i => by rw [← hw i, ← hw (i + 1)]; exact (hedge i).1⟩,
      fun i => match i with | 0 => q0 | i + 1 => (w i).2, hq0, ?_, ?_⟩
    · intro i
      cases i with
      | zero => rw [← hw]; exact hrd
      | succ i => rw [← hw]; exact (hedge i).2
    · intro i
      obtain ⟨j, hj, ha⟩ := hacc i
      exact ⟨j + 1, by omega, ((h5 _).1 ha).2⟩

/-! ## Examples -/

/-- A transition system that alternates between two states, labeled `1` and `2`. -/
def exampleTs : LGraph Nat Nat :=
  run [("ap", { contains := fun _ => true })] [("ap", 0)] [] []
    [.addNode 0 [("ap", 1)] true, .addNode 1 [("ap", 2)] true, .addEdge 0 1 [] true, .addEdge 1 0 [] true,
      .addInitial 0]

/-- An automaton that sees `2` infinitely often; from state `1` it reads anything (`9` is `{True}`). -/
def exampleBa : LGraph Nat Nat :=
  run [] [] [("letter", { contains := fun _ => true })] []
    [.addNode 0 [] true, .addNode 1 [] true, .addEdge 0 0 [("letter", 1)] true,
      .addEdge 0 1 [("letter", 2)] true, .addEdge 1 0 [("letter", 9)] true, .addInitial 0]

def exampleArgs : Args Nat Nat Nat := ⟨exampleTs, exampleBa, [1], 9⟩

theorem exampleArgs_ok : Ok exampleArgs := by
  have h1 : exampleTs.Ok ∧ exampleTs.KeysTyped := by
    apply run_keysTyped
    · intro op hop; fin_cases hop <;> simp [GOp.Wf, Dict.Wf, Dict.keys]
    · intro op hop; fin_cases hop <;> simp [GOp.Checked]
  have h2 : exampleBa.Ok ∧ exampleBa.KeysTyped := by
    apply run_keysTyped
    · intro op hop; fin_cases hop <;> simp [GOp.Wf, Dict.Wf, Dict.keys]
    · intro op hop; fin_cases hop <;> simp [GOp.Checked]
  have he : exampleBa.edges = [(0, 0, [("letter", 1)]), (0, 1, [("letter", 2)]), (1, 0, [("letter", 9)])] := by
    decide +kernel
  have hn : exampleTs.nodes = [(0, [("ap", 1)]), (1, [("ap", 2)])] := by decide +kernel
  refine ⟨h1.1, h1.2, by decide +kernel, ?_, h2.1, h2.2, by decide +kernel, ?_, ?_, ?_⟩
  · intro s hs
    rw [LGraph.hasNode, show exampleArgs.fts.nodes = _ from hn] at hs
    obtain ⟨a, ha⟩ := (Dict.has_iff _ _).1 hs
    simp only [Dict.get?_cons] at ha
    unfold Label
    rw [show exampleArgs.fts.nodes = _ from hn]
    simp only [Dict.get?_cons]
    split at ha
    · rename_i h; subst h; exact ⟨1, [("ap", 1)], by simp, rfl⟩
    · split at ha
      · rename_i h h'; subst h'; exact ⟨2, [("ap", 2)], by simp, rfl⟩
      · simp at ha
  · intro e h
    rw [show exampleArgs.ba.edges = _ from he] at h
    fin_cases h <;> exact ⟨_, rfl⟩
  · intro t ht
    have : exampleBa.edgeTypes.get? "letter" = some { contains := fun _ => true } := rfl
    rw [show exampleArgs.ba = exampleBa from rfl, this] at ht
    cases ht; rfl
  · intro q q' s v hl h h'
    rw [show exampleArgs.ba.edges = _ from he] at h h'
    obtain ⟨a, ha, hv⟩ := hl
    rw [show exampleArgs.fts.nodes = _ from hn] at ha
    simp only [Dict.get?_cons] at ha
    have hv' : v = 1 ∨ v = 2 := by
      split at ha
      · cases ha; simp only [Dict.get?_cons, if_true, Option.some.injEq] at hv; omega
      · split at ha
        · cases ha; simp only [Dict.get?_cons, if_true, Option.some.injEq] at hv; omega
        · simp at ha
    simp only [exampleArgs, List.mem_cons, Prod.mk.injEq, List.cons.injEq, and_true, true_and,
      List.not_mem_nil, or_false] at h h'
    omega

/-- The hypotheses of `tsBaSyncProd_spec` are met by a product with a state that is accepting and one
that is not. -/
example : ((tsBaSyncProd exampleArgs (fun Q => Q.headD (0, 0))).toOption.map fun st =>
      (st.graph.nodes.keys, st.graph.edges.map fun e => (e.1, e.2.1), st.accepting)) =
    some ([(0, 0), (1, 1)], [((0, 0), (1, 1)), ((1, 1), (0, 0))], [(1, 1)]) := by decide +kernel

/-- An edge of the transition system with an action makes the product fail: the label is looked up under
the key `actions`, which no transition system has. -/
theorem tsBaSyncProd_actions_counterexample :
    ∃ x : Args Nat Nat Nat, x.ba = exampleBa ∧ x.fts.edges = [(0, 1, [("sys_actions", 7)])] ∧
      tsBaSyncProd x (fun Q => Q.headD (0, 0)) = .error .keyError :=
  ⟨⟨run [("ap", { contains := fun _ => true })] [("ap", 0)] [("sys_actions", { contains := fun _ => true })] []
    [.addNode 0 [("ap", 1)] true, .addNode 1 [("ap", 2)] true, .addEdge 0 1 [("sys_actions", 7)] true,
      .addInitial 0], exampleBa, [1], 9⟩, rfl, by decide +kernel, by rfl⟩

/-- Two states of the automaton joined both by the label of a state and by `{True}`: the same edge of
the product is added twice, which raises. -/
theorem tsBaSyncProd_twice_counterexample :
    ∃ x : Args Nat Nat Nat, x.fts = exampleTs ∧
      x.ba.edges = [(0, 0, [("letter", 1)]), (0, 1, [("letter", 2)]), (0, 1, [("letter", 9)])] ∧
      tsBaSyncProd x (fun Q => Q.headD (0, 0)) = .error .exception :=
  ⟨⟨exampleTs, run [] [] [("letter", { contains := fun _ => true })] []
    [.addNode 0 [] true, .addNode 1 [] true, .addEdge 0 0 [("letter", 1)] true,
      .addEdge 0 1 [("letter", 2)] true, .addEdge 0 1 [("letter", 9)] true, .addInitial 0], [1], 9⟩,
    rfl, by decide +kernel, by rfl⟩

end Prod'
end Tulip
