import Verif.Transys.Construct
import Verif.Transys.GraphProps
import Std.Data.String.ToInt

/-!
# Transition systems given as tuples, lines and cycles: theorems (C88)
-/

namespace Tulip

namespace Constr

open LGraph

set_option linter.unusedSimpArgs false

/-! ## Specification -/

/-- The name of a state: the prefix and the state. -/
def nameOf (p : String) (s : Atom) : Atom := .str (p ++ s.text)

/-- What the argument `L` says: the pairs of states and labels, in order. -/
inductive Labels (S : List Atom) : Option Labeling → List (Atom × Label) → Prop
  | no : Labels S none []
  | pairs (lab : List (Atom × Label)) : lab ≠ [] → Labels S (some (.pairs lab)) lab
  | each (l : List Label) : l ≠ [] → (∀ a b, l.head? ≠ some (.set [a, b])) →
      Labels S (some (.labels l)) (S.zip l)

/-- The label of a state after labels were given one after the other: the last one counts, `None` is the
empty set, and so is no label. -/
def lastLabel (p : String) (lab : List (Atom × Label)) (s : Atom) : Label :=
  match ((lab.filter fun x => nameOf p x.1 = s).getLast?).map (·.2) with
  | none => .set []
  | some l => if l = Label.none then .set [] else l

/-- The transition system that the arguments describe. -/
structure Describes (t : Ts) (p : String) (S S0 AP : List Atom) (lab : List (Atom × Label))
    (trans : List (Atom × Atom)) : Prop where
  states : ∀ s, t.graph.hasNode s = true ↔ ∃ x ∈ S, s = nameOf p x
  initial : ∀ s, s ∈ t.graph.initial ↔ ∃ x ∈ S0, s = nameOf p x
  aps : ∀ q, q ∈ t.aps ↔ q ∈ AP
  label : ∀ x ∈ S, ∃ a, t.graph.nodes.get? (nameOf p x) = some a ∧
    a.get? "ap" = some (lastLabel p lab (nameOf p x))
  transitions : t.graph.edges = trans.map fun e => (nameOf p e.1, nameOf p e.2, [])

/-- The arguments are consistent. -/
structure Consistent (p : String) (S S0 : List Atom) (lab : List (Atom × Label))
    (trans : List (Atom × Atom)) : Prop where
  initial : ∀ x ∈ S0, nameOf p x ∈ S.map (nameOf p)
  labeled : ∀ x ∈ lab, nameOf p x.1 ∈ S.map (nameOf p)
  ends : ∀ e ∈ trans, nameOf p e.1 ∈ S.map (nameOf p) ∧ nameOf p e.2 ∈ S.map (nameOf p)
  once : (trans.map fun e => (nameOf p e.1, nameOf p e.2)).Nodup

/-! ## Lemmas -/

theorem pairLabels_of {ord : String → String → Bool} {S : List Atom} {L : Labeling} {lab : List (Atom × Label)}
    (h : Labels S (some L) lab) : pairLabels ord S L = .ok (lab.map .ok) := by
  cases h with
  | pairs _ h =>
    cases lab with
    | nil => exact absurd rfl h
    | cons x l => rfl
  | each l h h2 =>
    cases l with
    | nil => exact absurd rfl h
    | cons x l =>
      cases x with
      | none => rfl
      | str s => rfl
      | set s =>
        have hu : unpack ord (.set s) = .error .valueError := by
          match s, h2 with
          | [], _ => rfl
          | [a], _ => rfl
          | [a, b], h2 => exact absurd rfl (h2 a b)
          | _ :: _ :: _ :: _, _ => rfl
        unfold pairLabels
        simp only [hu]

theorem typedNode {aps : List Atom} : typedAttr (nodeTypes aps) [("ap", .set [])] ([] : Attr Label) =
    .ok [("ap", .set [])] := rfl

/-- A state with a label can be added exactly if the label is a set of atomic propositions; a string or `None` is
refused. -/
theorem addNode_label (g : LGraph Atom Label) (aps : List Atom) (ht : g.nodeTypes = nodeTypes aps)
    (hd : g.nodeDefaults = [("ap", .set [])]) (n : Atom) (l : Label) :
    ((∃ s, l = .set s ∧ ∀ p ∈ s, Atom.str p ∈ aps) → ∃ g', g.addNode n [("ap", l)] = .ok g' ∧
      ∃ a, g'.nodes.get? n = some a ∧ a.get? "ap" = some l) ∧
    ((¬ ∃ s, l = .set s ∧ ∀ p ∈ s, Atom.str p ∈ aps) → g.addNode n [("ap", l)] = .error .valueError) := by
  have hc : apContains aps l = true ↔ ∃ s, l = .set s ∧ ∀ p ∈ s, Atom.str p ∈ aps := by
    cases l with
    | none => simp [apContains]
    | str s => simp [apContains]
    | set s => simp [apContains]
  have ht' : typedAttr (nodeTypes aps) [("ap", .set [])] [("ap", l)] =
      if apContains aps l = true then .ok [("ap", l)] else .error .valueError := by
    have hs : ∀ d : TDict String Label, d.allowed = allowedOf (nodeTypes aps) → d.setItem "ap" l =
        if apContains aps l = true then .ok { d with items := d.items.set "ap" l } else .error .valueError := by
      intro d hd
      unfold TDict.setItem
      rw [hd]
      rfl
    have h0 : (TDict.mk [] (allowedOf (nodeTypes aps))).update [("ap", Label.set [])] =
        (⟨[("ap", .set [])], allowedOf (nodeTypes aps)⟩, none) := rfl
    unfold typedAttr
    rw [h0]
    dsimp only
    rw [TDict.update, hs _ rfl]
    cases apContains aps l <;> rfl
  rw [← hc]
  unfold addNode
  rw [ht, hd, ht']
  refine ⟨fun h => ?_, fun h => by rw [if_neg h]; rfl⟩
  rw [if_pos h]
  refine ⟨_, rfl, _, by rw [Dict.get?_set, if_pos rfl], ?_⟩
  show (Dict.set _ "ap" l).get? "ap" = some l
  rw [Dict.get?_set, if_pos rfl]

example : (∃ s, Label.set ["p"] = .set s ∧ ∀ p ∈ s, Atom.str p ∈ [Atom.str "p"]) ∧
    ¬ ∃ s, Label.str "p" = .set s ∧ ∀ p ∈ s, Atom.str p ∈ [Atom.str "p"] := by simp

/-- The nodes of the new system. -/
theorem addNodes (l : List Atom) : ∀ g : LGraph Atom Label, g.nodeTypes = nodeTypes [] →
    g.nodeDefaults = [("ap", .set [])] →
    (∀ s a, g.nodes.get? s = some a → a.get? "ap" = some (.set [])) →
    ∃ g', g.addNodesFrom (l.map fun s => (s, [])) = (g', none) ∧ SameTypes g g' ∧ g'.edges = g.edges ∧
      g'.initial = g.initial ∧ (∀ s, g'.hasNode s = true ↔ g.hasNode s = true ∨ s ∈ l) ∧
      (∀ s a, g'.nodes.get? s = some a → a.get? "ap" = some (.set [])) := by
  induction l with
  | nil =>
    intro g _ _ h
    exact ⟨g, rfl, SameTypes.refl g, rfl, rfl, by simp, h⟩
  | cons s l ih =>
    intro g ht hd hl
    have hadd : g.addNode s [] = .ok { g with nodes := g.nodes.set s (((g.nodes.get? s).getD []).update
        [("ap", .set [])]) } := by
      unfold addNode
      rw [ht, hd, typedNode]
      rfl
    obtain ⟨g', h1, h2, h3, h4, h5, h6⟩ := ih { g with nodes := g.nodes.set s (((g.nodes.get? s).getD []).update
        [("ap", .set [])]) } ht hd (by
      intro t a h
      rw [Dict.get?_set] at h
      split at h
      · cases h
        simp only [Dict.update, List.foldl_cons, List.foldl_nil]
        rw [Dict.get?_set, if_pos rfl]
      · exact hl t a h)
    refine ⟨g', ?_, SameTypes.trans ⟨rfl, rfl, rfl, rfl⟩ h2, h3, h4, ?_, h6⟩
    · unfold addNodesFrom at h1 ⊢
      rw [List.map_cons]
      unfold seqM
      simp only [hadd]
      exact h1
    · intro t
      rw [h5 t, hasNode_addNode]
      simp only [List.mem_cons, Bool.or_eq_true, decide_eq_true_eq]
      rw [@eq_comm _ s t]
      tauto

theorem hasNode_set {g : LGraph Atom Label} {s : Atom} {a b : Attr Label} (h : g.nodes.get? s = some a) (t : Atom) :
    ({ g with nodes := g.nodes.set s b } : LGraph Atom Label).hasNode t = g.hasNode t := by
  unfold hasNode
  rw [Bool.eq_iff_iff, Dict.has_iff, Dict.has_iff]
  simp only [Dict.get?_set]
  by_cases hs : s = t
  · subst hs
    simp [h]
  · simp [hs]

theorem lastLabel_nil (p : String) (s : Atom) : lastLabel p [] s = .set [] := rfl

/-- The label that one call stores. -/
def stored (l : Label) : Label := if l = .none then .set [] else l

theorem lastLabel_snoc (p : String) (lab : List (Atom × Label)) (x : Atom × Label) (s : Atom) :
    lastLabel p (lab ++ [x]) s = if nameOf p x.1 = s then stored x.2 else lastLabel p lab s := by
  unfold lastLabel
  rw [List.filter_append]
  by_cases h : nameOf p x.1 = s
  · rw [if_pos h]
    simp only [List.filter_cons, h, decide_true, if_true, List.filter_nil, List.getLast?_append,
      List.getLast?_singleton, Option.some_or, Option.map_some]
    rfl
  · rw [if_neg h]
    simp [List.filter_cons, h]

/-- The labels. -/
theorem labelStates_spec (p : String) (lab done : List (Atom × Label)) : ∀ g : LGraph Atom Label,
    (∀ s a, g.nodes.get? s = some a → a.get? "ap" = some (lastLabel p done s)) →
    ((∀ x ∈ lab, g.hasNode (nameOf p x.1) = true) ↔ ∃ g', labelStates (some p) g (lab.map .ok) = .ok g') ∧
    ∀ g', labelStates (some p) g (lab.map .ok) = .ok g' →
      g'.edges = g.edges ∧ g'.initial = g.initial ∧ g'.edgeTypes = g.edgeTypes ∧
      g'.edgeDefaults = g.edgeDefaults ∧ (∀ s, g'.hasNode s = g.hasNode s) ∧
      (∀ s a, g'.nodes.get? s = some a → a.get? "ap" = some (lastLabel p (done ++ lab) s)) := by
  induction lab generalizing done with
  | nil =>
    intro g hg
    refine ⟨⟨fun _ => ⟨g, rfl⟩, by simp⟩, ?_⟩
    intro g' h
    cases h
    exact ⟨rfl, rfl, rfl, rfl, fun _ => rfl, by simpa using hg⟩
  | cons x lab ih =>
    intro g hg
    simp only [List.map_cons]
    unfold labelStates
    simp only [ok_bind]
    have hs : Atom.str (Option.getD (some p) "None" ++ x.1.text) = nameOf p x.1 := rfl
    rw [hs]
    cases hn : g.nodes.get? (nameOf p x.1) with
    | none =>
      have hno : g.hasNode (nameOf p x.1) = false := (Dict.has_false_iff _ _).2 hn
      constructor
      · constructor
        · intro h
          have := h x (by simp)
          rw [hno] at this
          simp at this
        · rintro ⟨g', h⟩
          cases h
      · intro g' h
        cases h
    | some a =>
      have hyes : g.hasNode (nameOf p x.1) = true := (Dict.has_iff _ _).2 ⟨a, hn⟩
      have key := ih (done ++ [x]) { g with nodes := g.nodes.set (nameOf p x.1) (a.set "ap" (stored x.2)) } (by
        intro s b hb
        simp only at hb
        rw [Dict.get?_set] at hb
        rw [lastLabel_snoc]
        split at hb
        · rename_i h
          cases hb
          rw [if_pos h, Dict.get?_set, if_pos rfl]
        · rename_i h
          rw [if_neg h]
          exact hg s b hb)
      have hnode := hasNode_set (b := a.set "ap" (stored x.2)) hn
      constructor
      · rw [← stored, ← key.1]
        simp only [hnode, List.forall_mem_cons, hyes, true_and]
      · intro g' h
        obtain ⟨h1, h2, h3, h4, h5, h6⟩ := key.2 g' h
        refine ⟨h1, h2, h3, h4, fun s => by rw [h5 s, hnode s], ?_⟩
        intro s b hb
        have := h6 s b hb
        rwa [List.append_assoc, List.singleton_append] at this

theorem addEdge_nil (g : LGraph Atom Label) (hd : g.edgeDefaults = []) (he : ∀ e ∈ g.edges, e.2.2 = [])
    (u v : Atom) :
    g.addEdge u v [] = if g.hasNode u = false then .error .valueError
      else if g.hasNode v = false then .error .valueError
      else if (u, v) ∈ g.edges.map fun e => (e.1, e.2.1) then .error .exception
      else .ok { g with edges := g.edges ++ [(u, v, [])] } := by
  unfold addEdge
  have ht : typedAttr g.edgeTypes g.edgeDefaults [] = .ok [] := by
    rw [hd]
    rfl
  have hmem : ∀ d, d ∈ g.edgeData u v → d = [] := by
    intro d h
    rw [mem_edgeData] at h
    exact he _ h
  by_cases hu : g.hasNode u = true
  · by_cases hv : g.hasNode v = true
    · simp only [hu, hv, Bool.not_true, Bool.false_eq_true, if_false, ht, ok_bind]
      by_cases h : (u, v) ∈ g.edges.map fun e => (e.1, e.2.1)
      · have hany : (g.edgeData u v).any (fun d => d.isEmpty) = true := by
          obtain ⟨e, he1, he2⟩ := List.mem_map.1 h
          obtain ⟨a, b, c⟩ := e
          cases he2
          rw [List.any_eq_true]
          exact ⟨c, mem_edgeData.2 he1, by
            have h0 : c = [] := he _ he1
            rw [h0]
            rfl⟩
        rw [if_pos h]
        simp only [hany, if_true]
        rfl
      · have hno : g.edgeData u v = [] := by
          rw [List.eq_nil_iff_forall_not_mem]
          intro d hd'
          rw [mem_edgeData] at hd'
          exact h (List.mem_map.2 ⟨_, hd', rfl⟩)
        rw [if_neg h]
        simp [hno, untyped]
    · simp [hu, hv]
  · simp [hu]

/-- The transitions. -/
theorem addUnlabeled_spec (p : String) (trans : List (Atom × Atom)) : ∀ g : LGraph Atom Label,
    g.edgeDefaults = [] → (∀ e ∈ g.edges, e.2.2 = []) → (g.edges.map fun e => (e.1, e.2.1)).Nodup →
    (((∀ e ∈ trans, g.hasNode (nameOf p e.1) = true ∧ g.hasNode (nameOf p e.2) = true) ∧
      ((g.edges.map fun e => (e.1, e.2.1)) ++ trans.map fun e => (nameOf p e.1, nameOf p e.2)).Nodup) ↔
      ∃ g', addUnlabeled (some p) g (trans.map fun e => (e.1, e.2, none)) = .ok g') ∧
    ∀ g', addUnlabeled (some p) g (trans.map fun e => (e.1, e.2, none)) = .ok g' →
      g' = { g with edges := g.edges ++ trans.map fun e => (nameOf p e.1, nameOf p e.2, []) } := by
  induction trans with
  | nil =>
    intro g _ _ hn
    refine ⟨⟨fun _ => ⟨g, rfl⟩, fun _ => ⟨by simp, by simpa using hn⟩⟩, ?_⟩
    intro g' h
    cases h
    simp
  | cons e trans ih =>
    intro g hd he hn
    obtain ⟨u, v⟩ := e
    simp only [List.map_cons]
    unfold addUnlabeled
    have hadd : g.addEdge (withPrefix (some p) u) (withPrefix (some p) v) [] =
      g.addEdge (nameOf p u) (nameOf p v) [] := rfl
    rw [hadd, addEdge_nil g hd he]
    by_cases hu : g.hasNode (nameOf p u) = true
    · by_cases hv : g.hasNode (nameOf p v) = true
      · rw [if_neg (by simp [hu]), if_neg (by simp [hv])]
        by_cases hm : (nameOf p u, nameOf p v) ∈ g.edges.map fun e => (e.1, e.2.1)
        · rw [if_pos hm]
          simp only [error_bind]
          constructor
          · constructor
            · rintro ⟨_, h⟩
              rw [List.nodup_append] at h
              exact absurd rfl (h.2.2 _ hm _ (by simp))
            · rintro ⟨g', h⟩
              cases h
          · intro g' h
            cases h
        · rw [if_neg hm]
          simp only [ok_bind]
          have key := ih { g with edges := g.edges ++ [(nameOf p u, nameOf p v, [])] } hd (by
            intro e h
            rcases List.mem_append.1 h with h | h
            · exact he e h
            · rw [List.mem_singleton.1 h]) (by
            rw [List.map_append, List.nodup_append]
            refine ⟨hn, by simp, ?_⟩
            intro a ha b hb
            simp only [List.map_cons, List.map_nil, List.mem_singleton] at hb
            rintro rfl
            rw [hb] at ha
            exact hm ha)
          constructor
          · rw [← key.1]
            simp only [List.forall_mem_cons, hu, hv, true_and, and_true, List.map_append, List.map_cons,
              List.map_nil, List.append_assoc, List.singleton_append]
            rfl
          · intro g' h
            rw [key.2 g' h]
            simp
      · rw [if_neg (by simp [hu]), if_pos (by simpa using hv)]
        simp only [error_bind]
        constructor
        · constructor
          · rintro ⟨h, _⟩
            exact absurd (h (u, v) (by simp)).2 hv
          · rintro ⟨g', h⟩
            cases h
        · intro g' h
          cases h
    · rw [if_pos (by simpa using hu)]
      simp only [error_bind]
      constructor
      · constructor
        · rintro ⟨h, _⟩
          exact absurd (h (u, v) (by simp)).1 hu
        · rintro ⟨g', h⟩
          cases h
      · intro g' h
        cases h

theorem mem_uniqueLoop' {α : Type} [DecidableEq α] (acc l : List α) (x : α) :
    x ∈ uniqueLoop acc l ↔ x ∈ acc ∨ x ∈ l := by
  induction l generalizing acc with
  | nil => simp [uniqueLoop]
  | cons y l ih =>
    unfold uniqueLoop
    split
    · rename_i h
      rw [ih]
      constructor
      · rintro (h | h) <;> simp [h]
      · rintro (h' | h')
        · exact Or.inl h'
        · rcases List.mem_cons.1 h' with rfl | h'
          · exact Or.inl h
          · exact Or.inr h'
    · rw [ih]
      simp [or_assoc]

theorem filter_zipIdx {α : Type} (L : List α) (i : Nat) (l : α) (h : L[i]? = some l) (k : Nat := 0) :
    (L.zipIdx k).filter (fun x => x.2 == k + i) = [(l, k + i)] := by
  induction L generalizing i k with
  | nil => simp at h
  | cons x L ih =>
    rw [List.zipIdx_cons, List.filter_cons]
    cases i with
    | zero =>
      simp at h
      subst h
      simp
      intro a b hab
      have := List.le_snd_of_mem_zipIdx hab
      simp at this
      omega
    | succ i =>
      have := ih i (by simpa using h) (k + 1)
      rw [if_neg (by simp)]
      rw [show k + (i + 1) = k + 1 + i by omega]
      exact this

theorem labelStates_types {pre : Option String} {lab : List (Except PyErr (Atom × Label))} :
    ∀ {g g' : LGraph Atom Label}, labelStates pre g lab = .ok g' →
      g'.edgeTypes = g.edgeTypes ∧ g'.edgeDefaults = g.edgeDefaults ∧ g'.edges = g.edges := by
  induction lab with
  | nil =>
    intro g g' h
    cases h
    exact ⟨rfl, rfl, rfl⟩
  | cons x lab ih =>
    intro g g' h
    unfold labelStates at h
    cases x with
    | error e => cases h
    | ok x =>
      simp only [ok_bind] at h
      split at h
      · cases h
      · obtain ⟨h1, h2, h3⟩ := ih h
        exact ⟨h1, h2, h3⟩

theorem bind_ok {α β : Type} {m : Except PyErr α} {f : α → Except PyErr β} {b : β} (h : m >>= f = .ok b) :
    ∃ a, m = .ok a ∧ f a = .ok b := by
  cases m with
  | error e => cases h
  | ok a => exact ⟨a, rfl, h⟩

theorem addUnlabeled_types {pre : Option String} {trans : List (Atom × Atom × Option String)} :
    ∀ {g g' : LGraph Atom Label}, addUnlabeled pre g trans = .ok g' → g'.edgeDefaults = g.edgeDefaults := by
  induction trans with
  | nil =>
    intro g g' h
    cases h
    rfl
  | cons x trans ih =>
    intro g g' h
    obtain ⟨u, v, a⟩ := x
    cases a with
    | some a => cases h
    | none =>
      unfold addUnlabeled at h
      cases hg : g.addEdge (withPrefix pre u) (withPrefix pre v) [] with
      | error e => rw [hg] at h; cases h
      | ok g1 =>
        rw [hg] at h
        rw [ih h]
        unfold addEdge at hg
        split at hg
        · cases hg
        · split at hg
          · cases hg
          · cases ht : typedAttr g.edgeTypes g.edgeDefaults [] with
            | error e => rw [ht] at hg; cases hg
            | ok a =>
              rw [ht] at hg
              simp only [ok_bind] at hg
              split at hg
              · cases hg
              · split at hg
                · cases hg; rfl
                · split at hg
                  · cases hg
                  · cases hg; rfl

/-- The construction once the labels are known. -/
theorem tuple2fts_eq {ord : String → String → Bool} {p : String} {S S0 AP : List Atom} {L : Option Labeling}
    {lab : List (Atom × Label)} (hL : Labels S L lab) {trans : List (Atom × Atom × Option String)}
    {g : LGraph Atom Label} (hg : newFts.addNodesFrom ((prependWith (some p) S).map fun s => (s, [])) = (g, none)) :
    tuple2fts ord S S0 AP L none trans (some p) = g.addInitialFrom (prependWith (some p) S0) >>= fun g =>
      labelStates (some p) { g with nodeTypes := nodeTypes (unique AP) } (lab.map .ok) >>= fun g =>
        addUnlabeled (some p) g trans >>= fun g => .ok { graph := g, aps := unique AP } := by
  have hlab : (L = none ∧ lab = []) ∨ ∃ l, L = some l ∧ pairLabels ord S l = .ok (lab.map .ok) := by
    cases L with
    | none => cases hL; exact Or.inl ⟨rfl, rfl⟩
    | some L => exact Or.inr ⟨L, rfl, pairLabels_of hL⟩
  unfold tuple2fts
  rcases hlab with ⟨rfl, rfl⟩ | ⟨l, rfl, hl⟩
  · simp only [ok_bind, hg]
    rfl
  · simp only [ok_bind, hg, hl]
    rfl

/-! ## C88 -/

/-- **C88**: `tuple2fts` with a prefix and without actions succeeds exactly for consistent arguments, and
returns the transition system that they describe. -/
theorem tuple2fts_spec (ord : String → String → Bool) (p : String) (S S0 AP : List Atom) (L : Option Labeling)
    (lab : List (Atom × Label)) (hL : Labels S L lab) (trans : List (Atom × Atom)) :
    (Consistent p S S0 lab trans ↔
      ∃ t, tuple2fts ord S S0 AP L none (trans.map fun e => (e.1, e.2, none)) (some p) = .ok t) ∧
    ∀ t, tuple2fts ord S S0 AP L none (trans.map fun e => (e.1, e.2, none)) (some p) = .ok t →
      Describes t p S S0 AP lab trans := by
  obtain ⟨g, h1, h2, h3, h4, h5, h6⟩ := addNodes (prependWith (some p) S) newFts rfl rfl (by
    intro s a h
    simp [newFts] at h)
  have hpre : ∀ l : List Atom, prependWith (some p) l = l.map (nameOf p) := fun _ => rfl
  have hnode : ∀ s, g.hasNode s = true ↔ s ∈ S.map (nameOf p) := by
    intro s
    rw [h5, hpre]
    simp [newFts, hasNode, Dict.has]
  rw [tuple2fts_eq hL h1]
  unfold addInitialFrom
  rw [hpre]
  by_cases hS0 : (S0.map (nameOf p)).all g.hasNode = true
  · rw [if_pos hS0]
    simp only [ok_bind]
    have hS0' : ∀ x ∈ S0, nameOf p x ∈ S.map (nameOf p) := by
      intro x hx
      rw [← hnode]
      exact List.all_eq_true.1 hS0 _ (List.mem_map_of_mem hx)
    obtain ⟨l1, l2⟩ := labelStates_spec p lab [] { g with
        initial := uniqueLoop g.initial (S0.map (nameOf p)), nodeTypes := nodeTypes (unique AP) } (by
      intro s a h
      rw [lastLabel_nil]
      exact h6 s a h)
    constructor
    · constructor
      · intro hc
        obtain ⟨g2, hg2⟩ := l1.1 (by
          intro x hx
          exact (hnode _).2 (hc.labeled x hx))
        rw [hg2]
        simp only [ok_bind]
        obtain ⟨k1, k2, k3, k4, k5, k6⟩ := l2 g2 hg2
        have hedges : g2.edges = [] := by rw [k1, h3]; rfl
        obtain ⟨a1, a2⟩ := addUnlabeled_spec p trans g2 (by rw [k4, h2.2.2.2]; rfl) (by simp [hedges])
          (by simp [hedges])
        obtain ⟨g3, hg3⟩ := a1.1 ⟨by
          intro e he
          rw [k5, k5]
          exact ⟨(hnode _).2 (hc.ends e he).1, (hnode _).2 (hc.ends e he).2⟩, by simpa [hedges] using hc.once⟩
        rw [hg3]
        exact ⟨_, rfl⟩
      · rintro ⟨t, ht⟩
        cases hg2 : labelStates (some p) { g with
            initial := uniqueLoop g.initial (S0.map (nameOf p)), nodeTypes := nodeTypes (unique AP) } (lab.map .ok) with
        | error e => rw [hg2] at ht; cases ht
        | ok g2 =>
          rw [hg2] at ht
          simp only [ok_bind] at ht
          obtain ⟨k1, k2, k3, k4, k5, k6⟩ := l2 g2 hg2
          have hedges : g2.edges = [] := by rw [k1, h3]; rfl
          obtain ⟨a1, a2⟩ := addUnlabeled_spec p trans g2 (by rw [k4, h2.2.2.2]; rfl) (by simp [hedges])
            (by simp [hedges])
          cases hg3 : addUnlabeled (some p) g2 (trans.map fun e => (e.1, e.2, none)) with
          | error e => rw [hg3] at ht; cases ht
          | ok g3 =>
            obtain ⟨b1, b2⟩ := a1.2 ⟨g3, hg3⟩
            refine ⟨hS0', ?_, ?_, by simpa [hedges] using b2⟩
            · intro x hx
              exact (hnode _).1 (l1.2 ⟨g2, hg2⟩ x hx)
            · intro e he
              have := b1 e he
              rw [k5, k5] at this
              exact ⟨(hnode _).1 this.1, (hnode _).1 this.2⟩
    · intro t ht
      cases hg2 : labelStates (some p) { g with
          initial := uniqueLoop g.initial (S0.map (nameOf p)), nodeTypes := nodeTypes (unique AP) } (lab.map .ok) with
      | error e => rw [hg2] at ht; cases ht
      | ok g2 =>
        rw [hg2] at ht
        simp only [ok_bind] at ht
        obtain ⟨k1, k2, k3, k4, k5, k6⟩ := l2 g2 hg2
        have hedges : g2.edges = [] := by rw [k1, h3]; rfl
        obtain ⟨a1, a2⟩ := addUnlabeled_spec p trans g2 (by rw [k4, h2.2.2.2]; rfl) (by simp [hedges])
          (by simp [hedges])
        cases hg3 : addUnlabeled (some p) g2 (trans.map fun e => (e.1, e.2, none)) with
        | error e => rw [hg3] at ht; cases ht
        | ok g3 =>
          rw [hg3] at ht
          cases ht
          have hg3' := a2 g3 hg3
          have hn : ∀ s, g3.hasNode s = true ↔ s ∈ S.map (nameOf p) := by
            intro s
            rw [hg3', ← hnode]
            exact Bool.eq_iff_iff.1 (k5 s)
          constructor
          · intro s
            rw [hn, List.mem_map]
            simp only [@eq_comm _ s]
          · intro s
            rw [hg3']
            simp only
            rw [k2]
            simp only
            rw [mem_uniqueLoop', h4, List.mem_map]
            simp [newFts, @eq_comm _ s]
          · intro q
            simp [unique, mem_uniqueLoop']
          · intro x hx
            have : g3.hasNode (nameOf p x) = true := (hn _).2 (List.mem_map_of_mem hx)
            obtain ⟨a, ha⟩ := (Dict.has_iff _ _).1 this
            refine ⟨a, ha, ?_⟩
            rw [hg3'] at ha
            simpa using k6 _ a ha
          · rw [hg3']
            simp [hedges]
  · rw [if_neg hS0]
    simp only [error_bind]
    constructor
    · constructor
      · intro hc
        exfalso
        apply hS0
        rw [List.all_eq_true]
        intro s hs
        obtain ⟨x, hx, rfl⟩ := List.mem_map.1 hs
        exact (hnode _).2 (hc.initial x hx)
      · rintro ⟨t, ht⟩
        cases ht
    · intro t ht
      cases ht

theorem tuple2fts_defaults {ord : String → String → Bool} {S S0 AP : List Atom} {L : Option Labeling}
    {trans : List (Atom × Atom × Option String)} {p : String} {lab : List (Atom × Label)} (hL : Labels S L lab)
    {t : Ts} (h : tuple2fts ord S S0 AP L none trans (some p) = .ok t) : t.graph.edgeDefaults = [] := by
  obtain ⟨g, h1, h2, _⟩ := addNodes (prependWith (some p) S) newFts rfl rfl (by
    intro s a h
    simp [newFts] at h)
  rw [tuple2fts_eq hL h1] at h
  unfold addInitialFrom at h
  split at h
  · simp only [ok_bind] at h
    obtain ⟨g1, hg1, h⟩ := bind_ok h
    obtain ⟨g2, hg2, h⟩ := bind_ok h
    cases h
    rw [addUnlabeled_types hg2, (labelStates_types hg1).2.1]
    exact h2.2.2.2
  · cases h

/-- The name `s…` of a state of a line. -/
def lineName (i : Int) : Atom := .str ("s" ++ toString i)

theorem lineName_inj {i j : Int} (h : lineName i = lineName j) : i = j := by
  unfold lineName at h
  rw [Atom.str.injEq] at h
  have h2 := congrArg String.toList h
  rw [String.toList_append, String.toList_append, List.append_cancel_left_eq] at h2
  exact Int.repr_injective (String.toList_injective h2)

/-- The label mentions this proposition: a set its elements, a string its characters. -/
inductive Mentions : Label → Atom → Prop
  | elem {l : List String} {p : String} : p ∈ l → Mentions (.set l) (.str p)
  | char {s : String} {c : Char} : c ∈ s.toList → Mentions (.str s) (.str (String.ofList [c]))

theorem mem_apsOf (l : Label) (q : Atom) : q ∈ apsOf l ↔ Mentions l q := by
  cases l with
  | none => simp only [apsOf, List.not_mem_nil, false_iff]; rintro ⟨⟩
  | str s =>
    simp only [apsOf, List.mem_map]
    constructor
    · rintro ⟨c, hc, rfl⟩
      exact .char hc
    · rintro ⟨⟩
      exact ⟨_, ‹_›, rfl⟩
  | set l =>
    simp only [apsOf, List.mem_map]
    constructor
    · rintro ⟨c, hc, rfl⟩
      exact .elem hc
    · rintro ⟨⟩
      exact ⟨_, ‹_›, rfl⟩

/-- A line of states with the given labels: `n` states `s_m, s_{m+1}, …`, the `i`-th with the `i`-th label,
and transitions from each state to the next one; `extra` are further transitions. -/
structure IsLine (t : Ts) (L : List Label) (m : Int) (extra : List (Atom × Atom)) : Prop where
  states : ∀ s, t.graph.hasNode s = true ↔ ∃ i : Nat, i < L.length ∧ s = lineName (m + i)
  initial : ∀ s, s ∉ t.graph.initial
  aps : ∀ q, q ∈ t.aps ↔ q = .tt ∨ ∃ l ∈ L, Mentions l q
  label : ∀ (i : Nat) (l : Label), L[i]? = some l → ∃ a, t.graph.nodes.get? (lineName (m + i)) = some a ∧
    a.get? "ap" = some (stored l)
  transitions : t.graph.edges = ((List.range (L.length - 1)).map fun (i : Nat) =>
    (lineName (m + i), lineName (m + i + 1), [])) ++ extra.map fun e => (e.1, e.2, [])

theorem zip_range_map {β : Type} (f : Nat → Atom) (L : List β) :
    ((List.range L.length).map f).zip L = (L.zipIdx).map fun x => (f x.2, x.1) := by
  apply List.ext_getElem
  · simp
  · intro i h1 h2
    simp

theorem lastLabel_line (L : List Label) (m : Int) (i : Nat) (l : Label) (h : L[i]? = some l) :
    lastLabel "s" (((List.range L.length).map fun (j : Nat) => Atom.int (m + j)).zip L) (lineName (m + i)) = stored l := by
  unfold lastLabel
  rw [zip_range_map]
  have hf : ((L.zipIdx).map fun x => (Atom.int (m + x.2), x.1)).filter (fun x => nameOf "s" x.1 = lineName (m + i)) =
      [(Atom.int (m + i), l)] := by
    rw [List.filter_map]
    have : (L.zipIdx).filter ((fun x : Atom × Label => decide (nameOf "s" x.1 = lineName (m + i))) ∘
        fun x : Label × Nat => (Atom.int (m + x.2), x.1)) = [(l, i)] := by
      have hcongr : (L.zipIdx).filter ((fun x : Atom × Label => decide (nameOf "s" x.1 = lineName (m + i))) ∘
          fun x : Label × Nat => (Atom.int (m + x.2), x.1)) = (L.zipIdx).filter fun x => x.2 == i := by
        apply List.filter_congr
        intro x _
        simp only [Function.comp]
        rw [Bool.eq_iff_iff, decide_eq_true_eq, beq_iff_eq]
        constructor
        · intro h
          have := lineName_inj (i := m + x.2) (j := m + i) h
          omega
        · rintro h
          rw [h]
          rfl
      rw [hcongr]
      have := filter_zipIdx L i l h
      rwa [Nat.zero_add] at this
    rw [this]
    rfl
  rw [hf]
  rfl

theorem mem_lineS (L : List Label) (m : Int) (i : Nat) (h : i < L.length) :
    nameOf "s" (.int (m + i)) ∈ ((List.range L.length).map fun (j : Nat) => Atom.int (m + j)).map (nameOf "s") := by
  rw [List.map_map, List.mem_map]
  exact ⟨i, List.mem_range.2 h, rfl⟩

/-- **C88**: `line_labeled_with(L, m)` is the line of states with the labels of `L`. -/
theorem lineLabeledWith_spec (ord : String → String → Bool) (L : List Label) (m : Int) (hL : L ≠ [])
    (h2 : ∀ a b, L.head? ≠ some (.set [a, b])) :
    ∃ t, lineLabeledWith ord L m = .ok t ∧ IsLine t L m [] := by
  have hlabels := Labels.each (S := (List.range L.length).map fun (i : Nat) => Atom.int (m + i)) L hL h2
  obtain ⟨h3, h4⟩ := tuple2fts_spec ord "s" _ [] (.tt :: L.flatMap apsOf) _ _ hlabels
    ((List.range (L.length - 1)).map fun (i : Nat) => (Atom.int (m + i), Atom.int (m + (i + 1 : Nat))))
  have hc : Consistent "s" ((List.range L.length).map fun (i : Nat) => Atom.int (m + i)) []
      (((List.range L.length).map fun (i : Nat) => Atom.int (m + i)).zip L)
      ((List.range (L.length - 1)).map fun (i : Nat) => (Atom.int (m + i), Atom.int (m + (i + 1 : Nat)))) := by
    constructor
    · simp
    · intro x hx
      have := (List.of_mem_zip (a := x.1) (b := x.2) hx).1
      exact List.mem_map_of_mem this
    · intro e he
      obtain ⟨i, hi, rfl⟩ := List.mem_map.1 he
      rw [List.mem_range] at hi
      exact ⟨mem_lineS L m i (by omega), mem_lineS L m (i + 1) (by omega)⟩
    · rw [List.map_map, List.nodup_map_iff_inj_on List.nodup_range]
      intro i _ j _ hij
      simp only [Function.comp, Prod.mk.injEq] at hij
      have := lineName_inj (i := m + i) (j := m + j) hij.1
      omega
  obtain ⟨t, ht⟩ := h3.1 hc
  have hd := h4 t ht
  refine ⟨t, ?_, ?_⟩
  · unfold lineLabeledWith
    simp only
    rw [← ht, List.map_map]
    rfl
  · constructor
    · intro s
      rw [hd.states]
      constructor
      · rintro ⟨x, hx, rfl⟩
        obtain ⟨i, hi, rfl⟩ := List.mem_map.1 hx
        exact ⟨i, List.mem_range.1 hi, rfl⟩
      · rintro ⟨i, hi, rfl⟩
        exact ⟨_, List.mem_map.2 ⟨i, List.mem_range.2 hi, rfl⟩, rfl⟩
    · intro s
      rw [hd.initial]
      simp
    · intro q
      rw [hd.aps]
      simp [mem_apsOf]
    · intro i l h
      have hi : i < L.length := by
        by_contra hno
        rw [List.getElem?_eq_none (by omega)] at h
        simp at h
      obtain ⟨a, ha, hl⟩ := hd.label (.int (m + i)) (List.mem_map.2 ⟨i, List.mem_range.2 hi, rfl⟩)
      refine ⟨a, ha, ?_⟩
      rw [hl]
      exact congrArg some (lastLabel_line L m i l h)
    · rw [hd.transitions, List.map_map, List.map_nil, List.append_nil]
      apply List.map_congr_left
      intro i _
      have : m + ((i + 1 : Nat) : Int) = m + i + 1 := by omega
      simp only [Function.comp, this]
      rfl

/-- **C88**: `cycle_labeled_with(L)` is the line with one more transition from the last state to the first. -/
theorem cycleLabeledWith_spec (ord : String → String → Bool) (L : List Label) (hL : L ≠ [])
    (h2 : ∀ a b, L.head? ≠ some (.set [a, b])) :
    ∃ t, cycleLabeledWith ord L = .ok t ∧ IsLine t L 0 [(lineName ((L.length : Int) - 1), lineName 0)] := by
  obtain ⟨t, ht, hl⟩ := lineLabeledWith_spec ord L 0 hL h2
  have hpos : 0 < L.length := List.length_pos_of_ne_nil hL
  have hd : t.graph.edgeDefaults = [] := by
    unfold lineLabeledWith at ht
    exact tuple2fts_defaults (Labels.each L hL h2) ht
  have he : ∀ e ∈ t.graph.edges, e.2.2 = [] := by
    intro e he
    rw [hl.transitions] at he
    simp only [List.map_nil, List.append_nil, List.mem_map] at he
    obtain ⟨_, _, rfl⟩ := he
    rfl
  have hu : t.graph.hasNode (lineName ((L.length : Int) - 1)) = true :=
    (hl.states _).2 ⟨L.length - 1, by omega, by congr 1; omega⟩
  have hv : t.graph.hasNode (lineName 0) = true := (hl.states _).2 ⟨0, hpos, rfl⟩
  have hadd := addEdge_nil t.graph hd he (lineName ((L.length : Int) - 1)) (lineName 0)
  rw [if_neg (by simp [hu]), if_neg (by simp [hv]), if_neg] at hadd
  · refine ⟨{ t with graph := { t.graph with
      edges := t.graph.edges ++ [(lineName ((L.length : Int) - 1), lineName 0, [])] } }, ?_, ?_⟩
    · unfold cycleLabeledWith
      rw [ht]
      have h0 : Atom.str "s0" = lineName 0 := by decide
      simp only [ok_bind]
      rw [h0]
      unfold lineName at hadd ⊢
      rw [hadd]
      rfl
    · exact ⟨hl.states, hl.initial, hl.aps, hl.label, by
        simp only [hl.transitions, List.map_nil, List.append_nil, List.map_cons]⟩
  · rw [hl.transitions]
    simp only [List.map_nil, List.append_nil, List.map_map, List.mem_map]
    rintro ⟨i, hi, h⟩
    simp only [Function.comp, Prod.mk.injEq] at h
    have := lineName_inj h.2
    omega

/-! ### Arguments for which the functions do not do what is documented -/

/-- With actions, `tuple2fts` fails for each non-empty list of transitions. -/
theorem tuple2fts_actions (ord : String → String → Bool) (S S0 AP : List Atom) (L : Option Labeling)
    (Act : List String) (trans : List (Atom × Atom × Option String)) (pre : Option String) (h : trans ≠ []) :
    ∃ e, tuple2fts ord S S0 AP L (some Act) trans pre = .error e := by
  have hlab : ∀ g : LGraph Atom Label, g.edgeTypes = newFts.edgeTypes → g.edgeDefaults = [] → g.edges = [] →
      ∃ e, addLabeled pre g trans = .error e := by
    intro g ht hd he
    cases trans with
    | nil => exact absurd rfl h
    | cons x l =>
      obtain ⟨u, v, a⟩ := x
      cases a with
      | none => exact ⟨_, rfl⟩
      | some a =>
        unfold addLabeled addEdge
        by_cases hu : g.hasNode (withPrefix pre u) = true
        · by_cases hv : g.hasNode (withPrefix pre v) = true
          · have hta : typedAttr g.edgeTypes g.edgeDefaults [("actions", Label.str a)] =
                .ok [("actions", Label.str a)] := by
              rw [ht, hd]
              rfl
            have hun : untyped g.edgeTypes [("actions", Label.str a)] true = true := by
              rw [ht]
              rfl
            have hed : g.edgeData (withPrefix pre u) (withPrefix pre v) = [] := by
              unfold edgeData
              rw [he]
              rfl
            simp only [hu, hv, hta, hun, hed, ok_bind]
            exact ⟨_, rfl⟩
          · exact ⟨.valueError, by simp [hu, hv]⟩
        · exact ⟨.valueError, by simp [hu]⟩
  cases hres : tuple2fts ord S S0 AP L (some Act) trans pre with
  | error e => exact ⟨e, rfl⟩
  | ok t =>
    exfalso
    obtain ⟨g, h1, h2, h3, h4, h5, h6⟩ := addNodes (prependWith pre S) newFts rfl rfl (by
      intro s a h
      simp [newFts] at h)
    have hrest : ∃ labeling, ((g.addInitialFrom (prependWith pre S0) >>= fun g =>
        labelStates pre { g with nodeTypes := nodeTypes (unique AP) } labeling >>= fun g =>
        extendActions Act >>= fun _ => addLabeled pre g trans >>= fun g =>
          .ok { graph := g, aps := unique AP }) : Except PyErr Ts) = .ok t := by
      unfold tuple2fts at hres
      cases L with
      | none =>
        simp only [ok_bind, h1] at hres
        exact ⟨_, hres⟩
      | some L =>
        obtain ⟨lab, _, hres⟩ := bind_ok hres
        simp only [h1, ok_bind] at hres
        exact ⟨lab, hres⟩
    obtain ⟨labeling, hr⟩ := hrest
    obtain ⟨g1, hg1, hr⟩ := bind_ok hr
    obtain ⟨g2, hg2, hr⟩ := bind_ok hr
    obtain ⟨_, _, hr⟩ := bind_ok hr
    obtain ⟨g3, hg3, hr⟩ := bind_ok hr
    obtain ⟨k1, k2, k3⟩ := labelStates_types hg2
    unfold addInitialFrom at hg1
    split at hg1
    · cases hg1
      obtain ⟨e, he⟩ := hlab g2 (by rw [k1]; exact h2.2.2.1) (by rw [k2]; exact h2.2.2.2) (by rw [k3]; exact h3)
      rw [he] at hg3
      cases hg3
    · cases hg1

/-- An empty list of labels is rejected. -/
theorem lineLabeledWith_nil (ord : String → String → Bool) (m : Int) :
    lineLabeledWith ord [] m = .error .indexError := rfl

/-- A line whose first label is a set of two propositions is taken for a list of pairs of a state and a
label: unless the propositions are the numbers of states, `KeyError` is raised. -/
theorem lineLabeledWith_pair (ord : String → String → Bool) (a b : String) (L : List Label) (m : Int)
    (h : ∀ i : Nat, i < L.length + 1 → lineName (m + i) ≠ .str ("s" ++ a) ∧ lineName (m + i) ≠ .str ("s" ++ b)) :
    lineLabeledWith ord (.set [a, b] :: L) m = .error .keyError := by
  obtain ⟨g, h1, h2, h3, h4, h5, h6⟩ := addNodes (prependWith (some "s")
      ((List.range (L.length + 1)).map fun (i : Nat) => Atom.int (m + i))) newFts rfl rfl (by
    intro s a h
    simp [newFts] at h)
  have hno : ∀ c, (∀ i : Nat, i < L.length + 1 → lineName (m + i) ≠ .str ("s" ++ c)) →
      g.nodes.get? (.str ("s" ++ c)) = none := by
    intro c hc
    rw [← Dict.has_false_iff, Bool.eq_false_iff]
    intro hhas
    rcases (h5 _).1 hhas with h | h
    · simp [newFts, hasNode, Dict.has] at h
    · unfold prependWith at h
      simp only [List.map_map, List.mem_map, List.mem_range] at h
      obtain ⟨i, hi, h⟩ := h
      exact hc i hi h
  have ha := hno a fun i hi => (h i hi).1
  have hb := hno b fun i hi => (h i hi).2
  unfold lineLabeledWith
  simp only [List.length_cons]
  unfold tuple2fts
  have hp : ∀ S, pairLabels ord S (.labels (.set [a, b] :: L)) = .ok ((Label.set [a, b] :: L).map (unpack ord)) := by
    intro S
    unfold pairLabels unpack
    by_cases ho : ord a b = true <;> simp [ho]
  simp only [hp, ok_bind, h1]
  unfold addInitialFrom
  have hall : (prependWith (some "s") []).all g.hasNode = true := rfl
  rw [if_pos hall]
  simp only [ok_bind, List.map_cons]
  unfold labelStates unpack
  by_cases ho : ord a b = true
  · simp only [ho, if_true, ok_bind, Option.getD_some, Atom.text, ha, error_bind]
  · simp only [ho, Bool.false_eq_true, if_false, ok_bind, Option.getD_some, Atom.text, hb, error_bind]

/-- If they are the numbers of states, a state gets a wrong label: here the label `p`, a string, instead of the
set of `0` and `p`, and the second state gets no label. -/
theorem lineLabeledWith_pair_counterexample :
    ((lineLabeledWith (fun _ _ => true) [.set ["0", "p"]] 0).toOption.map fun t => t.graph.nodes) =
      some [(.str "s0", [("ap", .str "p")])] := by decide +kernel

/-- Without a prefix, each label is rejected: the state is looked up under a name that starts with `None`. -/
theorem tuple2fts_noprefix (ord : String → String → Bool) (S S0 AP : List Atom) (lab : List (Atom × Label))
    (trans : List (Atom × Atom × Option String)) (h : lab ≠ [])
    (hS : ∀ x ∈ lab, Atom.str ("None" ++ x.1.text) ∉ S) (hS0 : ∀ x ∈ S0, x ∈ S) :
    tuple2fts ord S S0 AP (some (.pairs lab)) none trans none = .error .keyError := by
  obtain ⟨g, h1, h2, h3, h4, h5, h6⟩ := addNodes (prependWith none S) newFts rfl rfl (by
    intro s a h
    simp [newFts] at h)
  have hnode : ∀ s, g.hasNode s = true ↔ s ∈ S := by
    intro s
    rw [h5]
    simp [newFts, hasNode, Dict.has, prependWith]
  unfold tuple2fts
  cases lab with
  | nil => exact absurd rfl h
  | cons x lab =>
    have hp : pairLabels ord S (.pairs (x :: lab)) = .ok ((x :: lab).map .ok) := rfl
    simp only [hp, ok_bind, h1]
    unfold addInitialFrom
    have hall : (prependWith none S0).all g.hasNode = true := by
      rw [List.all_eq_true]
      intro s hs
      exact (hnode s).2 (hS0 s hs)
    rw [if_pos hall]
    simp only [ok_bind, List.map_cons]
    unfold labelStates
    have hno : g.nodes.get? (.str ("None" ++ x.1.text)) = none := by
      rw [← Dict.has_false_iff, Bool.eq_false_iff]
      intro hhas
      exact hS x (by simp) ((hnode _).1 hhas)
    simp only [ok_bind, Option.getD_none, hno, error_bind]

/-- `add_initial_states` does not add an initial state: it changes nothing or fails. -/
theorem addInitialStates_nothing (ts : Ts) (ls : List Label) :
    addInitialStates ts ls = .ok ts ∨ ∃ e, addInitialStates ts ls = .error e := by
  induction ls with
  | nil => exact Or.inl rfl
  | cons l ls ih =>
    unfold addInitialStates
    cases ts.graph.findStates none [("ap", .str "label")] with
    | error e => exact Or.inr ⟨e, rfl⟩
    | ok found =>
      simp only [ok_bind]
      unfold initialOr
      split
      · exact ih
      · exact Or.inr ⟨_, rfl⟩

/-- The label of a state is not checked against the atomic propositions. -/
theorem tuple2fts_label_counterexample :
    ((tuple2fts (fun _ _ => true) [.int 0] [.int 0] [.str "p"] (some (.pairs [(.int 0, .set ["q"])])) none []
      (some "s")).toOption.map fun t => (t.aps, t.graph.nodes)) =
      some ([.str "p"], [(.str "s0", [("ap", .set ["q"])])]) := by decide +kernel

/-- A string is not identified with the set of this proposition: the propositions are its characters. -/
theorem lineLabeledWith_string_counterexample :
    ((lineLabeledWith (fun _ _ => true) [.str "ab"] 0).toOption.map fun t => (t.aps, t.graph.nodes)) =
      some ([.tt, .str "a", .str "b"], [(.str "s0", [("ap", .str "ab")])]) := by decide +kernel

/-! ### The hypotheses are met -/

/-- States 0, 1, 2 with labels, an initial state and three transitions. -/
example : Consistent "s" [.int 0, .int 1, .int 2] [.int 0] [(.int 0, .set ["p"]), (.int 2, .none)]
    [(.int 0, .int 1), (.int 1, .int 2), (.int 2, .int 0)] :=
  ⟨by decide +kernel, by decide +kernel, by decide +kernel, by decide +kernel⟩

example : ((tuple2fts (fun _ _ => true) [.int 0, .int 1] [.int 0] [.str "p"] (some (.labels [.set ["p"], .none])) none
      [(.int 0, .int 1, none)] (some "s")).toOption.map fun t =>
        (t.graph.nodes, t.graph.initial)) =
      some ([(.str "s0", [("ap", .set ["p"])]), (.str "s1", [("ap", .set [])])],
        [.str "s0"]) := by decide +kernel

example : Labels [.int 0, .int 1] (some (.labels [.set ["p"], .none])) [(.int 0, .set ["p"]), (.int 1, .none)] :=
  .each [.set ["p"], .none] (by decide) (by simp)

example : ((cycleLabeledWith (fun _ _ => true) [.set ["p"], .set ["p", "q"], .set []]).toOption.map fun t =>
      (t.graph.nodes, t.graph.edges.map fun e => (e.1, e.2.1))) =
    some ([(.str "s0", [("ap", .set ["p"])]), (.str "s1", [("ap", .set ["p", "q"])]), (.str "s2", [("ap", .set [])])],
      [(.str "s0", .str "s1"), (.str "s1", .str "s2"), (.str "s2", .str "s0")]) := by decide +kernel

example : (match · with | .ok _ => none | .error e => some e) (lineLabeledWith (fun _ _ => true) [.set ["p", "q"], .set ["p"]] 0) = some .keyError := by
  decide +kernel

end Constr

end Tulip
