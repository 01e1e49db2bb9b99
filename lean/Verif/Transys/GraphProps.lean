import Verif.Transys.Graph
import Verif.Transys.MathSetProps

/-!
# Properties of labeled graphs: insertion, removal, initial states (C06, C07, C11, C12)
-/

namespace Tulip

namespace LGraph

/-- Dictionaries with the same items. -/
def SameAttr {V : Type} (a b : Attr V) : Prop := ∀ k, a.get? k = b.get? k

theorem has_eq {κ V : Type} [DecidableEq κ] (d : Dict κ V) (k : κ) :
    d.has k = (d.get? k).isSome := by
  cases h : d.get? k with
  | none => simpa using (Dict.has_false_iff d k).2 h
  | some v => simpa using (Dict.has_iff d k).2 ⟨v, h⟩

theorem mem_keys_iff_has {κ V : Type} [DecidableEq κ] (d : Dict κ V) (k : κ) :
    k ∈ d.keys ↔ d.has k = true := by
  rw [Dict.has_iff, Dict.mem_keys_iff]

theorem beqv_iff {κ V : Type} [DecidableEq κ] [DecidableEq V] (d e : Dict κ V) :
    d.beqv e = true ↔ ∀ k, d.get? k = e.get? k := by
  simp only [Dict.beqv, Bool.and_eq_true, List.all_eq_true, beq_iff_eq]
  constructor
  · rintro ⟨h1, h2⟩ k
    by_cases hd : k ∈ d.keys
    · simp only [Dict.keys, List.mem_map] at hd
      obtain ⟨p, hp, rfl⟩ := hd
      exact h1 p hp
    · by_cases he : k ∈ e.keys
      · simp only [Dict.keys, List.mem_map] at he
        obtain ⟨p, hp, rfl⟩ := he
        exact h2 p hp
      · rw [mem_keys_iff_has, has_eq] at hd he
        simp only [Option.not_isSome_iff_eq_none, Bool.not_eq_true, Option.isSome_eq_false_iff,
          Option.isNone_iff_eq_none] at hd he
        rw [hd, he]
  · intro h; exact ⟨fun p _ => h p.1, fun p _ => h p.1⟩

theorem get?_eq_none_of_isEmpty {κ V : Type} [DecidableEq κ] {d : Dict κ V} :
    d.isEmpty = true ↔ ∀ k, d.get? k = none := by
  cases d with
  | nil => simp
  | cons p d =>
    simp only [List.isEmpty_cons, Bool.false_eq_true, false_iff, not_forall]
    exact ⟨p.1, by simp [Dict.get?_cons]⟩

/-! ## Typed attributes -/

variable {ν V : Type} [DecidableEq ν] [DecidableEq V]

theorem get?_allowedOf (types : Dict String (LabelType V)) (k : String) :
    (allowedOf types).get? k =
      (types.get? k).map fun t => some fun v => Except.ok (t.contains v) := by
  induction types with
  | nil => rfl
  | cons p types ih =>
    have e : allowedOf (p :: types) =
      (p.1, some fun v => Except.ok (p.2.contains v)) :: allowedOf types := rfl
    rw [e, Dict.get?_cons, Dict.get?_cons, ih]
    split <;> simp

/-- The values are allowed by the label types. -/
def Typed (types : Dict String (LabelType V)) (a : Attr V) : Prop :=
  ∀ p ∈ a, ∀ t, types.get? p.1 = some t → t.contains p.2 = true

theorem admissible_allowedOf (types : Dict String (LabelType V)) (k : String) (v : V) :
    Admissible (allowedOf types) k v ↔ ∀ t, types.get? k = some t → t.contains v = true := by
  unfold Admissible
  rw [get?_allowedOf]
  cases types.get? k with
  | none => simp
  | some t => simp

theorem setItem_ok {d : TDict String V} {k : String} {v : V}
    (h : Admissible d.allowed k v) :
    d.setItem k v = .ok { d with items := d.items.set k v } := by
  simp only [TDict.setItem]
  cases ha : d.allowed.get? k with
  | none => rfl
  | some o =>
    cases o with
    | none => rfl
    | some c => simp only [h c ha]; rfl

theorem tdict_update (l : Attr V) (d : TDict String V) :
    ((∀ p ∈ l, Admissible d.allowed p.1 p.2) →
      d.update l = ({ d with items := d.items.update l }, none)) ∧
    ((¬ ∀ p ∈ l, Admissible d.allowed p.1 p.2) → (d.update l).2 = some .valueError) := by
  induction l generalizing d with
  | nil => exact ⟨fun _ => rfl, fun h => absurd (by simp) h⟩
  | cons p l ih =>
    obtain ⟨k, v⟩ := p
    constructor
    · intro h
      have h1 := setItem_ok (h (k, v) (by simp))
      simp only [TDict.update, h1]
      have := (ih { d with items := d.items.set k v }).1 fun q hq => h q (by simp [hq])
      rw [this]; rfl
    · intro h
      by_cases ha : Admissible d.allowed k v
      · simp only [TDict.update, setItem_ok ha]
        refine (ih _).2 fun hl => h ?_
        intro q hq
        rcases List.mem_cons.1 hq with rfl | hq
        · exact ha
        · exact hl q hq
      · simp only [TDict.update, (setItem_spec d k v).2 ha]

theorem typedAttr_ok {types : Dict String (LabelType V)} {defaults attr : Attr V}
    (h1 : Typed types defaults) (h2 : Typed types attr) :
    typedAttr types defaults attr = .ok ((Dict.update [] defaults).update attr) := by
  have e1 := (tdict_update defaults ⟨[], allowedOf types⟩).1
    fun p hp => (admissible_allowedOf _ _ _).2 (h1 p hp)
  have e2 := (tdict_update attr ⟨Dict.update [] defaults, allowedOf types⟩).1
    fun p hp => (admissible_allowedOf _ _ _).2 (h2 p hp)
  simp only [typedAttr, e1, e2]

theorem typedAttr_error {types : Dict String (LabelType V)} {defaults attr : Attr V}
    (h : ¬ (Typed types defaults ∧ Typed types attr)) :
    typedAttr types defaults attr = .error .valueError := by
  by_cases h1 : Typed types defaults
  · have h2 : ¬ Typed types attr := fun h2 => h ⟨h1, h2⟩
    have e1 := (tdict_update defaults ⟨[], allowedOf types⟩).1
      fun p hp => (admissible_allowedOf _ _ _).2 (h1 p hp)
    have e2 := (tdict_update attr ⟨Dict.update [] defaults, allowedOf types⟩).2
      fun hl => h2 fun p hp => (admissible_allowedOf _ _ _).1 (hl p hp)
    simp only [typedAttr, e1]
    split
    · rename_i e he; rw [he] at e2; simpa using e2
    · rename_i d' he; rw [he] at e2; simp at e2
  · have e1 := (tdict_update defaults ⟨[], allowedOf types⟩).2
      fun hl => h1 fun p hp => (admissible_allowedOf _ _ _).1 (hl p hp)
    simp only [typedAttr]
    split
    · rename_i e he; rw [he] at e1; simpa using e1
    · rename_i d' he; rw [he] at e1; simp at e1

theorem typedAttr_inv {types : Dict String (LabelType V)} {defaults attr d : Attr V}
    (h : typedAttr types defaults attr = .ok d) :
    Typed types defaults ∧ Typed types attr ∧ d = (Dict.update [] defaults).update attr := by
  by_cases hc : Typed types defaults ∧ Typed types attr
  · rw [typedAttr_ok hc.1 hc.2] at h
    exact ⟨hc.1, hc.2, by cases h; rfl⟩
  · rw [typedAttr_error hc] at h; cases h

/-- A key of an updated dictionary. -/
theorem get?_update_cases (d e : Dict String V) (k : String) (v : V)
    (h : (d.update e).get? k = some v) : d.get? k = some v ∨ (k, v) ∈ e := by
  induction e generalizing d with
  | nil => exact Or.inl h
  | cons p e ih =>
    have : (d.set p.1 p.2).update e = d.update (p :: e) := rfl
    rw [← this] at h
    rcases ih _ h with h1 | h1
    · rw [Dict.get?_set] at h1
      split at h1
      · rename_i hk
        simp only [Option.some.injEq] at h1
        subst h1
        right; rw [List.mem_cons]; left
        exact Prod.ext hk.symm rfl
      · exact Or.inl h1
    · exact Or.inr (by simp [h1])

theorem has_update (d e : Dict String V) (k : String) :
    (d.update e).has k = (d.has k || Dict.has e k) := by
  induction e generalizing d with
  | nil => simp [Dict.update, Dict.has]
  | cons p e ih =>
    have : (d.set p.1 p.2).update e = d.update (p :: e) := rfl
    rw [← this, ih]
    have h2 : Dict.has (p :: e) k = ((p.1 == k) || Dict.has e k) := by simp [Dict.has]
    have h1 : (d.set p.1 p.2).has k = ((p.1 == k) || d.has k) := by
      rw [has_eq, Dict.get?_set, has_eq]
      by_cases hk : p.1 = k
      · simp [hk]
      · have : ¬ k = p.1 := fun h => hk h.symm
        simp [hk, this]
    rw [h1, h2]
    cases (p.1 == k) <;> cases d.has k <;> simp

theorem mem_of_get? {κ α : Type} [DecidableEq κ] {d : Dict κ α} {k : κ} {v : α} (h : d.get? k = some v) :
    (k, v) ∈ d := by
  induction d with
  | nil => simp at h
  | cons p d ih =>
    rw [Dict.get?_cons] at h
    split at h
    · rename_i hk
      simp only [Option.some.injEq] at h
      rw [List.mem_cons]; left
      exact Prod.ext hk.symm h.symm
    · exact List.mem_cons_of_mem _ (ih h)

theorem get?_of_mem {κ α : Type} [DecidableEq κ] {d : Dict κ α} (hw : d.Wf) {k : κ} {v : α} (h : (k, v) ∈ d) :
    d.get? k = some v := by
  induction d with
  | nil => simp at h
  | cons p d ih =>
    have hw' : p.1 ∉ Dict.keys d ∧ Dict.Wf d := by simpa [Dict.Wf, Dict.keys] using hw
    rw [Dict.get?_cons]
    rcases List.mem_cons.1 h with rfl | h
    · simp
    · have : p.1 ≠ k := fun e => hw'.1 (by
        simp only [Dict.keys, List.mem_map]; exact ⟨(k, v), h, e.symm⟩)
      simp [this, ih hw'.2 h]

/-! ## Edges -/

/-- What a successful `add_edge` does. -/
theorem addEdge_inv {g g' : LGraph ν V} {u v : ν} {attr : Attr V} {check : Bool}
    (h : g.addEdge u v attr check = .ok g') :
    g.hasNode u = true ∧ g.hasNode v = true ∧ Typed g.edgeTypes g.edgeDefaults ∧
      Typed g.edgeTypes attr ∧ (∀ d ∈ g.edgeData u v, d.isEmpty = false) ∧
      ((∃ d ∈ g.edgeData u v, SameAttr attr d) ∧ g' = g ∨
        (∀ d ∈ g.edgeData u v, ¬ SameAttr attr d) ∧
        (check = true → ∀ k, ((Dict.update [] g.edgeDefaults).update attr).has k = true →
          g.edgeTypes.has k = true) ∧
        g' = { g with edges := g.edges ++ [(u, v, (Dict.update [] g.edgeDefaults).update attr)] }) := by
  simp only [addEdge] at h
  split at h
  · cases h
  · split at h
    · cases h
    · rename_i hu hv
      cases ht : typedAttr g.edgeTypes g.edgeDefaults attr with
      | error e => rw [ht] at h; cases h
      | ok d =>
        obtain ⟨h1, h2, rfl⟩ := typedAttr_inv ht
        simp only [ht, ok_bind] at h
        split at h
        · cases h
        · rename_i hne
          have hne' : ∀ d ∈ g.edgeData u v, d.isEmpty = false := by
            intro d hd
            by_contra hc
            exact hne (List.any_eq_true.2 ⟨d, hd, by simpa using hc⟩)
          refine ⟨by simpa using hu, by simpa using hv, h1, h2, hne', ?_⟩
          split at h
          · rename_i hdup
            cases h
            obtain ⟨d, hd, he⟩ := List.any_eq_true.1 hdup
            exact Or.inl ⟨⟨d, hd, (beqv_iff _ _).1 he⟩, rfl⟩
          · rename_i hdup
            split at h
            · cases h
            · rename_i hun
              cases h
              refine Or.inr ⟨fun d hd hs => hdup (List.any_eq_true.2 ⟨d, hd, (beqv_iff _ _).2 hs⟩),
                fun hc k hk => ?_, rfl⟩
              by_contra hn
              refine hun ?_
              rw [← mem_keys_iff_has] at hk
              simp only [Dict.keys, List.mem_map] at hk
              obtain ⟨p, hp, rfl⟩ := hk
              simp only [untyped, hc, Bool.true_and, List.any_eq_true, Bool.not_eq_true']
              exact ⟨p, hp, by simpa using hn⟩

/-- Every error of `add_edge` has one of these reasons. -/
theorem addEdge_ok {g : LGraph ν V} {u v : ν} {attr : Attr V} {check : Bool}
    (hu : g.hasNode u = true) (hv : g.hasNode v = true) (h1 : Typed g.edgeTypes g.edgeDefaults)
    (h2 : Typed g.edgeTypes attr) (hne : ∀ d ∈ g.edgeData u v, d.isEmpty = false)
    (hc : check = true → ∀ k, ((Dict.update [] g.edgeDefaults).update attr).has k = true →
      g.edgeTypes.has k = true) :
    (∃ d ∈ g.edgeData u v, SameAttr attr d) ∧ g.addEdge u v attr check = .ok g ∨
      (∀ d ∈ g.edgeData u v, ¬ SameAttr attr d) ∧ g.addEdge u v attr check =
        .ok { g with edges := g.edges ++ [(u, v, (Dict.update [] g.edgeDefaults).update attr)] } := by
  have hne' : (g.edgeData u v).any (fun d => d.isEmpty) = false := by
    rw [List.any_eq_false]; intro d hd; simp [hne d hd]
  have hun : untyped g.edgeTypes ((Dict.update [] g.edgeDefaults).update attr) check = false := by
    cases check with
    | false => rfl
    | true =>
      simp only [untyped, Bool.true_and]
      rw [List.any_eq_false]
      intro p hp
      have := hc rfl p.1 ((mem_keys_iff_has _ _).1 (by
        simp only [Dict.keys, List.mem_map]; exact ⟨p, hp, rfl⟩))
      simp [this]
  by_cases hd : ∃ d ∈ g.edgeData u v, SameAttr attr d
  · refine Or.inl ⟨hd, ?_⟩
    have : (g.edgeData u v).any (fun d => attr.beqv d) = true := by
      obtain ⟨d, h3, h4⟩ := hd
      exact List.any_eq_true.2 ⟨d, h3, (beqv_iff _ _).2 h4⟩
    simp [addEdge, hu, hv, typedAttr_ok h1 h2, hne', this]
  · have hd' : ∀ d ∈ g.edgeData u v, ¬ SameAttr attr d := fun d h3 h4 => hd ⟨d, h3, h4⟩
    refine Or.inr ⟨hd', ?_⟩
    have : (g.edgeData u v).any (fun d => attr.beqv d) = false := by
      rw [List.any_eq_false]; intro d h3 h4; exact hd' d h3 ((beqv_iff _ _).1 h4)
    simp [addEdge, hu, hv, typedAttr_ok h1 h2, hne', this, hun]

theorem mem_edgeData {g : LGraph ν V} {u v : ν} {d : Attr V} :
    d ∈ g.edgeData u v ↔ (u, v, d) ∈ g.edges := by
  simp only [edgeData, List.mem_map, List.mem_filter, Bool.and_eq_true, beq_iff_eq]
  constructor
  · rintro ⟨⟨a, b, c⟩, ⟨h1, rfl, rfl⟩, rfl⟩; exact h1
  · intro h; exact ⟨(u, v, d), ⟨h, rfl, rfl⟩, rfl⟩

/-! ## Histories -/

/-- Calls that change a graph. -/
inductive GOp (ν V : Type) where
  | addNode (n : ν) (attr : Attr V) (check : Bool)
  | addNodesFrom (l : List (ν × Attr V)) (check : Bool)
  | addEdge (u v : ν) (attr : Attr V) (check : Bool)
  | addEdgesFrom (l : List (ν × ν × Attr V)) (attr : Attr V) (check : Bool)
  | addComb (us vs : List ν) (attr : Attr V) (check : Bool)
  | addAdj (rows cols : Nat) (entries : List (Nat × Nat)) (states : List ν) (attr : Attr V)
      (check : Bool)
  | removeEdge (u v : ν) (attr : Attr V)
  | removeEdgesFrom (l : List (ν × ν × Attr V)) (attr : Attr V)
  | removeState (n : ν)
  | removeStates (l : List ν)
  | removeDeadends (order : List ν → List ν)
  | addInitial (n : ν)
  | addInitialFrom (l : List ν)
  | removeInitial (n : ν)

/-- The graph after a call that changes nothing if it raises. -/
def orSame (g : LGraph ν V) : Except PyErr (LGraph ν V) → LGraph ν V
  | .ok g' => g'
  | .error _ => g

/-- The graph after a call, whether it raises or not. -/
def call (g : LGraph ν V) : GOp ν V → LGraph ν V
  | .addNode n a c => g.orSame (g.addNode n a c)
  | .addNodesFrom l c => (g.addNodesFrom l c).1
  | .addEdge u v a c => g.orSame (g.addEdge u v a c)
  | .addEdgesFrom l a c => (g.addEdgesFrom l a c).1
  | .addComb us vs a c => (g.addComb us vs a c).1
  | .addAdj r k es ss a c => (g.addAdj r k es ss a c).1
  | .removeEdge u v a => g.removeEdge u v a
  | .removeEdgesFrom l a => g.removeEdgesFrom l a
  | .removeState n => g.orSame (g.removeState n)
  | .removeStates l => (g.removeStates l).1
  | .removeDeadends o => (g.removeDeadends o).1
  | .addInitial n => g.orSame (g.addInitial n)
  | .addInitialFrom l => g.orSame (g.addInitialFrom l)
  | .removeInitial n => g.orSame (g.removeInitial n)

/-- The graph after a history of calls on a graph with the given label types. -/
def run (nodeTypes : Dict String (LabelType V)) (nodeDefaults : Attr V)
    (edgeTypes : Dict String (LabelType V)) (edgeDefaults : Attr V) (ops : List (GOp ν V)) :
    LGraph ν V :=
  ops.foldl call { nodeTypes, nodeDefaults, edgeTypes, edgeDefaults }

/-- The invariant of a graph with fixed label types. -/
structure Ok (g : LGraph ν V) : Prop where
  nodup : g.nodes.Wf
  source : ∀ u v a, (u, v, a) ∈ g.edges → g.hasNode u = true
  target : ∀ u v a, (u, v, a) ∈ g.edges → g.hasNode v = true
  typed : ∀ u v a, (u, v, a) ∈ g.edges → Typed g.edgeTypes a
  defaults : ∀ u v a, (u, v, a) ∈ g.edges → ∀ k, g.edgeDefaults.has k = true → a.has k = true
  wf : ∀ u v a, (u, v, a) ∈ g.edges → a.Wf
  nodeTyped : ∀ n a, g.nodes.get? n = some a → ∀ k v, a.get? k = some v →
    ∀ t, g.nodeTypes.get? k = some t → t.contains v = true
  distinct : g.edgeDefaults = [] →
    g.edges.Pairwise fun e f => ¬ (e.1 = f.1 ∧ e.2.1 = f.2.1 ∧ SameAttr e.2.2 f.2.2)
  initialNodup : g.initial.Nodup
  initial : ∀ n ∈ g.initial, g.hasNode n = true
  noMix : g.edges.Pairwise fun e f => e.1 = f.1 → e.2.1 = f.2.1 → e.2.2 ≠ []
  nodeWf : ∀ n a, g.nodes.get? n = some a → a.Wf

/-- The label types stay. -/
def SameTypes (g g' : LGraph ν V) : Prop :=
  g'.nodeTypes = g.nodeTypes ∧ g'.nodeDefaults = g.nodeDefaults ∧ g'.edgeTypes = g.edgeTypes ∧
    g'.edgeDefaults = g.edgeDefaults

theorem SameTypes.refl (g : LGraph ν V) : SameTypes g g := ⟨rfl, rfl, rfl, rfl⟩

theorem SameTypes.trans {a b c : LGraph ν V} (h : SameTypes a b) (h' : SameTypes b c) :
    SameTypes a c :=
  ⟨h'.1.trans h.1, h'.2.1.trans h.2.1, h'.2.2.1.trans h.2.2.1, h'.2.2.2.trans h.2.2.2⟩

theorem hasNode_addNode {g : LGraph ν V} {n m : ν} {a : Attr V} :
    ({ g with nodes := g.nodes.set n a } : LGraph ν V).hasNode m =
      (decide (n = m) || g.hasNode m) := by
  simp only [hasNode, has_eq, Dict.get?_set]
  by_cases h : n = m
  · simp [h]
  · have : ¬ m = n := fun e => h e.symm
    simp [h, this]

theorem wf_of_typedAttr {a : Attr V} {d : Attr V} : ((Dict.update [] d).update a).Wf := by
  refine Dict.wf_update (Dict.wf_update ?_ _) _
  simp [Dict.Wf, Dict.keys]

theorem get?_typed {types : Dict String (LabelType V)} {d a : Attr V} (h1 : Typed types d)
    (h2 : Typed types a) {k : String} {v : V} (h : ((Dict.update [] d).update a).get? k = some v) :
    ∀ t, types.get? k = some t → t.contains v = true := by
  rcases get?_update_cases _ _ _ _ h with h | h
  · rcases get?_update_cases _ _ _ _ h with h | h
    · simp at h
    · exact h1 _ h
  · exact h2 _ h

theorem typed_update {types : Dict String (LabelType V)} {d a : Attr V} (h1 : Typed types d)
    (h2 : Typed types a) : Typed types ((Dict.update [] d).update a) := by
  intro p hp t ht
  exact get?_typed h1 h2 (get?_of_mem wf_of_typedAttr hp) t ht

theorem addNode_ok {g g' : LGraph ν V} {n : ν} {attr : Attr V} {check : Bool} (hg : g.Ok)
    (h : g.addNode n attr check = .ok g') : SameTypes g g' ∧ g'.Ok := by
  simp only [addNode] at h
  cases ht : typedAttr g.nodeTypes g.nodeDefaults attr with
  | error e => rw [ht] at h; cases h
  | ok d =>
    obtain ⟨h1, h2, rfl⟩ := typedAttr_inv ht
    simp only [ht, ok_bind] at h
    split at h
    · cases h
    · cases h
      have hmono : ∀ (b : Attr V) m, g.hasNode m = true →
          ({ g with nodes := g.nodes.set n b } : LGraph ν V).hasNode m = true := by
        intro b m hm; rw [hasNode_addNode, hm]; simp
      refine ⟨⟨rfl, rfl, rfl, rfl⟩, ⟨Dict.wf_set hg.nodup _ _,
        fun u v a he => hmono _ _ (hg.source u v a he), fun u v a he => hmono _ _ (hg.target u v a he),
        hg.typed, hg.defaults, hg.wf, ?_, hg.distinct, hg.initialNodup,
        fun m hm => hmono _ _ (hg.initial m hm), hg.noMix, ?_⟩⟩
      swap
      · intro m a hm
        simp only [Dict.get?_set] at hm
        split at hm
        · simp only [Option.some.injEq] at hm
          subst hm
          cases hg' : g.nodes.get? n with
          | none =>
            simp only [Option.getD_none]
            exact Dict.wf_update (by simp [Dict.Wf, Dict.keys]) _
          | some b => exact Dict.wf_update (hg.nodeWf n b hg') _
        · exact hg.nodeWf m a hm
      intro m a hm k v hv t hk
      simp only [Dict.get?_set] at hm
      split at hm
      · simp only [Option.some.injEq] at hm
        subst hm
        rcases get?_update_cases _ _ _ _ hv with hv | hv
        · cases hg' : g.nodes.get? n with
          | none => simp [hg'] at hv
          | some b =>
            simp only [hg', Option.getD_some] at hv
            exact hg.nodeTyped n b hg' k v hv t hk
        · exact get?_typed h1 h2 (get?_of_mem wf_of_typedAttr hv) t hk
      · exact hg.nodeTyped m a hm k v hv t hk

/-- Dictionaries given as attributes have distinct keys. -/
theorem sameAttr_update_nil {a : Attr V} (h : a.Wf) : SameAttr (Dict.update [] a) a := by
  intro k
  rw [Dict.get?_update_wf h]
  cases a.get? k <;> rfl

theorem addEdge_keeps {g g' : LGraph ν V} {u v : ν} {attr : Attr V} {check : Bool} (hg : g.Ok)
    (hw : attr.Wf) (h : g.addEdge u v attr check = .ok g') : SameTypes g g' ∧ g'.Ok := by
  obtain ⟨hu, hv, h1, h2, hem, h3⟩ := addEdge_inv h
  rcases h3 with ⟨_, rfl⟩ | ⟨hd, _, rfl⟩
  · exact ⟨SameTypes.refl _, hg⟩
  · refine ⟨⟨rfl, rfl, rfl, rfl⟩, ⟨hg.nodup, ?_, ?_, ?_, ?_, ?_, hg.nodeTyped, ?_, hg.initialNodup,
      hg.initial, ?_, hg.nodeWf⟩⟩
    rotate_right
    · rw [List.pairwise_append]
      refine ⟨hg.noMix, by simp, ?_⟩
      rintro ⟨a, b, c⟩ he f hf e1 e2 e3
      simp only [List.mem_singleton] at hf
      subst hf
      simp only at e1 e2 e3
      subst e1 e2 e3
      exact absurd (hem [] (mem_edgeData.2 he)) (by simp)
    all_goals try simp only [List.mem_append, List.mem_singleton]
    · rintro a b c (he | he)
      · exact hg.source a b c he
      · cases he; exact hu
    · rintro a b c (he | he)
      · exact hg.target a b c he
      · cases he; exact hv
    · rintro a b c (he | he)
      · exact hg.typed a b c he
      · cases he; exact typed_update h1 h2
    · rintro a b c (he | he) k hk
      · exact hg.defaults a b c he k hk
      · cases he
        rw [has_update, has_update]
        have hk' : Dict.has g.edgeDefaults k = true := hk
        simp [hk']
    · rintro a b c (he | he)
      · exact hg.wf a b c he
      · cases he; exact wf_of_typedAttr
    · intro hdef
      have hdef' : g.edgeDefaults = [] := hdef
      rw [List.pairwise_append]
      refine ⟨hg.distinct hdef', by simp, ?_⟩
      rintro ⟨a, b, c⟩ he f hf ⟨e1, e2, e3⟩
      simp only [List.mem_singleton] at hf
      subst hf
      simp only at e1 e2 e3
      subst e1 e2
      refine hd c (mem_edgeData.2 he) fun k => ?_
      rw [e3 k, hdef']
      exact (sameAttr_update_nil hw k).symm

theorem seqM_keeps {α : Type} {f : LGraph ν V → α → Except PyErr (LGraph ν V)} {l : List α}
    (hf : ∀ g x g', x ∈ l → Ok g → f g x = .ok g' → SameTypes g g' ∧ Ok g') {g : LGraph ν V}
    (hg : g.Ok) : SameTypes g (seqM f g l).1 ∧ (seqM f g l).1.Ok := by
  induction l generalizing g with
  | nil => exact ⟨SameTypes.refl _, hg⟩
  | cons x l ih =>
    simp only [seqM]
    split
    · rename_i g' hx
      have h1 := hf g x g' (by simp) hg hx
      have h2 := ih (fun g x g' hm => hf g x g' (by simp [hm])) h1.2
      exact ⟨h1.1.trans h2.1, h2.2⟩
    · exact ⟨SameTypes.refl _, hg⟩

theorem orSame_keeps {g : LGraph ν V} {r : Except PyErr (LGraph ν V)} (hg : g.Ok)
    (h : ∀ g', r = .ok g' → SameTypes g g' ∧ g'.Ok) :
    SameTypes g (g.orSame r) ∧ (g.orSame r).Ok := by
  cases r with
  | ok g' => exact h g' rfl
  | error e => exact ⟨SameTypes.refl _, hg⟩

theorem removeEdge_keeps {g : LGraph ν V} (hg : g.Ok) (u v : ν) (a : Attr V) :
    SameTypes g (g.removeEdge u v a) ∧ (g.removeEdge u v a).Ok := by
  refine ⟨⟨rfl, rfl, rfl, rfl⟩, ⟨hg.nodup, ?_, ?_, ?_, ?_, ?_, hg.nodeTyped, ?_, hg.initialNodup,
    hg.initial, hg.noMix.sublist List.filter_sublist, hg.nodeWf⟩⟩
  · exact fun a b c he => hg.source a b c (List.mem_of_mem_filter he)
  · exact fun a b c he => hg.target a b c (List.mem_of_mem_filter he)
  · exact fun a b c he => hg.typed a b c (List.mem_of_mem_filter he)
  · exact fun a b c he => hg.defaults a b c (List.mem_of_mem_filter he)
  · exact fun a b c he => hg.wf a b c (List.mem_of_mem_filter he)
  · exact fun h => (hg.distinct h).sublist List.filter_sublist

theorem has_filter_key {κ α : Type} [DecidableEq κ] (d : Dict κ α) (n m : κ) :
    Dict.has (d.filter fun p => !(p.1 == n)) m = (Dict.has d m && !(decide (m = n))) := by
  induction d with
  | nil => simp [Dict.has]
  | cons p d ih =>
    have h2 : ∀ (q : κ × α) (e : List (κ × α)), Dict.has (q :: e) m = ((q.1 == m) || Dict.has e m) := by
      intro q e; simp [Dict.has]
    rw [List.filter_cons]
    by_cases hp : p.1 = n
    · simp only [hp, BEq.rfl, Bool.not_true, Bool.false_eq_true, ↓reduceIte]
      rw [ih, h2, hp]
      by_cases hm : m = n
      · simp [hm]
      · have : (n == m) = false := by simpa using fun e => hm e.symm
        rw [this, Bool.false_or]
    · have : (!(p.1 == n)) = true := by simp [hp]
      rw [if_pos this, h2, h2, ih]
      by_cases hm : m = n
      · subst hm; simp [hp]
      · simp [hm]

theorem get?_filter_key {κ α : Type} [DecidableEq κ] (d : Dict κ α) (n m : κ) :
    Dict.get? (d.filter fun p => !(p.1 == n)) m = if m = n then none else d.get? m := by
  induction d with
  | nil => simp
  | cons p d ih =>
    rw [List.filter_cons]
    by_cases hp : p.1 = n
    · simp only [hp, BEq.rfl, Bool.not_true, Bool.false_eq_true, ↓reduceIte]
      rw [ih, Dict.get?_cons]
      by_cases hm : m = n
      · simp [hm]
      · have : ¬ n = m := fun e => hm e.symm
        simp [hm, hp, this]
    · have : (!(p.1 == n)) = true := by simp [hp]
      rw [if_pos this, Dict.get?_cons, Dict.get?_cons, ih]
      by_cases hm : m = n
      · subst hm; simp [hp]
      · simp [hm]

/-- The graph without a node. -/
theorem removeState_inv {g g' : LGraph ν V} {n : ν} (h : g.removeState n = .ok g') :
    g.hasNode n = true ∧ g' = { g with
      nodes := g.nodes.filter fun p => !(p.1 == n)
      edges := g.edges.filter fun e => !(e.1 == n || e.2.1 == n)
      initial := g.initial.erase n } := by
  have hi : (if n ∈ g.initial then g.initial.erase n else g.initial) = g.initial.erase n := by
    split
    · rfl
    · rename_i hi; rw [List.erase_of_not_mem hi]
  simp only [removeState, removeNode, hi] at h
  split at h
  · rename_i hn
    exact ⟨hn, by cases h; rfl⟩
  · cases h

theorem removeState_keeps {g g' : LGraph ν V} {n : ν} (hg : g.Ok)
    (h : g.removeState n = .ok g') : SameTypes g g' ∧ g'.Ok := by
  obtain ⟨hn, rfl⟩ := removeState_inv h
  have hh : ∀ m, m ≠ n → g.hasNode m = true →
      Dict.has (g.nodes.filter fun p => !(p.1 == n)) m = true := by
    intro m hm h1
    rw [has_filter_key]
    have : Dict.has g.nodes m = true := h1
    simp [this, hm]
  refine ⟨⟨rfl, rfl, rfl, rfl⟩, ⟨?_, ?_, ?_, ?_, ?_, ?_, ?_, ?_, ?_, ?_, ?_, ?_⟩⟩
  · exact List.Nodup.sublist (List.Sublist.map _ List.filter_sublist) hg.nodup
  · intro a b c he
    simp only [List.mem_filter, Bool.not_eq_true', Bool.or_eq_false_iff, beq_eq_false_iff_ne] at he
    exact hh a he.2.1 (hg.source a b c he.1)
  · intro a b c he
    simp only [List.mem_filter, Bool.not_eq_true', Bool.or_eq_false_iff, beq_eq_false_iff_ne] at he
    exact hh b he.2.2 (hg.target a b c he.1)
  · exact fun a b c he => hg.typed a b c (List.mem_of_mem_filter he)
  · exact fun a b c he => hg.defaults a b c (List.mem_of_mem_filter he)
  · exact fun a b c he => hg.wf a b c (List.mem_of_mem_filter he)
  · intro m a hm
    simp only [get?_filter_key] at hm
    split at hm
    · cases hm
    · exact hg.nodeTyped m a hm
  · exact fun h => (hg.distinct h).sublist List.filter_sublist
  · exact hg.initialNodup.erase n
  · intro m hm
    rw [hg.initialNodup.mem_erase_iff] at hm
    exact hh m hm.1 (hg.initial m hm.2)
  · exact hg.noMix.sublist List.filter_sublist
  · intro m a hm
    simp only [get?_filter_key] at hm
    split at hm
    · cases hm
    · exact hg.nodeWf m a hm

theorem removeStates_keeps {g : LGraph ν V} (hg : g.Ok) (l : List ν) :
    SameTypes g (g.removeStates l).1 ∧ (g.removeStates l).1.Ok :=
  seqM_keeps (fun _ _ _ _ hg h => removeState_keeps hg h) hg

theorem removeDeadends_keeps {g : LGraph ν V} (hg : g.Ok) (order : List ν → List ν) :
    SameTypes g (g.removeDeadends order).1 ∧ (g.removeDeadends order).1.Ok := by
  have key : ∀ (n : Nat) (g : LGraph ν V), g.Ok →
      SameTypes g (removeDeadendsLoop order n g).1 ∧ (removeDeadendsLoop order n g).1.Ok := by
    intro n
    induction n with
    | zero => intro g hg; exact ⟨SameTypes.refl _, hg⟩
    | succ n ih =>
      intro g hg
      simp only [removeDeadendsLoop]
      split
      · exact ⟨SameTypes.refl _, hg⟩
      · have h1 := removeStates_keeps hg (order g.deadends)
        split
        · rename_i g' e he; rw [he] at h1; exact h1
        · rename_i g' he
          rw [he] at h1
          have h2 := ih g' h1.2
          exact ⟨h1.1.trans h2.1, h2.2⟩
  have h1 := key (g.nodes.length + 1) g hg
  simp only [removeDeadends]
  split
  · rename_i g' e he; rw [he] at h1; exact h1
  · rename_i g' he
    rw [he] at h1
    split <;> exact h1

theorem nodup_uniqueLoop' (acc l : List ν) (h : acc.Nodup) : (uniqueLoop acc l).Nodup :=
  nodup_uniqueLoop acc l h

/-- Attributes passed to a call are dictionaries. -/
def GOp.Wf : GOp ν V → Prop
  | .addEdge _ _ a _ => Dict.Wf a
  | .addEdgesFrom _ a _ => Dict.Wf a
  | .addComb _ _ a _ => Dict.Wf a
  | .addAdj _ _ _ _ a _ => Dict.Wf a
  | _ => True

theorem call_keeps {g : LGraph ν V} (hg : g.Ok) {op : GOp ν V} (hw : op.Wf) :
    SameTypes g (g.call op) ∧ (g.call op).Ok := by
  cases op with
  | addNode n a c => exact orSame_keeps hg fun g' h => addNode_ok hg h
  | addNodesFrom l c => exact seqM_keeps (fun _ _ _ _ hg h => addNode_ok hg h) hg
  | addEdge u v a c => exact orSame_keeps hg fun g' h => addEdge_keeps hg hw h
  | addEdgesFrom l a c =>
    exact seqM_keeps (fun _ _ _ _ hg h => addEdge_keeps hg (Dict.wf_update hw _) h) hg
  | addComb us vs a c => exact seqM_keeps (fun _ _ _ _ hg h => addEdge_keeps hg hw h) hg
  | addAdj r k es ss a c =>
    simp only [call, addAdj]
    split
    · exact ⟨SameTypes.refl _, hg⟩
    · split
      · exact ⟨SameTypes.refl _, hg⟩
      · refine seqM_keeps (fun g x g' _ hg h => ?_) hg
        split at h
        · exact addEdge_keeps hg hw h
        · cases h
  | removeEdge u v a => exact removeEdge_keeps hg u v a
  | removeEdgesFrom l a =>
    simp only [call, removeEdgesFrom]
    clear hw
    induction l generalizing g with
    | nil => exact ⟨SameTypes.refl _, hg⟩
    | cons e l ih =>
      have h1 := removeEdge_keeps hg e.1 e.2.1 (a.update e.2.2)
      have h2 := ih h1.2
      exact ⟨h1.1.trans h2.1, h2.2⟩
  | removeState n => exact orSame_keeps hg fun g' h => removeState_keeps hg h
  | removeStates l => exact removeStates_keeps hg l
  | removeDeadends o => exact removeDeadends_keeps hg o
  | addInitial n =>
    refine orSame_keeps hg fun g' h => ?_
    simp only [addInitial] at h
    split at h
    · rename_i hn
      cases h
      refine ⟨⟨rfl, rfl, rfl, rfl⟩, ⟨hg.nodup, hg.source, hg.target, hg.typed, hg.defaults, hg.wf,
        hg.nodeTyped, hg.distinct, nodup_uniqueLoop _ _ hg.initialNodup, ?_, hg.noMix, hg.nodeWf⟩⟩
      intro m hm
      simp only [mem_uniqueLoop, List.mem_singleton] at hm
      rcases hm with hm | rfl
      · exact hg.initial m hm
      · exact hn
    · cases h
  | addInitialFrom l =>
    refine orSame_keeps hg fun g' h => ?_
    simp only [addInitialFrom] at h
    split at h
    · rename_i hn
      rw [List.all_eq_true] at hn
      cases h
      refine ⟨⟨rfl, rfl, rfl, rfl⟩, ⟨hg.nodup, hg.source, hg.target, hg.typed, hg.defaults, hg.wf,
        hg.nodeTyped, hg.distinct, nodup_uniqueLoop _ _ hg.initialNodup, ?_, hg.noMix, hg.nodeWf⟩⟩
      intro m hm
      simp only [mem_uniqueLoop] at hm
      rcases hm with hm | hm
      · exact hg.initial m hm
      · exact hn m hm
    · cases h
  | removeInitial n =>
    refine orSame_keeps hg fun g' h => ?_
    simp only [removeInitial] at h
    split at h
    · cases h
      exact ⟨⟨rfl, rfl, rfl, rfl⟩, ⟨hg.nodup, hg.source, hg.target, hg.typed, hg.defaults, hg.wf,
        hg.nodeTyped, hg.distinct, hg.initialNodup.erase n,
        fun m hm => hg.initial m (List.mem_of_mem_erase hm), hg.noMix, hg.nodeWf⟩⟩
    · cases h

theorem run_ok (nt : Dict String (LabelType V)) (nd : Attr V) (et : Dict String (LabelType V))
    (ed : Attr V) {ops : List (GOp ν V)} (hops : ∀ op ∈ ops, op.Wf) :
    (run nt nd et ed ops).nodeTypes = nt ∧ (run nt nd et ed ops).edgeTypes = et ∧
      (run nt nd et ed ops).edgeDefaults = ed ∧ (run nt nd et ed ops).Ok := by
  have key : ∀ (ops : List (GOp ν V)) (g : LGraph ν V), (∀ op ∈ ops, op.Wf) → g.Ok →
      SameTypes g (ops.foldl call g) ∧ (ops.foldl call g).Ok := by
    intro ops
    induction ops with
    | nil => intro g _ hg; exact ⟨SameTypes.refl _, hg⟩
    | cons op ops ih =>
      intro g hw hg
      have h1 := call_keeps hg (hw op (by simp))
      have h2 := ih _ (fun o ho => hw o (by simp [ho])) h1.2
      exact ⟨h1.1.trans h2.1, h2.2⟩
  have h := key ops { nodeTypes := nt, nodeDefaults := nd, edgeTypes := et, edgeDefaults := ed } hops
    ⟨by simp [Dict.Wf, Dict.keys], by simp, by simp, by simp, by simp, by simp, by simp, by simp,
      by simp, by simp, by simp, by simp⟩
  exact ⟨h.1.1, h.1.2.2.1, h.1.2.2.2, h.2⟩

/-- **C06.** After any history of calls: the endpoints of edges are nodes, labels have allowed
values, and, for types without default edge labels, no two edges between the same states have the
same label (so that there is at most one unlabeled edge). An edge added between two states after an
unlabeled one between them is rejected, so an unlabeled edge is the last between its states. -/
theorem graph_invariant (nt : Dict String (LabelType V)) (nd : Attr V)
    (et : Dict String (LabelType V)) (ed : Attr V) (ops : List (GOp ν V))
    (hops : ∀ op ∈ ops, op.Wf) :
    let g := run nt nd et ed ops
    (∀ u v a, (u, v, a) ∈ g.edges → g.hasNode u = true ∧ g.hasNode v = true ∧
      ∀ k w t, a.get? k = some w → et.get? k = some t → t.contains w = true) ∧
    (∀ n a, g.nodes.get? n = some a → ∀ k w t, a.get? k = some w → nt.get? k = some t →
      t.contains w = true) ∧
    (g.nodes.map (·.1)).Nodup ∧
    (ed = [] → g.edges.Pairwise fun e f =>
      ¬ (e.1 = f.1 ∧ e.2.1 = f.2.1 ∧ ∀ k, e.2.2.get? k = f.2.2.get? k)) ∧
    (g.edges.Pairwise fun e f => e.1 = f.1 → e.2.1 = f.2.1 → e.2.2 ≠ []) := by
  obtain ⟨h1, h2, h3, h⟩ := run_ok nt nd et ed hops
  refine ⟨fun u v a he => ⟨h.source u v a he, h.target u v a he, fun k w t hk ht => ?_⟩,
    fun n a hn k w t hk ht => ?_, h.nodup, fun hd => h.distinct (h3.trans hd), h.noMix⟩
  · exact h.typed u v a he (k, w) (mem_of_get? hk) t (by rw [h2]; exact ht)
  · exact h.nodeTyped n a hn k w hk t (by rw [h1]; exact ht)

/-- **C06.** A call that raises leaves the graph as it was, and one that adds an edge adds exactly
that edge: if the endpoints are states, the values are allowed, no unlabeled edge joins these states
and the attributes are typed, the call succeeds and either the same labeled edge existed and nothing
changes, or the edge is appended; in all other cases the call raises. -/
theorem addEdge_spec (g : LGraph ν V) (u v : ν) (attr : Attr V) (hd : Typed g.edgeTypes g.edgeDefaults)
    (hdt : ∀ k, g.edgeDefaults.has k = true → g.edgeTypes.has k = true) :
    let accepted := g.hasNode u = true ∧ g.hasNode v = true ∧ Typed g.edgeTypes attr ∧
      ¬ (∃ a, (u, v, a) ∈ g.edges ∧ a = []) ∧
      ((∀ k, attr.has k = true → g.edgeTypes.has k = true) ∨
        ∃ a, (u, v, a) ∈ g.edges ∧ SameAttr attr a)
    (accepted → ∃ g', g.addEdge u v attr = .ok g' ∧
      ((∃ a, (u, v, a) ∈ g.edges ∧ SameAttr attr a) ∧ g' = g ∨
        (¬ ∃ a, (u, v, a) ∈ g.edges ∧ SameAttr attr a) ∧
          g' = { g with edges := g.edges ++ [(u, v, (Dict.update [] g.edgeDefaults).update attr)] })) ∧
    (¬ accepted → ∃ e, g.addEdge u v attr = .error e) := by
  intro accepted
  constructor
  · rintro ⟨hu, hv, ht, hne, hk⟩
    have hne' : ∀ d ∈ g.edgeData u v, d.isEmpty = false := by
      intro d hm
      by_contra hc
      exact hne ⟨d, mem_edgeData.1 hm, by simpa using hc⟩
    have hk' : ((∀ k, attr.has k = true → g.edgeTypes.has k = true)) →
        ∀ k, ((Dict.update [] g.edgeDefaults).update attr).has k = true →
          g.edgeTypes.has k = true := by
      intro hk k hh
      rw [has_update, has_update] at hh
      simp only [Bool.or_eq_true] at hh
      rcases hh with (hh | hh) | hh
      · simp [Dict.has] at hh
      · exact hdt k hh
      · exact hk k hh
    by_cases hdup : ∃ a, (u, v, a) ∈ g.edges ∧ SameAttr attr a
    · refine ⟨g, ?_, Or.inl ⟨hdup, rfl⟩⟩
      obtain ⟨a, ha, hs⟩ := hdup
      have h1 : (g.edgeData u v).any (fun d => d.isEmpty) = false := by
        rw [List.any_eq_false]; intro d hd; simp [hne' d hd]
      have h2 : (g.edgeData u v).any (fun d => attr.beqv d) = true :=
        List.any_eq_true.2 ⟨a, mem_edgeData.2 ha, (beqv_iff _ _).2 hs⟩
      simp [addEdge, hu, hv, typedAttr_ok hd ht, h1, h2]
    · have hk := hk.resolve_right hdup
      rcases addEdge_ok hu hv hd ht hne' (fun _ => hk' hk) with ⟨⟨d, h1, h2⟩, _⟩ | ⟨_, h2⟩
      · exact absurd ⟨d, mem_edgeData.1 h1, h2⟩ hdup
      · exact ⟨_, h2, Or.inr ⟨hdup, rfl⟩⟩
  · intro hn
    cases h : g.addEdge u v attr with
    | error e => exact ⟨e, rfl⟩
    | ok g' =>
      exfalso
      obtain ⟨h1, h2, h3, h4, h5, h6⟩ := addEdge_inv h
      refine hn ⟨h1, h2, h4, ?_, ?_⟩
      · rintro ⟨a, ha, rfl⟩
        have := h5 [] (mem_edgeData.2 ha)
        simp at this
      · rcases h6 with ⟨⟨d, h7, h8⟩, _⟩ | ⟨_, h7, _⟩
        · exact Or.inr ⟨d, mem_edgeData.1 h7, h8⟩
        · refine Or.inl fun k hk => h7 rfl k ?_
          rw [has_update, hk]; simp

/-- With default labels the same call made twice adds two identical edges. -/
theorem addEdge_default_counterexample :
    let g : LGraph Nat Nat := run [] [] [("cost", ⟨fun _ => true, none⟩)] [("cost", 1)]
      [.addNode 0 [] true, .addEdge 0 0 [] true, .addEdge 0 0 [] true]
    g.edges = [(0, 0, [("cost", 1)]), (0, 0, [("cost", 1)])] := by
  decide +kernel

/-- An unlabeled edge can be added beside labeled ones (not the other way round). -/
theorem addEdge_mixed_counterexample :
    let g : LGraph Nat Nat := run [] [] [("a", ⟨fun _ => true, none⟩)] []
      [.addNode 0 [] true, .addEdge 0 0 [("a", 1)] true, .addEdge 0 0 [] true]
    g.edges = [(0, 0, [("a", 1)]), (0, 0, [])] := by
  decide +kernel

/-- Adding an existing state again resets its labels to the defaults. -/
theorem addNode_reset_counterexample :
    let g : LGraph Nat Nat := run [("ap", ⟨fun _ => true, none⟩)] [("ap", 0)] [] []
      [.addNode 0 [("ap", 7)] true, .addNode 0 [] true]
    g.nodes = [(0, [("ap", 0)])] := by
  decide +kernel

/-- Non-vacuity of `graph_invariant`. -/
example : (run (ν := Nat) (V := Nat) [] [] [("a", ⟨fun x => x < 5, none⟩)] []
    [.addNodesFrom [(0, []), (1, [])] true, .addEdge 0 1 [("a", 1)] true,
      .addEdge 0 1 [("a", 9)] true, .addEdge 0 2 [] true, .addInitial 1, .addEdge 1 0 [] true,
      .removeState 0]).edges = [] ∧
  (run (ν := Nat) (V := Nat) [] [] [("a", ⟨fun x => x < 5, none⟩)] []
    [.addNodesFrom [(0, []), (1, [])] true, .addEdge 0 1 [("a", 1)] true,
      .addEdge 0 1 [("a", 9)] true, .addEdge 0 1 [("a", 2)] true]).edges.length = 2 := by
  decide +kernel

/-- **C07.** After any history of calls every initial state is a state, listed once, and
`states.post()` returns the initial states. -/
theorem initial_states (nt : Dict String (LabelType V)) (nd : Attr V)
    (et : Dict String (LabelType V)) (ed : Attr V) (ops : List (GOp ν V))
    (hops : ∀ op ∈ ops, op.Wf) :
    let g := run nt nd et ed ops
    (∀ n ∈ g.initial, g.hasNode n = true) ∧ g.initial.Nodup ∧ g.post none = .ok g.initial := by
  obtain ⟨_, _, _, h⟩ := run_ok nt nd et ed hops
  exact ⟨h.initial, h.initialNodup, rfl⟩

/-- **C07.** What the calls on initial states do. -/
theorem addInitial_spec (g : LGraph ν V) (n : ν) :
    (g.hasNode n = true → ∃ g', g.addInitial n = .ok g' ∧
      (∀ m, m ∈ g'.initial ↔ m = n ∨ m ∈ g.initial) ∧ g'.nodes = g.nodes ∧ g'.edges = g.edges) ∧
    (g.hasNode n = false → g.addInitial n = .error .valueError) := by
  constructor
  · intro h
    refine ⟨{ g with initial := uniqueLoop g.initial [n] }, by simp [addInitial, h], fun m => ?_, rfl, rfl⟩
    simp only [mem_uniqueLoop, List.mem_singleton, or_comm]
  · intro h; simp [addInitial, h]

/-- `remove_node`, inherited from networkx, leaves the removed state among the initial ones. -/
theorem removeNode_initial_counterexample :
    let g : LGraph Nat Nat := run [] [] [] [] [.addNode 0 [] true, .addInitial 0]
    ∃ g', g.removeNode 0 = .ok g' ∧ g'.initial = [0] ∧ g'.hasNode 0 = false :=
  ⟨_, rfl, by decide +kernel, by decide +kernel⟩

/-- **C11.** Removal removes exactly the edges between the two states whose attributes equal the
given ones. -/
theorem removeEdge_spec (g : LGraph ν V) (u v : ν) (attr : Attr V) :
    (∀ a b d, (a, b, d) ∈ (g.removeEdge u v attr).edges ↔
      (a, b, d) ∈ g.edges ∧ ¬ (a = u ∧ b = v ∧ SameAttr d attr)) ∧
    (g.removeEdge u v attr).edges.Sublist g.edges ∧
    (g.removeEdge u v attr).nodes = g.nodes ∧ (g.removeEdge u v attr).initial = g.initial := by
  refine ⟨fun a b d => ?_, List.filter_sublist, rfl, rfl⟩
  simp only [removeEdge, List.mem_filter]
  refine and_congr Iff.rfl ?_
  rw [Bool.not_eq_true', ← Bool.not_eq_true, Bool.and_eq_true, Bool.and_eq_true, beqv_iff]
  simp only [beq_iff_eq, and_assoc]
  rfl

/-- Without attributes only unlabeled edges are removed, although all edges between the two states
should be. -/
theorem removeEdge_all_counterexample :
    let g : LGraph Nat Nat := run [] [] [("a", ⟨fun _ => true, none⟩)] []
      [.addNode 0 [] true, .addEdge 0 0 [("a", 1)] true]
    (g.removeEdge 0 0 []).edges = [(0, 0, [("a", 1)])] := by
  decide +kernel

/-- **C11.** Removing a state removes it, its edges and its mark as initial, and nothing else. -/
theorem removeState_spec {g : LGraph ν V} (hg : g.Ok) (n : ν) :
    (g.hasNode n = true → ∃ g', g.removeState n = .ok g' ∧
      (∀ m, g'.hasNode m = true ↔ g.hasNode m = true ∧ m ≠ n) ∧
      (∀ m, m ∈ g'.initial ↔ m ∈ g.initial ∧ m ≠ n) ∧
      (∀ a b d, (a, b, d) ∈ g'.edges ↔ (a, b, d) ∈ g.edges ∧ a ≠ n ∧ b ≠ n)) ∧
    (g.hasNode n = false → ∃ e, g.removeState n = .error e) := by
  constructor
  · intro hn
    have h : ∃ g', g.removeState n = .ok g' := by
      simp only [removeState, removeNode]
      have : ({ g with initial := if n ∈ g.initial then g.initial.erase n else g.initial } :
        LGraph ν V).hasNode n = true := hn
      rw [if_pos this]
      exact ⟨_, rfl⟩
    obtain ⟨g', h⟩ := h
    obtain ⟨_, rfl⟩ := removeState_inv h
    refine ⟨_, h, fun m => ?_, fun m => ?_, fun a b d => ?_⟩
    · simp only [hasNode, has_filter_key]; simp
    · simp only [hg.initialNodup.mem_erase_iff]; exact and_comm
    · simp [List.mem_filter]
  · intro hn
    refine ⟨.exception, ?_⟩
    simp only [removeState, removeNode]
    have : ({ g with initial := if n ∈ g.initial then g.initial.erase n else g.initial } :
      LGraph ν V).hasNode n = false := hn
    rw [this]; rfl

/-! ## C12 -/

/-- There is an edge with this label. -/
def HasEdge (g : LGraph ν V) (u v : ν) (a : Attr V) : Prop :=
  ∃ b, (u, v, b) ∈ g.edges ∧ SameAttr b a

/-- The label stored for the attributes of a call: the defaults, overridden by the attributes. -/
def Stored (g : LGraph ν V) (attr a : Attr V) : Prop :=
  ∀ k, a.get? k = (attr.get? k).or (g.edgeDefaults.get? k)

theorem stored_typed {g : LGraph ν V} {attr : Attr V} (hw : attr.Wf) (hd : g.edgeDefaults.Wf) :
    Stored g attr ((Dict.update [] g.edgeDefaults).update attr) := by
  intro k
  rw [Dict.get?_update_wf hw, Dict.get?_update_wf hd]
  cases attr.get? k <;> cases g.edgeDefaults.get? k <;> rfl

/-- **C12.** Shape and states are checked before anything is added. -/
theorem addAdj_rejects (g : LGraph ν V) (rows cols : Nat) (entries : List (Nat × Nat))
    (states : List ν) (attr : Attr V)
    (h : rows ≠ cols ∨ ∃ s ∈ states, g.hasNode s = false) :
    g.addAdj rows cols entries states attr = (g, some .valueError) := by
  simp only [addAdj]
  by_cases hr : rows = cols
  · obtain ⟨s, hs, hn⟩ := h.resolve_left (fun h => h hr)
    have : states.all g.hasNode = false := by
      rw [List.all_eq_false]; exact ⟨s, hs, by simp [hn]⟩
    simp [hr, this]
  · simp [hr]

/-- **C12.** With a square matrix, distinct states of the graph, an admissible label and no
unlabeled edges between these states, `add_adj` succeeds; afterwards the edges are the earlier ones
and one with the given label from `states[i]` to `states[j]` for each entry `(i, j)`. -/
theorem addAdj_spec {g : LGraph ν V} (hg : g.Ok) (hdw : g.edgeDefaults.Wf)
    (hd : Typed g.edgeTypes g.edgeDefaults)
    (hdt : ∀ k, g.edgeDefaults.has k = true → g.edgeTypes.has k = true)
    {n : Nat} {entries : List (Nat × Nat)} {states : List ν} {attr : Attr V}
    (hs : ∀ s ∈ states, g.hasNode s = true) (hsn : states.Nodup)
    (hen : entries.Nodup) (hei : ∀ p ∈ entries, p.1 < states.length ∧ p.2 < states.length)
    (hw : attr.Wf) (ha : Typed g.edgeTypes attr)
    (hk : ∀ k, attr.has k = true → g.edgeTypes.has k = true)
    (hne : ∀ u ∈ states, ∀ v ∈ states, (u, v, []) ∉ g.edges) {a : Attr V} (hst : Stored g attr a) :
    ∃ g', g.addAdj n n entries states attr = (g', none) ∧ SameTypes g g' ∧ g'.nodes = g.nodes ∧
      g'.initial = g.initial ∧
      ∀ u v b, HasEdge g' u v b ↔ HasEdge g u v b ∨
        SameAttr b a ∧ ∃ i j, (i, j) ∈ entries ∧ states[i]? = some u ∧ states[j]? = some v := by
  have hall : states.all g.hasNode = true := List.all_eq_true.2 hs
  simp only [addAdj, bne_self_eq_false, Bool.false_eq_true, ↓reduceIte, hall, Bool.not_true]
  -- the loop: unlabeled edges between the remaining pairs are absent
  have key : ∀ (l : List (Nat × Nat)) (h : LGraph ν V), h.Ok → SameTypes g h →
      h.nodes = g.nodes → h.initial = g.initial → l.Nodup →
      (∀ p ∈ l, p.1 < states.length ∧ p.2 < states.length) →
      (∀ i j u v, (i, j) ∈ l → states[i]? = some u → states[j]? = some v → (u, v, []) ∉ h.edges) →
      ∃ g', seqM (fun g e => match states[e.1]?, states[e.2]? with
        | some u, some v => g.addEdge u v attr true
        | _, _ => .error .indexError) h l = (g', none) ∧ SameTypes g g' ∧ g'.nodes = g.nodes ∧
          g'.initial = g.initial ∧ ∀ u v b, HasEdge g' u v b ↔ HasEdge h u v b ∨
        SameAttr b a ∧ ∃ i j, (i, j) ∈ l ∧ states[i]? = some u ∧ states[j]? = some v := by
    intro l
    induction l with
    | nil => intro h _ h1 h2 h3 _ _ _; exact ⟨h, rfl, h1, h2, h3, by simp⟩
    | cons p l ih =>
      intro h hok h1 h2 h3 hnd hix hnl
      obtain ⟨i, j⟩ := p
      obtain ⟨hi, hj⟩ := hix (i, j) (by simp)
      rw [List.nodup_cons] at hnd
      have ei : states[i]? = some states[i] := List.getElem?_eq_getElem hi
      have ej : states[j]? = some states[j] := List.getElem?_eq_getElem hj
      have hhas : ∀ m, h.hasNode m = g.hasNode m := fun m => by simp only [hasNode, h2]
      have hu : h.hasNode states[i] = true := by rw [hhas]; exact hs _ (List.getElem_mem hi)
      have hv : h.hasNode states[j] = true := by rw [hhas]; exact hs _ (List.getElem_mem hj)
      have hne' : ∀ d ∈ h.edgeData states[i] states[j], d.isEmpty = false := by
        intro d hm
        rw [mem_edgeData] at hm
        by_contra hc
        have : d = [] := by simpa using hc
        exact hnl i j _ _ (by simp) ei ej (this ▸ hm)
      have hd' : Typed h.edgeTypes h.edgeDefaults := by rw [h1.2.2.1, h1.2.2.2]; exact hd
      have ha' : Typed h.edgeTypes attr := by rw [h1.2.2.1]; exact ha
      have hk' : ∀ k, ((Dict.update [] h.edgeDefaults).update attr).has k = true →
          h.edgeTypes.has k = true := by
        intro k hh
        rw [has_update, has_update, h1.2.2.2] at hh
        rw [h1.2.2.1]
        simp only [Bool.or_eq_true] at hh
        rcases hh with (hh | hh) | hh
        · simp [Dict.has] at hh
        · exact hdt k hh
        · exact hk k hh
      have hstored : SameAttr ((Dict.update [] h.edgeDefaults).update attr) a := by
        intro k
        rw [hst k, stored_typed hw (by rw [h1.2.2.2]; exact hdw) k, h1.2.2.2]
      rcases addEdge_ok (check := true) hu hv hd' ha' hne' (fun _ => hk') with
        ⟨⟨d, hdm, hds⟩, he⟩ | ⟨hno, he⟩
      · -- the same edge exists
        obtain ⟨g', r1, r2, r3, r4, r5⟩ := ih h hok h1 h2 h3 hnd.2
          (fun p hp => hix p (by simp [hp])) (fun i j u v hp => hnl i j u v (by simp [hp]))
        refine ⟨g', by simp only [seqM, ei, ej, he]; exact r1, r2, r3, r4, fun u v b => ?_⟩
        rw [r5]
        have hd2 : SameAttr d a := by
          intro k
          have hx := hok.defaults _ _ _ (mem_edgeData.1 hdm) k
          rw [hst k, ← hds k]
          cases hak : attr.get? k with
          | some w => rfl
          | none =>
            cases hdk : g.edgeDefaults.get? k with
            | none => rfl
            | some w =>
              have h5 : d.has k = true := hx (by rw [has_eq, h1.2.2.2, hdk]; rfl)
              rw [has_eq, ← hds k, hak] at h5; simp at h5
        constructor
        · rintro (h4 | ⟨h4, i', j', h5, h6⟩)
          · exact Or.inl h4
          · exact Or.inr ⟨h4, i', j', by simp [h5], h6⟩
        · rintro (h4 | ⟨h4, i', j', h5, h6, h7⟩)
          · exact Or.inl h4
          · rcases List.mem_cons.1 h5 with h5 | h5
            · cases h5
              rw [ei] at h6; rw [ej] at h7
              cases h6; cases h7
              exact Or.inl ⟨d, mem_edgeData.1 hdm, fun k => (hd2 k).trans (h4 k).symm⟩
            · exact Or.inr ⟨h4, i', j', h5, h6, h7⟩
      · have hok' := addEdge_keeps hok hw he
        obtain ⟨g', r1, r2, r3, r4, r5⟩ := ih _ hok'.2 (h1.trans hok'.1) h2 h3 hnd.2
          (fun p hp => hix p (by simp [hp])) (fun i' j' u v hp e1 e2 hm => by
            rcases List.mem_append.1 hm with hm | hm
            · exact hnl i' j' u v (by simp [hp]) e1 e2 hm
            · rw [List.mem_singleton] at hm
              simp only [Prod.mk.injEq] at hm
              have hi' : i' = i := by
                have h6 := (hix (i', j') (by simp [hp])).1
                rw [List.getElem?_eq_getElem h6, Option.some.injEq] at e1
                exact (List.Nodup.getElem_inj_iff hsn).1 (e1.trans hm.1)
              have hj' : j' = j := by
                have h6 := (hix (i', j') (by simp [hp])).2
                rw [List.getElem?_eq_getElem h6, Option.some.injEq] at e2
                exact (List.Nodup.getElem_inj_iff hsn).1 (e2.trans hm.2.1)
              subst hi' hj'
              exact hnd.1 hp)
        refine ⟨g', by simp only [seqM, ei, ej, he]; exact r1, r2, r3, r4, fun u v b => ?_⟩
        rw [r5]
        have hnew : HasEdge ({ h with edges := h.edges ++ [(states[i], states[j],
            (Dict.update [] h.edgeDefaults).update attr)] } : LGraph ν V) u v b ↔
            HasEdge h u v b ∨ u = states[i] ∧ v = states[j] ∧ SameAttr b a := by
          simp only [HasEdge, List.mem_append, List.mem_singleton, Prod.mk.injEq]
          constructor
          · rintro ⟨c, h4 | ⟨rfl, rfl, rfl⟩, h5⟩
            · exact Or.inl ⟨c, h4, h5⟩
            · exact Or.inr ⟨rfl, rfl, fun k => (h5 k).symm.trans (hstored k)⟩
          · rintro (⟨c, h4, h5⟩ | ⟨rfl, rfl, h5⟩)
            · exact ⟨c, Or.inl h4, h5⟩
            · exact ⟨_, Or.inr ⟨rfl, rfl, rfl⟩, fun k => (hstored k).trans (h5 k).symm⟩
        rw [hnew]
        constructor
        · rintro ((h4 | ⟨rfl, rfl, h4⟩) | ⟨h4, i', j', h5, h6⟩)
          · exact Or.inl h4
          · exact Or.inr ⟨h4, i, j, by simp, ei, ej⟩
          · exact Or.inr ⟨h4, i', j', by simp [h5], h6⟩
        · rintro (h4 | ⟨h4, i', j', h5, h6, h7⟩)
          · exact Or.inl (Or.inl h4)
          · rcases List.mem_cons.1 h5 with h5 | h5
            · cases h5
              rw [ei] at h6; rw [ej] at h7
              cases h6; cases h7
              exact Or.inl (Or.inr ⟨rfl, rfl, h4⟩)
            · exact Or.inr ⟨h4, i', j', h5, h6, h7⟩
  exact key entries g hg (SameTypes.refl g) rfl rfl hen hei
    (fun i j u v _ e1 e2 => hne u (List.mem_of_getElem? e1) v (List.mem_of_getElem? e2))

/-- With a dictionary from indices to states, the *indices* are looked up among the states, so that
a correct call is rejected. -/
theorem addAdj_dict_counterexample :
    let g : LGraph Nat Nat := run [] [] [] [] [.addNodesFrom [(10, []), (11, [])] true]
    (g.addAdjDict 2 2 [(0, 1)] [(0, 10), (1, 11)] []).2 = some .valueError ∧
      (g.addAdj 2 2 [(0, 1)] [10, 11] []).1.edges = [(10, 11, [])] := by
  decide +kernel

end LGraph

end Tulip
