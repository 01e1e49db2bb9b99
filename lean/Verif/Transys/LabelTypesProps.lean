import Verif.Transys.LabelTypes
import Verif.Transys.GraphProps

/-!
# C118: declarations of label types
-/

namespace Tulip
namespace Ltype

open LGraph

set_option linter.unusedSectionVars false

variable {ν V : Type} [DecidableEq ν] [DecidableEq V]

/-! ## Specification -/

/-- The last declaration with this name has these values. -/
def Declares (l : List (TypeDef V)) (k : String) (r : Ref) : Prop :=
  ∃ l₁ d l₂, l = l₁ ++ d :: l₂ ∧ d.name = some k ∧ d.values = some r ∧ ∀ e ∈ l₂, e.name ≠ some k

/-- The last declaration with this name and a default has this default. -/
def DefaultIs (l : List (TypeDef V)) (k : String) (v : V) : Prop :=
  ∃ l₁ d l₂, l = l₁ ++ d :: l₂ ∧ d.name = some k ∧ d.default = some v ∧ ∀ e ∈ l₂, e.name = some k → e.default = none

/-- The last declaration with this name and a setter has this setter. -/
def SetterIs (l : List (TypeDef V)) (k : String) (s : Setter) : Prop :=
  ∃ l₁ d l₂, l = l₁ ++ d :: l₂ ∧ d.name = some k ∧ d.setter = some s ∧ ∀ e ∈ l₂, e.name = some k → e.setter = none

/-- The objects that calls can make, with the codomains: types are declared under names that are not yet labels
of nodes (or edges), with defaults for edges only as long as there are no edges; codomains grow. -/
inductive Hist : Heap V → Obj ν V → Prop
  | create {h : Heap V} {n e : Option (List (TypeDef V))} {b : Bool} {o : Obj ν V} (hc : create n e b = .ok o) : Hist h o
  | grow {h h' : Heap V} {o : Obj ν V} (ho : Hist h o) (hg : ∀ r v, h r v = true → h' r v = true) : Hist h' o
  | types {h : Heap V} {o o' : Obj ν V} {l : List (TypeDef V)} {isEdge : Bool} (ho : Hist h o)
      (ha : addLabelTypes o l isEdge = .ok o')
      (hn : ∀ d ∈ l, ∀ k, d.name = some k → if isEdge then ∀ u v a, (u, v, a) ∈ o.edges → a.get? k = none
        else ∀ n a, o.nodes.get? n = some a → a.get? k = none)
      (hd : isEdge = true → o.edges = [] ∨ ∀ d ∈ l, d.default = none) : Hist h o'
  | call {h : Heap V} {o : Obj ν V} {op : GOp ν V} (ho : Hist h o) (hw : op.Wf) : Hist h (put o ((view h o).call op))

/-! ## Dictionaries -/

theorem dictOf_wf {α : Type} (l : List (String × α)) : (dictOf l).Wf :=
  Dict.wf_update (by simp [Dict.Wf, Dict.keys]) l

theorem dictOf_get? {α : Type} {l : List (String × α)} {k : String} {v : α} :
    (dictOf l).get? k = some v ↔ ∃ l₁ l₂, l = l₁ ++ (k, v) :: l₂ ∧ ∀ p ∈ l₂, p.1 ≠ k := by
  induction l using List.reverseRecOn with
  | nil => simp [dictOf, Dict.update]
  | append_singleton l p ih =>
    have e : dictOf (l ++ [p]) = (dictOf l).set p.1 p.2 := by simp [dictOf, Dict.update]
    rw [e, Dict.get?_set]
    split
    · rename_i hp
      constructor
      · intro h
        cases h
        exact ⟨l, [], by rw [← hp], by simp⟩
      · rintro ⟨l₁, l₂, he, hl⟩
        rcases List.eq_nil_or_concat l₂ with rfl | ⟨l₃, q, rfl⟩
        · have := (List.append_inj' he rfl).2
          simp only [List.cons.injEq, and_true] at this
          rw [this]
        · rw [List.concat_eq_append] at he hl
          rw [← List.cons_append, ← List.append_assoc] at he
          have := (List.append_inj' he rfl).2
          simp only [List.cons.injEq, and_true] at this
          exact absurd (by rw [← this, hp]) (hl q (by simp))
    · rename_i hp
      rw [ih]
      constructor
      · rintro ⟨l₁, l₂, rfl, hl⟩
        refine ⟨l₁, l₂ ++ [p], by simp, ?_⟩
        intro q hq
        rcases List.mem_append.1 hq with hq | hq
        · exact hl q hq
        · simp only [List.mem_singleton] at hq
          rw [hq]
          exact hp
      · rintro ⟨l₁, l₂, he, hl⟩
        rcases List.eq_nil_or_concat l₂ with rfl | ⟨l₃, q, rfl⟩
        · have := (List.append_inj' he rfl).2
          simp only [List.cons.injEq, and_true] at this
          exact absurd (by rw [this]) hp
        · rw [List.concat_eq_append] at he hl
          rw [← List.cons_append, ← List.append_assoc] at he
          exact ⟨l₁, l₃, (List.append_inj' he rfl).1, fun p hp => hl p (by simp [hp])⟩

theorem filterMap_get? {α β : Type} {l : List α} {f : α → Option (String × β)} {k : String} {v : β} :
    (dictOf (l.filterMap f)).get? k = some v ↔
      ∃ l₁ d l₂, l = l₁ ++ d :: l₂ ∧ f d = some (k, v) ∧ ∀ e ∈ l₂, ∀ w, f e ≠ some (k, w) := by
  rw [dictOf_get?]
  constructor
  · rintro ⟨l₁, l₂, he, hl⟩
    obtain ⟨a, b, rfl, ha, hb⟩ := List.filterMap_eq_append_iff.1 he
    obtain ⟨c, d, e, rfl, hc, hd, hf⟩ := List.filterMap_eq_cons_iff.1 hb
    refine ⟨a ++ c, d, e, by simp, hd, ?_⟩
    intro x hx w hw
    exact hl (k, w) (by rw [← hf]; exact List.mem_filterMap.2 ⟨x, hx, hw⟩) rfl
  · rintro ⟨l₁, d, l₂, rfl, hd, hl⟩
    refine ⟨l₁.filterMap f, l₂.filterMap f, by simp [hd], ?_⟩
    rintro ⟨k', w⟩ hp rfl
    obtain ⟨x, hx, hw⟩ := List.mem_filterMap.1 hp
    exact hl x hx w hw

theorem mapM_pair {l : List (TypeDef V)} {ps : List (String × Ref)} (h : l.mapM pair = .ok ps) :
    (∀ d ∈ l, d.name.isSome ∧ d.values.isSome) ∧
      ps = l.filterMap fun d => match d.name, d.values with
        | some n, some r => some (n, r)
        | _, _ => none := by
  induction l generalizing ps with
  | nil => cases h; simp
  | cons d l ih =>
    rw [List.mapM_cons] at h
    cases hd : pair d with
    | error e => rw [hd] at h; cases h
    | ok q =>
      rw [hd] at h
      cases hl : l.mapM pair with
      | error e => rw [hl] at h; cases h
      | ok qs =>
        rw [hl] at h
        cases h
        obtain ⟨h1, h2⟩ := ih hl
        unfold pair at hd
        split at hd
        · rename_i n r hn hr
          cases hd
          refine ⟨?_, ?_⟩
          · intro e he
            rcases List.mem_cons.1 he with rfl | he
            · simp [hn, hr]
            · exact h1 e he
          · rw [h2]
            simp [hn, hr]
        · cases hd

theorem mapM_pair_ok {l : List (TypeDef V)} (h : ∀ d ∈ l, d.name.isSome ∧ d.values.isSome) :
    ∃ ps, l.mapM pair = .ok ps := by
  induction l with
  | nil => exact ⟨[], rfl⟩
  | cons d l ih =>
    obtain ⟨ps, hps⟩ := ih fun e he => h e (by simp [he])
    obtain ⟨h1, h2⟩ := h d (by simp)
    obtain ⟨n, hn⟩ := Option.isSome_iff_exists.1 h1
    obtain ⟨r, hr⟩ := Option.isSome_iff_exists.1 h2
    refine ⟨(n, r) :: ps, ?_⟩
    rw [List.mapM_cons, hps]
    simp only [pair, hn, hr]
    rfl

theorem filterMap_dict {α β : Type} {d : Dict String α} (hd : d.Wf) (f : String → α → Option β) (k : String) :
    Dict.get? (d.filterMap fun p => (f p.1 p.2).map fun r => (p.1, r)) k = (d.get? k).bind (f k) := by
  induction d with
  | nil => rfl
  | cons p d ih =>
    have hp : p.1 ∉ Dict.keys d := (List.nodup_cons.1 hd).1
    have ih := ih (List.nodup_cons.1 hd).2
    rw [Dict.get?_cons]
    by_cases hk : p.1 = k
    · subst hk
      have hn : Dict.get? d p.1 = none := by
        cases h : Dict.get? d p.1 with
        | none => rfl
        | some v => exact absurd ((Dict.mem_keys_iff d p.1).2 ⟨v, h⟩) hp
      rw [hn] at ih
      cases hf : f p.1 p.2 with
      | none => simp [hf, ih]
      | some r => simp [hf, Dict.get?_cons]
    · rw [if_neg hk]
      cases hf : f p.1 p.2 with
      | none => simpa [hf] using ih
      | some r => simpa [hf, Dict.get?_cons, hk] using ih

/-! ## What declarations do -/

/-- C118. Declarations succeed exactly if each has a name and values (`KeyError` otherwise); then the last
declaration of a name counts, for the values, for the default, and for the attribute. -/
theorem initLabeling_spec (l : List (TypeDef V)) :
    ((∃ d, initLabeling (some l) = .ok d) ↔ ∀ d ∈ l, d.name.isSome ∧ d.values.isSome) ∧
    (∀ d, initLabeling (some l) = .ok d →
      (∀ k r, d.types.get? k = some r ↔ Declares l k r) ∧
      (∀ k v, d.defaults.get? k = some v ↔ DefaultIs l k v) ∧
      (∀ k r, d.attrs.get? k = some r ↔
        SetterIs l k (.other r) ∨ SetterIs l k .yes ∧ Declares l k r)) := by
  have hDecl : ∀ ps, l.mapM pair = .ok ps → ∀ k r, (dictOf ps).get? k = some r ↔ Declares l k r := by
    intro ps hps k r
    obtain ⟨h1, rfl⟩ := mapM_pair hps
    rw [filterMap_get?]
    unfold Declares
    constructor
    · rintro ⟨l₁, d, l₂, rfl, hd, hl⟩
      refine ⟨l₁, d, l₂, rfl, ?_⟩
      split at hd
      · rename_i n r' hn hr
        cases hd
        refine ⟨hn, hr, ?_⟩
        intro e he hk
        obtain ⟨w, hw⟩ := Option.isSome_iff_exists.1 (h1 e (by simp [he])).2
        exact hl e he w (by rw [hk, hw])
      · cases hd
    · rintro ⟨l₁, d, l₂, rfl, hn, hr, hl⟩
      refine ⟨l₁, d, l₂, rfl, by rw [hn, hr], ?_⟩
      intro e he w hw
      split at hw
      · rename_i n r' hn hr
        cases hw
        exact hl e he hn
      · cases hw
  have hFM : ∀ {β : Type} (g : TypeDef V → Option β) (f : TypeDef V → Option (String × β))
      (_ : ∀ d k v, f d = some (k, v) ↔ d.name = some k ∧ g d = some v) (k : String) (v : β),
      (dictOf (l.filterMap f)).get? k = some v ↔
      ∃ l₁ d l₂, l = l₁ ++ d :: l₂ ∧ d.name = some k ∧ g d = some v ∧ ∀ e ∈ l₂, e.name = some k → g e = none := by
    intro β g f hf k v
    rw [filterMap_get?]
    constructor
    · rintro ⟨l₁, d, l₂, rfl, hd, hl⟩
      obtain ⟨hn, hr⟩ := (hf d k v).1 hd
      refine ⟨l₁, d, l₂, rfl, hn, hr, ?_⟩
      intro e he hk
      cases hg : g e with
      | none => rfl
      | some w => exact absurd ((hf e k w).2 ⟨hk, hg⟩) (hl e he w)
    · rintro ⟨l₁, d, l₂, rfl, hn, hr, hl⟩
      refine ⟨l₁, d, l₂, rfl, (hf d k v).2 ⟨hn, hr⟩, ?_⟩
      intro e he w hw
      obtain ⟨hn, hr⟩ := (hf e k w).1 hw
      rw [hl e he hn] at hr
      cases hr
  refine ⟨⟨?_, ?_⟩, ?_⟩
  · rintro ⟨d, hd⟩
    unfold initLabeling at hd
    cases hps : l.mapM pair with
    | error e => simp only [hps] at hd; cases hd
    | ok ps => exact (mapM_pair hps).1
  · intro h
    obtain ⟨ps, hps⟩ := mapM_pair_ok h
    unfold initLabeling
    simp only [hps]
    exact ⟨_, rfl⟩
  · intro d hd
    unfold initLabeling at hd
    cases hps : l.mapM pair with
    | error e => simp only [hps] at hd; cases hd
    | ok ps =>
      simp only [hps] at hd
      cases hd
      refine ⟨hDecl ps hps, hFM TypeDef.default _ ?_, ?_⟩
      · intro d k v
        cases d.name <;> cases d.default <;> simp
      intro k r
      dsimp only
      rw [filterMap_dict (dictOf_wf _) (target (dictOf ps)) k]
      have hS : ∀ s, (dictOf (settersOf l)).get? k = some s ↔ SetterIs l k s := by
        intro s
        refine hFM TypeDef.setter _ ?_ k s
        intro d k v
        cases d.name <;> cases d.setter <;> simp
      constructor
      · intro h
        obtain ⟨s, hs, ht⟩ := Option.bind_eq_some_iff.1 h
        cases s with
        | yes => exact Or.inr ⟨(hS _).1 hs, (hDecl ps hps k r).1 ht⟩
        | other r' =>
          cases ht
          exact Or.inl ((hS _).1 hs)
      · rintro (h | ⟨h, hk⟩)
        · rw [(hS _).2 h]; rfl
        · rw [(hS _).2 h]
          exact (hDecl ps hps k r).2 hk

/-- C118. The exception for a declaration without a name or without values is a `KeyError`. -/
theorem initLabeling_missing {l : List (TypeDef V)} (h : ∃ d ∈ l, d.name = none ∨ d.values = none) :
    initLabeling (some l) = .error .keyError := by
  have : l.mapM pair = .error .keyError := by
    induction l with
    | nil => obtain ⟨d, hd, -⟩ := h; cases hd
    | cons x l ih =>
      rw [List.mapM_cons]
      by_cases hx : x.name = none ∨ x.values = none
      · have : pair x = .error .keyError := by
          unfold pair
          rcases hx with hx | hx
          · rw [hx]
          · rw [hx]; cases x.name <;> rfl
        rw [this]
        rfl
      · have hl : ∃ d ∈ l, d.name = none ∨ d.values = none := by
          obtain ⟨d, hd, hn⟩ := h
          rcases List.mem_cons.1 hd with rfl | hd
          · exact absurd hn hx
          · exact ⟨d, hd, hn⟩
        rw [ih hl]
        unfold pair
        cases hn : x.name with
        | none => exact absurd (.inl hn) hx
        | some n =>
          cases hv : x.values with
          | none => exact absurd (.inr hv) hx
          | some r => rfl
  unfold initLabeling
  simp only [this]
  rfl

/-- The constructor and `add_label_types` raise it too. -/
theorem create_missing {ν : Type} [DecidableEq ν] {l : List (TypeDef V)}
    (h : ∃ d ∈ l, d.name = none ∨ d.values = none) (det : Bool) (o : Obj ν V) (isEdge : Bool) :
    create (ν := ν) (some l) none det = .error .keyError ∧ create (ν := ν) none (some l) det = .error .keyError ∧
    addLabelTypes o l isEdge = .error .keyError := by
  refine ⟨?_, ?_, ?_⟩
  · rw [create, initLabeling_missing h]; rfl
  · rw [create, initLabeling_missing h]; rfl
  · rw [addLabelTypes, initLabeling_missing h]; rfl

theorem init_wf {l : Option (List (TypeDef V))} {d : Decls V} (h : initLabeling l = .ok d) :
    d.types.Wf ∧ d.defaults.Wf := by
  unfold initLabeling at h
  cases l with
  | none => cases h; simp [Dict.Wf, Dict.keys]
  | some l =>
    cases hps : l.mapM pair with
    | error e => simp only [hps] at h; cases h
    | ok ps =>
      simp only [hps] at h
      cases h
      exact ⟨dictOf_wf _, dictOf_wf _⟩

theorem init_typed {l : List (TypeDef V)} {d : Decls V} (h : initLabeling (some l) = .ok d) {k : String}
    (hk : ∃ v, d.defaults.get? k = some v) : ∃ r, d.types.get? k = some r := by
  obtain ⟨h1, h2⟩ := initLabeling_spec l
  have hs := h1.1 ⟨d, h⟩
  obtain ⟨ht, hd, -⟩ := h2 d h
  obtain ⟨v, hv⟩ := hk
  obtain ⟨l₁, e, l₂, rfl, hn, -, -⟩ := (hd k v).1 hv
  -- the last declaration with this name
  have key : ∀ m : List (TypeDef V), (∀ d ∈ m, d.name.isSome ∧ d.values.isSome) → (∃ d ∈ m, d.name = some k) →
      ∃ r, Declares m k r := by
    intro m
    induction m with
    | nil => rintro - ⟨d, hd, -⟩; simp at hd
    | cons x m ih =>
      intro hm hex
      by_cases hx : ∃ d ∈ m, d.name = some k
      · obtain ⟨r, l₁, y, l₂, rfl, hy⟩ := ih (fun d hd => hm d (by simp [hd])) hx
        exact ⟨r, x :: l₁, y, l₂, rfl, hy⟩
      · obtain ⟨y, hy, hyk⟩ := hex
        rcases List.mem_cons.1 hy with rfl | hy
        · obtain ⟨r, hr⟩ := Option.isSome_iff_exists.1 (hm y (by simp)).2
          exact ⟨r, [], y, m, rfl, hyk, hr, fun e he hek => hx ⟨e, he, hek⟩⟩
        · exact absurd ⟨y, hy, hyk⟩ hx
  obtain ⟨r, hr⟩ := key _ hs ⟨e, by simp, hn⟩
  exact ⟨r, (ht k r).2 hr⟩

/-- C118. New declarations come on top of the earlier ones, and change nothing else. -/
theorem addLabelTypes_spec {o o' : Obj ν V} {l : List (TypeDef V)} {isEdge : Bool}
    (h : addLabelTypes o l isEdge = .ok o') :
    o'.nodes = o.nodes ∧ o'.edges = o.edges ∧ o'.initial = o.initial ∧
    (∀ k, o'.nodeTypes.get? k ≠ o.nodeTypes.get? k → isEdge = false) ∧
    (∀ k, o'.edgeTypes.get? k ≠ o.edgeTypes.get? k → isEdge = true) ∧
    (∀ k, (∀ d ∈ l, d.name ≠ some k) → o'.nodeTypes.get? k = o.nodeTypes.get? k ∧
      o'.edgeTypes.get? k = o.edgeTypes.get? k ∧ o'.nodeDefaults.get? k = o.nodeDefaults.get? k ∧
      o'.edgeDefaults.get? k = o.edgeDefaults.get? k) ∧
    ∀ k, (∀ r, Declares l k r → (if isEdge then o'.edgeTypes else o'.nodeTypes).get? k = some r) ∧
      ∀ v, DefaultIs l k v → (if isEdge then o'.edgeDefaults else o'.nodeDefaults).get? k = some v := by
  unfold addLabelTypes at h
  cases hd : initLabeling (some l) with
  | error e => rw [hd] at h; cases h
  | ok d =>
    rw [hd] at h
    simp only [ok_bind] at h
    obtain ⟨w1, w2⟩ := init_wf hd
    obtain ⟨ht, hv, -⟩ := (initLabeling_spec l).2 d hd
    have hnt : ∀ k, (∀ d ∈ l, d.name ≠ some k) → d.types.get? k = none ∧ d.defaults.get? k = none := by
      intro k hk
      constructor
      · cases hx : d.types.get? k with
        | none => rfl
        | some r =>
          obtain ⟨l₁, e, l₂, rfl, hn, -⟩ := (ht k r).1 hx
          exact absurd hn (hk e (by simp))
      · cases hx : d.defaults.get? k with
        | none => rfl
        | some r =>
          obtain ⟨l₁, e, l₂, rfl, hn, -⟩ := (hv k r).1 hx
          exact absurd hn (hk e (by simp))
    cases isEdge
    · simp only [Bool.false_eq_true, if_false] at h
      cases h
      refine ⟨rfl, rfl, rfl, fun _ _ => rfl, fun k hk => absurd rfl hk, ?_, ?_⟩
      · intro k hk
        obtain ⟨e1, e2⟩ := hnt k hk
        simp [Dict.get?_update_wf w1, Dict.get?_update_wf w2, e1, e2]
      · intro k
        refine ⟨fun r hr => ?_, fun v hr => ?_⟩
        · simp [Dict.get?_update_wf w1, (ht k r).2 hr]
        · simp [Dict.get?_update_wf w2, (hv k v).2 hr]
    · simp only [if_true] at h
      cases h
      refine ⟨rfl, rfl, rfl, fun k hk => absurd rfl hk, fun _ _ => rfl, ?_, ?_⟩
      · intro k hk
        obtain ⟨e1, e2⟩ := hnt k hk
        simp [Dict.get?_update_wf w1, Dict.get?_update_wf w2, e1, e2]
      · intro k
        refine ⟨fun r hr => ?_, fun v hr => ?_⟩
        · simp [Dict.get?_update_wf w1, (ht k r).2 hr]
        · simp [Dict.get?_update_wf w2, (hv k v).2 hr]

/-! ## Histories -/

theorem get?_typesAt (h : Heap V) (t : Dict String Ref) (k : String) :
    (typesAt h t).get? k = (t.get? k).map fun r => ⟨h r, none⟩ := by
  induction t with
  | nil => rfl
  | cons p t ih =>
    simp only [typesAt, List.map_cons] at ih ⊢
    rw [Dict.get?_cons, Dict.get?_cons, ih]
    split <;> simp

theorem typesAt_get {h : Heap V} {t : Dict String Ref} {k : String} {T : LabelType V}
    (hT : (typesAt h t).get? k = some T) : ∃ r, t.get? k = some r ∧ T = ⟨h r, none⟩ := by
  rw [get?_typesAt] at hT
  obtain ⟨r, hr, rfl⟩ := Option.map_eq_some_iff.1 hT
  exact ⟨r, hr, rfl⟩

theorem view_put {h : Heap V} {o : Obj ν V} {g : LGraph ν V} (hs : SameTypes (view h o) g) :
    view h (put o g) = g := by
  obtain ⟨h1, h2, h3, h4⟩ := hs
  cases g
  simp only [view, put, LGraph.mk.injEq] at h1 h2 h3 h4 ⊢
  exact ⟨h1.symm, h2.symm, h3.symm, h4.symm, trivial, trivial, trivial⟩

/-- The defaults have types. -/
def Defaults (o : Obj ν V) : Prop :=
  (∀ k, (∃ v, o.nodeDefaults.get? k = some v) → ∃ r, o.nodeTypes.get? k = some r) ∧
    (∀ k, (∃ v, o.edgeDefaults.get? k = some v) → ∃ r, o.edgeTypes.get? k = some r) ∧
    o.nodeDefaults.Wf ∧ o.edgeDefaults.Wf

theorem hist_ok {h : Heap V} {o : Obj ν V} (ho : Hist h o) : (view h o).Ok ∧ Defaults o := by
  induction ho with
  | @create h n e b o hc =>
    unfold create at hc
    cases hn : initLabeling n with
    | error x => rw [hn] at hc; cases hc
    | ok dn =>
      cases he : initLabeling e with
      | error x => rw [hn, he] at hc; cases hc
      | ok de =>
        rw [hn, he] at hc
        cases hc
        refine ⟨⟨by simp [view, Dict.Wf, Dict.keys], by simp [view], by simp [view], by simp [view],
          by simp [view], by simp [view], by simp [view], by simp [view], by simp [view], by simp [view],
          by simp [view], by simp [view]⟩, ?_, ?_, (init_wf hn).2, (init_wf he).2⟩
        · intro k hk
          cases n with
          | none => cases hn; simp at hk
          | some l => exact init_typed hn hk
        · intro k hk
          cases e with
          | none => cases he; simp at hk
          | some l => exact init_typed he hk
  | @grow h h' o ho hg ih =>
    obtain ⟨g, hd⟩ := ih
    refine ⟨⟨g.nodup, g.source, g.target, ?_, g.defaults, g.wf, ?_, g.distinct, g.initialNodup, g.initial, g.noMix,
      g.nodeWf⟩, hd⟩
    · intro u v a ha p hp T hT
      obtain ⟨r, hr, rfl⟩ := typesAt_get hT
      exact hg _ _ (g.typed u v a ha p hp ⟨h r, none⟩ (by
        show (typesAt h o.edgeTypes).get? p.1 = _
        rw [get?_typesAt, hr]; rfl))
    · intro n a ha k v hk T hT
      obtain ⟨r, hr, rfl⟩ := typesAt_get hT
      exact hg _ _ (g.nodeTyped n a ha k v hk ⟨h r, none⟩ (by
        show (typesAt h o.nodeTypes).get? k = _
        rw [get?_typesAt, hr]; rfl))
  | @types h o o' l isEdge ho ha hn hd ih =>
    obtain ⟨g, hD⟩ := ih
    obtain ⟨e1, e2, e3, h4, h5, h6, h7⟩ := addLabelTypes_spec ha
    have hdef : Defaults o' ∧ (o.edges = [] ∨ o'.edgeDefaults = o.edgeDefaults) := by
      unfold addLabelTypes at ha
      cases hi : initLabeling (some l) with
      | error e => rw [hi] at ha; cases ha
      | ok d =>
        rw [hi] at ha
        simp only [ok_bind] at ha
        obtain ⟨w1, w2⟩ := init_wf hi
        have ht : ∀ {k : String}, (∃ v, d.defaults.get? k = some v) → ∃ r, d.types.get? k = some r := fun hk => init_typed hi hk
        have hup : ∀ {t : Dict String Ref} {f : Attr V},
            (∀ k, (∃ v, f.get? k = some v) → ∃ r, t.get? k = some r) →
            ∀ k, (∃ v, (f.update d.defaults).get? k = some v) → ∃ r, (t.update d.types).get? k = some r := by
          intro t f hf k hk
          rw [Dict.get?_update_wf w2] at hk
          rw [Dict.get?_update_wf w1]
          cases hx : d.defaults.get? k with
          | some v =>
            obtain ⟨r, hr⟩ := ht ⟨v, hx⟩
            exact ⟨r, by rw [hr]; rfl⟩
          | none =>
            rw [hx] at hk
            obtain ⟨r, hr⟩ := hf k hk
            cases hy : d.types.get? k with
            | some r' => exact ⟨r', rfl⟩
            | none => exact ⟨r, hr⟩
        cases isEdge
        · simp only [Bool.false_eq_true, if_false] at ha
          cases ha
          exact ⟨⟨hup hD.1, hD.2.1, Dict.wf_update hD.2.2.1 _, hD.2.2.2⟩, Or.inr rfl⟩
        · simp only [if_true] at ha
          cases ha
          refine ⟨⟨hD.1, hup hD.2.1, hD.2.2.1, Dict.wf_update hD.2.2.2 _⟩, ?_⟩
          rcases hd rfl with h | h
          · exact Or.inl h
          · right
            have : d.defaults = [] := by
              unfold initLabeling at hi
              cases hps : l.mapM pair with
              | error e => simp only [hps] at hi; cases hi
              | ok ps =>
                simp only [hps] at hi
                cases hi
                have : defaultsOf l = [] := by
                  unfold defaultsOf
                  rw [List.filterMap_eq_nil_iff]
                  intro x hx
                  rw [h x hx]
                  cases x.name <;> rfl
                simp [this, dictOf, Dict.update]
            simp [this, Dict.update]
    refine ⟨⟨?_, ?_, ?_, ?_, ?_, ?_, ?_, ?_, ?_, ?_, ?_, ?_⟩, hdef.1⟩
    · show o'.nodes.Wf; rw [e1]; exact g.nodup
    · intro u v a hm; have := g.source u v a (by show _ ∈ o.edges; rw [← e2]; exact hm); simpa [view, hasNode, e1] using this
    · intro u v a hm; have := g.target u v a (by show _ ∈ o.edges; rw [← e2]; exact hm); simpa [view, hasNode, e1] using this
    · intro u v a hm p hp T hT
      have hm : (u, v, a) ∈ o.edges := by rw [← e2]; exact hm
      obtain ⟨r, hr, rfl⟩ := typesAt_get hT
      have hpa : ∃ w, a.get? p.1 = some w := (Dict.mem_keys_iff a p.1).1 (List.mem_map_of_mem hp)
      have hold : o.edgeTypes.get? p.1 = some r := by
        by_cases hk : ∀ d ∈ l, d.name ≠ some p.1
        · rw [← (h6 p.1 hk).2.1]; exact hr
        · simp only [not_forall, not_not] at hk
          obtain ⟨d, hdl, hdn⟩ := hk
          by_contra hne
          have := h5 p.1 (by rw [hr]; exact fun e => hne e.symm)
          subst this
          have := hn d hdl p.1 hdn
          simp only [if_true] at this
          obtain ⟨w, hw⟩ := hpa
          rw [this u v a hm] at hw
          cases hw
      exact g.typed u v a hm p hp ⟨h r, none⟩ (by
        show (typesAt h o.edgeTypes).get? p.1 = _
        rw [get?_typesAt, hold]; rfl)
    · intro u v a hm k hk
      have hm : (u, v, a) ∈ o.edges := by rw [← e2]; exact hm
      rcases hdef.2 with h' | h'
      · rw [h'] at hm; cases hm
      · exact g.defaults u v a hm k (by
          have hk : Dict.has o'.edgeDefaults k = true := hk
          rw [h'] at hk; exact hk)
    · intro u v a hm; exact g.wf u v a (by show _ ∈ o.edges; rw [← e2]; exact hm)
    · intro n a hm k w hk T hT
      have hm : o.nodes.get? n = some a := by rw [← e1]; exact hm
      obtain ⟨r, hr, rfl⟩ := typesAt_get hT
      have hold : o.nodeTypes.get? k = some r := by
        by_cases hk' : ∀ d ∈ l, d.name ≠ some k
        · rw [← (h6 k hk').1]; exact hr
        · simp only [not_forall, not_not] at hk'
          obtain ⟨d, hdl, hdn⟩ := hk'
          by_contra hne
          have := h4 k (by rw [hr]; exact fun e => hne e.symm)
          subst this
          have := hn d hdl k hdn
          simp only [Bool.false_eq_true, if_false] at this
          rw [this n a hm] at hk
          cases hk
      exact g.nodeTyped n a hm k w hk ⟨h r, none⟩ (by
        show (typesAt h o.nodeTypes).get? k = _
        rw [get?_typesAt, hold]; rfl)
    · intro hnil
      show o'.edges.Pairwise _
      rw [e2]
      rcases hdef.2 with h' | h'
      · rw [h']; exact List.Pairwise.nil
      · exact g.distinct (by show o.edgeDefaults = []; rw [← h']; exact hnil)
    · show o'.initial.Nodup; rw [e3]; exact g.initialNodup
    · intro n hm; have := g.initial n (by show _ ∈ o.initial; rw [← e3]; exact hm); simpa [view, hasNode, e1] using this
    · show o'.edges.Pairwise _; rw [e2]; exact g.noMix
    · intro n a hm; exact g.nodeWf n a (by show o.nodes.get? n = _; rw [← e1]; exact hm)
  | @call h o op ho hw ih =>
    have := call_keeps ih.1 hw
    rw [view_put this.1]
    exact ⟨this.2, ih.2⟩

/-- C118. After any such history the labels of nodes and edges have values that their types allow. -/
theorem labels_allowed {h : Heap V} {o : Obj ν V} (ho : Hist h o) :
    (∀ n a, o.nodes.get? n = some a → ∀ k v r, a.get? k = some v → o.nodeTypes.get? k = some r → h r v = true) ∧
    (∀ e ∈ o.edges, ∀ k v r, e.2.2.get? k = some v → o.edgeTypes.get? k = some r → h r v = true) := by
  obtain ⟨g, -⟩ := hist_ok ho
  constructor
  · intro n a hn k v r hk hr
    exact g.nodeTyped n a hn k v hk ⟨h r, none⟩ (by
      show (typesAt h o.nodeTypes).get? k = _
      rw [get?_typesAt, hr]; rfl)
  · rintro ⟨u, v, a⟩ he k w r hk hr
    exact g.typed u v a he (k, w) (mem_of_get? hk) ⟨h r, none⟩ (by
      show (typesAt h o.edgeTypes).get? k = _
      rw [get?_typesAt, hr]; rfl)

/-- C118. A state with a label can be added exactly if the label is declared and the value is allowed, provided
the defaults are allowed; then a new state has this label, and the defaults for other labels. -/
theorem add_state {h : Heap V} {o : Obj ν V} (ho : Hist h o) (n : ν) (k : String) (v : V) :
    ((∃ g, (view h o).addNode n [(k, v)] = .ok g) ↔
      (∀ k' w r, o.nodeDefaults.get? k' = some w → o.nodeTypes.get? k' = some r → h r w = true) ∧
        ∃ r, o.nodeTypes.get? k = some r ∧ h r v = true) ∧
    ∀ g, (view h o).addNode n [(k, v)] = .ok g → o.nodes.get? n = none →
      ∃ a, g.nodes.get? n = some a ∧ a.get? k = some v ∧
        ∀ k', k' ≠ k → a.get? k' = o.nodeDefaults.get? k' := by
  obtain ⟨-, hd, -, hw, -⟩ := hist_ok ho
  have hT : ∀ k v, (∀ T, (typesAt h o.nodeTypes).get? k = some T → T.contains v = true) ↔
      ∀ r, o.nodeTypes.get? k = some r → h r v = true := by
    intro k v
    rw [get?_typesAt]
    constructor
    · intro hh r hr; exact hh ⟨h r, none⟩ (by rw [hr]; rfl)
    · intro hh T hT
      obtain ⟨r, hr, rfl⟩ := Option.map_eq_some_iff.1 hT
      exact hh r hr
  have hD : Typed (typesAt h o.nodeTypes) o.nodeDefaults ↔
      ∀ k' w r, o.nodeDefaults.get? k' = some w → o.nodeTypes.get? k' = some r → h r w = true := by
    constructor
    · intro ht k' w r hk hr
      exact (hT k' w).1 (ht (k', w) (mem_of_get? hk)) r hr
    · intro hh p hp
      exact (hT p.1 p.2).2 fun r hr => hh p.1 p.2 r (get?_of_mem hw hp) hr
  have hA : Typed (typesAt h o.nodeTypes) [(k, v)] ↔ ∀ r, o.nodeTypes.get? k = some r → h r v = true := by
    rw [← hT k v]
    simp [Typed]
  have he : (Dict.update [] o.nodeDefaults : Attr V).get? = o.nodeDefaults.get? := by
    funext k'
    rw [Dict.get?_update_wf hw]
    simp
  have hget : ∀ k', ((Dict.update [] o.nodeDefaults).update [(k, v)] : Attr V).get? k' =
      if k = k' then some v else o.nodeDefaults.get? k' := by
    intro k'
    show ((Dict.update [] o.nodeDefaults : Attr V).set k v).get? k' = _
    rw [Dict.get?_set, he]
  have hwf : ((Dict.update [] o.nodeDefaults).update [(k, v)] : Attr V).Wf := wf_of_typedAttr
  have hun : untyped (typesAt h o.nodeTypes) ((Dict.update [] o.nodeDefaults).update [(k, v)]) true = false ↔
      ∃ r, o.nodeTypes.get? k = some r := by
    have e1 : untyped (typesAt h o.nodeTypes) ((Dict.update [] o.nodeDefaults).update [(k, v)]) true = false ↔
        ∀ k' w, ((Dict.update [] o.nodeDefaults).update [(k, v)] : Attr V).get? k' = some w →
          ∃ r, o.nodeTypes.get? k' = some r := by
      simp only [untyped, Bool.true_and, List.any_eq_false, Bool.not_eq_true', Bool.not_eq_false]
      constructor
      · intro hh k' w hk'
        have := hh (k', w) (mem_of_get? hk')
        obtain ⟨T, hT⟩ := (Dict.has_iff _ _).1 this
        obtain ⟨r, hr, -⟩ := typesAt_get hT
        exact ⟨r, hr⟩
      · intro hh p hp
        obtain ⟨r, hr⟩ := hh p.1 p.2 (get?_of_mem hwf hp)
        exact (Dict.has_iff _ _).2 ⟨⟨h r, none⟩, by rw [get?_typesAt, hr]; rfl⟩
    rw [e1]
    constructor
    · intro hh; exact hh k v (by rw [hget]; simp)
    · rintro ⟨r, hr⟩ k' w hk'
      rw [hget] at hk'
      split at hk'
      · rename_i e; exact ⟨r, by rw [← e]; exact hr⟩
      · exact hd k' ⟨w, hk'⟩
  have hadd : ∀ g, (view h o).addNode n [(k, v)] = .ok g ↔ (Typed (typesAt h o.nodeTypes) o.nodeDefaults ∧
      Typed (typesAt h o.nodeTypes) [(k, v)]) ∧ (∃ r, o.nodeTypes.get? k = some r) ∧
      g = { view h o with nodes := o.nodes.set n (((o.nodes.get? n).getD []).update
        ((Dict.update [] o.nodeDefaults).update [(k, v)])) } := by
    intro g
    show (do
      let typed ← typedAttr (typesAt h o.nodeTypes) o.nodeDefaults [(k, v)]
      if untyped (typesAt h o.nodeTypes) typed true then .error .attribute
      else .ok { view h o with nodes := o.nodes.set n (((o.nodes.get? n).getD []).update typed) }) = Except.ok g ↔ _
    constructor
    · intro hh
      cases ht : typedAttr (typesAt h o.nodeTypes) o.nodeDefaults [(k, v)] with
      | error e => rw [ht] at hh; cases hh
      | ok d =>
        rw [ht] at hh
        obtain ⟨h1, h2, rfl⟩ := typedAttr_inv ht
        simp only [ok_bind] at hh
        split at hh
        · cases hh
        · rename_i hu
          exact ⟨⟨h1, h2⟩, hun.1 (by simpa using hu), by cases hh; rfl⟩
    · rintro ⟨⟨h1, h2⟩, h3, rfl⟩
      rw [typedAttr_ok h1 h2, ok_bind, if_neg (by rw [hun.2 h3]; simp)]
  constructor
  · constructor
    · rintro ⟨g, hg⟩
      obtain ⟨⟨h1, h2⟩, ⟨r, hr⟩, -⟩ := (hadd g).1 hg
      exact ⟨hD.1 h1, r, hr, hA.1 h2 r hr⟩
    · rintro ⟨h1, r, hr, hv⟩
      refine ⟨_, (hadd _).2 ⟨⟨hD.2 h1, hA.2 fun r' hr' => ?_⟩, ⟨r, hr⟩, rfl⟩⟩
      rw [hr] at hr'
      cases hr'
      exact hv
  · intro g hg hn
    obtain ⟨-, -, rfl⟩ := (hadd g).1 hg
    refine ⟨((o.nodes.get? n).getD []).update ((Dict.update [] o.nodeDefaults).update [(k, v)]), ?_, ?_, ?_⟩
    · show (Dict.set o.nodes n _).get? n = _
      rw [Dict.get?_set]; simp
    · rw [hn, Dict.get?_update_wf hwf, hget]; simp
    · intro k' hk'
      rw [hn, Dict.get?_update_wf hwf, hget, if_neg (fun e => hk' e.symm)]
      simp

/-- C118. If the default of a declared label is not allowed then no state can be added, whatever its labels. -/
theorem bad_default {h : Heap V} {o : Obj ν V} {k : String} {w : V} {r : Ref}
    (hd : o.nodeDefaults.get? k = some w) (ht : o.nodeTypes.get? k = some r) (hr : h r w = false) (n : ν)
    (attr : Attr V) (check : Bool) : (view h o).addNode n attr check = .error .valueError := by
  have : ¬ (Typed (typesAt h o.nodeTypes) o.nodeDefaults ∧ Typed (typesAt h o.nodeTypes) attr) := by
    rintro ⟨h1, -⟩
    have := h1 (k, w) (mem_of_get? hd) ⟨h r, none⟩ (by rw [get?_typesAt, ht]; rfl)
    simp only at this
    rw [hr] at this
    cases this
  show (typedAttr (typesAt h o.nodeTypes) o.nodeDefaults attr >>= fun typed =>
      if untyped (typesAt h o.nodeTypes) typed check then .error .attribute
      else .ok { view h o with nodes := o.nodes.set n (((o.nodes.get? n).getD []).update typed) }) = _
  rw [typedAttr_error this]
  rfl

/-- C118. A new graph has the given label types for nodes and for edges, and is empty. -/
theorem create_spec {n e : List (TypeDef V)} {b : Bool} {o : Obj ν V} (h : create (some n) (some e) b = .ok o) :
    o.nodes = [] ∧ o.edges = [] ∧ o.initial = [] ∧
      (∀ k r, o.nodeTypes.get? k = some r ↔ Declares n k r) ∧
      (∀ k r, o.edgeTypes.get? k = some r ↔ Declares e k r) ∧
      (∀ k v, o.nodeDefaults.get? k = some v ↔ DefaultIs n k v) ∧
      (∀ k v, o.edgeDefaults.get? k = some v ↔ DefaultIs e k v) := by
  unfold create at h
  cases hn : initLabeling (some n) with
  | error x => rw [hn] at h; cases h
  | ok dn =>
    cases he : initLabeling (some e) with
    | error x => rw [hn, he] at h; cases h
    | ok de =>
      rw [hn, he] at h
      cases h
      obtain ⟨a1, a2, -⟩ := (initLabeling_spec n).2 dn hn
      obtain ⟨b1, b2, -⟩ := (initLabeling_spec e).2 de he
      exact ⟨rfl, rfl, rfl, a1, b1, a2, b2⟩

/-- C118. A value that is added to a codomain, through the attribute with the name of the label, is allowed from
then on, for all labels with this codomain; for other values and codomains nothing changes. -/
theorem allow_spec {h h' : Heap V} {o : Obj ν V} {name : String} {v : V} (ha : allow h o name v = .ok h') :
    ∃ r, o.attrs.get? name = some r ∧ h' r v = true ∧ ∀ r' w, (r' ≠ r ∨ w ≠ v) → h' r' w = h r' w := by
  unfold allow at ha
  split at ha
  · rename_i r hr
    cases ha
    refine ⟨r, hr, by simp, ?_⟩
    intro r' w hne
    dsimp only
    rw [if_neg]
    rintro ⟨rfl, rfl⟩
    simp at hne
  · cases ha

/-- C118. Thus histories go on after it. -/
theorem allow_hist {h h' : Heap V} {o : Obj ν V} (ho : Hist h o) {name : String} {v : V}
    (ha : allow h o name v = .ok h') : Hist h' o := by
  refine ho.grow fun r w hw => ?_
  obtain ⟨r', -, h1, h2⟩ := allow_spec ha
  by_cases hc : r ≠ r' ∨ w ≠ v
  · rw [h2 r w hc]; exact hw
  · simp only [ne_eq, not_or, not_not] at hc
    rw [hc.1, hc.2]
    exact h1

/-- **C118.** `g.name.remove(v)` takes away exactly this value from the values of the attribute, which all types that
were declared with the same object share; it fails if there is no such attribute, or no such value. -/
theorem forbid_spec (h : Heap V) (o : Obj ν V) (name : String) (v : V) :
    (∀ h', forbid h o name v = .ok h' → ∃ r, o.attrs.get? name = some r ∧ h r v = true ∧
      ∀ r' w, h' r' w = true ↔ h r' w = true ∧ ¬ (r' = r ∧ w = v)) ∧
    (∀ r, o.attrs.get? name = some r → h r v = true → ∃ h', forbid h o name v = .ok h') ∧
    (∀ r, o.attrs.get? name = some r → h r v = false → forbid h o name v = .error .keyError) ∧
    (o.attrs.get? name = none → forbid h o name v = .error .attribute) := by
  unfold forbid
  refine ⟨?_, ?_, ?_, ?_⟩
  · intro h' hf
    split at hf
    · rename_i r hr
      split at hf
      · rename_i hv
        cases hf
        refine ⟨r, hr, hv, fun r' w => ?_⟩
        by_cases hc : r' = r ∧ w = v <;> simp [hc]
      · cases hf
    · cases hf
  · intro r hr hv
    simp [hr, hv]
  · intro r hr hv
    simp [hr, hv]
  · intro hr
    simp [hr]

/-- C118. `is_consistent` does not compare labels with types: it is true for the empty graph, and raises
`AttributeError` for all others. -/
theorem isConsistent_spec (o : Obj ν V) :
    isConsistent o = .ok true ∧ o.nodes = [] ∧ o.edges = [] ∨
      isConsistent o = .error .attribute ∧ (o.nodes ≠ [] ∨ o.edges ≠ []) := by
  unfold isConsistent
  split
  · rename_i hc
    simp only [Bool.and_eq_true, List.isEmpty_iff] at hc
    exact Or.inl ⟨rfl, hc⟩
  · rename_i hc
    refine Or.inr ⟨rfl, ?_⟩
    simp only [Bool.and_eq_true, List.isEmpty_iff] at hc
    by_cases hn : o.nodes = []
    · exact Or.inr fun he => hc ⟨hn, he⟩
    · exact Or.inl hn

/-! ## Examples -/

/-- The drinks of the documentation: codomain 0 holds tea (0) and coffee (1). -/
def drinks : Heap Nat := fun r v => r == 0 && decide (v ≤ 1)

/-- The label type `drink`, with the default tea. -/
def drink : TypeDef Nat := { name := some "drink", values := some 0, default := some 0, setter := some .yes }

/-- The graph of the documentation. -/
def bar : Obj Nat Nat := { nodeTypes := [("drink", 0)], nodeDefaults := [("drink", 0)], attrs := [("drink", 0)] }

theorem create_bar : (create (some [drink]) none : Except PyErr (Obj Nat Nat)) = .ok bar := rfl

/-- Coffee is accepted; water (2) is not, until it is added. -/
example : ((view drinks bar).addNode 7 [("drink", 1)]).toOption.isSome = true ∧
    ((view drinks bar).addNode 7 [("drink", 2)]).toOption.isSome = false ∧
    (match allow drinks bar "drink" 2 with
      | .ok h => ((view h bar).addNode 7 [("drink", 2)]).toOption.isSome
      | .error _ => false) = true ∧
    (((view drinks bar).addNode 7 []).toOption.map (·.nodes)) = some [(7, [("drink", 0)])] := by
  decide +kernel

/-- A history: a state, a new label type, water, another state. -/
example : ∃ (h : Heap Nat) (o : Obj Nat Nat), Hist h o ∧
    o.nodes = [(7, [("drink", 1)]), (8, [("drink", 2), ("size", 3)])] := by
  have h1 : Hist drinks bar := .create create_bar
  have h2 := h1.call (op := .addNode 7 [("drink", 1)] true) trivial
  obtain ⟨h', ha⟩ : ∃ h', allow drinks (put bar ((view drinks bar).call (.addNode 7 [("drink", 1)] true))) "drink" 2 = .ok h' :=
    ⟨_, rfl⟩
  have h3 := allow_hist h2 ha
  obtain ⟨o', hc⟩ : ∃ o', addLabelTypes (put bar ((view drinks bar).call (.addNode 7 [("drink", 1)] true)))
      [{ name := some "size", values := some 1 }] false = .ok o' := ⟨_, rfl⟩
  have h4 := h3.types hc (by
    intro d hd k hk
    simp only [List.mem_singleton] at hd
    subst hd
    simp only [Option.some.injEq] at hk
    subst hk
    simp only [Bool.false_eq_true, if_false]
    intro n a hn
    have e : (put bar ((view drinks bar).call (.addNode 7 [("drink", 1)] true))).nodes = [(7, [("drink", 1)])] := by
      decide +kernel
    rw [e, Dict.get?_cons] at hn
    split at hn
    · cases hn; decide +kernel
    · simp at hn) (by simp)
  have h5 := h4.grow (h' := fun r v => h' r v || r == 1) (by intro r v hv; simp [hv])
  have h6 := h5.call (op := .addNode 8 [("drink", 2), ("size", 3)] true) trivial
  refine ⟨_, _, h6, ?_⟩
  cases ha
  cases hc
  decide +kernel

/-- A value is removed from a codomain that a state uses: the label stays, and `is_consistent` does not tell. -/
theorem label_stale_counterexample :
    let o := put bar ((view drinks bar).call (.addNode 7 [("drink", 1)] true))
    ∃ h', forbid drinks o "drink" 1 = .ok h' ∧ o.nodes.get? 7 = some [("drink", 1)] ∧ h' 0 1 = false ∧
      isConsistent o = .error .attribute := by
  refine ⟨_, rfl, ?_, ?_, rfl⟩ <;> decide +kernel

/-- A type is declared again, with other values and without a default: the default of the earlier declaration
stays, and no state can be added, not even with an allowed label. -/
theorem redeclared_default_counterexample :
    ∃ o, addLabelTypes bar [{ name := some "drink", values := some 1 }] false = .ok o ∧
      let h : Heap Nat := fun r v => r == 1 && v == 5
      (view h o).addNode 7 [("drink", 5)] = .error .valueError := by
  refine ⟨_, rfl, ?_⟩
  rfl

/-- A graph that is declared as deterministic accepts two transitions with the same label from one state. -/
theorem deterministic_counterexample :
    ∃ o : Obj Nat Nat, create none (some [{ name := some "act", values := some 0 }]) true = .ok o ∧
      o.deterministic = true ∧
      let g := (((view drinks o).call (.addNodesFrom [(0, []), (1, [])] true)).call
        (.addEdge 0 0 [("act", 1)] true)).call (.addEdge 0 1 [("act", 1)] true)
      g.edges = [(0, 0, [("act", 1)]), (0, 1, [("act", 1)])] := by
  refine ⟨_, rfl, rfl, ?_⟩
  decide +kernel

end Ltype
end Tulip
