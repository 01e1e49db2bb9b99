import Verif.Synth.Strategy
import Verif.Synth.ToSpecProps
import Verif.Transys.MachineConvProps
import Verif.Transys.GraphQueryProps
import Mathlib.Data.List.Pairwise

/-!
# Mealy machines from strategies (C31, C32, C33)
-/

namespace Tulip

namespace Synth

open Mach LGraph

variable {ν : Type} [DecidableEq ν]

/-! ## Specification -/

/-- The value `x` of a variable in a state of the strategy is written `y` in the machine: values of
string variables are positions in the declared list. -/
def Written (vars : Dict String Dom) (k : String) (x y : Elem) : Prop :=
  match vars.get? k with
  | some (.strs l) => ∃ (n : Nat) (s : String), x = .int n ∧ l[n]? = some s ∧ y = .str s
  | some _ => y = x
  | none => False

/-- `d` is the valuation of the declared variables in node `v` of the strategy. -/
def IsLabel (A : Strategy ν) (vars : Dict String Dom) (v : ν) (d : Attr Elem) : Prop :=
  ∃ st, (v, st) ∈ A.nodes ∧
    ∀ k y, Dict.get? d k = some y ↔ ∃ x, Dict.get? st k = some x ∧ Written vars k x y

/-- Nodes `u`, `v` of the strategy have the same values of the declared variables. -/
def SameVals (A : Strategy ν) (vars : Dict String Dom) (u v : ν) : Prop :=
  ∃ st st', (u, st) ∈ A.nodes ∧ (v, st') ∈ A.nodes ∧
    ∀ k, vars.has k = true → Dict.get? st k = Dict.get? st' k

/-- Node `v` is initial: it is listed, or, if the strategy has no list, its state satisfies the
initial condition. -/
def IsInitial (A : Strategy ν) (isInit : Attr Elem → Except PyErr Bool) (v : ν) : Prop :=
  match A.initialNodes with
  | some l => v ∈ l
  | none => ∃ st, (v, st) ∈ A.nodes ∧ isInit st = .ok true

/-- Well-formed inputs: dictionaries have distinct keys, edges join nodes, no parallel edges, the
values of string variables are not negative. -/
structure Strategy.Good (A : Strategy ν) (vars : Dict String Dom) : Prop where
  nodesWf : A.nodes.Wf
  statesWf : ∀ u st, (u, st) ∈ A.nodes → Dict.Wf st
  edges : ∀ e ∈ A.edges, e.1 ∈ A.nodes.keys
  edgesNodup : A.edges.Nodup
  nonneg : ∀ u st k n l, (u, st) ∈ A.nodes → vars.get? k = some (.strs l) →
    Dict.get? st k = some (.int n) → 0 ≤ n

/-- The variables of a specification: environment and system variables have distinct names. -/
structure VarsOk (envVars sysVars : Dict String Dom) : Prop where
  env : envVars.Wf
  sys : sysVars.Wf
  disjoint : ∀ k, envVars.has k = true → sysVars.has k = false

/-! ## Labels -/

theorem get?_pick {d : Dict String Dom} (h : d.Wf) (k : String) :
    Dict.get? (d.filterMap strItem) k =
      (d.get? k).bind fun t => match t with
        | .strs l => some l
        | _ => none := by
  induction d with
  | nil => rfl
  | cons p d ih =>
    have hw' : p.1 ∉ Dict.keys d ∧ Dict.Wf d := by simpa [Dict.Wf, Dict.keys] using h
    have ih := ih hw'.2
    obtain ⟨k', t⟩ := p
    rw [Dict.get?_cons]
    by_cases hk : k' = k
    · subst hk
      have hno : Dict.get? d k' = none := by
        rw [← Dict.has_false_iff]
        by_contra hc
        exact hw'.1 ((mem_keys_iff_has d k').2 (by simpa using hc))
      rw [hno] at ih
      cases t with
      | boolean => simpa [List.filterMap_cons, strItem] using ih
      | range lo hi => simpa [List.filterMap_cons, strItem] using ih
      | strs l => simp [strItem, Dict.get?_cons]
    · cases t with
      | boolean => simpa [List.filterMap_cons, strItem, hk] using ih
      | range lo hi => simpa [List.filterMap_cons, strItem, hk] using ih
      | strs l => simpa [List.filterMap_cons, strItem, Dict.get?_cons, hk] using ih

theorem wf_pick {d : Dict String Dom} (h : d.Wf) : Dict.Wf (d.filterMap strItem) := by
  have hs : ∀ d : Dict String Dom, (Dict.keys (d.filterMap strItem)).Sublist d.keys := by
    intro d
    induction d with
    | nil => simp [Dict.keys]
    | cons p d ih =>
      obtain ⟨k', t⟩ := p
      cases t with
      | boolean => exact List.Sublist.cons _ ih
      | range lo hi => exact List.Sublist.cons _ ih
      | strs l => exact List.Sublist.cons_cons _ ih
  exact List.Nodup.sublist (hs d) h

theorem get?_strVars {env sys : Dict String Dom} (h : VarsOk env sys) (k : String) :
    (strVars env sys).get? k = ((Dict.update env sys).get? k).bind fun t => match t with
      | .strs l => some l
      | _ => none := by
  unfold strVars
  rw [Dict.get?_update_wf (wf_pick h.sys), get?_pick h.sys, get?_pick h.env,
    Dict.get?_update_wf h.sys]
  cases hs : sys.get? k with
  | none => simp
  | some t =>
    have he : env.get? k = none := by
      rw [← Dict.has_false_iff]
      by_contra hc
      have := h.disjoint k (by simpa using hc)
      rw [Dict.has_false_iff, hs] at this
      cases this
    rw [he]
    cases t <;> simp

theorem pyIndex_nat {α : Type} {l : List α} {n : Nat} {x : α} :
    pyIndex l (n : Int) = .ok x ↔ l[n]? = some x := by
  unfold pyIndex
  rw [if_neg (by omega)]
  simp only [Int.toNat_natCast]
  cases h : l[n]? with
  | none => simp
  | some y =>
    simp only [Option.some.injEq]
    rw [if_neg (by omega)]
    simp

theorem decodeValue_iff {env sys : Dict String Dom} (h : VarsOk env sys) {k : String} {x y : Elem}
    (hk : (Dict.update env sys).has k = true)
    (hn : ∀ l n, (Dict.update env sys).get? k = some (.strs l) → x = .int n → 0 ≤ n) :
    decodeValue (strVars env sys) k x = .ok y ↔ Written (Dict.update env sys) k x y := by
  unfold decodeValue Written
  rw [get?_strVars h]
  obtain ⟨t, ht⟩ := (Dict.has_iff _ _).1 hk
  rw [ht]
  cases t with
  | boolean => simp [eq_comm]
  | range lo hi => simp [eq_comm]
  | strs l =>
    simp only [Option.bind_some]
    cases x with
    | str s => simp
    | int n =>
      have hn' := hn l n ht rfl
      obtain ⟨m, rfl⟩ := Int.eq_ofNat_of_zero_le hn'
      simp only
      constructor
      · intro h1
        cases h2 : pyIndex l (m : Int) with
        | error e => rw [h2] at h1; cases h1
        | ok s =>
          rw [h2] at h1
          cases h1
          exact ⟨m, s, rfl, pyIndex_nat.1 h2, rfl⟩
      · rintro ⟨n, s, h1, h2, rfl⟩
        have : m = n := by
          have : (m : Int) = n := by simpa using h1
          omega
        subst this
        rw [pyIndex_nat.2 h2]
        rfl

theorem int2str_get? {sv : Dict String (List String)} {d r : Attr Elem} (h : int2str sv d = .ok r) :
    r.keys = d.keys ∧ ∀ k, match d.get? k with
      | none => r.get? k = none
      | some x => ∃ y, r.get? k = some y ∧ decodeValue sv k x = .ok y := by
  induction d generalizing r with
  | nil => cases h; exact ⟨rfl, fun k => rfl⟩
  | cons p d ih =>
    unfold int2str at h
    obtain ⟨v, h1, h⟩ := bind_ok h
    obtain ⟨r', h2, h⟩ := bind_ok h
    cases h
    obtain ⟨h3, h4⟩ := ih h2
    refine ⟨by simp only [Dict.keys, List.map_cons] at h3 ⊢; rw [h3], fun k => ?_⟩
    rw [Dict.get?_cons, Dict.get?_cons]
    by_cases hk : p.1 = k
    · subst hk
      simp only [if_true]
      exact ⟨v, rfl, h1⟩
    · simp only [hk, if_false]
      exact h4 k

theorem get?_filter_has {st : Attr Elem} {vars : Dict String Dom} (k : String) :
    Dict.get? (st.filter fun p => vars.has p.1) k =
      if vars.has k = true then Dict.get? st k else none := by
  induction st with
  | nil => simp
  | cons p st ih =>
    rw [List.filter_cons]
    by_cases hp : vars.has p.1 = true
    · rw [if_pos hp, Dict.get?_cons, Dict.get?_cons, ih]
      by_cases hk : p.1 = k
      · subst hk; simp [hp]
      · simp [hk]
    · rw [if_neg hp, ih, Dict.get?_cons]
      by_cases hk : p.1 = k
      · subst hk; simp [hp]
      · simp [hk]

theorem edgeLabel_wf {vars : Dict String Dom} {sv : Dict String (List String)} {st d : Attr Elem}
    (hw : st.Wf) (h : edgeLabel vars sv st = .ok d) : d.Wf := by
  unfold edgeLabel at h
  unfold Dict.Wf
  rw [(int2str_get? h).1]
  exact List.Nodup.sublist (List.Sublist.map _ List.filter_sublist) hw

theorem edgeLabel_isLabel {A : Strategy ν} {env sys : Dict String Dom} (hv : VarsOk env sys)
    (hA : A.Good (Dict.update env sys)) {v : ν} {st d : Attr Elem} (hst : A.nodes.get? v = some st)
    (h : edgeLabel (Dict.update env sys) (strVars env sys) st = .ok d) :
    IsLabel A (Dict.update env sys) v d := by
  refine ⟨st, mem_of_get? hst, fun k y => ?_⟩
  have h1 := (int2str_get? h).2 k
  rw [get?_filter_has] at h1
  by_cases hk : (Dict.update env sys).has k = true
  · rw [if_pos hk] at h1
    cases hx : Dict.get? st k with
    | none => rw [hx] at h1; simp only at h1; rw [h1]; simp
    | some x =>
      rw [hx] at h1
      simp only at h1
      obtain ⟨y', h2, h3⟩ := h1
      rw [h2]
      have hn : ∀ l n, (Dict.update env sys).get? k = some (.strs l) → x = .int n → 0 ≤ n := by
        rintro l n h4 rfl
        exact hA.nonneg v st k n l (mem_of_get? hst) h4 hx
      have hd := fun y => decodeValue_iff hv hk (x := x) (y := y) hn
      simp only [Option.some.injEq, exists_eq_left']
      rw [← hd, h3]
      simp
  · rw [if_neg hk] at h1
    simp only at h1
    rw [h1]
    have : (Dict.update env sys).get? k = none := by
      rw [← Dict.has_false_iff]; simpa using hk
    simp [Written, this]

/-! ## Values of nodes -/

theorem getE_ok {κ α : Type} [DecidableEq κ] {d : Dict κ α} {k : κ} {v : α} :
    getE d k = .ok v ↔ d.get? k = some v := by
  unfold getE
  cases d.get? k <;> simp

theorem valuesOf_ok {V : Type} {keys : List String} {d : Attr V} {vals : List V}
    (h : valuesOf keys d = .ok vals) : keys.map d.get? = vals.map some := by
  induction keys generalizing vals with
  | nil => cases h; rfl
  | cons k ks ih =>
    unfold valuesOf at h
    obtain ⟨v, h1, h⟩ := bind_ok h
    obtain ⟨r, h2, h⟩ := bind_ok h
    cases h
    simp [getE_ok.1 h1, ih h2]

theorem valuesOf_eq_iff {V : Type} {keys : List String} {d d' : Attr V} {vals vals' : List V}
    (h : valuesOf keys d = .ok vals) (h' : valuesOf keys d' = .ok vals') :
    vals = vals' ↔ ∀ k ∈ keys, d.get? k = d'.get? k := by
  have h1 := valuesOf_ok h
  have h2 := valuesOf_ok h'
  rw [← List.map_inj_left, h1, h2]
  exact (List.map_injective_iff.2 (fun _ _ h => by simpa using h)).eq_iff.symm

/-- The values of the declared variables in node `u`. -/
def Vals (A : Strategy ν) (vars : Dict String Dom) (u : ν) (vals : List Elem) : Prop :=
  ∃ st, A.nodes.get? u = some st ∧ valuesOf vars.keys st = .ok vals

theorem Vals.unique {A : Strategy ν} {vars : Dict String Dom} {u : ν} {x y : List Elem}
    (h : Vals A vars u x) (h' : Vals A vars u y) : x = y := by
  obtain ⟨st, h1, h2⟩ := h
  obtain ⟨st', h3, h4⟩ := h'
  rw [h1] at h3; cases h3
  rw [h2] at h4; cases h4
  rfl

theorem sameVals_iff {A : Strategy ν} {vars : Dict String Dom} (hw : A.nodes.Wf) {u v : ν}
    {x y : List Elem} (h : Vals A vars u x) (h' : Vals A vars v y) :
    SameVals A vars u v ↔ x = y := by
  obtain ⟨st, h1, h2⟩ := h
  obtain ⟨st', h3, h4⟩ := h'
  rw [valuesOf_eq_iff h2 h4]
  constructor
  · rintro ⟨a, b, h5, h6, h7⟩ k hk
    rw [get?_of_mem hw h5] at h1; cases h1
    rw [get?_of_mem hw h6] at h3; cases h3
    exact h7 k ((mem_keys_iff_has vars k).1 hk)
  · intro h5
    exact ⟨st, st', mem_of_get? h1, mem_of_get? h3,
      fun k hk => h5 k ((mem_keys_iff_has vars k).2 hk)⟩

/-! ## Edges -/

theorem addEdge_new {V : Type} [DecidableEq V] {g g' : LGraph ν V} {u v : ν} {attr : Attr V}
    {c : Bool} (h : g.addEdge u v attr c = .ok g') (hd : g.edgeDefaults = []) (hw : attr.Wf)
    (hno : ∀ d, (u, v, d) ∉ g.edges) :
    g.hasNode u = true ∧ g.hasNode v = true ∧ g' = { g with edges := g.edges ++ [(u, v, attr)] } := by
  obtain ⟨h1, h2, _, _, _, h3⟩ := addEdge_inv h
  refine ⟨h1, h2, ?_⟩
  rcases h3 with ⟨⟨d, h3, _⟩, _⟩ | ⟨_, _, h3⟩
  · exact absurd (mem_edgeData.1 h3) (hno d)
  · rw [h3, hd, show Dict.update ([] : Attr V) [] = [] from rfl, update_nil_wf hw]

theorem addStrategyEdges_ok {A : Strategy ν} {vars : Dict String Dom}
    {sv : Dict String (List String)} (hA : ∀ u st, (u, st) ∈ A.nodes → Dict.Wf st)
    {es : List (ν × ν)} (hes : es.Nodup) {g g' : LGraph ν Elem} (hd : g.edgeDefaults = [])
    (hno : ∀ e ∈ es, ∀ d, (e.1, e.2, d) ∉ g.edges)
    (h : foldE (addStrategyEdge A vars sv) g es = .ok g') :
    (∃ new, List.Forall₂ (fun (e : ν × ν) f => f.1 = e.1 ∧ f.2.1 = e.2 ∧
      ∃ st, A.nodes.get? e.2 = some st ∧ edgeLabel vars sv st = .ok f.2.2) es new ∧
      g' = { g with edges := g.edges ++ new }) ∧
    (∀ e ∈ es, g.hasNode e.2 = true) ∧ (g.Ok → g'.Ok) := by
  induction es generalizing g with
  | nil =>
    cases h
    exact ⟨⟨[], .nil, by simp⟩, by simp, fun h => h⟩
  | cons e es ih =>
    unfold foldE at h
    obtain ⟨g1, h1, h⟩ := bind_ok h
    unfold addStrategyEdge at h1
    obtain ⟨st, h2, h1⟩ := bind_ok h1
    obtain ⟨d, h3, h1⟩ := bind_ok h1
    have hst := getE_ok.1 h2
    have hw := edgeLabel_wf (hA _ _ (mem_of_get? hst)) h3
    obtain ⟨_, hn2, h4⟩ := addEdge_new h1 hd hw (hno e (by simp))
    rw [List.nodup_cons] at hes
    obtain ⟨⟨new, h5, h6⟩, h7, h8⟩ := ih hes.2 (g := g1) (by rw [h4]; exact hd) (by
      intro f hf d' hm
      rw [h4] at hm
      simp only [List.mem_append, List.mem_singleton, Prod.mk.injEq] at hm
      rcases hm with hm | ⟨e1, e2, _⟩
      · exact hno f (by simp [hf]) d' hm
      · exact hes.1 (by rw [show e = f from Prod.ext e1.symm e2.symm]; exact hf)) h
    refine ⟨⟨(e.1, e.2, d) :: new, .cons ⟨rfl, rfl, st, hst, h3⟩ h5, ?_⟩, ?_, ?_⟩
    · rw [h6, h4]
      simp
    · intro f hf
      rcases List.mem_cons.1 hf with rfl | hf
      · exact hn2
      · have := h7 f hf
        rw [h4] at this
        exact this
    · intro hg
      exact h8 (addEdge_keeps hg hw h1).2

/-! ## Initial edges -/

/-- The targets of the initial edges represent the candidates, once each valuation. -/
structure InitNew (A : Strategy ν) (vars : Dict String Dom) (sv : Dict String (List String))
    (seen : List (List Elem)) (cand : ν → Prop) (new : List (ν × Attr Elem)) : Prop where
  sound : ∀ p ∈ new, cand p.1 ∧ ∃ st vals, A.nodes.get? p.1 = some st ∧
    valuesOf vars.keys st = .ok vals ∧ edgeLabel vars sv st = .ok p.2 ∧ vals ∉ seen
  distinct : new.Pairwise fun p q => ∀ vals, Vals A vars p.1 vals → ¬ Vals A vars q.1 vals
  complete : ∀ u, cand u → ∃ vals, Vals A vars u vals ∧
    (vals ∈ seen ∨ ∃ p ∈ new, Vals A vars p.1 vals)

theorem InitNew.nil {A : Strategy ν} {vars : Dict String Dom} {sv : Dict String (List String)}
    {seen : List (List Elem)} : InitNew A vars sv seen (fun _ => False) [] :=
  ⟨by simp, by simp, by simp⟩

theorem InitNew.congr {A : Strategy ν} {vars : Dict String Dom} {sv : Dict String (List String)}
    {seen : List (List Elem)} {c c' : ν → Prop} {new : List (ν × Attr Elem)}
    (h : InitNew A vars sv seen c new) (hc : ∀ u, c u ↔ c' u) : InitNew A vars sv seen c' new :=
  ⟨fun p hp => ⟨(hc _).1 (h.sound p hp).1, (h.sound p hp).2⟩, h.distinct,
    fun u hu => h.complete u ((hc u).2 hu)⟩

theorem InitNew.skip {A : Strategy ν} {vars : Dict String Dom} {sv : Dict String (List String)}
    {seen : List (List Elem)} {c : ν → Prop} {new : List (ν × Attr Elem)}
    (h : InitNew A vars sv seen c new) {u : ν} {vals : List Elem} (hv : Vals A vars u vals)
    (hs : vals ∈ seen) : InitNew A vars sv seen (fun v => v = u ∨ c v) new :=
  ⟨fun p hp => ⟨Or.inr (h.sound p hp).1, (h.sound p hp).2⟩, h.distinct, by
    rintro v (rfl | hc)
    · exact ⟨vals, hv, Or.inl hs⟩
    · exact h.complete v hc⟩

theorem InitNew.add {A : Strategy ν} {vars : Dict String Dom} {sv : Dict String (List String)}
    {seen : List (List Elem)} {c : ν → Prop} {new : List (ν × Attr Elem)} {u : ν}
    {vals : List Elem} {st d : Attr Elem} (hst : A.nodes.get? u = some st)
    (hv : valuesOf vars.keys st = .ok vals) (hl : edgeLabel vars sv st = .ok d)
    (hs : vals ∉ seen) (h : InitNew A vars sv (vals :: seen) c new) :
    InitNew A vars sv seen (fun v => v = u ∨ c v) ((u, d) :: new) := by
  refine ⟨?_, ?_, ?_⟩
  · intro p hp
    rcases List.mem_cons.1 hp with rfl | hp
    · exact ⟨Or.inl rfl, st, vals, hst, hv, hl, hs⟩
    · obtain ⟨h1, st', vals', h2, h3, h4, h5⟩ := h.sound p hp
      exact ⟨Or.inr h1, st', vals', h2, h3, h4, fun hm => h5 (by simp [hm])⟩
  · refine List.pairwise_cons.2 ⟨fun q hq x hx hx' => ?_, h.distinct⟩
    obtain ⟨_, st', vals', h2, h3, _, h5⟩ := h.sound q hq
    rw [hx.unique ⟨st, hst, hv⟩] at hx'
    rw [hx'.unique ⟨st', h2, h3⟩] at h5
    exact h5 (by simp)
  · rintro v (rfl | hc)
    · exact ⟨vals, ⟨st, hst, hv⟩, Or.inr ⟨_, List.mem_cons_self, st, hst, hv⟩⟩
    · obtain ⟨x, h1, h2⟩ := h.complete v hc
      refine ⟨x, h1, ?_⟩
      rcases h2 with h2 | ⟨p, hp, h2⟩
      · rcases List.mem_cons.1 h2 with rfl | h2
        · exact Or.inr ⟨_, List.mem_cons_self, st, hst, hv⟩
        · exact Or.inl h2
      · exact Or.inr ⟨p, by simp [hp], h2⟩

theorem initEdges_ok {A : Strategy ν} {vars : Dict String Dom}
    {sv : Dict String (List String)} (hA : ∀ u st, (u, st) ∈ A.nodes → Dict.Wf st) {sinit : ν}
    {l : List ν} {seen : List (List Elem)} {g : LGraph ν Elem}
    {r : List (List Elem) × LGraph ν Elem} (hd : g.edgeDefaults = [])
    (hno : ∀ u d, (sinit, u, d) ∈ g.edges → ∃ vals ∈ seen, Vals A vars u vals)
    (h : foldE (initEdge A vars sv sinit) (seen, g) l = .ok r) :
    (∃ new, InitNew A vars sv seen (· ∈ l) new ∧
      r.2 = { g with edges := g.edges ++ new.map fun p => (sinit, p.1, p.2) }) ∧
    (g.Ok → r.2.Ok) := by
  induction l generalizing seen g with
  | nil =>
    cases h
    exact ⟨⟨[], InitNew.nil.congr (by simp), by simp⟩, fun h => h⟩
  | cons u l ih =>
    unfold foldE at h
    obtain ⟨s1, h1, h⟩ := bind_ok h
    unfold initEdge at h1
    obtain ⟨st, h2, h1⟩ := bind_ok h1
    obtain ⟨vals, h3, h1⟩ := bind_ok h1
    have hst := getE_ok.1 h2
    by_cases hs : vals ∈ seen
    · simp only [hs, if_true, Except.ok.injEq] at h1
      subst h1
      obtain ⟨⟨new, h4, h5⟩, h6⟩ := ih hd hno h
      exact ⟨⟨new, (h4.skip ⟨st, hst, h3⟩ hs).congr (by simp), h5⟩, h6⟩
    · simp only [hs, if_false] at h1
      obtain ⟨d, h4, h1⟩ := bind_ok h1
      obtain ⟨g1, h5, h1⟩ := bind_ok h1
      cases h1
      have hw := edgeLabel_wf (hA _ _ (mem_of_get? hst)) h4
      obtain ⟨_, _, h6⟩ := addEdge_new h5 hd hw (by
        intro d' hm
        obtain ⟨x, hx, h7⟩ := hno u d' hm
        rw [h7.unique ⟨st, hst, h3⟩] at hx
        exact hs hx)
      obtain ⟨⟨new, h7, h8⟩, h9⟩ := ih (seen := vals :: seen) (g := g1) (by rw [h6]; exact hd) (by
        intro v d' hm
        rw [h6] at hm
        simp only [List.mem_append, List.mem_singleton, Prod.mk.injEq] at hm
        rcases hm with hm | ⟨_, rfl, _⟩
        · obtain ⟨x, hx, h7⟩ := hno v d' hm
          exact ⟨x, by simp [hx], h7⟩
        · exact ⟨vals, by simp, st, hst, h3⟩) h
      refine ⟨⟨(u, d) :: new, (InitNew.add hst h3 h4 hs h7).congr (by simp), ?_⟩, fun hg => ?_⟩
      · rw [h8, h6]
        simp
      · exact h9 (addEdge_keeps hg hw h5).2

theorem initEdgesEval_ok {A : Strategy ν} {vars : Dict String Dom}
    {sv : Dict String (List String)} (hA : ∀ u st, (u, st) ∈ A.nodes → Dict.Wf st)
    (hwf : A.nodes.Wf) {sinit : ν} {isInit : Attr Elem → Except PyErr Bool}
    (hdep : ∀ a b, (∀ k, vars.has k = true → Dict.get? a k = Dict.get? b k) → isInit a = isInit b)
    {l : List (ν × Attr Elem)} (hl : ∀ p ∈ l, p ∈ A.nodes) {seen : List (List Elem)}
    {tmp : Attr Elem} {g : LGraph ν Elem} {r : InitLoop ν} (hd : g.edgeDefaults = [])
    (hno : ∀ u d, (sinit, u, d) ∈ g.edges → ∃ vals ∈ seen, Vals A vars u vals)
    (h : foldE (initEdgeEval vars sv isInit sinit) ⟨seen, tmp, g⟩ l = .ok r) :
    (∃ new, InitNew A vars sv seen (fun u => ∃ st, (u, st) ∈ l ∧ isInit st = .ok true) new ∧
      r.graph = { g with edges := g.edges ++ new.map fun p => (sinit, p.1, p.2) }) ∧
    (g.Ok → r.graph.Ok) := by
  induction l generalizing seen g tmp with
  | nil =>
    cases h
    exact ⟨⟨[], InitNew.nil.congr (by simp), by simp⟩, fun h => h⟩
  | cons p l ih =>
    obtain ⟨u, st⟩ := p
    have hmem := hl (u, st) (by simp)
    have hst := get?_of_mem hwf hmem
    have hl' : ∀ p ∈ l, p ∈ A.nodes := fun p hp => hl p (by simp [hp])
    unfold foldE at h
    obtain ⟨s1, h1, h⟩ := bind_ok h
    unfold initEdgeEval at h1
    obtain ⟨vals, h3, h1⟩ := bind_ok h1
    simp only at h3
    have hvals : Vals A vars u vals := ⟨st, hst, h3⟩
    have hinit : isInit (tmp.update st) = isInit st := by
      refine hdep _ _ fun k hk => ?_
      rw [Dict.get?_update_wf (hA _ _ hmem)]
      have h5 := valuesOf_ok h3
      have h6 : ∀ k ∈ vars.keys, ∃ x, st.get? k = some x := by
        intro k hk
        have : Dict.get? st k ∈ vals.map some := by
          rw [← h5]; exact List.mem_map_of_mem hk
        obtain ⟨x, _, hx⟩ := List.mem_map.1 this
        exact ⟨x, hx.symm⟩
      obtain ⟨x, hx⟩ := h6 k ((mem_keys_iff_has vars k).2 hk)
      rw [hx]; rfl
    by_cases hs : vals ∈ seen
    · simp only [hs, if_true, Except.ok.injEq] at h1
      subst h1
      obtain ⟨⟨new, h4, h5⟩, h6⟩ := ih hl' hd hno h
      refine ⟨⟨new, ?_, h5⟩, h6⟩
      by_cases hi : isInit st = .ok true
      · refine (h4.skip hvals hs).congr fun v => ?_
        constructor
        · rintro (rfl | ⟨st', hm, hi'⟩)
          · exact ⟨st, by simp, hi⟩
          · exact ⟨st', by simp [hm], hi'⟩
        · rintro ⟨st', hm, hi'⟩
          rcases List.mem_cons.1 hm with e | hm
          · cases e; exact Or.inl rfl
          · exact Or.inr ⟨st', hm, hi'⟩
      · refine h4.congr fun v => ?_
        constructor
        · rintro ⟨st', hm, hi'⟩
          exact ⟨st', by simp [hm], hi'⟩
        · rintro ⟨st', hm, hi'⟩
          rcases List.mem_cons.1 hm with e | hm
          · cases e; exact absurd hi' hi
          · exact ⟨st', hm, hi'⟩
    · simp only [hs, if_false, hinit] at h1
      obtain ⟨b, h4, h1⟩ := bind_ok h1
      cases b with
      | false =>
        simp only [Bool.false_eq_true, if_false, Except.ok.injEq] at h1
        subst h1
        obtain ⟨⟨new, h5, h6⟩, h7⟩ := ih hl' hd hno h
        refine ⟨⟨new, h5.congr fun v => ?_, h6⟩, h7⟩
        constructor
        · rintro ⟨st', hm, hi'⟩
          exact ⟨st', by simp [hm], hi'⟩
        · rintro ⟨st', hm, hi'⟩
          rcases List.mem_cons.1 hm with e | hm
          · cases e; rw [h4] at hi'; simp at hi'
          · exact ⟨st', hm, hi'⟩
      | true =>
        simp only [if_true] at h1
        obtain ⟨d, h5, h1⟩ := bind_ok h1
        obtain ⟨g1, h6, h1⟩ := bind_ok h1
        cases h1
        have hw := edgeLabel_wf (hA _ _ hmem) h5
        obtain ⟨_, _, h7⟩ := addEdge_new h6 hd hw (by
          intro d' hm
          obtain ⟨x, hx, h7⟩ := hno u d' hm
          rw [h7.unique hvals] at hx
          exact hs hx)
        obtain ⟨⟨new, h8, h9⟩, h10⟩ := ih hl' (seen := vals :: seen) (g := g1)
          (by rw [h7]; exact hd) (by
          intro v d' hm
          rw [h7] at hm
          simp only [List.mem_append, List.mem_singleton, Prod.mk.injEq] at hm
          rcases hm with hm | ⟨_, rfl, _⟩
          · obtain ⟨x, hx, h7⟩ := hno v d' hm
            exact ⟨x, by simp [hx], h7⟩
          · exact ⟨vals, by simp, hvals⟩) h
        refine ⟨⟨(u, d) :: new, (InitNew.add hst h3 h5 hs h8).congr fun v => ?_, ?_⟩, fun hg => ?_⟩
        · constructor
          · rintro (rfl | ⟨st', hm, hi'⟩)
            · exact ⟨st, by simp, h4⟩
            · exact ⟨st', by simp [hm], hi'⟩
          · rintro ⟨st', hm, hi'⟩
            rcases List.mem_cons.1 hm with e | hm
            · cases e; exact Or.inl rfl
            · exact Or.inr ⟨st', hm, hi'⟩
        · rw [h9, h7]
          simp
        · exact h10 (addEdge_keeps hg hw h6).2

/-! ## The machine -/

theorem mem_strategyEdges {A : Strategy ν} (h : ∀ e ∈ A.edges, e.1 ∈ A.nodes.keys) (e : ν × ν) :
    e ∈ strategyEdges A ↔ e ∈ A.edges := by
  unfold strategyEdges
  simp only [List.mem_flatMap, List.mem_filter, decide_eq_true_eq]
  constructor
  · rintro ⟨_, _, h1, _⟩
    exact h1
  · intro he
    obtain ⟨p, hp, h1⟩ := List.mem_map.1 (h e he)
    exact ⟨p, hp, he, h1.symm⟩

theorem strategyEdges_nodup {A : Strategy ν} (hw : A.nodes.Wf) (he : A.edges.Nodup) :
    (strategyEdges A).Nodup := by
  unfold strategyEdges
  rw [List.nodup_flatMap]
  refine ⟨fun p _ => he.filter _, ?_⟩
  have : A.nodes.Pairwise fun p q => p.1 ≠ q.1 := List.pairwise_map.1 hw
  refine this.imp fun {p q} hpq => ?_
  intro e h1 h2
  simp only [List.mem_filter, decide_eq_true_eq] at h1 h2
  exact hpq (h1.2.symm.trans h2.2)

theorem newMealy_ok (i o : Ports Elem) : (newMealy i o : Machine ν Elem).graph.Ok :=
  (run_ok (ν := ν) (nt := []) (nd := []) (et := Dict.update (Dict.update [] (typesOf i)) (typesOf o))
    (ed := []) (ops := []) (by simp)
    ).2.2.2

/-- The values of a port, from the declared domain of the variable. -/
def HasDomain (t : Dom) (vs : List Elem) : Prop :=
  match t with
  | .boolean => ∀ x, x ∈ vs ↔ x = .int 0 ∨ x = .int 1
  | .range lo hi => ∀ x, x ∈ vs ↔ ∃ n, x = .int n ∧ lo ≤ n ∧ n ≤ hi
  | .strs l => ∀ x, x ∈ vs ↔ ∃ s ∈ l, x = .str s

theorem domValues_spec (t : Dom) : HasDomain t (domValues t) := by
  cases t with
  | boolean => intro x; simp [domValues]
  | range lo hi =>
    intro x
    simp only [domValues, List.mem_map, List.mem_range]
    constructor
    · rintro ⟨n, h1, rfl⟩
      exact ⟨_, rfl, by omega, by omega⟩
    · rintro ⟨n, rfl, h1, h2⟩
      exact ⟨(n - lo).toNat, by omega, by congr 1; omega⟩
  | strs l => intro x; simp [domValues, eq_comm]

theorem get?_machinePorts (d : Dict String Dom) (k : String) :
    (machinePorts d).get? k = (d.get? k).map domValues := by
  induction d with
  | nil => rfl
  | cons p d ih =>
    show Dict.get? ((p.1, domValues p.2) :: machinePorts d) k = _
    rw [Dict.get?_cons, Dict.get?_cons, ih]
    split <;> rfl

theorem has_machinePorts (d : Dict String Dom) (k : String) :
    (machinePorts d).has k = d.has k := by
  rw [has_eq, has_eq, get?_machinePorts]
  cases d.get? k <;> rfl

theorem foldE_inv {σ α : Type} {P : σ → Prop} {f : σ → α → Except PyErr σ} {l : List α}
    (hf : ∀ s x s', P s → f s x = .ok s' → P s') {s s' : σ} (hs : P s) (h : foldE f s l = .ok s') :
    P s' := by
  induction l generalizing s with
  | nil => cases h; exact hs
  | cons x l ih =>
    unfold foldE at h
    obtain ⟨s1, h1, h⟩ := bind_ok h
    exact ih (hf s x s1 hs h1) h

theorem addEdge_nodes {g g' : LGraph ν Elem} {u v : ν} {a : Attr Elem} {c : Bool}
    (h : g.addEdge u v a c = .ok g') : g'.nodes = g.nodes := by
  obtain ⟨_, _, _, _, _, h3⟩ := addEdge_inv h
  rcases h3 with ⟨_, rfl⟩ | ⟨_, _, rfl⟩ <;> rfl

theorem addInitEdges_nodes {A : Strategy ν} {vars : Dict String Dom}
    {sv : Dict String (List String)} {sinit : ν} {isInit : Attr Elem → Except PyErr Bool}
    {g g' : LGraph ν Elem} (h : addInitEdges A vars sv isInit sinit g = .ok g') :
    g'.nodes = g.nodes := by
  unfold addInitEdges at h
  split at h
  · split at h
    · cases h
    · obtain ⟨r, h1, h⟩ := bind_ok h
      cases h
      refine foldE_inv (P := fun s => s.2.nodes = g.nodes) ?_ rfl h1
      intro s x s' hs h
      unfold initEdge at h
      obtain ⟨st, _, h⟩ := bind_ok h
      obtain ⟨vals, _, h⟩ := bind_ok h
      split at h
      · cases h; exact hs
      · obtain ⟨d, _, h⟩ := bind_ok h
        obtain ⟨g1, h2, h⟩ := bind_ok h
        cases h
        exact (addEdge_nodes h2).trans hs
  · obtain ⟨r, h1, h⟩ := bind_ok h
    cases h
    refine foldE_inv (P := fun s => s.graph.nodes = g.nodes) ?_ rfl h1
    intro s x s' hs h
    unfold initEdgeEval at h
    obtain ⟨vals, _, h⟩ := bind_ok h
    split at h
    · cases h; exact hs
    · obtain ⟨b, _, h⟩ := bind_ok h
      split at h
      · obtain ⟨d, _, h⟩ := bind_ok h
        obtain ⟨g1, h2, h⟩ := bind_ok h
        cases h
        exact (addEdge_nodes h2).trans hs
      · cases h; exact hs

theorem addInitEdges_ok {A : Strategy ν} {vars : Dict String Dom}
    {sv : Dict String (List String)} (hA : ∀ u st, (u, st) ∈ A.nodes → Dict.Wf st)
    (hwf : A.nodes.Wf) {sinit : ν} {isInit : Attr Elem → Except PyErr Bool}
    (hdep : ∀ a b, (∀ k, vars.has k = true → Dict.get? a k = Dict.get? b k) → isInit a = isInit b)
    {g g' : LGraph ν Elem} (hd : g.edgeDefaults = []) (hno : ∀ u d, (sinit, u, d) ∉ g.edges)
    (h : addInitEdges A vars sv isInit sinit g = .ok g') :
    (∃ new, InitNew A vars sv [] (IsInitial A isInit) new ∧
      g' = { g with edges := g.edges ++ new.map fun p => (sinit, p.1, p.2) }) ∧
    (g.Ok → g'.Ok) := by
  unfold addInitEdges at h
  split at h
  · rename_i l hl
    split at h
    · cases h
    · obtain ⟨r, h1, h⟩ := bind_ok h
      cases h
      obtain ⟨⟨new, h2, h3⟩, h4⟩ := initEdges_ok hA hd (fun u d hm => absurd hm (hno u d)) h1
      exact ⟨⟨new, h2.congr fun u => by simp [IsInitial, hl], h3⟩, h4⟩
  · rename_i hl
    obtain ⟨r, h1, h⟩ := bind_ok h
    cases h
    obtain ⟨⟨new, h2, h3⟩, h4⟩ := initEdgesEval_ok hA hwf hdep (fun p hp => hp) hd
      (fun u d hm => absurd hm (hno u d)) h1
    exact ⟨⟨new, h2.congr fun u => by simp [IsInitial, hl], h3⟩, h4⟩

theorem nodes_length {d : Dict ν (Attr Elem)} (hd : d.Wf) {l : List ν} (hl : l.Nodup)
    (h : ∀ n, d.has n = true ↔ n ∈ l) : d.length = l.length := by
  have hp : d.keys.Perm l := (List.perm_ext_iff_of_nodup hd hl).2 fun n => by
    rw [mem_keys_iff_has, h]
  have := hp.length_eq
  simpa [Dict.keys] using this

/-- **C31**. The machine that `strategy2mealy` returns: its ports are the declared variables with
their domains; its states are the nodes of the strategy and one new initial state; its edges are the
edges of the strategy, each labeled with the values of the declared variables in its target; an edge
leads from the initial state to exactly one initial node for each valuation of the variables at
initial nodes. -/
theorem strategy2mealy_spec {A : Strategy ν} {env sys : Dict String Dom}
    {isInit : Attr Elem → Except PyErr Bool} {sinit : ν} {m : Machine ν Elem}
    (hv : VarsOk env sys) (hA : A.Good (Dict.update env sys))
    (hdep : ∀ a b, (∀ k, (Dict.update env sys).has k = true → Dict.get? a k = Dict.get? b k) →
      isInit a = isInit b)
    (h : strategy2mealy A env sys isInit sinit = .ok m) :
    ((∀ k, m.inputs.has k = env.has k) ∧
      (∀ k t, env.get? k = some t → ∃ vs, m.inputs.get? k = some vs ∧ HasDomain t vs)) ∧
    ((∀ k, m.outputs.has k = sys.has k) ∧
      (∀ k t, sys.get? k = some t → ∃ vs, m.outputs.get? k = some vs ∧ HasDomain t vs)) ∧
    sinit ∉ A.nodes.keys ∧ (∀ n, m.graph.hasNode n = true ↔ n = sinit ∨ n ∈ A.nodes.keys) ∧
    m.graph.initial = [sinit] ∧ m.graph.Ok ∧ m.graph.edgeDefaults = [] ∧
    (∀ u v d, u ≠ sinit → (u, v, d) ∈ m.graph.edges →
      (u, v) ∈ A.edges ∧ IsLabel A (Dict.update env sys) v d) ∧
    (∀ u v, (u, v) ∈ A.edges → ∃ d, (u, v, d) ∈ m.graph.edges ∧ ∀ d', (u, v, d') ∈ m.graph.edges → d' = d) ∧
    (∀ v d, (sinit, v, d) ∈ m.graph.edges →
      IsInitial A isInit v ∧ IsLabel A (Dict.update env sys) v d) ∧
    (∀ v, IsInitial A isInit v →
      ∃ u d, (sinit, u, d) ∈ m.graph.edges ∧ SameVals A (Dict.update env sys) u v) ∧
    (∀ u d v d', (sinit, u, d) ∈ m.graph.edges → (sinit, v, d') ∈ m.graph.edges →
      SameVals A (Dict.update env sys) u v → u = v ∧ d = d') := by
  unfold strategy2mealy at h
  split at h
  · cases h
  rename_i first rest hfirst
  obtain ⟨nodes, hn1, hn2⟩ := copyNodes_spec
    (g := (newMealy (machinePorts env) (machinePorts sys) : Machine ν Elem).graph) rfl A.nodes.keys
  have e0 : (newMealy (machinePorts env) (machinePorts sys) : Machine ν Elem).graph.addNodesFrom
      (A.nodes.map fun p => (p.1, [])) =
      ({ (newMealy (machinePorts env) (machinePorts sys) : Machine ν Elem).graph with
        nodes := nodes }, none) := by
    rw [← hn1]
    unfold copyNodes Dict.keys
    rw [List.map_map]
    rfl
  have hok0 := (call_keeps (newMealy_ok (ν := ν) (machinePorts env) (machinePorts sys))
    (op := .addNodesFrom (A.nodes.map fun p => (p.1, [])) true) trivial).2
  simp only [call, e0] at hok0
  have hnodes : ∀ n, Dict.has nodes n = true ↔ n ∈ A.nodes.keys := by
    intro n
    rw [hn2 n]
    simp [newMealy, hasNode, Dict.has]
  simp only [e0] at h
  unfold toExcept at h
  simp only [ok_bind] at h
  split at h
  · cases h
  obtain ⟨g1, h1, h⟩ := bind_ok h
  obtain ⟨g2, h2, h⟩ := bind_ok h
  obtain ⟨g3, h3, h⟩ := bind_ok h
  obtain ⟨g4, h4, h⟩ := bind_ok h
  split at h
  · cases h
  rename_i hlen
  cases h
  obtain ⟨⟨new, h5, h6⟩, h7, h8⟩ := addStrategyEdges_ok hA.statesWf
    (strategyEdges_nodup hA.nodesWf hA.edgesNodup) (by rfl) (by simp [newMealy]) h1
  have hok1 := h8 hok0
  have hok2 := (addNode_ok hok1 h2).2
  rw [addNode_plain (by rw [h6]; rfl) (by simp [Dict.Wf, Dict.keys]) (by simp [Typed])
    (by simp [Dict.has])] at h2
  have hg2 : g2 = { g1 with nodes := g1.nodes.set sinit (((g1.nodes.get? sinit).getD []).update []) } := by
    cases h2; rfl
  have hn2' : ∀ n, g2.hasNode n = true ↔ n = sinit ∨ n ∈ A.nodes.keys := by
    intro n
    rw [hg2, hasNode_addNode, h6]
    simp only [Bool.or_eq_true, decide_eq_true_eq, hasNode, hnodes]
    constructor
    · rintro (rfl | h)
      · exact Or.inl rfl
      · exact Or.inr h
    · rintro (rfl | h)
      · exact Or.inl rfl
      · exact Or.inr h
  have hok3 := (call_keeps hok2 (op := .addInitial sinit) trivial).2
  simp only [call, h3, orSame] at hok3
  have hg3 : g3 = { g2 with initial := [sinit] } := by
    have : g2.initial = [] := by rw [hg2, h6]; rfl
    unfold addInitial at h3
    rw [if_pos ((hn2' sinit).2 (Or.inl rfl)), this] at h3
    cases h3
    rfl
  have hg3d : g3.edgeDefaults = [] := by rw [hg3, hg2, h6]; rfl
  have hg3e : g3.edges = new := by rw [hg3, hg2, h6]; simp [newMealy]
  have hsin : sinit ∉ A.nodes.keys := by
    intro hc
    have h9 : List.length g4.nodes = A.nodes.length := by
      have hk : A.nodes.keys.length = A.nodes.length := by simp [Dict.keys]
      rw [addInitEdges_nodes h4, ← hk]
      refine nodes_length hok3.nodup hA.nodesWf fun n => ?_
      have := hn2' n
      rw [hg3]
      simp only [hasNode] at this
      rw [this]
      constructor
      · rintro (rfl | h)
        · exact hc
        · exact h
      · exact Or.inr
    have : List.length g4.nodes = A.nodes.length + 1 := by simpa using hlen
    omega
  have hno : ∀ u d, (sinit, u, d) ∉ g3.edges := by
    intro u d hm
    rw [hg3e] at hm
    obtain ⟨e, he, h9, _⟩ := forall₂_mem_right h5 hm
    have h10 := hA.edges e ((mem_strategyEdges hA.edges e).1 he)
    rw [← h9] at h10
    exact hsin h10
  obtain ⟨⟨inew, hi1, hi2⟩, hi3⟩ := addInitEdges_ok hA.statesWf hA.nodesWf hdep hg3d hno h4
  have hedge : ∀ e, e ∈ g4.edges ↔ e ∈ new ∨ ∃ p ∈ inew, e = (sinit, p.1, p.2) := by
    intro e
    rw [hi2]
    simp only [List.mem_append, hg3e, List.mem_map, eq_comm]
  have hnew : ∀ u v d, (u, v, d) ∈ new → (u, v) ∈ A.edges ∧ ∃ st, A.nodes.get? v = some st ∧
      edgeLabel (Dict.update env sys) (strVars env sys) st = .ok d := by
    intro u v d hm
    obtain ⟨e, he, h9, h10, st, h11, h12⟩ := forall₂_mem_right h5 hm
    have he' := (mem_strategyEdges hA.edges e).1 he
    simp only at h9 h10
    rw [h9, h10]
    exact ⟨he', st, h11, h12⟩
  have hnew' : ∀ v d, (sinit, v, d) ∈ g4.edges → ∃ p ∈ inew, v = p.1 ∧ d = p.2 := by
    intro v d hm
    rcases (hedge _).1 hm with h9 | ⟨p, hp, h9⟩
    · exact absurd (hA.edges _ (hnew _ _ _ h9).1) hsin
    · simp only [Prod.mk.injEq, true_and] at h9
      exact ⟨p, hp, h9.1, h9.2⟩
  refine ⟨⟨fun k => has_machinePorts env k, fun k t hk => ⟨domValues t, ?_, domValues_spec t⟩⟩,
    ⟨fun k => has_machinePorts sys k, fun k t hk => ⟨domValues t, ?_, domValues_spec t⟩⟩, hsin,
    ?_, ?_, hi3 hok3, ?_, ?_, ?_, ?_, ?_, ?_⟩
  · show (machinePorts env).get? k = _
    rw [get?_machinePorts, hk]; rfl
  · show (machinePorts sys).get? k = _
    rw [get?_machinePorts, hk]; rfl
  · intro n
    have := hn2' n
    simp only [hasNode] at this ⊢
    rw [addInitEdges_nodes h4, hg3, this]
  · show g4.initial = _
    rw [hi2, hg3]
  · show g4.edgeDefaults = _
    rw [hi2]; exact hg3d
  · intro u v d hu hm
    rcases (hedge _).1 hm with h9 | ⟨p, hp, h9⟩
    · obtain ⟨h10, st, h11, h12⟩ := hnew _ _ _ h9
      exact ⟨h10, edgeLabel_isLabel hv hA h11 h12⟩
    · exact absurd (congrArg Prod.fst h9) hu
  · intro u v he
    obtain ⟨f, hf, h9, h10, st, h11, h12⟩ :=
      forall₂_mem_left h5 ((mem_strategyEdges hA.edges (u, v)).2 he)
    obtain ⟨fu, fv, fd⟩ := f
    simp only at h9 h10 h11 h12
    subst h9 h10
    refine ⟨fd, (hedge _).2 (Or.inl hf), fun d' hd' => ?_⟩
    rcases (hedge _).1 hd' with h13 | ⟨p, hp, h13⟩
    · obtain ⟨_, st', h14, h15⟩ := hnew _ _ _ h13
      rw [h11] at h14; cases h14
      rw [h12] at h15; cases h15
      rfl
    · have h14 : fu = sinit := congrArg Prod.fst h13
      have h15 := hA.edges _ he
      rw [show ((fu, fv) : ν × ν).1 = sinit from h14] at h15
      exact absurd h15 hsin
  · intro v d hm
    obtain ⟨p, hp, rfl, rfl⟩ := hnew' v d hm
    obtain ⟨h9, st, vals, h10, _, h11, _⟩ := hi1.sound p hp
    exact ⟨h9, edgeLabel_isLabel hv hA h10 h11⟩
  · intro v hi
    obtain ⟨vals, h9, h10⟩ := hi1.complete v hi
    rcases h10 with h10 | ⟨p, hp, h10⟩
    · cases h10
    · exact ⟨p.1, p.2, (hedge _).2 (Or.inr ⟨p, hp, rfl⟩), (sameVals_iff hA.nodesWf h10 h9).2 rfl⟩
  · intro u d v d' h9 h10 h11
    obtain ⟨p, hp, rfl, rfl⟩ := hnew' u d h9
    obtain ⟨q, hq, rfl, rfl⟩ := hnew' v d' h10
    obtain ⟨_, st, vals, h12, h13, _, _⟩ := hi1.sound p hp
    obtain ⟨_, st', vals', h14, h15, _, _⟩ := hi1.sound q hq
    have h16 := (sameVals_iff hA.nodesWf ⟨st, h12, h13⟩ ⟨st', h14, h15⟩).1 h11
    by_cases hpq : p = q
    · subst hpq; exact ⟨rfl, rfl⟩
    · exfalso
      have hsym : inew.Pairwise fun p q => ¬ ∃ vals, Vals A (Dict.update env sys) p.1 vals ∧
          Vals A (Dict.update env sys) q.1 vals :=
        hi1.distinct.imp fun {a b} h => by rintro ⟨x, h1, h2⟩; exact h x h1 h2
      have : Std.Symm fun p q : ν × Attr Elem => ¬ ∃ vals, Vals A (Dict.update env sys) p.1 vals ∧
          Vals A (Dict.update env sys) q.1 vals :=
        ⟨fun a b h ⟨x, h1, h2⟩ => h ⟨x, h2, h1⟩⟩
      exact hsym.forall hp hq hpq ⟨vals, ⟨st, h12, h13⟩, st', h14, h16 ▸ h15⟩

/-! ## Runs of the machine -/

/-- Node `v` of the strategy has the values `i` of the environment variables and `o` of the system
variables. -/
def Reads (A : Strategy ν) (env sys : Dict String Dom) (v : ν) (i o : Mach.Val Elem) : Prop :=
  ∃ st, (v, st) ∈ A.nodes ∧
    (∀ k y, i k = some y ↔ env.has k = true ∧
      ∃ x, Dict.get? st k = some x ∧ Written (Dict.update env sys) k x y) ∧
    (∀ k y, o k = some y ↔ sys.has k = true ∧
      ∃ x, Dict.get? st k = some x ∧ Written (Dict.update env sys) k x y)

/-- A play of the strategy after node `v`: the values in the nodes entered, and these nodes. -/
inductive Play (A : Strategy ν) (env sys : Dict String Dom) :
    ν → List (Mach.Val Elem × Mach.Val Elem) → List ν → Prop
  | nil (v : ν) : Play A env sys v [] []
  | cons {v t : ν} {i o : Mach.Val Elem} {w : List (Mach.Val Elem × Mach.Val Elem)} {ts : List ν} :
      (v, t) ∈ A.edges → Reads A env sys t i o → Play A env sys t w ts →
      Play A env sys v ((i, o) :: w) (t :: ts)

theorem reads_of_isLabel {A : Strategy ν} {env sys : Dict String Dom} {m : Machine ν Elem}
    (hi : ∀ k, m.inputs.has k = env.has k) (ho : ∀ k, m.outputs.has k = sys.has k) {v : ν}
    {d : Attr Elem} (h : IsLabel A (Dict.update env sys) v d) :
    Reads A env sys v (restrict m.inputs d) (restrict m.outputs d) := by
  obtain ⟨st, h1, h2⟩ := h
  refine ⟨st, h1, fun k y => ?_, fun k y => ?_⟩
  · unfold restrict
    rw [hi, ← h2]
    by_cases hk : env.has k = true <;> simp [hk]
  · unfold restrict
    rw [ho, ← h2]
    by_cases hk : sys.has k = true <;> simp [hk]

theorem val_ext {a b : Mach.Val Elem} (h : ∀ k y, a k = some y ↔ b k = some y) : a = b := by
  funext k
  cases ha : a k with
  | some y => exact ((h k y).1 ha).symm
  | none =>
    cases hb : b k with
    | none => rfl
    | some y => rw [(h k y).2 hb] at ha; cases ha

theorem Reads.unique {A : Strategy ν} {env sys : Dict String Dom} (hw : A.nodes.Wf) {v : ν}
    {i o i' o' : Mach.Val Elem} (h : Reads A env sys v i o) (h' : Reads A env sys v i' o') :
    i = i' ∧ o = o' := by
  obtain ⟨st, h1, h2, h3⟩ := h
  obtain ⟨st', h4, h5, h6⟩ := h'
  have : st = st' := by
    have h7 := get?_of_mem hw h1
    rw [get?_of_mem hw h4] at h7
    cases h7; rfl
  subst this
  exact ⟨val_ext fun k y => by rw [h2, h5], val_ext fun k y => by rw [h3, h6]⟩

/-- **C31**. From a state of the machine that is a node of the strategy, the executions of the
machine are the plays of the strategy, with the same inputs and outputs. -/
theorem strategy2mealy_exec {A : Strategy ν} {env sys : Dict String Dom}
    {isInit : Attr Elem → Except PyErr Bool} {sinit : ν} {m : Machine ν Elem}
    (hv : VarsOk env sys) (hA : A.Good (Dict.update env sys))
    (hdep : ∀ a b, (∀ k, (Dict.update env sys).has k = true → Dict.get? a k = Dict.get? b k) →
      isInit a = isInit b)
    (h : strategy2mealy A env sys isInit sinit = .ok m) {v : ν} (hn : v ∈ A.nodes.keys)
    (w : List (Mach.Val Elem × Mach.Val Elem)) (ts : List ν) :
    Exec m v w ts ↔ Play A env sys v w ts := by
  obtain ⟨⟨hi, _⟩, ⟨ho, _⟩, hs, _, _, _, _, h1, h2, _⟩ := strategy2mealy_spec hv hA hdep h
  have hne : ∀ v, v ∈ A.nodes.keys → v ≠ sinit := by
    rintro v hv rfl
    exact hs hv
  constructor
  · intro he
    induction he with
    | nil v => exact .nil v
    | cons hstep _ ih =>
      obtain ⟨d, h3, rfl, rfl⟩ := hstep
      obtain ⟨h4, h5⟩ := h1 _ _ _ (hne _ hn) h3
      have h6 := h5
      obtain ⟨st, h7, _⟩ := h6
      exact .cons h4 (reads_of_isLabel hi ho h5) (ih (List.mem_map_of_mem (f := Prod.fst) h7))
  · intro hp
    induction hp with
    | nil v => exact .nil v
    | @cons v t i o w ts he hr _ ih =>
      obtain ⟨d, h3, _⟩ := h2 _ _ he
      have h5 := (h1 _ _ _ (hne _ hn) h3).2
      obtain ⟨rfl, rfl⟩ := hr.unique hA.nodesWf (reads_of_isLabel hi ho h5)
      obtain ⟨st, h7, _⟩ := h5
      exact .cons ⟨d, h3, rfl, rfl⟩ (ih (List.mem_map_of_mem (f := Prod.fst) h7))

/-- **C31**. The executions of the machine from its initial state are plays of the strategy that
start at an initial node. -/
theorem strategy2mealy_sound {A : Strategy ν} {env sys : Dict String Dom}
    {isInit : Attr Elem → Except PyErr Bool} {sinit : ν} {m : Machine ν Elem}
    (hv : VarsOk env sys) (hA : A.Good (Dict.update env sys))
    (hdep : ∀ a b, (∀ k, (Dict.update env sys).has k = true → Dict.get? a k = Dict.get? b k) →
      isInit a = isInit b)
    (h : strategy2mealy A env sys isInit sinit = .ok m) {s : ν} (hs : s ∈ m.graph.initial)
    {w : List (Mach.Val Elem × Mach.Val Elem)} {ts : List ν} (he : Exec m s w ts) :
    (w = [] ∧ ts = []) ∨ ∃ v i o w' ts', w = (i, o) :: w' ∧ ts = v :: ts' ∧
      IsInitial A isInit v ∧ Reads A env sys v i o ∧ Play A env sys v w' ts' := by
  obtain ⟨⟨hi, _⟩, ⟨ho, _⟩, _, _, hin, _, _, _, _, h3, _⟩ := strategy2mealy_spec hv hA hdep h
  rw [hin, List.mem_singleton] at hs
  subst hs
  cases he with
  | nil => exact Or.inl ⟨rfl, rfl⟩
  | cons hstep he =>
    obtain ⟨d, h4, rfl, rfl⟩ := hstep
    obtain ⟨h5, h6⟩ := h3 _ _ h4
    have h7 := h6
    obtain ⟨st, h8, _⟩ := h7
    exact Or.inr ⟨_, _, _, _, _, rfl, rfl, h5, reads_of_isLabel hi ho h6,
      (strategy2mealy_exec hv hA hdep h (List.mem_map_of_mem (f := Prod.fst) h8) _ _).1 he⟩

/-- **C31**. Every initial node of the strategy has the values of a first transition of the machine,
to an initial node from which the machine follows every play of the strategy. -/
theorem strategy2mealy_complete {A : Strategy ν} {env sys : Dict String Dom}
    {isInit : Attr Elem → Except PyErr Bool} {sinit : ν} {m : Machine ν Elem}
    (hv : VarsOk env sys) (hA : A.Good (Dict.update env sys))
    (hdep : ∀ a b, (∀ k, (Dict.update env sys).has k = true → Dict.get? a k = Dict.get? b k) →
      isInit a = isInit b)
    (h : strategy2mealy A env sys isInit sinit = .ok m) {v : ν} (hi : IsInitial A isInit v)
    {i o : Mach.Val Elem} (hr : Reads A env sys v i o) :
    ∃ u, IsInitial A isInit u ∧ SameVals A (Dict.update env sys) u v ∧
      ∀ w ts, Play A env sys u w ts → Exec m sinit ((i, o) :: w) (u :: ts) := by
  obtain ⟨⟨hin, _⟩, ⟨hout, _⟩, _, _, _, _, _, _, _, h3, h4, _⟩ := strategy2mealy_spec hv hA hdep h
  obtain ⟨u, d, h5, h6⟩ := h4 v hi
  obtain ⟨h7, h8⟩ := h3 u d h5
  refine ⟨u, h7, h6, fun w ts hp => ?_⟩
  have h9 := reads_of_isLabel hin hout h8
  have h10 : Reads A env sys v (restrict m.inputs d) (restrict m.outputs d) := by
    obtain ⟨st, h11, h12, h13⟩ := h9
    obtain ⟨a, b, h14, h15, h16⟩ := h6
    have : st = a := by
      have h7 := get?_of_mem hA.nodesWf h11
      rw [get?_of_mem hA.nodesWf h14] at h7
      cases h7; rfl
    subst this
    have hd : ∀ k x y, Written (Dict.update env sys) k x y → (Dict.update env sys).has k = true := by
      intro k x y hw
      unfold Written at hw
      rw [has_eq]
      cases hg : (Dict.update env sys).get? k with
      | none => rw [hg] at hw; exact hw.elim
      | some t => rfl
    refine ⟨b, h15, fun k y => ?_, fun k y => ?_⟩
    · rw [h12]
      constructor
      · rintro ⟨h1, x, h2, hw⟩
        exact ⟨h1, x, by rw [← h16 k (hd k x y hw)]; exact h2, hw⟩
      · rintro ⟨h1, x, h2, hw⟩
        exact ⟨h1, x, by rw [h16 k (hd k x y hw)]; exact h2, hw⟩
    · rw [h13]
      constructor
      · rintro ⟨h1, x, h2, hw⟩
        exact ⟨h1, x, by rw [← h16 k (hd k x y hw)]; exact h2, hw⟩
      · rintro ⟨h1, x, h2, hw⟩
        exact ⟨h1, x, by rw [h16 k (hd k x y hw)]; exact h2, hw⟩
  obtain ⟨rfl, rfl⟩ := hr.unique hA.nodesWf h10
  have h17 := h8
  obtain ⟨st, h18, _⟩ := h17
  exact .cons ⟨d, h5, rfl, rfl⟩
    ((strategy2mealy_exec hv hA hdep h (List.mem_map_of_mem (f := Prod.fst) h18) w ts).2 hp)

/-! ### Examples -/

/-- A strategy with a string variable: `x` is an input, `a` an output. -/
def relay : Strategy Nat where
  nodes := [(0, [("x", .int 0), ("a", .int 1)]), (1, [("x", .int 1), ("a", .int 0)]),
    (2, [("x", .int 0), ("a", .int 1)])]
  edges := [(0, 1), (1, 0), (1, 2), (2, 2)]
  initialNodes := none

def relayInit (st : Attr Elem) : Except PyErr Bool := .ok (decide (Dict.get? st "x" = some (.int 0)))

/-- The hypotheses of the theorems of this section are met. -/
theorem relay_ok : VarsOk [("x", .boolean)] [("a", .strs ["go", "stop"])] ∧
    relay.Good (Dict.update [("x", .boolean)] [("a", .strs ["go", "stop"])]) ∧
    (∀ a b, (∀ k, (Dict.update [("x", Dom.boolean)] [("a", .strs ["go", "stop"])]).has k = true →
      Dict.get? a k = Dict.get? b k) → relayInit a = relayInit b) := by
  refine ⟨⟨by unfold Dict.Wf; simp [Dict.keys], by unfold Dict.Wf; simp [Dict.keys], ?_⟩,
    ⟨by unfold Dict.Wf; simp [Dict.keys, relay], ?_, by decide, by decide, ?_⟩, ?_⟩
  · intro k hk
    simp [Dict.has] at hk ⊢
    subst hk
    decide
  · intro u st hm
    simp only [relay, List.mem_cons, Prod.mk.injEq, List.not_mem_nil, or_false] at hm
    rcases hm with ⟨_, rfl⟩ | ⟨_, rfl⟩ | ⟨_, rfl⟩ <;> (unfold Dict.Wf; simp [Dict.keys])
  · intro u st k n l hm hk hg
    simp only [relay, List.mem_cons, Prod.mk.injEq, List.not_mem_nil, or_false] at hm
    rcases hm with ⟨_, rfl⟩ | ⟨_, rfl⟩ | ⟨_, rfl⟩ <;>
    · simp only [Dict.get?_cons] at hg
      split at hg
      · simp at hg; omega
      · split at hg
        · simp at hg; omega
        · simp at hg
  · intro a b h
    unfold relayInit
    rw [h "x" (by decide)]

/-- Node 2 has the same values as node 0: the machine has one initial edge. -/
example : ∃ m, strategy2mealy relay [("x", .boolean)] [("a", .strs ["go", "stop"])] relayInit 9 =
    .ok m ∧ m.graph.edges = [(0, 1, [("x", .int 1), ("a", .str "go")]),
      (1, 0, [("x", .int 0), ("a", .str "stop")]), (1, 2, [("x", .int 0), ("a", .str "stop")]),
      (2, 2, [("x", .int 0), ("a", .str "stop")]), (9, 0, [("x", .int 0), ("a", .str "stop")])] :=
  ⟨_, rfl, by decide +kernel⟩

/-- The documented error for a strategy with no initial node is not raised: the machine has no
transition from its initial state. -/
theorem strategy2mealy_noinit_counterexample :
    (∀ v, ¬ IsInitial relay (fun _ => .ok false) v) ∧
    ∃ m, strategy2mealy relay [("x", .boolean)] [("a", .strs ["go", "stop"])] (fun _ => .ok false) 9 =
      .ok m ∧ ∀ v d, (9, v, d) ∉ m.graph.edges := by
  refine ⟨?_, _, rfl, ?_⟩
  · rintro v ⟨st, _, h⟩
    cases h
  · intro v d h
    have : ∀ e ∈ [(0, 1, [("x", Elem.int 1), ("a", .str "go")]),
      (1, 0, [("x", .int 0), ("a", .str "stop")]), (1, 2, [("x", .int 0), ("a", .str "stop")]),
      (2, 2, [("x", .int 0), ("a", .str "stop")])], e.1 ≠ 9 := by decide +kernel
    exact this _ h rfl

end Synth

end Tulip
