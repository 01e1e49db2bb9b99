import Verif.Transys.Compositions
import Verif.Spec.PrioritizedProps
import Mathlib.Algebra.BigOperators.Group.List.Basic
import Mathlib.Algebra.Order.BigOperators.Group.List
import Mathlib.Tactic.Ring
import Mathlib.Tactic.Linarith

/-!
# C23, C24: synchronous composition and policies
-/

namespace Tulip
namespace Comp
open Prio (product mem_product)
variable {σ α : Type} [DecidableEq σ] [DecidableEq α]

/-- What the graph of a model guarantees (`LGraph.graph_invariant`): states and transitions without
repetition, transitions between states, labels that the class admits, and no transition that follows
one without labels between the same states. -/
structure Mod.Ok (m : Mod σ α) : Prop where
  states : m.states.Nodup
  edges : m.edges.Nodup
  ends : ∀ e ∈ m.edges, e.1 ∈ m.states ∧ e.2.1 ∈ m.states
  attrs : ∀ e ∈ m.edges, attrCheck m.kind m.actions e.2.2 = none
  plain : m.edges.Pairwise fun e e' => e.1 = e'.1 → e.2.1 = e'.2.1 → e.2.2 ≠ {}

/-- The compositions that the error message announces: `[WKS, KS]` or `[MDP, MC, KS]`. -/
def Compatible (ms : List (Mod σ α)) : Prop :=
  (∀ m ∈ ms, m.kind = .ks ∨ m.kind = .wks) ∨ (∀ m ∈ ms, m.kind ≠ .wks)

/-! ### Products of lists -/

theorem nodup_product {β : Type} (ls : List (List β)) (h : ∀ l ∈ ls, l.Nodup) :
    (product ls).Nodup := by
  induction ls with
  | nil => simp [product]
  | cons l ls ih =>
    simp only [product]
    rw [List.Nodup, List.pairwise_flatMap]
    have hl := h l (by simp)
    have hls := ih fun l hl => h l (by simp [hl])
    refine ⟨fun a _ => ?_, ?_⟩
    · rw [List.pairwise_map]
      exact hls.imp fun hne e => hne (List.cons.inj e).2
    · refine hl.imp fun {a b} hne x hx y hy e => ?_
      obtain ⟨x', _, rfl⟩ := List.mem_map.1 hx
      obtain ⟨y', _, rfl⟩ := List.mem_map.1 hy
      exact hne (List.cons.inj e).1

theorem pairwise_product {β : Type} (R : β → β → Prop) (ls : List (List β))
    (h : ∀ l ∈ ls, l.Pairwise R) :
    (product ls).Pairwise fun xs ys => ∃ p ∈ xs.zip ys, R p.1 p.2 := by
  induction ls with
  | nil => simp [product]
  | cons l ls ih =>
    simp only [product]
    rw [List.pairwise_flatMap]
    have hl := h l (by simp)
    have hls := ih fun l hl => h l (by simp [hl])
    refine ⟨fun a _ => ?_, ?_⟩
    · rw [List.pairwise_map]
      refine hls.imp ?_
      rintro xs ys ⟨p, hp, hr⟩
      exact ⟨p, by simp [hp], hr⟩
    · refine hl.imp fun {a b} hab x hx y hy => ?_
      obtain ⟨x', _, rfl⟩ := List.mem_map.1 hx
      obtain ⟨y', _, rfl⟩ := List.mem_map.1 hy
      exact ⟨(a, b), by simp, hab⟩

theorem zip_congr {β γ : Type} (f : β → γ) {xs ys : List β} (h : xs.map f = ys.map f) {p : β × β}
    (hp : p ∈ xs.zip ys) : f p.1 = f p.2 := by
  induction xs generalizing ys with
  | nil => simp at hp
  | cons x xs ih =>
    cases ys with
    | nil => simp at hp
    | cons y ys =>
      simp only [List.map_cons, List.cons.injEq] at h
      rcases List.mem_cons.1 hp with rfl | hp
      · exact h.1
      · exact ih h.2 hp

theorem sum_mul_left {β : Type} (r : Rat) (f : β → Rat) (l : List β) :
    (l.map fun x => r * f x).sum = r * (l.map f).sum := by
  induction l with
  | nil => simp
  | cons x l ih => simp only [List.map_cons, List.sum_cons, ih]; ring

theorem product_sum {β γ : Type} (g : β → γ → Rat) (ls : List (List β)) (cs : List γ)
    (h : ls.length = cs.length) :
    ((product ls).map fun xs => ((xs.zip cs).map fun p => g p.1 p.2).prod).sum =
      ((ls.zip cs).map fun p => (p.1.map fun x => g x p.2).sum).prod := by
  induction ls generalizing cs with
  | nil => simp [product]
  | cons l ls ih =>
    cases cs with
    | nil => simp at h
    | cons c cs =>
      have := ih cs (by simpa using h)
      simp only [product, List.zip_cons_cons, List.map_cons, List.prod_cons]
      rw [← this]
      clear this h
      induction l with
      | nil => simp
      | cons x l ihl =>
        simp only [List.flatMap_cons, List.map_append, List.map_map, List.sum_append,
          List.map_cons, List.sum_cons, Function.comp_def, List.zip_cons_cons, List.prod_cons] at ihl ⊢
        rw [ihl, sum_mul_left]
        ring

/-! ### Adding transitions -/

/-- No transition without labels comes before another between the same states. -/
def PlainFirst (es : List (σ × σ × EAttr α)) : Prop :=
  es.Pairwise fun e e' => e.1 = e'.1 → e.2.1 = e'.2.1 → e.2.2 ≠ {}

theorem addAll_spec (es : List (σ × σ × EAttr α)) (m : Mod σ α)
    (h1 : ∀ e ∈ es, e.1 ∈ m.states ∧ e.2.1 ∈ m.states)
    (h2 : ∀ e ∈ es, attrCheck m.kind m.actions e.2.2 = none)
    (h3 : PlainFirst es)
    (h4 : ∀ e ∈ m.edges, ∀ e' ∈ es, e.1 = e'.1 → e.2.1 = e'.2.1 → e.2.2 ≠ {})
    (h5 : m.edges.Nodup) :
    ∃ es', addAll m es = .ok { m with edges := es' } ∧ es'.Nodup ∧
      (∀ e, e ∈ es' ↔ e ∈ m.edges ∨ e ∈ es) ∧
      ((m.edges ++ es).Nodup → es' = m.edges ++ es) := by
  induction es generalizing m with
  | nil => exact ⟨m.edges, rfl, h5, by simp, by simp⟩
  | cons e es ih =>
    have he := h1 e (by simp)
    have hplain : (e.1, e.2.1, ({} : EAttr α)) ∉ m.edges := fun hm =>
      h4 _ hm e (by simp) rfl rfl rfl
    by_cases hmem : e ∈ m.edges
    · have hadd : addTrans m e = .ok m := by
        simp [addTrans, he.1, he.2, hplain, hmem]
      obtain ⟨es', k1, k2, k3, k4⟩ := ih m (fun e h => h1 e (by simp [h]))
        (fun e h => h2 e (by simp [h])) (List.pairwise_cons.1 h3).2
        (fun e h e' h' => h4 e h e' (by simp [h'])) h5
      refine ⟨es', by simp only [addAll, hadd, ok_bind]; exact k1, k2, ?_, ?_⟩
      · intro x
        rw [k3]
        constructor
        · rintro (h | h)
          · exact .inl h
          · exact .inr (by simp [h])
        · rintro (h | h)
          · exact .inl h
          · rcases List.mem_cons.1 h with rfl | h
            · exact .inl hmem
            · exact .inr h
      · intro hn
        exact absurd rfl ((List.nodup_append.1 hn).2.2 e hmem e (by simp))
    · have hadd : addTrans m e = .ok { m with edges := m.edges ++ [e] } := by
        simp [addTrans, he.1, he.2, hplain, hmem, h2 e (by simp)]
      obtain ⟨es', k1, k2, k3, k4⟩ := ih { m with edges := m.edges ++ [e] }
        (fun e h => h1 e (by simp [h]))
        (fun e h => h2 e (by simp [h])) (List.pairwise_cons.1 h3).2
        (fun x h e' h' => by
          rcases List.mem_append.1 h with h | h
          · exact h4 x h e' (by simp [h'])
          · rw [List.mem_singleton] at h; subst h
            exact (List.pairwise_cons.1 h3).1 e' h')
        (by
          rw [List.nodup_append]
          refine ⟨h5, by simp, fun a ha b hb => ?_⟩
          rw [List.mem_singleton.1 hb]
          intro e'; exact hmem (e' ▸ ha))
      refine ⟨es', by simp only [addAll, hadd, ok_bind]; exact k1, k2, ?_, ?_⟩
      · intro x
        rw [k3]
        simp only [List.mem_append, List.mem_cons, List.not_mem_nil, or_false, or_assoc]
      · intro hn
        have := k4 (by simpa using hn)
        simpa using this

/-! ### Labels of joint moves -/

omit [DecidableEq σ] [DecidableEq α] in
theorem opSome_none {β γ : Type} (op : List β → γ) (l : List (Option β)) :
    opSome op l = none ↔ ∀ x ∈ l, x = none := by
  simp only [opSome]
  by_cases h : l.any Option.isSome = true
  · rw [if_pos h]
    simp only [reduceCtorEq, false_iff]
    rw [List.any_eq_true] at h
    obtain ⟨x, hx, hs⟩ := h
    intro hn
    rw [hn x hx] at hs
    simp at hs
  · rw [if_neg h]
    simp only [true_iff]
    intro x hx
    cases x with
    | none => rfl
    | some v => exact absurd (List.any_eq_true.2 ⟨_, hx, rfl⟩) h

omit [DecidableEq α] in
theorem combine_empty (l : List (EAttr α)) (h : combine l = {}) : ∀ a ∈ l, a = {} := by
  intro a ha
  have h1 := congrArg EAttr.cost h
  have h2 := congrArg EAttr.prob h
  have h3 := congrArg EAttr.action h
  simp only [combine, opSome_none, List.mem_map] at h1 h2 h3
  obtain ⟨c, p, x⟩ := a
  have e1 := h1 _ ⟨_, ha, rfl⟩
  have e2 := h2 _ ⟨_, ha, rfl⟩
  have e3 := h3 _ ⟨_, ha, rfl⟩
  simp only at e1 e2 e3
  subst e1; subst e2; subst e3
  rfl

omit [DecidableEq α] in
theorem sum_nonneg (l : List Rat) (h : ∀ x ∈ l, 0 ≤ x) : 0 ≤ l.sum := List.sum_nonneg h

omit [DecidableEq α] in
theorem prod_unit (l : List Rat) (h : ∀ x ∈ l, 0 ≤ x ∧ x ≤ 1) : 0 ≤ l.prod ∧ l.prod ≤ 1 := by
  induction l with
  | nil => simp
  | cons x l ih =>
    have h1 := h x (by simp)
    have h2 := ih fun x hx => h x (by simp [hx])
    rw [List.prod_cons]
    exact ⟨mul_nonneg h1.1 h2.1, by nlinarith⟩

/-- What `attrCheck` says, label by label. -/
theorem attrCheck_iff (kind : Kind) (actions : List α) (a : EAttr α) :
    attrCheck kind actions a = none ↔
      (∀ c, a.cost = some c → kind = .wks ∧ 0 ≤ c) ∧
      (∀ p, a.prob = some p → (kind = .mc ∨ kind = .mdp) ∧ 0 ≤ p ∧ p ≤ 1) ∧
      (∀ x, a.action = some x → kind = .mdp ∧ x ∈ actions) := by
  obtain ⟨c, p, x⟩ := a
  cases kind <;> cases c <;> cases p <;> cases x <;>
    simp [attrCheck, not_or, and_assoc] <;> (try split) <;> simp_all

omit [DecidableEq α] in
theorem opSome_some {β γ : Type} {op : List β → γ} {l : List (Option β)} {y : γ}
    (h : opSome op l = some y) : y = op (l.filterMap id) ∧ ∃ x, some x ∈ l := by
  simp only [opSome] at h
  split at h
  · rename_i hany
    rw [List.any_eq_true] at hany
    obtain ⟨x, hx, hs⟩ := hany
    obtain ⟨v, rfl⟩ := Option.isSome_iff_exists.1 hs
    exact ⟨by cases h; rfl, v, hx⟩
  · cases h

/-- A joint choice of transitions, one of each model. -/
def Joint (ms : List (Mod σ α)) (tr : List (σ × σ × EAttr α)) : Prop :=
  List.Forall₂ (fun t m => t ∈ m.edges) tr ms

omit [DecidableEq σ] [DecidableEq α] in
theorem Joint.mem {ms : List (Mod σ α)} {tr : List (σ × σ × EAttr α)} (h : Joint ms tr)
    {t : σ × σ × EAttr α} (ht : t ∈ tr) : ∃ m ∈ ms, t ∈ m.edges := by
  induction h with
  | nil => simp at ht
  | @cons a m tr ms ha _ ih =>
    rcases List.mem_cons.1 ht with rfl | ht
    · exact ⟨m, by simp, ha⟩
    · obtain ⟨m', h1, h2⟩ := ih ht
      exact ⟨m', by simp [h1], h2⟩

omit [DecidableEq σ] [DecidableEq α] in
theorem mem_composedKind {ms : List (Mod σ α)} {m : Mod σ α} (hm : m ∈ ms) (hc : Compatible ms) :
    (m.kind = .wks → composedKind ms = .wks) ∧ (m.kind = .mdp → composedKind ms = .mdp) ∧
    (m.kind = .mc → composedKind ms = .mc ∨ composedKind ms = .mdp) := by
  have hany : ∀ k, m.kind = k → ms.any (·.kind == k) = true := by
    intro k hk
    rw [List.any_eq_true]
    exact ⟨m, hm, by simp [hk]⟩
  refine ⟨fun h => ?_, fun h => ?_, fun h => ?_⟩
  · have hno : ∀ k, k = Kind.mdp ∨ k = Kind.mc → ms.any (·.kind == k) = false := by
      intro k hk
      rw [List.any_eq_false]
      intro x hx
      rcases hc with hc | hc
      · rcases hc x hx with h | h <;> rw [h] <;> rcases hk with rfl | rfl <;> simp
      · exact absurd h (hc m hm)
    simp [composedKind, hno .mdp (.inl rfl), hno .mc (.inr rfl), hany _ h]
  · simp [composedKind, hany _ h]
  · simp only [composedKind, hany _ h, if_true]
    split <;> simp

/-- Every transition of a decision process has an action, and every transition of a process or a
chain has a probability. -/
def Labeled (m : Mod σ α) : Prop :=
  (m.kind = .mdp → ∀ e ∈ m.edges, e.2.2.action.isSome) ∧
  (m.kind = .mdp ∨ m.kind = .mc → ∀ e ∈ m.edges, e.2.2.prob.isSome)

theorem actions_mem {ms : List (Mod σ α)} (hms : ∀ m ∈ ms, m.Ok) (hl : ∀ m ∈ ms, Labeled m)
    {tr : List (σ × σ × EAttr α)} (h : Joint ms tr) :
    (tr.map (·.2.2.action)).filterMap id ∈
      product ((ms.filter (·.kind == .mdp)).map (·.actions)) := by
  rw [mem_product]
  induction h with
  | nil => exact .nil
  | @cons t m tr ms ht _ ih =>
    have ih := ih (fun m hm => hms m (by simp [hm])) (fun m hm => hl m (by simp [hm]))
    have ha := ((attrCheck_iff ..).1 ((hms m (by simp)).attrs t ht)).2.2
    by_cases hk : m.kind = .mdp
    · have hs := (hl m (by simp)).1 hk t ht
      obtain ⟨x, hx⟩ := Option.isSome_iff_exists.1 hs
      simp only [List.map_cons, hx, List.filterMap_cons, id, List.filter_cons, hk, BEq.rfl, if_true]
      exact .cons (ha x hx).2 ih
    · have hx : t.2.2.action = none := by
        cases hx : t.2.2.action with
        | none => rfl
        | some x => exact absurd (ha x hx).1 hk
      have : (m.kind == Kind.mdp) = false := by simpa using hk
      simp only [List.map_cons, hx, List.filterMap_cons, id, List.filter_cons, this,
        Bool.false_eq_true, if_false]
      exact ih

/-- Joint moves carry labels that the composed class admits. -/
theorem combine_ok {ms : List (Mod σ α)} (hms : ∀ m ∈ ms, m.Ok) (hl : ∀ m ∈ ms, Labeled m)
    (hc : Compatible ms) {tr : List (σ × σ × EAttr α)} (h : Joint ms tr) :
    attrCheck (composedKind ms)
      (if composedKind ms = .mdp then product ((ms.filter (·.kind == .mdp)).map (·.actions)) else [])
      (combine (tr.map (·.2.2))) = none := by
  rw [attrCheck_iff]
  simp only [combine, List.map_map]
  refine ⟨fun c hcost => ?_, fun p hprob => ?_, fun x hact => ?_⟩
  · obtain ⟨rfl, v, hv⟩ := opSome_some hcost
    obtain ⟨t, ht, hv⟩ := List.mem_map.1 hv
    obtain ⟨m, hm, htm⟩ := h.mem ht
    have := ((attrCheck_iff ..).1 ((hms m hm).attrs t htm)).1 v hv
    refine ⟨(mem_composedKind hm hc).1 this.1, sum_nonneg _ fun y hy => ?_⟩
    simp only [List.mem_filterMap, List.mem_map, id] at hy
    obtain ⟨_, ⟨t', ht', rfl⟩, hy⟩ := hy
    obtain ⟨m', hm', htm'⟩ := h.mem ht'
    exact (((attrCheck_iff ..).1 ((hms m' hm').attrs t' htm')).1 y hy).2
  · obtain ⟨rfl, v, hv⟩ := opSome_some hprob
    obtain ⟨t, ht, hv⟩ := List.mem_map.1 hv
    obtain ⟨m, hm, htm⟩ := h.mem ht
    have := ((attrCheck_iff ..).1 ((hms m hm).attrs t htm)).2.1 v hv
    refine ⟨?_, prod_unit _ fun y hy => ?_⟩
    · rcases this.1 with hk | hk
      · exact (mem_composedKind hm hc).2.2 hk
      · exact .inr ((mem_composedKind hm hc).2.1 hk)
    · simp only [List.mem_filterMap, List.mem_map, id] at hy
      obtain ⟨_, ⟨t', ht', rfl⟩, hy⟩ := hy
      obtain ⟨m', hm', htm'⟩ := h.mem ht'
      exact (((attrCheck_iff ..).1 ((hms m' hm').attrs t' htm')).2.1 y hy).2
  · obtain ⟨rfl, v, hv⟩ := opSome_some hact
    obtain ⟨t, ht, hv⟩ := List.mem_map.1 hv
    obtain ⟨m, hm, htm⟩ := h.mem ht
    have := ((attrCheck_iff ..).1 ((hms m hm).attrs t htm)).2.2 v hv
    have hk := (mem_composedKind hm hc).2.1 this.1
    refine ⟨hk, ?_⟩
    rw [if_pos hk]
    exact actions_mem hms hl h

/-! ### Joint moves -/

omit [DecidableEq α] in
theorem mem_moves (ms : List (Mod σ α)) (s : List σ) (hs : s.length = ms.length)
    (tr : List (σ × σ × EAttr α)) :
    tr ∈ product ((ms.zip s).map fun p => p.1.edges.filter fun e => e.1 == p.2) ↔
      Joint ms tr ∧ tr.map (·.1) = s := by
  rw [mem_product]
  induction ms generalizing s tr with
  | nil =>
    cases s with
    | cons => simp at hs
    | nil =>
      simp only [List.zip_nil_left, List.map_nil, Joint]
      constructor
      · intro h; cases h; exact ⟨.nil, rfl⟩
      · rintro ⟨h, _⟩; cases h; exact .nil
  | cons m ms ih =>
    cases s with
    | nil => simp at hs
    | cons x s =>
      simp only [List.zip_cons_cons, List.map_cons, Joint]
      constructor
      · intro h
        cases h with
        | @cons t _ tr _ ht htr =>
          have := (ih s (by simpa using hs) tr).1 htr
          simp only [List.mem_filter, beq_iff_eq] at ht
          exact ⟨.cons ht.1 this.1, by simp [ht.2, this.2]⟩
      · rintro ⟨h, he⟩
        cases h with
        | @cons t _ tr _ ht htr =>
          simp only [List.map_cons, List.cons.injEq] at he
          exact .cons (by simp [ht, he.1]) ((ih s (by simpa using hs) tr).2 ⟨htr, he.2⟩)

/-- The joint moves are those of the specification. -/
theorem mem_jointMoves {ms : List (Mod σ α)} (hms : ∀ m ∈ ms, m.Ok)
    (e : List σ × List σ × EAttr (List α)) :
    e ∈ jointMoves ms ↔ ∃ tr, Joint ms tr ∧
      e = (tr.map (·.1), tr.map (·.2.1), combine (tr.map (·.2.2))) := by
  simp only [jointMoves, List.mem_flatMap, List.mem_map]
  constructor
  · rintro ⟨s, hs, tr, htr, rfl⟩
    have hlen : s.length = ms.length := by
      have := ((mem_product _ _).1 hs).length_eq
      simpa using this
    obtain ⟨h1, h2⟩ := (mem_moves ms s hlen tr).1 htr
    exact ⟨tr, h1, by rw [h2]⟩
  · rintro ⟨tr, h, rfl⟩
    have hlen : (tr.map (·.1)).length = ms.length := by rw [List.length_map]; exact h.length_eq
    refine ⟨tr.map (·.1), ?_, tr, (mem_moves ms _ hlen tr).2 ⟨h, rfl⟩, rfl⟩
    rw [mem_product]
    clear hlen
    induction h with
    | nil => exact .nil
    | @cons t m tr ms ht _ ih =>
      exact .cons ((hms m (by simp)).ends t ht).1 (ih fun m hm => hms m (by simp [hm]))

theorem joint_states {ms : List (Mod σ α)} (hms : ∀ m ∈ ms, m.Ok) {tr : List (σ × σ × EAttr α)}
    (h : Joint ms tr) : tr.map (·.1) ∈ product (ms.map (·.states)) ∧
      tr.map (·.2.1) ∈ product (ms.map (·.states)) := by
  rw [mem_product, mem_product]
  induction h with
  | nil => exact ⟨.nil, .nil⟩
  | @cons t m tr ms ht _ ih =>
    have := ih fun m hm => hms m (by simp [hm])
    exact ⟨.cons ((hms m (by simp)).ends t ht).1 this.1, .cons ((hms m (by simp)).ends t ht).2 this.2⟩

theorem jointMoves_pairwise {ms : List (Mod σ α)} (hms : ∀ m ∈ ms, m.Ok)
    (R : List σ × List σ × EAttr (List α) → List σ × List σ × EAttr (List α) → Prop)
    (h1 : ∀ e e', e.1 ≠ e'.1 → R e e')
    (h2 : ∀ tr tr', Joint ms tr → Joint ms tr' → tr.map (·.1) = tr'.map (·.1) → tr ≠ tr' →
      (∃ p ∈ tr.zip tr', p.1.1 = p.2.1 → p.1.2.1 = p.2.2.1 → p.1.2.2 ≠ {}) →
      R (tr.map (·.1), tr.map (·.2.1), combine (tr.map (·.2.2)))
        (tr'.map (·.1), tr'.map (·.2.1), combine (tr'.map (·.2.2)))) :
    (jointMoves ms).Pairwise R := by
  rw [jointMoves, List.pairwise_flatMap]
  have hst : (product (ms.map (·.states))).Nodup := by
    apply nodup_product
    intro l hl
    obtain ⟨m, hm, rfl⟩ := List.mem_map.1 hl
    exact (hms m hm).states
  refine ⟨fun s hs => ?_, ?_⟩
  · have hlen : s.length = ms.length := by
      have := ((mem_product _ _).1 hs).length_eq
      simpa using this
    rw [List.pairwise_map]
    refine ((nodup_product _ ?_).and (pairwise_product
      (fun e e' => e.1 = e'.1 → e.2.1 = e'.2.1 → e.2.2 ≠ {}) _ ?_)).imp_of_mem
      fun {tr tr'} ht ht' hne => ?_
    · intro l hl
      obtain ⟨p, hp, rfl⟩ := List.mem_map.1 hl
      exact (hms p.1 (List.of_mem_zip hp).1).edges.filter _
    · intro l hl
      obtain ⟨p, hp, rfl⟩ := List.mem_map.1 hl
      exact (hms p.1 (List.of_mem_zip hp).1).plain.filter _
    · obtain ⟨k1, k2⟩ := (mem_moves ms s hlen tr).1 ht
      obtain ⟨k3, k4⟩ := (mem_moves ms s hlen tr').1 ht'
      have := h2 tr tr' k1 k3 (k2.trans k4.symm) hne.1 hne.2
      rw [k2, k4] at this
      exact this
  · refine hst.imp fun {s s'} hne e he e' he' => ?_
    obtain ⟨tr, _, rfl⟩ := List.mem_map.1 he
    obtain ⟨tr', _, rfl⟩ := List.mem_map.1 he'
    exact h1 _ _ hne

/-- The result of the composition, before its transitions are examined. -/
theorem sync_ok {ms : List (Mod σ α)} (hne : ms ≠ []) (hms : ∀ m ∈ ms, m.Ok)
    (hl : ∀ m ∈ ms, Labeled m) (hc : Compatible ms) :
    ∃ ts, synchronousParallel ms = .ok ts ∧ ts.kind = composedKind ms ∧
      ts.states = product (ms.map (·.states)) ∧ ts.initial = product (ms.map (·.initial)) ∧
      ts.aps = ms.flatMap (·.aps) ∧ (ts.ap = fun s => (ms.zip s).flatMap fun p => p.1.ap p.2) ∧
      ts.edges.Nodup ∧ (∀ e, e ∈ ts.edges ↔ e ∈ jointMoves ms) ∧
      ((jointMoves ms).Nodup → ts.edges = jointMoves ms) := by
  have hemp : ms.isEmpty = false := by cases ms with
    | nil => exact absurd rfl hne
    | cons => rfl
  simp only [synchronousParallel, hemp, Bool.false_eq_true, if_false]
  obtain ⟨es, h1, h2, h3, h4⟩ := addAll_spec (jointMoves ms)
    { kind := composedKind ms
      states := product (ms.map (·.states))
      initial := product (ms.map (·.initial))
      aps := ms.flatMap (·.aps)
      ap := fun s => (ms.zip s).flatMap fun p => p.1.ap p.2
      actions := if composedKind ms = .mdp then
        product ((ms.filter (·.kind == .mdp)).map (·.actions)) else []
      edges := [] }
    (fun e he => by
      obtain ⟨tr, h, rfl⟩ := (mem_jointMoves hms e).1 he
      exact joint_states hms h)
    (fun e he => by
      obtain ⟨tr, h, rfl⟩ := (mem_jointMoves hms e).1 he
      exact combine_ok hms hl hc h)
    (by
      refine jointMoves_pairwise hms _ (fun e e' hne h => absurd h hne) ?_
      rintro tr tr' h h' h1 _ ⟨p, hp, hne⟩ _ h2 he
      exact hne (zip_congr (·.1) h1 hp) (zip_congr (·.2.1) h2 hp)
        (combine_empty _ he _ (List.mem_map.2 ⟨p.1, (List.of_mem_zip hp).1, rfl⟩)))
    (by simp) (by simp)
  refine ⟨_, h1, rfl, rfl, rfl, rfl, rfl, h2, ?_, ?_⟩
  · intro e; rw [h3]; simp
  · intro h; rw [h4 (by simpa using h)]; simp

/-- **C23.** The synchronous composition of any models (at least one, of compatible classes) exists.
Its states and initial states are the tuples of states and of initial states, the label of a tuple is
the union of the labels, and its transitions are the joint moves: one transition of each model, with
the sum of the costs, the product of the probabilities and the tuple of the actions that occur. -/
theorem sync_spec {ms : List (Mod σ α)} (hne : ms ≠ []) (hms : ∀ m ∈ ms, m.Ok)
    (hl : ∀ m ∈ ms, Labeled m) (hc : Compatible ms) :
    ∃ ts, synchronousParallel ms = .ok ts ∧
      (∀ s, s ∈ ts.states ↔ List.Forall₂ (fun x m => x ∈ m.states) s ms) ∧
      (∀ s, s ∈ ts.initial ↔ List.Forall₂ (fun x m => x ∈ m.initial) s ms) ∧
      (∀ s ∈ ts.states, ∀ p, p ∈ ts.ap s ↔ ∃ (i : Nat) (m : Mod σ α) (x : σ),
        ms[i]? = some m ∧ s[i]? = some x ∧ p ∈ m.ap x) ∧
      (∀ e, e ∈ ts.edges ↔ ∃ tr, List.Forall₂ (fun t m => t ∈ m.edges) tr ms ∧
        e.1 = tr.map (·.1) ∧ e.2.1 = tr.map (·.2.1) ∧
        (e.2.2.cost = if ∃ t ∈ tr, t.2.2.cost.isSome
          then some (tr.filterMap (·.2.2.cost)).sum else none) ∧
        (e.2.2.prob = if ∃ t ∈ tr, t.2.2.prob.isSome
          then some (tr.filterMap (·.2.2.prob)).prod else none) ∧
        (e.2.2.action = if ∃ t ∈ tr, t.2.2.action.isSome
          then some (tr.filterMap (·.2.2.action)) else none)) := by
  obtain ⟨ts, h1, _, h3, h4, _, h6, _, h8, _⟩ := sync_ok hne hms hl hc
  refine ⟨ts, h1, fun s => ?_, fun s => ?_, fun s hs p => ?_, fun e => ?_⟩
  · rw [h3, mem_product, List.forall₂_map_right_iff]
  · rw [h4, mem_product, List.forall₂_map_right_iff]
  · simp only [h6, List.mem_flatMap, Prod.exists]
    constructor
    · rintro ⟨m, x, hm, hp⟩
      obtain ⟨i, hi⟩ := List.mem_iff_getElem?.1 hm
      rw [List.getElem?_zip_eq_some] at hi
      exact ⟨i, m, x, hi.1, hi.2, hp⟩
    · rintro ⟨i, m, x, hm, hx, hp⟩
      exact ⟨m, x, List.mem_of_getElem? (i := i) (List.getElem?_zip_eq_some.2 ⟨hm, hx⟩), hp⟩
  · rw [h8, mem_jointMoves hms]
    have hop : ∀ {β γ : Type} (op : List β → γ) (f : σ × σ × EAttr α → Option β)
        (tr : List (σ × σ × EAttr α)), opSome op (tr.map f) =
          if ∃ t ∈ tr, (f t).isSome then some (op (tr.filterMap f)) else none := by
      intro β γ op f tr
      simp only [opSome, List.any_map, List.any_eq_true, Function.comp, List.filterMap_map]
      congr 1
    have hcomb : ∀ tr : List (σ × σ × EAttr α), e.2.2 = combine (tr.map (·.2.2)) ↔
        ((e.2.2.cost = if ∃ t ∈ tr, t.2.2.cost.isSome
          then some (tr.filterMap (·.2.2.cost)).sum else none) ∧
        (e.2.2.prob = if ∃ t ∈ tr, t.2.2.prob.isSome
          then some (tr.filterMap (·.2.2.prob)).prod else none) ∧
        (e.2.2.action = if ∃ t ∈ tr, t.2.2.action.isSome
          then some (tr.filterMap (·.2.2.action)) else none)) := by
      intro tr
      rw [← hop List.sum (·.2.2.cost), ← hop List.prod (·.2.2.prob), show (if ∃ t ∈ tr, t.2.2.action.isSome
          then some (tr.filterMap (·.2.2.action)) else none) = opSome id (tr.map (·.2.2.action)) from
        (hop id _ _).symm]
      obtain ⟨_, _, c, p, a⟩ := e
      simp only [combine, List.map_map, EAttr.mk.injEq]
      rfl
    constructor
    · rintro ⟨tr, h, rfl⟩
      exact ⟨tr, h, rfl, rfl, (hcomb tr).1 rfl⟩
    · rintro ⟨tr, h, e1, e2, e3⟩
      refine ⟨tr, h, ?_⟩
      obtain ⟨a, b, c⟩ := e
      simp only at e1 e2
      rw [← (hcomb tr).2 e3, ← e1, ← e2]

/-! ### Probabilities -/

/-- The total probability of the transitions from `s` with the given action (`none` in a chain). -/
def mass (m : Mod σ α) (s : σ) (a : Option α) : Rat :=
  ((m.edges.filter fun e => e.1 = s ∧ e.2.2.action = a).map fun e => e.2.2.prob.getD 0).sum

/-- Between two states there is at most one transition for each action. -/
def Simple (m : Mod σ α) : Prop :=
  ∀ e ∈ m.edges, ∀ e' ∈ m.edges, e.1 = e'.1 → e.2.1 = e'.2.1 → e.2.2.action = e'.2.2.action → e = e'

omit [DecidableEq σ] [DecidableEq α] in
theorem filterMap_inj {as bs : List (Option α)}
    (hshape : List.Forall₂ (fun a b => a.isSome = b.isSome) as bs)
    (h : as.filterMap id = bs.filterMap id) : as = bs := by
  induction hshape with
  | nil => rfl
  | @cons a b as bs hab _ ih =>
    cases a with
    | none =>
      cases b with
      | none => simp only [List.filterMap_cons, id] at h; rw [ih h]
      | some => simp at hab
    | some x =>
      cases b with
      | none => simp at hab
      | some y =>
        simp only [List.filterMap_cons, id, List.cons.injEq] at h
        rw [h.1, ih h.2]

theorem opSome_id_inj {as bs : List (Option α)}
    (hshape : List.Forall₂ (fun a b => a.isSome = b.isSome) as bs) :
    opSome id as = opSome id bs ↔ as = bs := by
  constructor
  · intro h
    have hany : as.any Option.isSome = bs.any Option.isSome := by
      clear h
      induction hshape with
      | nil => rfl
      | @cons a b as bs hab _ ih => simp only [List.any_cons, hab, ih]
    simp only [opSome, hany] at h
    split at h
    · simp only [id, Option.some.injEq] at h
      exact filterMap_inj hshape h
    · rename_i hno
      have hb : ∀ x ∈ bs, x = none := (opSome_none (op := id) bs).1 (by simp [opSome, hno])
      have ha : ∀ x ∈ as, x = none :=
        (opSome_none (op := id) as).1 (by simp [opSome, hany, hno])
      clear h hno hany
      induction hshape with
      | nil => rfl
      | @cons a b as bs _ _ ih =>
        rw [ha a (by simp), hb b (by simp),
          ih (fun x hx => hb x (by simp [hx])) (fun x hx => ha x (by simp [hx]))]
  · rintro rfl; rfl

omit [DecidableEq σ] [DecidableEq α] in
theorem joint_shape {ms : List (Mod σ α)} {tr : List (σ × σ × EAttr α)} (h : Joint ms tr)
    {cs : List (Option α)}
    (hact : List.Forall₂ (fun c (m : Mod σ α) => ∀ e ∈ m.edges, e.2.2.action.isSome = c.isSome) cs ms) :
    List.Forall₂ (fun a b : Option α => a.isSome = b.isSome) (tr.map (·.2.2.action)) cs := by
  induction h generalizing cs with
  | nil => cases hact; exact .nil
  | cons ht _ ih =>
    cases hact with
    | cons hc hcs => exact .cons (hc _ ht) (ih hcs)

theorem joint_simple {ms : List (Mod σ α)} (hs : ∀ m ∈ ms, Simple m)
    {tr tr' : List (σ × σ × EAttr α)} (h : Joint ms tr) (h' : Joint ms tr')
    (h1 : tr.map (·.1) = tr'.map (·.1)) (h2 : tr.map (·.2.1) = tr'.map (·.2.1))
    (h3 : tr.map (·.2.2.action) = tr'.map (·.2.2.action)) : tr = tr' := by
  induction h generalizing tr' with
  | nil => cases h'; rfl
  | @cons t m tr ms ht _ ih =>
    cases h' with
    | @cons t' _ tr' _ ht' htr' =>
      simp only [List.map_cons, List.cons.injEq] at h1 h2 h3
      rw [ih (fun m hm => hs m (by simp [hm])) htr' h1.2 h2.2 h3.2,
        hs m (by simp) t ht t' ht' h1.1 h2.1 h3.1]

theorem sum_filter {β : Type} (l : List β) (p q : β → Prop) [DecidablePred p] [DecidablePred q]
    (f : β → Rat) :
    ((l.filter fun e => p e ∧ q e).map f).sum =
      ((l.filter fun e => p e).map fun e => if q e then f e else 0).sum := by
  induction l with
  | nil => rfl
  | cons e l ih =>
    simp only [Bool.decide_and] at ih ⊢
    by_cases h : p e <;> by_cases h' : q e <;> simp [List.filter_cons, h, h', ih]

/-- **C23.** Composition of chains and decision processes multiplies distributions: whatever action
(`none` for a chain) is chosen in each model, the total probability of the joint action from a joint
state is the product of the total probabilities. So composing stochastic models yields a stochastic
model. Each model must have at most one transition for two states and an action. -/
theorem sync_mass {ms : List (Mod σ α)} (hne : ms ≠ []) (hms : ∀ m ∈ ms, m.Ok)
    (hk : ∀ m ∈ ms, m.kind = .mc ∨ m.kind = .mdp) (hl : ∀ m ∈ ms, Labeled m)
    (hsim : ∀ m ∈ ms, Simple m) {s : List σ} {cs : List (Option α)}
    (hs : List.Forall₂ (fun x m => x ∈ m.states) s ms)
    (hcs : List.Forall₂ (fun c (m : Mod σ α) => c.isSome = true ↔ m.kind = .mdp) cs ms) :
    ∃ ts, synchronousParallel ms = .ok ts ∧
      mass ts s (if cs.any Option.isSome then some (cs.filterMap id) else none) =
        (((ms.zip s).zip cs).map fun p => mass p.1.1 p.1.2 p.2).prod := by
  have hc : Compatible ms := .inr fun m hm => by rcases hk m hm with h | h <;> rw [h] <;> simp
  obtain ⟨ts, h1, h9⟩ : ∃ ts, synchronousParallel ms = .ok ts ∧
      ((jointMoves ms).Nodup → ts.edges = jointMoves ms) := by
    obtain ⟨ts, h1, _, _, _, _, _, _, _, h9⟩ := sync_ok hne hms hl hc
    exact ⟨ts, h1, h9⟩
  refine ⟨ts, h1, ?_⟩
  have hact : List.Forall₂ (fun c (m : Mod σ α) => ∀ e ∈ m.edges, e.2.2.action.isSome = c.isSome)
      cs ms := by
    clear h9 hs hc hne
    clear h1 ts
    induction hcs with
    | nil => exact .nil
    | @cons c m cs ms hcm _ ih =>
      refine .cons (fun e he => ?_) (ih (fun m h => hms m (by simp [h])) (fun m h => hk m (by simp [h]))
        (fun m h => hl m (by simp [h])) (fun m h => hsim m (by simp [h])))
      rcases hk m (by simp) with hm | hm
      · have hcn : c.isSome = false := by
          rw [← Bool.not_eq_true, hcm, hm]; simp
        rw [hcn]
        have := ((attrCheck_iff ..).1 ((hms m (by simp)).attrs e he)).2.2
        cases hx : e.2.2.action with
        | none => rfl
        | some x => have := (this x hx).1; rw [hm] at this; cases this
      · rw [hcm.2 hm]
        exact (hl m (by simp)).1 hm e he
  have hnodup : (jointMoves ms).Nodup := by
    refine jointMoves_pairwise hms _ (fun e e' hne h => hne (by rw [h])) ?_
    intro tr tr' h h' h1 hne _ he
    apply hne
    have e2 := congrArg (fun e => e.2.1) he
    have e3 := congrArg (fun e => e.2.2.action) he
    simp only at e2 e3
    refine joint_simple hsim h h' h1 e2 ?_
    simp only [combine, List.map_map] at e3
    refine (opSome_id_inj ?_).1 e3
    have k1 := joint_shape h hact
    have k2 := joint_shape h' hact
    clear e2 e3 he hne h1
    have : ∀ {a b c : List (Option α)}, List.Forall₂ (fun a b => a.isSome = b.isSome) a c →
        List.Forall₂ (fun a b => a.isSome = b.isSome) b c →
        List.Forall₂ (fun a b => a.isSome = b.isSome) a b := by
      intro a b c h1 h2
      induction h1 generalizing b with
      | nil => cases h2; exact .nil
      | cons h _ ih => cases h2 with
        | cons h' h2 => exact .cons (h.trans h'.symm) (ih h2)
    exact this k1 k2
  have hlen : s.length = ms.length := hs.length_eq
  rw [mass, h9 hnodup]
  -- transitions from `s`
  have hfrom : ((jointMoves ms).filter fun e => e.1 = s) =
      (product ((ms.zip s).map fun p => p.1.edges.filter fun e => e.1 == p.2)).map fun tr =>
        (s, tr.map (·.2.1), combine (tr.map (·.2.2))) := by
    have hmem : s ∈ product (ms.map (·.states)) := by
      rw [mem_product, List.forall₂_map_right_iff]; exact hs
    have hnd : (product (ms.map (·.states))).Nodup := by
      apply nodup_product
      intro l hl
      obtain ⟨m, hm, rfl⟩ := List.mem_map.1 hl
      exact (hms m hm).states
    rw [jointMoves]
    generalize product (ms.map (·.states)) = sts at hmem hnd
    induction sts with
    | nil => simp at hmem
    | cons x sts ih =>
      have hx := List.nodup_cons.1 hnd
      rw [List.flatMap_cons, List.filter_append]
      by_cases he : x = s
      · subst he
        have h0 : (sts.flatMap fun s => (product ((ms.zip s).map fun p => p.1.edges.filter
            fun e => e.1 == p.2)).map fun tr =>
              (s, tr.map (·.2.1), combine (tr.map (·.2.2)))).filter (fun e => e.1 = x) = [] := by
          rw [List.filter_eq_nil_iff]
          intro e he
          obtain ⟨s', hs', he⟩ := List.mem_flatMap.1 he
          obtain ⟨tr, _, rfl⟩ := List.mem_map.1 he
          simp only [decide_eq_true_eq]
          rintro rfl
          exact hx.1 hs'
        rw [h0, List.append_nil, List.filter_eq_self]
        intro e he
        obtain ⟨tr, _, rfl⟩ := List.mem_map.1 he
        simp
      · have h0 : ((product ((ms.zip x).map fun p => p.1.edges.filter
            fun e => e.1 == p.2)).map fun tr =>
              (x, tr.map (·.2.1), combine (tr.map (·.2.2)))).filter (fun e => e.1 = s) = [] := by
          rw [List.filter_eq_nil_iff]
          intro e he'
          obtain ⟨tr, _, rfl⟩ := List.mem_map.1 he'
          simpa using he
        rw [h0, List.nil_append]
        exact ih ((List.mem_cons.1 hmem).resolve_left fun e => he e.symm) hx.2
  rw [sum_filter, hfrom, List.map_map]
  rw [List.map_congr_left (g := fun tr => ((tr.zip cs).map fun p : (σ × σ × EAttr α) × Option α =>
    if p.1.2.2.action = p.2 then p.1.2.2.prob.getD 0 else 0).prod)]
  · rw [product_sum (fun (t : σ × σ × EAttr α) c => if t.2.2.action = c then t.2.2.prob.getD 0 else 0)
      _ cs (by simp [hlen, hcs.length_eq])]
    congr 1
    rw [List.zip_map_left, List.map_map]
    apply List.map_congr_left
    rintro ⟨⟨m, x⟩, c⟩ _
    simp only [Function.comp, Prod.map, id, mass]
    rw [sum_filter]
    rfl
  · intro tr htr
    have hj := ((mem_moves ms s hlen tr).1 htr).1
    have hsh := joint_shape hj hact
    simp only [combine, List.map_map, Function.comp_def]
    have hprob : ∀ t ∈ tr, t.2.2.prob.isSome := by
      intro t ht
      obtain ⟨m, hm, htm⟩ := hj.mem ht
      exact (hl m hm).2 (hk m hm).symm t htm
    have hval : (opSome List.prod (tr.map fun t => t.2.2.prob)).getD 0 =
        (tr.map fun t => t.2.2.prob.getD 0).prod := by
      have hnil : tr ≠ [] := by
        intro e; subst e
        have := hj.length_eq
        simp at this
        exact hne (List.length_eq_zero_iff.1 this.symm)
      have hany : (tr.map fun t => t.2.2.prob).any Option.isSome = true := by
        cases tr with
        | nil => exact absurd rfl hnil
        | cons t tr => simp [hprob t (by simp)]
      rw [opSome, if_pos hany, Option.getD_some]
      congr 1
      clear hany hnil hsh htr hj
      induction tr with
      | nil => rfl
      | cons t tr ih =>
        obtain ⟨p, hp⟩ := Option.isSome_iff_exists.1 (hprob t (by simp))
        rw [List.map_cons, List.map_cons, hp, show List.filterMap id (some p ::
          tr.map fun t => t.2.2.prob) = p :: (tr.map fun t => t.2.2.prob).filterMap id from rfl,
          Option.getD_some, ih fun t ht => hprob t (by simp [ht])]
    rw [hval]
    rw [show (if cs.any Option.isSome then some (cs.filterMap id) else none) = opSome id cs from rfl]
    simp only [opSome_id_inj hsh]
    clear htr hj hprob hval hcs hact
    induction tr generalizing cs with
    | nil =>
      cases hsh
      simp
    | cons t tr ih =>
      cases cs with
      | nil => cases hsh
      | cons c cs =>
        simp only [List.map_cons, List.cons.injEq, List.zip_cons_cons, List.prod_cons]
        by_cases ht : t.2.2.action = c
        · cases hsh with
          | cons _ hsh =>
            rw [← ih hsh]
            simp [ht]
        · simp [ht]

/-! ### Policies -/

omit [DecidableEq σ] in
theorem policyMoves_spec (act : α) (es : List (σ × σ × EAttr α)) :
    (∀ h : ∀ e ∈ es, e.2.2.action.isSome, policyMoves act es =
      .ok ((es.filter fun e => e.2.2.action = some act).map fun e =>
        (e.1, e.2.1, { e.2.2 with action := none }))) ∧
    ((∃ e ∈ es, e.2.2.action = none) → policyMoves act es = .error .keyError) := by
  induction es with
  | nil => exact ⟨fun _ => rfl, by simp⟩
  | cons e es ih =>
    constructor
    · intro h
      obtain ⟨a, ha⟩ := Option.isSome_iff_exists.1 (h e (by simp))
      simp only [policyMoves, ha, ih.1 fun e he => h e (by simp [he]), ok_bind]
      by_cases hne : a = act
      · subst hne; simp [List.filter_cons, ha]
      · simp [List.filter_cons, ha, hne]
    · intro h
      cases ha : e.2.2.action with
      | none => simp [policyMoves, ha]
      | some a =>
        have : ∃ e ∈ es, e.2.2.action = none := by
          obtain ⟨e', he', hn⟩ := h
          rcases List.mem_cons.1 he' with rfl | he'
          · rw [ha] at hn; cases hn
          · exact ⟨e', he', hn⟩
        simp only [policyMoves, ha, ih.2 this, error_bind]

/-- The transitions of one state under the policy. -/
def chosen (m : Mod σ α) (policy : σ → Option α) (s : σ) : List (σ × σ × EAttr α) :=
  (m.edges.filter fun e => e.1 = s ∧ e.2.2.action = policy s).map fun e =>
    (e.1, e.2.1, { e.2.2 with action := none })

theorem policyAll_spec (m : Mod σ α) (policy : σ → Option α)
    (ss : List σ) (hpol : ∀ s ∈ ss, (policy s).isSome) (hact : ∀ e ∈ m.edges, e.2.2.action.isSome) :
    policyAll m policy ss = .ok (ss.flatMap (chosen m policy)) := by
  induction ss with
  | nil => rfl
  | cons s ss ih =>
    obtain ⟨a, ha⟩ := Option.isSome_iff_exists.1 (hpol s (by simp))
    simp only [policyAll, ha, ih fun s hs => hpol s (by simp [hs]), List.flatMap_cons]
    rw [(policyMoves_spec a _).1 fun e he => hact e (List.mem_of_mem_filter he)]
    simp only [ok_bind, pure_eq_ok, chosen, ha, List.filter_filter]
    congr 4
    funext e
    rw [Bool.and_comm, Bool.decide_and]
    rfl

/-- **C24.** For a decision process whose transitions all have an action, and a policy that chooses an
action at each state, the induced chain exists, has the same states, initial states and labels, and
its transitions are those of the chosen action, with that action taken off. From each state the total
probability is that of the chosen action: the chain is stochastic if the process is. -/
theorem applyPolicy_spec {m : Mod σ α} (hm : m.Ok) (hk : m.kind = .mdp) (hl : Labeled m)
    {policy : σ → Option α} (hpol : ∀ s ∈ m.states, (policy s).isSome) :
    ∃ mc, applyPolicy m policy = .ok mc ∧ mc.kind = .mc ∧ mc.states = m.states ∧
      mc.initial = m.initial ∧ mc.aps = m.aps ∧ mc.ap = m.ap ∧
      (∀ s t a, (s, t, a) ∈ mc.edges ↔
        a.action = none ∧ (policy s).isSome ∧ (s, t, { a with action := policy s }) ∈ m.edges) ∧
      (∀ s ∈ m.states, mass mc s none = mass m s (policy s)) := by
  have hact := hl.1 hk
  have hchosen : ∀ s, (m.edges.filter fun e => e.1 = s ∧ e.2.2.action = policy s).Nodup :=
    fun s => hm.edges.filter _
  have hnd : (m.states.flatMap (chosen m policy)).Nodup := by
    rw [List.Nodup, List.pairwise_flatMap]
    refine ⟨fun s _ => ?_, ?_⟩
    · rw [chosen, List.pairwise_map]
      refine (hchosen s).imp_of_mem fun {e e'} he he' hne h => hne ?_
      simp only [List.mem_filter, decide_eq_true_eq] at he he'
      obtain ⟨u, v, c, p, a⟩ := e
      obtain ⟨u', v', c', p', a'⟩ := e'
      simp only [Prod.mk.injEq, EAttr.mk.injEq] at h he he' ⊢
      obtain ⟨rfl, rfl, rfl, rfl, _⟩ := h
      exact ⟨rfl, rfl, rfl, rfl, he.2.2.trans he'.2.2.symm⟩
    · refine hm.states.imp fun {s s'} hne e he e' he' h => ?_
      simp only [chosen, List.mem_map, List.mem_filter, decide_eq_true_eq] at he he'
      obtain ⟨x, ⟨_, hx, _⟩, rfl⟩ := he
      obtain ⟨y, ⟨_, hy, _⟩, rfl⟩ := he'
      simp only [Prod.mk.injEq] at h
      exact hne (hx.symm.trans (h.1.trans hy))
  have hprob : ∀ s t a, (s, t, a) ∈ m.states.flatMap (chosen m policy) ↔
      a.action = none ∧ (policy s).isSome ∧ (s, t, { a with action := policy s }) ∈ m.edges := by
    intro s t a
    simp only [List.mem_flatMap, chosen, List.mem_map, List.mem_filter, decide_eq_true_eq]
    constructor
    · rintro ⟨s', hs', ⟨u, v, c, p, x⟩, ⟨he, rfl, hx⟩, h⟩
      simp only [Prod.mk.injEq] at h hx
      obtain ⟨rfl, rfl, rfl⟩ := h
      refine ⟨rfl, hpol _ hs', ?_⟩
      simp only at hx ⊢
      rw [← hx]; exact he
    · rintro ⟨ha, _, he⟩
      refine ⟨s, (hm.ends _ he).1, (s, t, { a with action := policy s }), ⟨he, rfl, rfl⟩, ?_⟩
      obtain ⟨c, p, x⟩ := a
      simp only at ha
      subst ha
      rfl
  obtain ⟨es, h1, _, _, h4⟩ := addAll_spec (m.states.flatMap (chosen m policy))
    { m with kind := .mc, actions := [], edges := [] }
    (fun e he => by
      obtain ⟨s, t, a⟩ := e
      have := hm.ends _ ((hprob s t a).1 he).2.2
      exact this)
    (fun e he => by
      obtain ⟨s, t, a⟩ := e
      obtain ⟨ha, _, he⟩ := (hprob s t a).1 he
      have := (attrCheck_iff ..).1 (hm.attrs _ he)
      rw [attrCheck_iff]
      refine ⟨fun c hc => ?_, fun p hp => ⟨.inl rfl, (this.2.1 p hp).2⟩, fun x hx => ?_⟩
      · have := (this.1 c hc).1
        rw [hk] at this; cases this
      · simp only at hx; rw [ha] at hx; cases hx)
    (by
      refine hnd.imp_of_mem fun {e e'} he he' _ _ _ h => ?_
      obtain ⟨s, t, a⟩ := e
      have := (hl.2 (.inl hk)) _ ((hprob s t a).1 he).2.2
      simp only at h
      rw [h] at this
      cases this)
    (by simp) (by simp)
  have h4 : es = m.states.flatMap (chosen m policy) := by simpa using h4 (by simpa using hnd)
  refine ⟨{ m with kind := .mc, actions := [], edges := es }, ?_, rfl, rfl, rfl, rfl, rfl, ?_, ?_⟩
  · simp only [applyPolicy, hk, ne_eq, not_true_eq_false, if_false,
      policyAll_spec m policy m.states hpol hact, ok_bind]
    exact h1
  · intro s t a; simp only [h4]; exact hprob s t a
  · intro s hs
    have hfrom : (es.filter fun e => e.1 = s ∧ e.2.2.action = none) = chosen m policy s := by
      rw [h4]
      have hst := hm.states
      generalize m.states = ss at hs hst
      induction ss with
      | nil => simp at hs
      | cons x ss ih =>
        have hx := List.nodup_cons.1 hst
        rw [List.flatMap_cons, List.filter_append]
        have hself : ∀ y, ((chosen m policy y).filter fun e => e.1 = s ∧ e.2.2.action = none) =
            if y = s then chosen m policy y else [] := by
          intro y
          split
          · rename_i he
            rw [List.filter_eq_self]
            intro e hm'
            simp only [chosen, List.mem_map, List.mem_filter, decide_eq_true_eq] at hm'
            obtain ⟨x, ⟨_, hx, _⟩, rfl⟩ := hm'
            simp [hx, he]
          · rename_i he
            rw [List.filter_eq_nil_iff]
            intro e hm'
            simp only [chosen, List.mem_map, List.mem_filter, decide_eq_true_eq] at hm'
            obtain ⟨x, ⟨_, hx, _⟩, rfl⟩ := hm'
            simp [hx, he]
        rw [hself]
        by_cases he : x = s
        · subst he
          rw [if_pos rfl]
          have : ((ss.flatMap (chosen m policy)).filter fun e => e.1 = x ∧ e.2.2.action = none) = [] := by
            rw [List.filter_eq_nil_iff]
            intro e hm'
            obtain ⟨y, hy, hm'⟩ := List.mem_flatMap.1 hm'
            simp only [chosen, List.mem_map, List.mem_filter, decide_eq_true_eq] at hm'
            obtain ⟨z, ⟨_, hz, _⟩, rfl⟩ := hm'
            simp only [decide_eq_true_eq, not_and]
            intro e
            rw [← e, hz] at hx
            exact absurd hy hx.1
          rw [this, List.append_nil]
        · rw [if_neg he, List.nil_append]
          exact ih ((List.mem_cons.1 hs).resolve_left fun e => he e.symm) hx.2
    simp only [mass, hfrom]
    rw [chosen, List.map_map]
    rfl

/-- **C24.** Without an action at some state the call raises `KeyError`, and so it does when a
transition has no action; a model that is not a decision process is a `TypeError`. -/
theorem applyPolicy_raises (m : Mod σ α) (policy : σ → Option α) :
    (m.kind ≠ .mdp → applyPolicy m policy = .error .typeError) ∧
    (m.kind = .mdp → (∃ s ∈ m.states, policy s = none ∨
      ∃ e ∈ m.edges, e.1 = s ∧ e.2.2.action = none) → applyPolicy m policy = .error .keyError) := by
  refine ⟨fun h => by simp [applyPolicy, h], fun hk h => ?_⟩
  have : policyAll m policy m.states = .error .keyError := by
    obtain ⟨s, hs, h⟩ := h
    generalize m.states = ss at hs
    induction ss with
    | nil => simp at hs
    | cons x ss ih =>
      simp only [policyAll]
      cases hp : policy x with
      | none => rfl
      | some a =>
        simp only
        by_cases hno : ∃ e ∈ m.edges.filter (fun e => e.1 == x), e.2.2.action = none
        · rw [(policyMoves_spec a _).2 hno, error_bind]
        · rw [(policyMoves_spec a _).1, ok_bind]
          · rcases List.mem_cons.1 hs with rfl | hs
            · exfalso
              rcases h with h | ⟨e, he, h1, h2⟩
              · rw [hp] at h; cases h
              · exact hno ⟨e, by simp [he, h1], h2⟩
            · rw [ih hs, error_bind]
          · intro e he
            cases hx : e.2.2.action with
            | none => exact absurd ⟨e, he, hx⟩ hno
            | some => rfl
  simp [applyPolicy, hk, this]

/-! ### A chain and a process -/

/-- A chain with two states. -/
def coin : Mod Nat Nat where
  kind := .mc
  states := [0, 1]
  initial := [0]
  aps := ["h"]
  ap := fun s => if s = 1 then ["h"] else []
  actions := []
  edges := [(0, 0, { prob := some (1/2) }), (0, 1, { prob := some (1/2) }), (1, 1, { prob := some 1 })]

/-- A process with two actions. -/
def robot : Mod Nat Nat where
  kind := .mdp
  states := [0, 1]
  initial := [0]
  aps := ["goal"]
  ap := fun s => if s = 1 then ["goal"] else []
  actions := [7, 8]
  edges := [(0, 1, { prob := some (3/4), action := some 7 }), (0, 0, { prob := some (1/4), action := some 7 }),
    (0, 0, { prob := some 1, action := some 8 }), (1, 1, { prob := some 1, action := some 7 })]

theorem coin_ok : coin.Ok ∧ Labeled coin ∧ Simple coin := by
  refine ⟨⟨by decide +kernel, by decide +kernel, by decide +kernel, by decide +kernel,
    by decide +kernel⟩, ⟨by decide +kernel, ?_⟩, by unfold Simple; decide +kernel⟩
  intro _; decide +kernel

theorem robot_ok : robot.Ok ∧ Labeled robot ∧ Simple robot := by
  refine ⟨⟨by decide +kernel, by decide +kernel, by decide +kernel, by decide +kernel,
    by decide +kernel⟩, ⟨by intro _; decide +kernel, ?_⟩, by unfold Simple; decide +kernel⟩
  intro _; decide +kernel

/-- The hypotheses of `sync_spec` and `sync_mass` are met, and the composition is stochastic. -/
example : ∃ ts, synchronousParallel [coin, robot] = .ok ts ∧ mass ts [0, 0] (some [7]) = 1 := by
  obtain ⟨ts, h1, h2⟩ := sync_mass (ms := [coin, robot]) (by simp)
    (by simp [coin_ok.1, robot_ok.1]) (by simp [coin, robot]) (by simp [coin_ok.2.1, robot_ok.2.1])
    (by simp [coin_ok.2.2, robot_ok.2.2]) (s := [0, 0]) (cs := [none, some 7])
    (.cons (by decide) (.cons (by decide) .nil))
    (.cons (by simp [coin]) (.cons (by simp [robot]) .nil))
  refine ⟨ts, h1, ?_⟩
  rw [show (some [7] : Option (List Nat)) = if [none, some 7].any Option.isSome then
    some ([none, some 7].filterMap id) else none from rfl, h2]
  decide +kernel

example : ∃ mc, applyPolicy robot (fun s => if s = 0 then some 7 else some 7) = .ok mc ∧
    mass mc 0 none = 1 := by
  obtain ⟨mc, h1, _, _, _, _, _, _, h2⟩ := applyPolicy_spec robot_ok.1 rfl robot_ok.2.1
    (policy := fun s => if s = 0 then some 7 else some 7) (by decide +kernel)
  refine ⟨mc, h1, ?_⟩
  rw [h2 0 (by decide)]
  decide +kernel

/-- Two chains with parallel transitions: joint moves with equal probabilities are one transition, so
the composition is not stochastic. -/
def parallel : Mod Nat Nat where
  kind := .mc
  states := [0]
  initial := [0]
  aps := []
  ap := fun _ => []
  actions := []
  edges := [(0, 0, { prob := some (2/5) }), (0, 0, { prob := some (3/5) })]

theorem sync_mass_counterexample : mass parallel 0 none = 1 ∧
    ((synchronousParallel [parallel, parallel]).toOption.map fun ts => mass ts [0, 0] none) =
      some (19/25) := by
  constructor <;> decide +kernel

/-- A weighted structure and a chain: the cost is not a label of the composed class. -/
theorem sync_mixed_counterexample :
    (match synchronousParallel [coin, { coin with kind := .wks, edges := [(0, 1, { cost := some 1 })] }] with
      | .error e => some e
      | .ok _ => none) = some .attribute := by decide +kernel

theorem sync_empty : synchronousParallel ([] : List (Mod σ α)) = .error .typeError := rfl

end Comp
end Tulip
