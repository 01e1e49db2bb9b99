import Verif.Interfaces.PrismLemmas
import Verif.Interfaces.Storm
import Verif.Transys.MathSetProps

/-!
# Properties of the import of Markov chains and Markov decision processes
-/

namespace Tulip
namespace Storm
open Comp

/-! ## Spec -/

/-- A model of `stormpy` that is a Markov chain or a Markov decision process: its indices are those of states, and its
probabilities are between 0 and 1. -/
structure WellFormed (M : SModel) : Prop where
  mtype : M.mtype ≠ .other
  initial : ∀ i ∈ M.initial, i < M.states.length
  moves : ∀ s ∈ M.states, ∀ a ∈ s.actions, ∀ t ∈ a.2, t.1 < M.states.length ∧ 0 ≤ t.2 ∧ t.2 ≤ 1

/-- The system has the states, labels and transitions of the model, where `s` and its index is the name of a state.
The labels `init` and `deadlock` are those of `stormpy`. -/
structure Imports (M : SModel) (m : Mod String String) : Prop where
  kind : m.kind = if M.mtype = .mdp then .mdp else .mc
  states : m.states = (List.range M.states.length).map fun i => "s" ++ String.ofList (digitsOf i)
  distinct : m.states.Nodup
  initial : m.initial.Nodup ∧ ∀ q, q ∈ m.initial ↔ ∃ i ∈ M.initial, q = "s" ++ String.ofList (digitsOf i)
  labels : ∀ i s, M.states[i]? = some s → ∀ l,
    l ∈ m.ap ("s" ++ String.ofList (digitsOf i)) ↔ l ∈ s.labels ∧ l ≠ "init" ∧ l ≠ "deadlock"
  aps : m.aps.Nodup ∧ ∀ l, l ∈ m.aps ↔ (∃ s ∈ M.states, l ∈ s.labels) ∧ l ≠ "init" ∧ l ≠ "deadlock"
  actions : m.actions.Nodup ∧ ∀ a, a ∈ m.actions ↔ M.mtype = .mdp ∧ ∃ s ∈ M.states, a ∈ s.actions.map (·.1)
  edges : m.edges.Nodup ∧ ∀ e, e ∈ m.edges ↔ ∃ i s a t, M.states[i]? = some s ∧ a ∈ s.actions ∧ t ∈ a.2 ∧
    e = ("s" ++ String.ofList (digitsOf i), "s" ++ String.ofList (digitsOf t.1),
      { prob := some t.2, action := if M.mtype = .mdp then some a.1 else none })

/-! ## Lemmas -/

theorem tsState_eq (i : Nat) : tsState i = "s" ++ String.ofList (digitsOf i) := by
  rw [tsState, show ('s' :: digitsOf i) = "s".toList ++ digitsOf i from rfl, String.ofList_append]
  rfl

theorem tsState_inj {i j : Nat} (h : tsState i = tsState j) : i = j := by
  have := congrArg String.toList h
  simp only [tsState, String.toList_ofList, List.cons.injEq, true_and] at this
  rw [← Prism.natOf_digits i, this, Prism.natOf_digits]

theorem foldlM_iff {β γ : Type} {f : β → γ → Except PyErr β} (g : β → γ → β) (P : β → Prop) (G : γ → Prop) (l : List γ)
    (h : ∀ b c, P b → c ∈ l → (G c → f b c = .ok (g b c) ∧ P (g b c)) ∧ (¬ G c → f b c = .error .valueError)) (b : β)
    (hb : P b) : ((∀ c ∈ l, G c) → l.foldlM f b = .ok (l.foldl g b) ∧ P (l.foldl g b)) ∧
      (¬ (∀ c ∈ l, G c) → l.foldlM f b = .error .valueError) := by
  induction l generalizing b with
  | nil => exact ⟨fun _ => ⟨rfl, hb⟩, fun h => absurd (fun c hc => by cases hc) h⟩
  | cons c l ih =>
    have ih := ih fun b c hb hc => h b c hb (List.mem_cons_of_mem _ hc)
    rw [List.foldlM_cons]
    obtain ⟨h1, h2⟩ := h b c hb (by simp)
    by_cases hG : G c
    · obtain ⟨e, hP⟩ := h1 hG
      obtain ⟨i1, i2⟩ := ih _ hP
      rw [e, ok_bind]
      refine ⟨fun hall => i1 fun d hd => hall d (by simp [hd]), fun hn => i2 fun hall => hn ?_⟩
      intro d hd
      rcases List.mem_cons.1 hd with rfl | hd
      · exact hG
      · exact hall d hd
    · rw [h2 hG, error_bind]
      exact ⟨fun hall => absurd (hall c (by simp)) hG, fun _ => rfl⟩

/-- The invariant of the import. -/
structure Inv (mdp : Bool) (n : Nat) (m : Mod String String) : Prop where
  kind : m.kind = if mdp then .mdp else .mc
  states : m.states = (List.range n).map tsState
  probs : ∀ e ∈ m.edges, ∃ p, e.2.2.prob = some p ∧ 0 ≤ p ∧ p ≤ 1

/-- The transition of a move. -/
def mkEdge (mdp : Bool) (i : Nat) (name : String) (t : Nat × Rat) : String × String × EAttr String :=
  (tsState i, tsState t.1, { prob := some t.2, action := if mdp then some name else none })

/-- Add a transition to a list without repetition. -/
def ins (mdp : Bool) (i : Nat) (name : String) (m : Mod String String) (t : Nat × Rat) : Mod String String :=
  { m with edges := uniqueLoop m.edges [mkEdge mdp i name t] }

/-- The conditions on a move. -/
def GoodMove (n : Nat) (t : Nat × Rat) : Prop := t.1 < n ∧ 0 ≤ t.2 ∧ t.2 ≤ 1

theorem mem_states {n i : Nat} : tsState i ∈ (List.range n).map tsState ↔ i < n := by
  rw [List.mem_map]
  constructor
  · rintro ⟨j, hj, e⟩
    rw [← tsState_inj e]
    exact List.mem_range.1 hj
  · intro h
    exact ⟨i, List.mem_range.2 h, rfl⟩

theorem addMove_iff {mdp : Bool} {n i : Nat} (hi : i < n) {name : String} {m : Mod String String} (hm : Inv mdp n m)
    (ha : mdp = true → name ∈ m.actions) (t : Nat × Rat) :
    (GoodMove n t → addMove mdp i name m t = .ok (ins mdp i name m t) ∧ Inv mdp n (ins mdp i name m t)) ∧
    (¬ GoodMove n t → addMove mdp i name m t = .error .valueError) := by
  have hne : (tsState i, tsState t.1, ({} : EAttr String)) ∉ m.edges := by
    intro h
    obtain ⟨p, hp, -⟩ := hm.probs _ h
    cases hp
  have hsi : tsState i ∈ m.states := by rw [hm.states]; exact mem_states.2 hi
  constructor
  · rintro ⟨h1, h2, h3⟩
    have hst : tsState t.1 ∈ m.states := by rw [hm.states]; exact mem_states.2 h1
    have hnot : ¬ (t.2 < 0 ∨ 1 < t.2) := by rintro (h | h) <;> linarith
    have hinv : Inv mdp n (ins mdp i name m t) := by
      refine ⟨hm.kind, hm.states, ?_⟩
      intro e he
      rcases (mem_uniqueLoop _ _ _).1 he with he | he
      · exact hm.probs e he
      · rw [List.mem_singleton] at he
        subst he
        exact ⟨t.2, rfl, h2, h3⟩
    refine ⟨?_, hinv⟩
    unfold addMove addTrans
    rw [if_neg (by simp [hsi, hst]), if_neg hne]
    change (if mkEdge mdp i name t ∈ m.edges then _ else _) = _
    by_cases hmem : mkEdge mdp i name t ∈ m.edges
    · rw [if_pos hmem]
      simp [ins, uniqueLoop, hmem]
    · rw [if_neg hmem]
      have hc : attrCheck m.kind m.actions { prob := some t.2, action := if mdp then some name else none } = none := by
        rw [hm.kind]
        cases mdp with
        | false => simp [attrCheck, hnot]
        | true =>
          have : ¬ (t.2 < 0 ∨ 1 < t.2 ∨ name ∉ m.actions) := by
            rintro (h | h | h)
            · linarith
            · linarith
            · exact h (ha rfl)
          simp [attrCheck, this]
      change (match attrCheck m.kind m.actions { prob := some t.2, action := if mdp then some name else none } with
        | some err => Except.error err
        | none => Except.ok { m with edges := m.edges ++ [mkEdge mdp i name t] }) = _
      rw [hc]
      simp [ins, uniqueLoop, hmem]
  · intro hG
    unfold addMove addTrans
    by_cases h1 : t.1 < n
    · have hst : tsState t.1 ∈ m.states := by rw [hm.states]; exact mem_states.2 h1
      have hp : t.2 < 0 ∨ 1 < t.2 := by
        by_contra hn
        rw [not_or, not_lt, not_lt] at hn
        exact hG ⟨h1, hn.1, hn.2⟩
      rw [if_neg (by simp [hsi, hst]), if_neg hne]
      rw [if_neg]
      · have hc : attrCheck m.kind m.actions { prob := some t.2, action := if mdp then some name else none } =
            some .valueError := by
          rw [hm.kind]
          cases mdp with
          | false => simp [attrCheck, hp]
          | true =>
            have : (t.2 < 0 ∨ 1 < t.2 ∨ name ∉ m.actions) := by
              rcases hp with h | h
              · exact .inl h
              · exact .inr (.inl h)
            simp [attrCheck, this]
        dsimp only
        rw [hc]
      · intro hmem
        obtain ⟨p, hp', h0, h1⟩ := hm.probs _ hmem
        cases hp'
        rcases hp with h | h <;> linarith
    · rw [if_pos]
      right
      rw [hm.states]
      exact fun h => h1 (mem_states.1 h)

/-- The effect of an action. -/
def insAction (mdp : Bool) (i : Nat) (m : Mod String String) (a : String × List (Nat × Rat)) : Mod String String :=
  a.2.foldl (ins mdp i a.1) { m with actions := if mdp then uniqueLoop m.actions [a.1] else m.actions }

theorem ins_actions {mdp : Bool} {i : Nat} {name : String} (l : List (Nat × Rat)) (m : Mod String String) :
    (l.foldl (ins mdp i name) m).actions = m.actions ∧ (l.foldl (ins mdp i name) m).aps = m.aps ∧
    (l.foldl (ins mdp i name) m).ap = m.ap ∧ (l.foldl (ins mdp i name) m).initial = m.initial ∧
    (l.foldl (ins mdp i name) m).edges = uniqueLoop m.edges (l.map (mkEdge mdp i name)) := by
  induction l generalizing m with
  | nil => simp [uniqueLoop]
  | cons t l ih =>
    rw [List.foldl_cons]
    obtain ⟨h1, h2, h3, h4, h5⟩ := ih (ins mdp i name m t)
    refine ⟨h1, h2, h3, h4, ?_⟩
    rw [h5]
    simp only [ins, uniqueLoop, List.map_cons]
    split <;> rfl

theorem addAction_iff {mdp : Bool} {n i : Nat} (hi : i < n) {m : Mod String String} (hm : Inv mdp n m)
    (a : String × List (Nat × Rat)) :
    ((∀ t ∈ a.2, GoodMove n t) → addAction mdp i m a = .ok (insAction mdp i m a) ∧ Inv mdp n (insAction mdp i m a)) ∧
    (¬ (∀ t ∈ a.2, GoodMove n t) → addAction mdp i m a = .error .valueError) := by
  have := foldlM_iff (f := addMove mdp i a.1) (ins mdp i a.1)
    (fun m => Inv mdp n m ∧ (mdp = true → a.1 ∈ m.actions)) (GoodMove n) a.2
    (by
      rintro b c ⟨hb1, hb2⟩ -
      obtain ⟨h1, h2⟩ := addMove_iff hi hb1 hb2 c
      exact ⟨fun h => ⟨(h1 h).1, (h1 h).2, hb2⟩, h2⟩)
    { m with actions := if mdp then uniqueLoop m.actions [a.1] else m.actions }
    ⟨⟨hm.kind, hm.states, hm.probs⟩, by
      intro h
      simp only [h, if_true]
      exact (mem_uniqueLoop _ _ _).2 (.inr (by simp))⟩
  exact ⟨fun h => ⟨(this.1 h).1, (this.1 h).2.1⟩, this.2⟩

/-- The effect of a state. -/
def insState (mdp : Bool) (m : Mod String String) (s : SState × Nat) : Mod String String :=
  s.1.actions.foldl (insAction mdp s.2)
    { m with
      aps := uniqueLoop m.aps (stateAp s.1)
      ap := fun q => if q = tsState s.2 then stateAp s.1 else m.ap q }

theorem addState_iff {mdp : Bool} {n : Nat} {m : Mod String String} (hm : Inv mdp n m) (s : SState × Nat) (hi : s.2 < n) :
    ((∀ a ∈ s.1.actions, ∀ t ∈ a.2, GoodMove n t) →
      addState mdp m s = .ok (insState mdp m s) ∧ Inv mdp n (insState mdp m s)) ∧
    (¬ (∀ a ∈ s.1.actions, ∀ t ∈ a.2, GoodMove n t) → addState mdp m s = .error .valueError) := by
  exact foldlM_iff (f := addAction mdp s.2) (insAction mdp s.2) (Inv mdp n) (fun a => ∀ t ∈ a.2, GoodMove n t) s.1.actions
    (fun b c hb _ => addAction_iff hi hb c) _ ⟨hm.kind, hm.states, hm.probs⟩

theorem insAction_eq {mdp : Bool} {i : Nat} (l : List (String × List (Nat × Rat))) (m : Mod String String) :
    (l.foldl (insAction mdp i) m).aps = m.aps ∧ (l.foldl (insAction mdp i) m).ap = m.ap ∧
    (l.foldl (insAction mdp i) m).initial = m.initial ∧
    (m.actions.Nodup → (l.foldl (insAction mdp i) m).actions.Nodup) ∧
    (∀ a, a ∈ (l.foldl (insAction mdp i) m).actions ↔ a ∈ m.actions ∨ (mdp = true ∧ a ∈ l.map (·.1))) ∧
    (m.edges.Nodup → (l.foldl (insAction mdp i) m).edges.Nodup) ∧
    ∀ e, e ∈ (l.foldl (insAction mdp i) m).edges ↔ e ∈ m.edges ∨ ∃ a ∈ l, ∃ t ∈ a.2, e = mkEdge mdp i a.1 t := by
  induction l generalizing m with
  | nil => simp
  | cons a l ih =>
    rw [List.foldl_cons]
    obtain ⟨h1, h2, h3, h4, h5, h6, h7⟩ := ih (insAction mdp i m a)
    obtain ⟨k1, k2, k3, k4, k5⟩ := ins_actions (mdp := mdp) (i := i) (name := a.1) a.2
      { m with actions := if mdp then uniqueLoop m.actions [a.1] else m.actions }
    refine ⟨h1.trans k2, h2.trans k3, h3.trans k4, ?_, ?_, ?_, ?_⟩
    · intro hn
      refine h4 ?_
      rw [insAction, k1]
      dsimp only
      split
      · exact nodup_uniqueLoop _ _ hn
      · exact hn
    · intro b
      rw [h5, insAction, k1]
      dsimp only
      cases mdp with
      | false => simp
      | true => simp [mem_uniqueLoop, or_assoc]
    · intro hn
      refine h6 ?_
      rw [insAction, k5]
      exact nodup_uniqueLoop _ _ hn
    · intro e
      rw [h7, insAction, k5, mem_uniqueLoop]
      simp only [List.mem_map, List.mem_cons, exists_eq_or_imp, or_assoc]
      refine or_congr Iff.rfl (or_congr ?_ Iff.rfl)
      exact exists_congr fun _ => and_congr Iff.rfl eq_comm

theorem insState_eq {mdp : Bool} (l : List SState) (k : Nat) (m : Mod String String) :
    ((l.zipIdx k).foldl (insState mdp) m).initial = m.initial ∧
    (m.aps.Nodup → ((l.zipIdx k).foldl (insState mdp) m).aps.Nodup) ∧
    (∀ p, p ∈ ((l.zipIdx k).foldl (insState mdp) m).aps ↔ p ∈ m.aps ∨ ∃ s ∈ l, p ∈ stateAp s) ∧
    (∀ q, ((l.zipIdx k).foldl (insState mdp) m).ap q =
      match (l.zipIdx k).find? fun s => decide (q = tsState s.2) with
      | some s => stateAp s.1
      | none => m.ap q) ∧
    (m.actions.Nodup → ((l.zipIdx k).foldl (insState mdp) m).actions.Nodup) ∧
    (∀ a, a ∈ ((l.zipIdx k).foldl (insState mdp) m).actions ↔ a ∈ m.actions ∨ (mdp = true ∧ ∃ s ∈ l, a ∈ s.actions.map (·.1))) ∧
    (m.edges.Nodup → ((l.zipIdx k).foldl (insState mdp) m).edges.Nodup) ∧
    ∀ e, e ∈ ((l.zipIdx k).foldl (insState mdp) m).edges ↔
      e ∈ m.edges ∨ ∃ s ∈ l.zipIdx k, ∃ a ∈ s.1.actions, ∃ t ∈ a.2, e = mkEdge mdp s.2 a.1 t := by
  induction l generalizing k m with
  | nil => simp
  | cons s l ih =>
    rw [List.zipIdx_cons, List.foldl_cons]
    obtain ⟨h1, h2, h3, h4, h5, h6, h7, h8⟩ := ih (k + 1) (insState mdp m (s, k))
    obtain ⟨k1, k2, k3, k4, k5, k6, k7⟩ := insAction_eq (mdp := mdp) (i := k) s.actions
      { m with
        aps := uniqueLoop m.aps (stateAp s)
        ap := fun q => if q = tsState k then stateAp s else m.ap q }
    refine ⟨h1.trans k3, ?_, ?_, ?_, fun h => h5 (k4 h), ?_, fun h => h7 (k6 h), ?_⟩
    · intro h
      refine h2 ?_
      rw [insState, k1]
      exact nodup_uniqueLoop _ _ h
    · intro p
      rw [h3, insState, k1]
      simp only [mem_uniqueLoop, List.mem_cons, exists_eq_or_imp, or_assoc]
    · intro q
      rw [h4, List.find?_cons]
      by_cases hq : q = tsState k
      · have hnone : (l.zipIdx (k + 1)).find? (fun s => decide (q = tsState s.2)) = none := by
          rw [List.find?_eq_none]
          rintro ⟨x, j⟩ hx
          simp only [decide_eq_true_eq]
          intro e
          have := tsState_inj (hq.symm.trans e)
          have hle := (List.mem_zipIdx hx).1
          omega
        rw [hnone]
        simp only [hq, decide_true]
        rw [insState, k2]
        simp
      · simp only [hq, decide_false]
        cases hf : (l.zipIdx (k + 1)).find? (fun s => decide (q = tsState s.2)) with
        | some s => rfl
        | none =>
          dsimp only
          rw [insState, k2]
          simp [hq]
    · intro a
      rw [h6, insState, k5]
      simp only [List.mem_cons, exists_eq_or_imp]
      tauto
    · intro e
      rw [h8, insState, k7]
      simp only [List.mem_cons, exists_eq_or_imp, or_assoc]

/-! ## C100 -/

/-- **C100.** A system is returned exactly for a well-formed model, and it has the states, labels and transitions of the
model; otherwise `ValueError` is raised. -/
theorem toTulipTransys_spec (M : SModel) :
    (WellFormed M → ∃ m, toTulipTransys M = .ok m ∧ Imports M m) ∧
    (¬ WellFormed M → toTulipTransys M = .error .valueError) := by
  unfold toTulipTransys
  by_cases hT : M.mtype = .other
  · rw [if_pos hT]
    exact ⟨fun h => absurd hT h.mtype, fun _ => rfl⟩
  rw [if_neg hT]
  dsimp only
  have hini : ((unique (M.initial.map tsState)).all fun s =>
      decide (s ∈ (List.range M.states.length).map tsState)) = true ↔ ∀ i ∈ M.initial, i < M.states.length := by
    simp only [List.all_eq_true, decide_eq_true_eq, mem_unique, List.mem_map, forall_exists_index, and_imp,
      forall_apply_eq_imp_iff₂]
    refine forall_congr' fun i => forall_congr' fun _ => ?_
    rw [← mem_states, List.mem_map]
  by_cases hI : ∀ i ∈ M.initial, i < M.states.length
  case neg =>
    rw [if_neg (by rw [hini]; exact hI)]
    exact ⟨fun h => absurd h.initial hI, fun _ => rfl⟩
  rw [if_pos (hini.2 hI)]
  have hb : (M.mtype == .mdp) = true ↔ M.mtype = .mdp := by cases M.mtype <;> decide
  have key := foldlM_iff (f := addState (M.mtype == .mdp)) (insState (M.mtype == .mdp))
    (Inv (M.mtype == .mdp) M.states.length)
    (fun s => ∀ a ∈ s.1.actions, ∀ t ∈ a.2, GoodMove M.states.length t) M.states.zipIdx
    (fun b c hb hc => addState_iff hb c (by have := (List.mem_zipIdx hc).2.1; omega))
    { kind := if M.mtype = .mdp then .mdp else .mc, states := (List.range M.states.length).map tsState,
      initial := unique (M.initial.map tsState), aps := [], ap := fun _ => [], actions := [], edges := [] }
    ⟨by simp only [hb], rfl, by simp⟩
  have hall : (∀ c ∈ M.states.zipIdx, ∀ a ∈ c.1.actions, ∀ t ∈ a.2, GoodMove M.states.length t) ↔
      ∀ s ∈ M.states, ∀ a ∈ s.actions, ∀ t ∈ a.2, t.1 < M.states.length ∧ 0 ≤ t.2 ∧ t.2 ≤ 1 := by
    constructor
    · intro h s hs
      obtain ⟨i, hi, e⟩ := List.getElem_of_mem hs
      exact h (s, i) (List.mem_zipIdx_iff_getElem?.2 (List.getElem?_eq_some_iff.2 ⟨hi, e⟩))
    · rintro h ⟨s, i⟩ hs
      exact h s (List.mem_of_getElem? (List.mem_zipIdx_iff_getElem?.1 hs))
  refine ⟨fun hW => ?_, fun hW => key.2 fun h => hW ⟨hT, hI, hall.1 h⟩⟩
  obtain ⟨hok, hinv⟩ := key.1 (hall.2 hW.moves)
  refine ⟨_, hok, ?_⟩
  obtain ⟨h1, h2, h3, h4, h5, h6, h7, h8⟩ := insState_eq (mdp := (M.mtype == .mdp)) M.states 0
    { kind := if M.mtype = .mdp then .mdp else .mc, states := (List.range M.states.length).map tsState,
      initial := unique (M.initial.map tsState), aps := [], ap := fun _ => [], actions := [], edges := [] }
  generalize hfin : M.states.zipIdx.foldl (insState (M.mtype == .mdp))
    { kind := if M.mtype = .mdp then .mdp else .mc, states := (List.range M.states.length).map tsState,
      initial := unique (M.initial.map tsState), aps := [], ap := fun _ => [], actions := [], edges := [] } = m at *
  constructor
  · rw [hinv.kind]; simp only [hb]
  · rw [hinv.states]
    exact List.map_congr_left fun i _ => tsState_eq i
  · rw [hinv.states]
    exact List.Nodup.map_on (fun _ _ _ _ e => tsState_inj e) List.nodup_range
  · rw [h1]
    refine ⟨nodup_unique _, fun q => ?_⟩
    simp only [mem_unique, List.mem_map, tsState_eq]
    exact exists_congr fun _ => and_congr Iff.rfl eq_comm
  · intro i s hs l
    rw [← tsState_eq, h4]
    have hf : M.states.zipIdx.find? (fun s => decide (tsState i = tsState s.2)) = some (s, i) := by
      cases hx : M.states.zipIdx.find? (fun s => decide (tsState i = tsState s.2)) with
      | none =>
        exact absurd (by simp) (List.find?_eq_none.1 hx (s, i) (List.mem_zipIdx_iff_getElem?.2 hs))
      | some x =>
        have hx1 := List.find?_some hx
        have hx2 := List.mem_of_find?_eq_some hx
        obtain ⟨x, j⟩ := x
        have := tsState_inj (by simpa using hx1)
        subst this
        rw [List.mem_zipIdx_iff_getElem?, hs] at hx2
        cases hx2
        rfl
    rw [hf]
    simp [stateAp]
  · refine ⟨h2 List.nodup_nil, fun l => ?_⟩
    rw [h3]
    simp only [List.not_mem_nil, false_or, stateAp, List.mem_filter, decide_eq_true_eq]
    constructor
    · rintro ⟨s, hs, hl, hn⟩
      exact ⟨⟨s, hs, hl⟩, hn⟩
    · rintro ⟨⟨s, hs, hl⟩, hn⟩
      exact ⟨s, hs, hl, hn⟩
  · refine ⟨h5 List.nodup_nil, fun a => ?_⟩
    rw [h6, hb]
    simp
  · refine ⟨h7 List.nodup_nil, fun e => ?_⟩
    rw [h8]
    simp only [List.not_mem_nil, false_or, mkEdge, hb, tsState_eq, Prod.exists, List.mem_zipIdx_iff_getElem?]
    constructor
    · rintro ⟨s, i, hs, a, b, ha, t, p, ht, rfl⟩
      exact ⟨i, s, a, b, t, p, hs, ha, ht, rfl⟩
    · rintro ⟨i, s, a, b, t, p, hs, ha, ht, rfl⟩
      exact ⟨s, i, hs, a, b, ha, t, p, ht, rfl⟩

/-- A decision process with two states. -/
def exModel : SModel where
  mtype := .mdp
  states := [⟨["init"], [("0", [(1, 3 / 4), (0, 1 / 4)]), ("1", [(0, 1)])]⟩, ⟨["home", "deadlock"], [("0", [(1, 1)])]⟩]
  initial := [0]

theorem exModel_wf : WellFormed exModel where
  mtype := by decide
  initial := by decide
  moves := by decide +kernel

example : ∃ m, toTulipTransys exModel = .ok m ∧ Imports exModel m := (toTulipTransys_spec exModel).1 exModel_wf

example : toTulipTransys { exModel with initial := [2] } = .error .valueError :=
  (toTulipTransys_spec _).2 fun h => by have := h.initial 2 (by decide); revert this; decide

end Storm
end Tulip
