import Verif.Transys.Automata
import Verif.Transys.ConstructProps

/-!
# Accepting states, Rabin pairs and `tuple2ba`: theorems (C89, C90)
-/

namespace Tulip

namespace Aut

open LGraph

set_option linter.unusedSimpArgs false
set_option linter.unusedSectionVars false

variable {ν V : Type} [DecidableEq ν] [DecidableEq V]

/-! ## C89: accepting states -/

/-- Calls on an automaton. -/
inductive FOp (ν V : Type)
  | graph (op : GOp ν V)
  | removeNode (n : ν)
  | removeState (n : ν)
  | removeStates (l : List ν)
  | removeDeadends (order : List ν → List ν)
  | acceptingAdd (n : ν)
  | acceptingAddFrom (l : List ν)
  | acceptingRemove (n : ν)

/-- Calls that the automaton does not override. -/
def Plain : GOp ν V → Prop
  | .removeState _ | .removeStates _ | .removeDeadends _ => False
  | op => op.Wf

/-- Calls of the model: graph calls that remove states are those of the automaton. `remove_node` is called
only for states that are not initial (`states.remove` removes them from the initial states first). -/
def FOp.Ok (a : Fsa ν V) : FOp ν V → Prop
  | .graph op => Plain op
  | .removeNode n => n ∉ a.graph.initial
  | _ => True

/-- The automaton and the exception after a call. -/
def Fsa.call (a : Fsa ν V) : FOp ν V → Fsa ν V
  | .graph op => { a with graph := a.graph.call op }
  | .removeNode n => (Aut.removeNode a n).1
  | .removeState n => (Aut.removeState a n).1
  | .removeStates l => (Aut.removeStates a l).1
  | .removeDeadends o => (Aut.removeDeadends o a).1
  | .acceptingAdd n => (Aut.acceptingAdd a n).1
  | .acceptingAddFrom l => (Aut.acceptingAddFrom a l).1
  | .acceptingRemove n => (Aut.acceptingRemove a n).1

/-- Automata after histories of calls that may raise. -/
inductive Reach (nt : Dict String (LabelType V)) (nd : Attr V) (et : Dict String (LabelType V)) (ed : Attr V) :
    Fsa ν V → Prop
  | new : Reach nt nd et ed ⟨{ nodeTypes := nt, nodeDefaults := nd, edgeTypes := et, edgeDefaults := ed }, []⟩
  | call {a : Fsa ν V} (op : FOp ν V) : Reach nt nd et ed a → op.Ok a → Reach nt nd et ed (a.call op)

/-- The invariant. -/
structure Inv (a : Fsa ν V) : Prop where
  ok : a.graph.Ok
  inside : ∀ n ∈ a.accepting, a.graph.hasNode n = true
  nodup : a.accepting.Nodup

theorem hasNode_mono {g : LGraph ν V} {op : GOp ν V} (h : Plain op) {n : ν} (hn : g.hasNode n = true) :
    (g.call op).hasNode n = true := by
  have hadd : ∀ (g g' : LGraph ν V) (m : ν) (a : Attr V) (c : Bool), g.addNode m a c = .ok g' →
      g.hasNode n = true → g'.hasNode n = true := by
    intro g g' m a c h hn
    unfold addNode at h
    obtain ⟨t, _, h⟩ := Constr.bind_ok h
    split at h
    · cases h
    · cases h
      rw [hasNode_addNode, hn]
      simp
  have hedge : ∀ (g g' : LGraph ν V) (u v : ν) (a : Attr V) (c : Bool), g.addEdge u v a c = .ok g' →
      g.hasNode n = true → g'.hasNode n = true := by
    intro g g' u v a c h hn
    obtain ⟨_, _, _, _, _, h⟩ := addEdge_inv h
    rcases h with ⟨_, rfl⟩ | ⟨_, _, rfl⟩ <;> exact hn
  have hseq : ∀ {α : Type} (f : LGraph ν V → α → Except PyErr (LGraph ν V)),
      (∀ g x g', f g x = .ok g' → g.hasNode n = true → g'.hasNode n = true) → ∀ (l : List α) (g : LGraph ν V),
      g.hasNode n = true → (seqM f g l).1.hasNode n = true := by
    intro α f hf l
    induction l with
    | nil => intro g h; exact h
    | cons x l ih =>
      intro g h
      unfold seqM
      cases hx : f g x with
      | error e => exact h
      | ok g' => exact ih g' (hf g x g' hx h)
  have hsame : ∀ r : Except PyErr (LGraph ν V), (∀ g', r = .ok g' → g'.hasNode n = true) →
      (g.orSame r).hasNode n = true := by
    intro r h
    cases r with
    | error e => exact hn
    | ok g' => exact h g' rfl
  have hrem : ∀ (g : LGraph ν V) (u v : ν) (a : Attr V), g.hasNode n = true → (g.removeEdge u v a).hasNode n = true :=
    fun g u v a h => h
  cases op with
  | addNode m a c => exact hsame _ fun g' h => hadd _ _ _ _ _ h hn
  | addNodesFrom l c => exact hseq _ (fun g x g' h hn => hadd _ _ _ _ _ h hn) l g hn
  | addEdge u v a c => exact hsame _ fun g' h => hedge _ _ _ _ _ _ h hn
  | addEdgesFrom l a c => exact hseq _ (fun g x g' h hn => hedge _ _ _ _ _ _ h hn) l g hn
  | addComb us vs a c => exact hseq _ (fun g x g' h hn => hedge _ _ _ _ _ _ h hn) _ g hn
  | addAdj r k es ss a c =>
    show ((g.addAdj r k es ss a c).1).hasNode n = true
    unfold addAdj
    split
    · exact hn
    · split
      · exact hn
      · refine hseq _ (fun g x g' h hn => ?_) _ g hn
        split at h
        · exact hedge _ _ _ _ _ _ h hn
        · cases h
  | removeEdge u v a => exact hn
  | removeEdgesFrom l a =>
    show (g.removeEdgesFrom l a).hasNode n = true
    unfold removeEdgesFrom
    clear h hsame
    induction l generalizing g with
    | nil => exact hn
    | cons e l ih => exact ih (hrem _ _ _ _ hn)
  | removeState m => exact h.elim
  | removeStates l => exact h.elim
  | removeDeadends o => exact h.elim
  | addInitial m =>
    refine hsame _ fun g' h => ?_
    unfold addInitial at h
    split at h <;> cases h
    exact hn
  | addInitialFrom l =>
    refine hsame _ fun g' h => ?_
    unfold addInitialFrom at h
    split at h <;> cases h
    exact hn
  | removeInitial m =>
    refine hsame _ fun g' h => ?_
    unfold removeInitial at h
    split at h <;> cases h
    exact hn

theorem dropInitial_ok {g : LGraph ν V} (hg : g.Ok) (n : ν) :
    ({ g with initial := if n ∈ g.initial then g.initial.erase n else g.initial } : LGraph ν V).Ok := by
  split
  · rename_i h
    have := (call_keeps hg (op := .removeInitial n) trivial).2
    have hr : g.removeInitial n = .ok { g with initial := g.initial.erase n } := by
      unfold removeInitial
      rw [if_pos h]
    have hc : g.call (.removeInitial n) = g.orSame (g.removeInitial n) := rfl
    rw [hc, hr] at this
    exact this
  · exact hg

theorem removeNode_inv {g g' : LGraph ν V} {n : ν} (h : g.removeNode n = .ok g') : g.hasNode n = true ∧ g' = { g with
      nodes := g.nodes.filter fun p => !(p.1 == n)
      edges := g.edges.filter fun e => !(e.1 == n || e.2.1 == n) } := by
  unfold LGraph.removeNode at h
  split at h
  · rename_i hn
    cases h
    exact ⟨hn, rfl⟩
  · cases h

theorem hasNode_filter (g : LGraph ν V) (n m : ν) (es : List (ν × ν × Attr V)) :
    ({ g with nodes := g.nodes.filter fun p => !(p.1 == n), edges := es } : LGraph ν V).hasNode m = true ↔
      g.hasNode m = true ∧ m ≠ n := by
  unfold hasNode
  rw [has_filter_key]
  simp [and_comm]

/-- `remove_node` on an automaton for a state that is not initial. -/
theorem removeNode_keeps {a : Fsa ν V} (h : Inv a) {n : ν} (hi : n ∉ a.graph.initial) : Inv (removeNode a n).1 := by
  unfold removeNode acceptingRemove
  by_cases hn : n ∈ a.accepting
  · rw [if_pos hn]
    simp only
    cases hg : a.graph.removeNode n with
    | error e =>
      exact ⟨h.ok, fun m hm => h.inside m (List.mem_of_mem_erase hm), h.nodup.erase n⟩
    | ok g =>
      obtain ⟨hhas, rfl⟩ := removeNode_inv hg
      refine ⟨?_, ?_, h.nodup.erase n⟩
      · have h1 : a.graph.removeState n = .ok { a.graph with
            nodes := a.graph.nodes.filter fun p => !(p.1 == n)
            edges := a.graph.edges.filter fun e => !(e.1 == n || e.2.1 == n) } := by
          unfold LGraph.removeState
          rw [if_neg hi]
          exact hg
        exact (removeState_keeps h.ok h1).2
      · intro m hm
        rw [hasNode_filter]
        have := (List.Nodup.mem_erase_iff h.nodup).1 hm
        exact ⟨h.inside m this.2, this.1⟩
  · rw [if_neg hn]
    exact h

theorem removeState_keeps' {a : Fsa ν V} (h : Inv a) (n : ν) : Inv (removeState a n).1 := by
  unfold removeState
  refine removeNode_keeps (a := { a with graph := { a.graph with
    initial := if n ∈ a.graph.initial then a.graph.initial.erase n else a.graph.initial } })
    ⟨dropInitial_ok h.ok n, h.inside, h.nodup⟩ ?_
  simp only
  split
  · intro hm
    exact ((List.Nodup.mem_erase_iff h.ok.initialNodup).1 hm).1 rfl
  · assumption

theorem removeStates_keeps' (l : List ν) : ∀ {a : Fsa ν V}, Inv a → Inv (removeStates a l).1 := by
  induction l with
  | nil => intro a h; exact h
  | cons n l ih =>
    intro a h
    unfold removeStates
    have := removeState_keeps' h n
    split
    · rename_i a' e heq
      rw [heq] at this
      exact this
    · rename_i a' heq
      rw [heq] at this
      exact ih this

theorem removeDeadendsLoop_keeps (order : List ν → List ν) (k : Nat) : ∀ {a : Fsa ν V}, Inv a →
    Inv (removeDeadendsLoop order k a).1 := by
  induction k with
  | zero => intro a h; exact h
  | succ k ih =>
    intro a h
    unfold removeDeadendsLoop
    split
    · exact h
    · have := removeStates_keeps' (order a.graph.deadends) h
      split
      · rename_i a' e heq
        rw [heq] at this
        exact this
      · rename_i a' heq
        rw [heq] at this
        exact ih this

theorem uniqueLoop_nodup {acc l : List ν} (h : acc.Nodup) : (uniqueLoop acc l).Nodup := nodup_uniqueLoop acc l h

/-- **C89**: after every history of calls, whether they raise or not, the accepting and the initial states are
states, and the graph is well-formed. -/
theorem reach_inv {nt : Dict String (LabelType V)} {nd : Attr V} {et : Dict String (LabelType V)} {ed : Attr V}
    {a : Fsa ν V} (h : Reach nt nd et ed a) : Inv a := by
  induction h with
  | new => exact ⟨(run_ok nt nd et ed (ops := []) (by simp)).2.2.2, by simp, by simp⟩
  | call op _ hop ih =>
    cases op with
    | graph op =>
      have hw : op.Wf := by
        cases op <;> first | exact hop | exact hop.elim
      exact ⟨(call_keeps ih.ok hw).2, fun n hn => hasNode_mono hop (ih.inside n hn), ih.nodup⟩
    | removeNode n => exact removeNode_keeps ih hop
    | removeState n => exact removeState_keeps' ih n
    | removeStates l => exact removeStates_keeps' l ih
    | removeDeadends o =>
      unfold Fsa.call removeDeadends
      simp only
      have := removeDeadendsLoop_keeps o (‹Fsa ν V›.graph.nodes.length + 1) ih
      split
      · rename_i a' e heq
        rw [heq] at this
        exact this
      · rename_i a' heq
        rw [heq] at this
        split <;> exact this
    | acceptingAdd n =>
      unfold Fsa.call Aut.acceptingAdd
      simp only
      split
      · rename_i hn
        refine ⟨ih.ok, ?_, uniqueLoop_nodup ih.nodup⟩
        intro m hm
        rcases (mem_uniqueLoop _ _ _).1 hm with h | h
        · exact ih.inside m h
        · rw [List.mem_singleton.1 h]
          exact hn
      · exact ih
    | acceptingAddFrom l =>
      unfold Fsa.call Aut.acceptingAddFrom
      simp only
      split
      · rename_i hn
        refine ⟨ih.ok, ?_, uniqueLoop_nodup ih.nodup⟩
        intro m hm
        rcases (mem_uniqueLoop _ _ _).1 hm with h | h
        · exact ih.inside m h
        · exact List.all_eq_true.1 hn m h
      · exact ih
    | acceptingRemove n =>
      unfold Fsa.call Aut.acceptingRemove
      simp only
      split
      · exact ⟨ih.ok, fun m hm => ih.inside m (List.mem_of_mem_erase hm), ih.nodup.erase n⟩
      · exact ih

/-- **C89**: an accepting state is removed from the states, the initial and the accepting states, together
with the transitions at it. -/
theorem removeState_accepting {a : Fsa ν V} (h : Inv a) {n : ν} (hn : n ∈ a.accepting) :
    ∃ a', removeState a n = (a', none) ∧
      (∀ m, a'.graph.hasNode m = true ↔ a.graph.hasNode m = true ∧ m ≠ n) ∧
      (∀ m, m ∈ a'.graph.initial ↔ m ∈ a.graph.initial ∧ m ≠ n) ∧
      (∀ m, m ∈ a'.accepting ↔ m ∈ a.accepting ∧ m ≠ n) ∧
      (∀ u v d, (u, v, d) ∈ a'.graph.edges ↔ (u, v, d) ∈ a.graph.edges ∧ u ≠ n ∧ v ≠ n) := by
  obtain ⟨g', hg', h1, h2, h3⟩ := (removeState_spec h.ok n).1 (h.inside n hn)
  refine ⟨⟨g', a.accepting.erase n⟩, ?_, h1, h2, ?_, h3⟩
  · unfold removeState removeNode acceptingRemove
    rw [if_pos hn]
    simp only
    unfold LGraph.removeState at hg'
    rw [hg']
  · intro m
    rw [List.Nodup.mem_erase_iff h.nodup, and_comm]

/-- **C89**: a state that is not accepting cannot be removed: `ValueError`. It stays in the graph, and if it
was initial it is not any more. -/
theorem removeState_other {a : Fsa ν V} {n : ν} (hn : n ∉ a.accepting) :
    removeState a n = ({ a with graph := { a.graph with initial := a.graph.initial.erase n } }, some .valueError) := by
  unfold removeState removeNode acceptingRemove
  rw [if_neg hn]
  have : (if n ∈ a.graph.initial then a.graph.initial.erase n else a.graph.initial) = a.graph.initial.erase n := by
    split
    · rfl
    · rename_i hi; rw [List.erase_of_not_mem hi]
  simp only [this]

/-- Removing states ends with an exception if one of them is not accepting. -/
theorem removeStates_error (l : List ν) : ∀ {a : Fsa ν V} {n : ν}, n ∈ l → n ∉ a.accepting →
    ∃ e, (removeStates a l).2 = some e := by
  induction l with
  | nil => intro a n h; simp at h
  | cons m l ih =>
    intro a n h hn
    unfold removeStates
    cases hm : removeState a m with
    | mk a' e =>
      cases e with
      | some e => exact ⟨e, rfl⟩
      | none =>
        have hmacc : m ∈ a.accepting := by
          by_contra hno
          rw [removeState_other hno] at hm
          simp at hm
        have hacc : a'.accepting = a.accepting.erase m := by
          unfold removeState removeNode acceptingRemove at hm
          rw [if_pos hmacc] at hm
          simp only at hm
          split at hm
          · cases hm; rfl
          · simp at hm
        rcases List.mem_cons.1 h with rfl | h
        · exact absurd hmacc hn
        · exact ih h (by rw [hacc]; exact fun hx => hn (List.mem_of_mem_erase hx))

/-- **C89**: `remove_deadends` raises if a dead end is not accepting, in whatever order the dead ends are
enumerated. -/
theorem removeDeadends_error {a : Fsa ν V} (order : List ν → List ν) (ho : ∀ l x, x ∈ order l ↔ x ∈ l) {n : ν}
    (hd : n ∈ a.graph.deadends) (hn : n ∉ a.accepting) : ∃ e, (removeDeadends order a).2 = some e := by
  obtain ⟨e, he⟩ := removeStates_error (order a.graph.deadends) ((ho _ _).2 hd) hn
  refine ⟨e, ?_⟩
  unfold removeDeadends removeDeadendsLoop
  have hne : a.graph.deadends.isEmpty = false := by
    rw [List.isEmpty_eq_false_iff]
    exact List.ne_nil_of_mem hd
  rw [hne]
  simp only [Bool.false_eq_true, if_false]
  cases hr : removeStates a (order a.graph.deadends) with
  | mk a' e' =>
    rw [hr] at he
    cases he
    rfl

/-- An automaton with the states 0 and 1, of which 1 is accepting. -/
def sample : Fsa Nat String :=
  (((⟨{}, []⟩ : Fsa Nat String).call (.graph (.addNodesFrom [(0, []), (1, [])] true))).call
    (.graph (.addInitialFrom [0]))).call (.acceptingAdd 1)

example : Reach [] [] [] [] sample :=
  .call _ (.call _ (.call _ .new (by simp [FOp.Ok, Plain, GOp.Wf])) (by simp [FOp.Ok, Plain, GOp.Wf])) trivial

example : (removeState sample 1).2 = none ∧ (removeState sample 0).2 = some .valueError ∧
    (removeState sample 0).1.graph.initial = [] := by decide +kernel

/-! ## C90: Rabin pairs -/

/-- Calls on a Rabin automaton. -/
inductive ROp (ν V : Type)
  | graph (op : GOp ν V)
  | removeState (n : ν)
  | pairAdd (good bad : List ν)
  | pairRemove (good bad : List ν)
  | pairAddStates (i : Int) (good bad : List ν)
  | goodAddFrom (i : Int) (l : List ν)
  | badAddFrom (i : Int) (l : List ν)
  | goodRemove (i : Int) (n : ν)
  | badRemove (i : Int) (n : ν)

/-- The automaton after a call that changes nothing if it raises. -/
def Rabin.orSame (a : Rabin ν V) : Except PyErr (Rabin ν V) → Rabin ν V
  | .ok a' => a'
  | .error _ => a

/-- The automaton after a call, whether it raises or not. -/
def Rabin.call (a : Rabin ν V) : ROp ν V → Rabin ν V
  | .graph op => { a with graph := a.graph.call op }
  | .removeState n => (rabinRemoveState a n).1
  | .pairAdd l u => a.orSame (Aut.pairAdd a l u)
  | .pairRemove l u => a.orSame (Aut.pairRemove a l u)
  | .pairAddStates i l u => (Aut.pairAddStates a i l u).1
  | .goodAddFrom i l => a.orSame (Aut.goodAddFrom a i l)
  | .badAddFrom i l => a.orSame (Aut.badAddFrom a i l)
  | .goodRemove i n => a.orSame (Aut.goodRemove a i n)
  | .badRemove i n => a.orSame (Aut.badRemove a i n)

/-- Rabin automata after histories of calls that may raise. -/
inductive RReach (nt : Dict String (LabelType V)) (nd : Attr V) (et : Dict String (LabelType V)) (ed : Attr V) :
    Rabin ν V → Prop
  | new : RReach nt nd et ed ⟨{ nodeTypes := nt, nodeDefaults := nd, edgeTypes := et, edgeDefaults := ed }, []⟩
  | call {a : Rabin ν V} (op : ROp ν V) : RReach nt nd et ed a → (∀ g, op = .graph g → Plain g) →
      RReach nt nd et ed (a.call op)

/-- The invariant: the sets of the pairs contain states only. -/
structure RInv (a : Rabin ν V) : Prop where
  ok : a.graph.Ok
  good : ∀ p ∈ a.pairs, ∀ n ∈ p.1, a.graph.hasNode n = true
  bad : ∀ p ∈ a.pairs, ∀ n ∈ p.2, a.graph.hasNode n = true

theorem position_lt {n : Nat} {i : Int} {k : Nat} (h : position n i = some k) : k < n := by
  unfold position at h
  split at h
  · cases h; omega
  · split at h
    · cases h; omega
    · cases h

theorem mem_modify {α : Type} {l : List α} {k : Nat} {f : α → α} {x : α} (h : x ∈ l.modify k f) :
    x ∈ l ∨ ∃ y ∈ l, x = f y := by
  induction l generalizing k with
  | nil => simp at h
  | cons y l ih =>
    cases k with
    | zero =>
      rw [List.modify_zero_cons] at h
      rcases List.mem_cons.1 h with rfl | h
      · exact Or.inr ⟨y, by simp, rfl⟩
      · exact Or.inl (by simp [h])
    | succ k =>
      rw [List.modify_succ_cons] at h
      rcases List.mem_cons.1 h with rfl | h
      · exact Or.inl (by simp)
      · rcases ih h with h | ⟨y', h', rfl⟩
        · exact Or.inl (by simp [h])
        · exact Or.inr ⟨y', List.mem_cons_of_mem _ h', rfl⟩

/-- Changing one pair keeps the invariant if the new sets contain old members and states only. -/
theorem rinv_modify {a : Rabin ν V} (h : RInv a) (k : Nat) (f : List ν × List ν → List ν × List ν)
    (h1 : ∀ p, ∀ n ∈ (f p).1, n ∈ p.1 ∨ a.graph.hasNode n = true)
    (h2 : ∀ p, ∀ n ∈ (f p).2, n ∈ p.2 ∨ a.graph.hasNode n = true) :
    RInv { a with pairs := a.pairs.modify k f } := by
  refine ⟨h.ok, ?_, ?_⟩
  · intro p hp n hn
    rcases mem_modify hp with hp | ⟨q, hq, rfl⟩
    · exact h.good p hp n hn
    · exact (h1 q n hn).elim (h.good q hq n) id
  · intro p hp n hn
    rcases mem_modify hp with hp | ⟨q, hq, rfl⟩
    · exact h.bad p hp n hn
    · exact (h2 q n hn).elim (h.bad q hq n) id

theorem goodAddFrom_keeps {a a' : Rabin ν V} (h : RInv a) {i : Int} {l : List ν} (hc : goodAddFrom a i l = .ok a') :
    RInv a' := by
  unfold goodAddFrom at hc
  split at hc
  · cases hc
  · split at hc
    · rename_i hl
      cases hc
      refine rinv_modify h _ _ ?_ (fun _ _ hn => Or.inl hn)
      intro p n hn
      rcases (mem_uniqueLoop _ _ _).1 hn with hn | hn
      · exact Or.inl hn
      · exact Or.inr (List.all_eq_true.1 hl n hn)
    · cases hc

theorem badAddFrom_keeps {a a' : Rabin ν V} (h : RInv a) {i : Int} {l : List ν} (hc : badAddFrom a i l = .ok a') :
    RInv a' := by
  unfold badAddFrom at hc
  split at hc
  · cases hc
  · split at hc
    · rename_i hl
      cases hc
      refine rinv_modify h _ _ (fun _ _ hn => Or.inl hn) ?_
      intro p n hn
      rcases (mem_uniqueLoop _ _ _).1 hn with hn | hn
      · exact Or.inl hn
      · exact Or.inr (List.all_eq_true.1 hl n hn)
    · cases hc

theorem rinv_orSame {a : Rabin ν V} (h : RInv a) {r : Except PyErr (Rabin ν V)} (hr : ∀ a', r = .ok a' → RInv a') :
    RInv (a.orSame r) := by
  cases r with
  | error e => exact h
  | ok a' => exact hr a' rfl

theorem subset_ok {g : LGraph ν V} {l s : List ν} (h : subset g l = .ok s) :
    (∀ n ∈ l, g.hasNode n = true) ∧ ∀ n, n ∈ s ↔ n ∈ l := by
  unfold subset at h
  split at h
  · rename_i hl
    cases h
    exact ⟨fun n hn => List.all_eq_true.1 hl n hn, fun n => mem_unique l n⟩
  · cases h

theorem removeFirst_spec (p : List ν × List ν) (l : List (List ν × List ν)) :
    (∀ r, removeFirst p l = .ok r → ∃ l1 q l2, l = l1 ++ q :: l2 ∧ r = l1 ++ l2 ∧
      sameSet q.1 p.1 = true ∧ sameSet q.2 p.2 = true ∧
      ∀ q' ∈ l1, ¬ (sameSet q'.1 p.1 = true ∧ sameSet q'.2 p.2 = true)) ∧
    ((∃ q ∈ l, sameSet q.1 p.1 = true ∧ sameSet q.2 p.2 = true) → ∃ r, removeFirst p l = .ok r) ∧
    ((∀ q ∈ l, ¬ (sameSet q.1 p.1 = true ∧ sameSet q.2 p.2 = true)) → removeFirst p l = .error .valueError) := by
  induction l with
  | nil =>
    refine ⟨?_, by simp, fun _ => rfl⟩
    intro r h
    cases h
  | cons q l ih =>
    obtain ⟨ih1, ih2, ih3⟩ := ih
    unfold removeFirst
    by_cases hq : sameSet q.1 p.1 = true ∧ sameSet q.2 p.2 = true
    · have : (sameSet q.1 p.1 && sameSet q.2 p.2) = true := by simp [hq.1, hq.2]
      rw [if_pos this]
      refine ⟨?_, fun _ => ⟨l, rfl⟩, fun h => absurd hq (h q (by simp))⟩
      intro r h
      cases h
      exact ⟨[], q, l, rfl, rfl, hq.1, hq.2, by simp⟩
    · have : ¬ (sameSet q.1 p.1 && sameSet q.2 p.2) = true := by simpa using hq
      rw [if_neg this]
      refine ⟨?_, ?_, ?_⟩
      · intro r h
        obtain ⟨r', hr', h⟩ := Constr.bind_ok h
        cases h
        obtain ⟨l1, q', l2, rfl, rfl, h1, h2, h3⟩ := ih1 r' hr'
        refine ⟨q :: l1, q', l2, rfl, rfl, h1, h2, ?_⟩
        intro x hx
        rcases List.mem_cons.1 hx with rfl | hx
        · exact hq
        · exact h3 x hx
      · rintro ⟨x, hx, hx2⟩
        rcases List.mem_cons.1 hx with rfl | hx
        · exact absurd hx2 hq
        · obtain ⟨r, hr⟩ := ih2 ⟨x, hx, hx2⟩
          exact ⟨q :: r, by rw [hr]; rfl⟩
      · intro h
        rw [ih3 fun x hx => h x (by simp [hx])]
        rfl

theorem sameSet_iff (a b : List ν) : sameSet a b = true ↔ ∀ n, n ∈ a ↔ n ∈ b := by
  unfold sameSet
  simp only [Bool.and_eq_true, List.all_eq_true, decide_eq_true_eq]
  constructor
  · rintro ⟨h1, h2⟩ n
    exact ⟨h1 n, h2 n⟩
  · intro h
    exact ⟨fun n hn => (h n).1 hn, fun n hn => (h n).2 hn⟩

/-- **C90**: after every history of calls, whether they raise or not, the good and the bad states of each pair
are states of the automaton. -/
theorem rabin_inv {nt : Dict String (LabelType V)} {nd : Attr V} {et : Dict String (LabelType V)} {ed : Attr V}
    {a : Rabin ν V} (h : RReach nt nd et ed a) : RInv a := by
  induction h with
  | new => exact ⟨(run_ok nt nd et ed (ops := []) (by simp)).2.2.2, by simp, by simp⟩
  | @call a op _ hop ih =>
    cases op with
    | graph op =>
      have hp := hop op rfl
      have hw : op.Wf := by
        cases op <;> first | exact hp | exact hp.elim
      exact ⟨(call_keeps ih.ok hw).2, fun p hp' n hn => hasNode_mono hp (ih.good p hp' n hn),
        fun p hp' n hn => hasNode_mono hp (ih.bad p hp' n hn)⟩
    | removeState n => exact ⟨dropInitial_ok ih.ok n, ih.good, ih.bad⟩
    | pairAdd l u =>
      refine rinv_orSame ih fun a' h => ?_
      unfold pairAdd at h
      obtain ⟨s, hs, h⟩ := Constr.bind_ok h
      obtain ⟨t, ht, h⟩ := Constr.bind_ok h
      cases h
      obtain ⟨hs1, hs2⟩ := subset_ok hs
      obtain ⟨ht1, ht2⟩ := subset_ok ht
      refine ⟨ih.ok, ?_, ?_⟩
      · intro p hp n hn
        rcases List.mem_append.1 hp with hp | hp
        · exact ih.good p hp n hn
        · rw [List.mem_singleton.1 hp] at hn
          exact hs1 n ((hs2 n).1 hn)
      · intro p hp n hn
        rcases List.mem_append.1 hp with hp | hp
        · exact ih.bad p hp n hn
        · rw [List.mem_singleton.1 hp] at hn
          exact ht1 n ((ht2 n).1 hn)
    | pairRemove l u =>
      refine rinv_orSame ih fun a' h => ?_
      unfold pairRemove at h
      obtain ⟨s, hs, h⟩ := Constr.bind_ok h
      obtain ⟨t, ht, h⟩ := Constr.bind_ok h
      obtain ⟨r, hr, h⟩ := Constr.bind_ok h
      cases h
      obtain ⟨l1, q, l2, h1, rfl, _⟩ := (removeFirst_spec _ _).1 r hr
      have hsub : ∀ p ∈ l1 ++ l2, p ∈ a.pairs := by
        intro p hp
        rw [h1]
        rcases List.mem_append.1 hp with hp | hp <;> simp [hp]
      exact ⟨ih.ok, fun p hp => ih.good p (hsub p hp), fun p hp => ih.bad p (hsub p hp)⟩
    | pairAddStates i l u =>
      unfold Rabin.call Aut.pairAddStates
      simp only
      cases h1 : Aut.goodAddFrom a i l with
      | error e => exact ih
      | ok a1 =>
        have h2 := goodAddFrom_keeps ih h1
        simp only
        cases h3 : Aut.badAddFrom a1 i u with
        | error e => exact h2
        | ok a2 => exact badAddFrom_keeps h2 h3
    | goodAddFrom i l => exact rinv_orSame ih fun a' h => goodAddFrom_keeps ih h
    | badAddFrom i l => exact rinv_orSame ih fun a' h => badAddFrom_keeps ih h
    | goodRemove i n =>
      refine rinv_orSame ih fun a' h => ?_
      unfold goodRemove at h
      obtain ⟨s, hs, h⟩ := Constr.bind_ok h
      split at h
      · cases h
        exact rinv_modify ih _ _ (fun _ _ hn => Or.inl (List.mem_of_mem_erase hn)) (fun _ _ hn => Or.inl hn)
      · cases h
    | badRemove i n =>
      refine rinv_orSame ih fun a' h => ?_
      unfold badRemove at h
      obtain ⟨s, hs, h⟩ := Constr.bind_ok h
      split at h
      · cases h
        exact rinv_modify ih _ _ (fun _ _ hn => Or.inl hn) (fun _ _ hn => Or.inl (List.mem_of_mem_erase hn))
      · cases h

/-- A set of states is visited infinitely often. -/
def InfOften (r : Nat → ν) (s : ν → Prop) : Prop := ∀ k, ∃ j, k ≤ j ∧ s (r j)

/-- The condition of a pair: some good state infinitely often, bad states only finitely often. -/
def PairHolds (r : Nat → ν) (good bad : ν → Prop) : Prop := InfOften r good ∧ ¬ InfOften r bad

/-- Rabin acceptance of an infinite run. -/
def Accepts (a : Rabin ν V) (r : Nat → ν) : Prop := ∃ p ∈ a.pairs, PairHolds r (· ∈ p.1) (· ∈ p.2)

/-- **C90**: `add(good, bad)` succeeds exactly if all given states are states; then the runs that are accepted
are those accepted before and those for which the new pair holds. -/
theorem pairAdd_spec (a : Rabin ν V) (good bad : List ν) :
    ((∃ a', pairAdd a good bad = .ok a') ↔ ∀ n, n ∈ good ∨ n ∈ bad → a.graph.hasNode n = true) ∧
    ((∃ n, (n ∈ good ∨ n ∈ bad) ∧ a.graph.hasNode n = false) → pairAdd a good bad = .error .valueError) ∧
    ∀ a', pairAdd a good bad = .ok a' → a'.graph = a.graph ∧
      (∀ r, Accepts a' r ↔ Accepts a r ∨ PairHolds r (· ∈ good) (· ∈ bad)) := by
  have hsub : ∀ l : List ν, (∀ n ∈ l, a.graph.hasNode n = true) → subset a.graph l = .ok (unique l) := by
    intro l h
    unfold subset
    rw [if_pos (List.all_eq_true.2 h)]
  have hsub2 : ∀ l : List ν, (∃ n ∈ l, a.graph.hasNode n = false) → subset a.graph l = .error .valueError := by
    rintro l ⟨n, hn, hno⟩
    unfold subset
    rw [if_neg]
    intro h
    rw [List.all_eq_true.1 h n hn] at hno
    cases hno
  refine ⟨⟨?_, ?_⟩, ?_, ?_⟩
  · rintro ⟨a', h⟩ n hn
    unfold pairAdd at h
    obtain ⟨s, hs, h⟩ := Constr.bind_ok h
    obtain ⟨t, ht, h⟩ := Constr.bind_ok h
    rcases hn with hn | hn
    · exact (subset_ok hs).1 n hn
    · exact (subset_ok ht).1 n hn
  · intro h
    unfold pairAdd
    rw [hsub good fun n hn => h n (Or.inl hn), hsub bad fun n hn => h n (Or.inr hn)]
    exact ⟨_, rfl⟩
  · rintro ⟨n, hn, hno⟩
    unfold pairAdd
    by_cases hg : ∃ n ∈ good, a.graph.hasNode n = false
    · rw [hsub2 good hg]
      rfl
    · rw [hsub good (by
        intro n hn
        by_contra h
        exact hg ⟨n, hn, by simpa using h⟩)]
      have : ∃ n ∈ bad, a.graph.hasNode n = false := by
        rcases hn with hn | hn
        · exact absurd ⟨n, hn, hno⟩ hg
        · exact ⟨n, hn, hno⟩
      simp only [ok_bind]
      rw [hsub2 bad this]
      rfl
  · intro a' h
    unfold pairAdd at h
    obtain ⟨s, hs, h⟩ := Constr.bind_ok h
    obtain ⟨t, ht, h⟩ := Constr.bind_ok h
    cases h
    refine ⟨rfl, fun r => ?_⟩
    have h1 : (fun n => n ∈ s) = fun n => n ∈ good := funext fun n => propext ((subset_ok hs).2 n)
    have h2 : (fun n => n ∈ t) = fun n => n ∈ bad := funext fun n => propext ((subset_ok ht).2 n)
    unfold Accepts
    simp only [List.mem_append, List.mem_singleton]
    constructor
    · rintro ⟨p, hp | rfl, h⟩
      · exact Or.inl ⟨p, hp, h⟩
      · simp only [h1, h2] at h
        exact Or.inr h
    · rintro (⟨p, hp, h⟩ | h)
      · exact ⟨p, Or.inl hp, h⟩
      · refine ⟨_, Or.inr rfl, ?_⟩
        simp only [h1, h2]
        exact h

/-- **C90**: `remove(good, bad)` deletes the first pair with these two sets and no other; without such a pair
it raises `ValueError`. -/
theorem pairRemove_spec (a : Rabin ν V) (good bad : List ν) (hs : ∀ n, n ∈ good ∨ n ∈ bad → a.graph.hasNode n = true) :
    (∀ a', pairRemove a good bad = .ok a' → a'.graph = a.graph ∧ ∃ l1 q l2, a.pairs = l1 ++ q :: l2 ∧
      a'.pairs = l1 ++ l2 ∧ (∀ n, n ∈ q.1 ↔ n ∈ good) ∧ (∀ n, n ∈ q.2 ↔ n ∈ bad) ∧
      ∀ q' ∈ l1, ¬ ((∀ n, n ∈ q'.1 ↔ n ∈ good) ∧ ∀ n, n ∈ q'.2 ↔ n ∈ bad)) ∧
    ((∃ q ∈ a.pairs, (∀ n, n ∈ q.1 ↔ n ∈ good) ∧ ∀ n, n ∈ q.2 ↔ n ∈ bad) → ∃ a', pairRemove a good bad = .ok a') ∧
    ((∀ q ∈ a.pairs, ¬ ((∀ n, n ∈ q.1 ↔ n ∈ good) ∧ ∀ n, n ∈ q.2 ↔ n ∈ bad)) →
      pairRemove a good bad = .error .valueError) := by
  have hsub : ∀ l : List ν, (∀ n ∈ l, a.graph.hasNode n = true) → subset a.graph l = .ok (unique l) := by
    intro l h
    unfold subset
    rw [if_pos (List.all_eq_true.2 h)]
  have heq : pairRemove a good bad = removeFirst (unique good, unique bad) a.pairs >>= fun r =>
      .ok { a with pairs := r } := by
    unfold pairRemove
    rw [hsub good fun n hn => hs n (Or.inl hn), hsub bad fun n hn => hs n (Or.inr hn)]
    rfl
  have hset : ∀ q l : List ν, sameSet q (unique l) = true ↔ ∀ n, n ∈ q ↔ n ∈ l := by
    intro q l
    rw [sameSet_iff]
    simp only [mem_unique]
  obtain ⟨h1, h2, h3⟩ := removeFirst_spec (unique good, unique bad) a.pairs
  simp only [hset] at h1 h2 h3
  rw [heq]
  refine ⟨?_, ?_, ?_⟩
  · intro a' h
    obtain ⟨r, hr, h⟩ := Constr.bind_ok h
    cases h
    obtain ⟨l1, q, l2, e1, e2, e3, e4, e5⟩ := h1 r hr
    exact ⟨rfl, l1, q, l2, e1, e2, e3, e4, e5⟩
  · intro h
    obtain ⟨r, hr⟩ := h2 h
    exact ⟨_, by rw [hr]; rfl⟩
  · intro h
    rw [h3 h]
    rfl

/-- **C90**: removing a pair never makes a run accepted. -/
theorem pairRemove_accepts {a a' : Rabin ν V} {good bad : List ν} (h : pairRemove a good bad = .ok a')
    {r : Nat → ν} (hr : Accepts a' r) : Accepts a r := by
  unfold pairRemove at h
  obtain ⟨s, hs, h⟩ := Constr.bind_ok h
  obtain ⟨t, ht, h⟩ := Constr.bind_ok h
  obtain ⟨l, hl, h⟩ := Constr.bind_ok h
  cases h
  obtain ⟨l1, q, l2, h1, rfl, _⟩ := (removeFirst_spec _ _).1 l hl
  obtain ⟨p, hp, hh⟩ := hr
  refine ⟨p, ?_, hh⟩
  rw [h1]
  rcases List.mem_append.1 hp with hp | hp <;> simp [hp]

/-- **C90**: `add_states(i, good, bad)` for an index of a pair and states adds them to the sets of this pair,
and changes no other pair. -/
theorem pairAddStates_spec (a : Rabin ν V) (i : Int) (k : Nat) (hk : position a.pairs.length i = some k)
    (good bad : List ν) (hs : ∀ n, n ∈ good ∨ n ∈ bad → a.graph.hasNode n = true) :
    ∃ a', pairAddStates a i good bad = (a', none) ∧ a'.graph = a.graph ∧ a'.pairs.length = a.pairs.length ∧
      (∀ j, j ≠ k → a'.pairs[j]? = a.pairs[j]?) ∧
      ∀ p, a.pairs[k]? = some p → ∃ q, a'.pairs[k]? = some q ∧ (∀ n, n ∈ q.1 ↔ n ∈ p.1 ∨ n ∈ good) ∧
        ∀ n, n ∈ q.2 ↔ n ∈ p.2 ∨ n ∈ bad := by
  have h1 : goodAddFrom a i good = .ok { a with pairs := a.pairs.modify k fun p => (uniqueLoop p.1 good, p.2) } := by
    unfold goodAddFrom
    rw [hk]
    simp only
    rw [if_pos (List.all_eq_true.2 fun n hn => hs n (Or.inl hn))]
  have h2 : badAddFrom { a with pairs := a.pairs.modify k fun p => (uniqueLoop p.1 good, p.2) } i bad =
      .ok { a with pairs := (a.pairs.modify k fun p => (uniqueLoop p.1 good, p.2)).modify k
                     (fun p => (p.1, uniqueLoop p.2 bad)) } := by
    unfold badAddFrom
    simp only [List.length_modify, hk]
    rw [if_pos (List.all_eq_true.2 fun n hn => hs n (Or.inr hn))]
  refine ⟨{ a with pairs := (a.pairs.modify k fun p => (uniqueLoop p.1 good, p.2)).modify k
                     (fun p => (p.1, uniqueLoop p.2 bad)) }, ?_, rfl, by simp, ?_, ?_⟩
  · unfold pairAddStates
    rw [h1]
    simp only
    rw [h2]
  · intro j hj
    simp only [List.getElem?_modify]
    have hkj : ¬ k = j := fun h => hj h.symm
    simp only [hkj, if_false]
    cases a.pairs[j]? <;> rfl
  · intro p hp
    refine ⟨(uniqueLoop p.1 good, uniqueLoop p.2 bad), ?_, fun n => mem_uniqueLoop _ _ _, fun n => mem_uniqueLoop _ _ _⟩
    simp only [List.getElem?_modify, if_true, hp]
    rfl

/-- An index without a pair: `IndexError`, nothing changes. -/
theorem pairAddStates_index (a : Rabin ν V) (i : Int) (hk : position a.pairs.length i = none) (good bad : List ν) :
    pairAddStates a i good bad = (a, some .indexError) := by
  unfold pairAddStates goodAddFrom
  rw [hk]

/-- **C90**: `good(i)` and `bad(i)` are the sets of the pair with this index; `IndexError` without a pair. -/
theorem pairSets_spec (a : Rabin ν V) (i : Int) :
    (∀ k p, position a.pairs.length i = some k → a.pairs[k]? = some p → pairGood a i = .ok p.1 ∧ pairBad a i = .ok p.2) ∧
    (position a.pairs.length i = none → pairGood a i = .error .indexError ∧ pairBad a i = .error .indexError) := by
  refine ⟨fun k p hk hp => ?_, fun hk => ?_⟩
  · simp [pairGood, pairBad, hk, hp]
  · simp [pairGood, pairBad, hk]

/-- **C90**: `good(i).remove(n)` removes a state from the good set of this pair, and changes no other set; a state
that is not there is refused. -/
theorem goodRemove_spec (a : Rabin ν V) (i : Int) (k : Nat) (p : List ν × List ν)
    (hk : position a.pairs.length i = some k) (hp : a.pairs[k]? = some p) (n : ν) :
    (n ∈ p.1 → ∃ a', goodRemove a i n = .ok a' ∧ a'.graph = a.graph ∧ (∀ j, j ≠ k → a'.pairs[j]? = a.pairs[j]?) ∧
      a'.pairs[k]? = some (p.1.erase n, p.2)) ∧
    (n ∉ p.1 → goodRemove a i n = .error .valueError) := by
  have hg := ((pairSets_spec a i).1 k p hk hp).1
  unfold goodRemove
  rw [hg, ok_bind]
  refine ⟨fun hn => ?_, fun hn => if_neg hn⟩
  rw [if_pos hn]
  refine ⟨_, rfl, rfl, fun j hj => ?_, ?_⟩
  · have hkj : ¬ k = j := fun h => hj h.symm
    simp only [hk, Option.getD_some, List.getElem?_modify, hkj, if_false]
    cases a.pairs[j]? <;> rfl
  · simp only [hk, Option.getD_some, List.getElem?_modify, if_true, hp]
    rfl

/-- **C90**: the same for `bad(i).remove(n)`. -/
theorem badRemove_spec (a : Rabin ν V) (i : Int) (k : Nat) (p : List ν × List ν)
    (hk : position a.pairs.length i = some k) (hp : a.pairs[k]? = some p) (n : ν) :
    (n ∈ p.2 → ∃ a', badRemove a i n = .ok a' ∧ a'.graph = a.graph ∧ (∀ j, j ≠ k → a'.pairs[j]? = a.pairs[j]?) ∧
      a'.pairs[k]? = some (p.1, p.2.erase n)) ∧
    (n ∉ p.2 → badRemove a i n = .error .valueError) := by
  have hg := ((pairSets_spec a i).1 k p hk hp).2
  unfold badRemove
  rw [hg, ok_bind]
  refine ⟨fun hn => ?_, fun hn => if_neg hn⟩
  rw [if_pos hn]
  refine ⟨_, rfl, rfl, fun j hj => ?_, ?_⟩
  · have hkj : ¬ k = j := fun h => hj h.symm
    simp only [hk, Option.getD_some, List.getElem?_modify, hkj, if_false]
    cases a.pairs[j]? <;> rfl
  · simp only [hk, Option.getD_some, List.getElem?_modify, if_true, hp]
    rfl

/-- **C90**: no state of a Rabin automaton can be removed: `TypeError`; but it is not initial any more. -/
theorem rabinRemoveState_spec (a : Rabin ν V) (n : ν) :
    (rabinRemoveState a n).2 = some .typeError ∧ (rabinRemoveState a n).1.graph.nodes = a.graph.nodes ∧
      (rabinRemoveState a n).1.pairs = a.pairs ∧
      (a.graph.initial.Nodup → n ∉ (rabinRemoveState a n).1.graph.initial) := by
  refine ⟨rfl, rfl, rfl, ?_⟩
  intro h
  unfold rabinRemoveState
  simp only
  split
  · intro hm
    exact ((List.Nodup.mem_erase_iff h).1 hm).1 rfl
  · assumption

/-- A Rabin automaton with the states 1, 2, 3 and two pairs. -/
def rabinSample : Rabin Nat String :=
  (((⟨{}, []⟩ : Rabin Nat String).call (.graph (.addNodesFrom [(1, []), (2, []), (3, [])] true))).call
    (.pairAdd [1] [2])).call (.pairAdd [3, 1, 1] [])

example : RReach [] [] [] [] rabinSample ∧ rabinSample.pairs = [([1], [2]), ([3, 1], [])] :=
  ⟨.call _ (.call _ (.call _ .new (by simp [Plain, GOp.Wf])) (by simp)) (by simp), by decide +kernel⟩

/-- If the bad states are rejected the good ones have been added. -/
theorem pairAddStates_midway_counterexample :
    (pairAddStates rabinSample 0 [3] [7]).2 = some .valueError ∧
      (pairAddStates rabinSample 0 [3] [7]).1.pairs = [([1, 3], [2]), ([3, 1], [])] := by decide +kernel

example : ((pairRemove rabinSample [1, 3] []).toOption.map (·.pairs)) = some [([1], [2])] ∧
    position rabinSample.pairs.length (-1) = some 1 := by decide +kernel

/-! ## C91: `tuple2ba` -/

/-- The letter that a guard means: `None` is the empty set. -/
def letterOf : Guard → Option (Finset String)
  | .none => some ∅
  | .str _ => none
  | .set l => some l

/-- The given tuple is a Büchi automaton: the initial states, the accepting states and the endpoints of the
transitions are states, and the guards are sets of atomic propositions. -/
structure ConsistentBa (p : String) (S S0 Sa : List Constr.Atom) (AP : List String)
    (trans : List (Constr.Atom × Constr.Atom × Guard)) : Prop where
  initial : ∀ x ∈ S0, Constr.nameOf p x ∈ S.map (Constr.nameOf p)
  accepting : ∀ x ∈ Sa, Constr.nameOf p x ∈ S.map (Constr.nameOf p)
  ends : ∀ e ∈ trans, Constr.nameOf p e.1 ∈ S.map (Constr.nameOf p) ∧ Constr.nameOf p e.2.1 ∈ S.map (Constr.nameOf p)
  letters : ∀ e ∈ trans, ∃ l, letterOf e.2.2 = some l ∧ ∀ q ∈ l, q ∈ AP

/-- The automaton is the given tuple. -/
structure DescribesBa (a : Fsa Constr.Atom Guard) (aps : List String) (p : String) (S S0 Sa : List Constr.Atom)
    (AP : List String) (trans : List (Constr.Atom × Constr.Atom × Guard)) : Prop where
  states : ∀ s, a.graph.hasNode s = true ↔ ∃ x ∈ S, s = Constr.nameOf p x
  initial : ∀ s, s ∈ a.graph.initial ↔ ∃ x ∈ S0, s = Constr.nameOf p x
  accepting : ∀ s, s ∈ a.accepting ↔ ∃ x ∈ Sa, s = Constr.nameOf p x
  aps : ∀ q, q ∈ aps ↔ q ∈ AP
  /-- The transitions are the given ones, each once. -/
  transitions : ∀ u v d, (u, v, d) ∈ a.graph.edges ↔ ∃ e ∈ trans, ∃ l, letterOf e.2.2 = some l ∧
    u = Constr.nameOf p e.1 ∧ v = Constr.nameOf p e.2.1 ∧ d = [("letter", .set l)]
  once : a.graph.edges.Nodup

theorem addNodesBa (l : List Constr.Atom) : ∀ g : LGraph Constr.Atom Guard, g.nodeTypes = [] → g.nodeDefaults = [] →
    ∃ g', g.addNodesFrom (l.map fun s => (s, [])) = (g', none) ∧ SameTypes g g' ∧ g'.edges = g.edges ∧
      g'.initial = g.initial ∧ (∀ s, g'.hasNode s = true ↔ g.hasNode s = true ∨ s ∈ l) := by
  induction l with
  | nil =>
    intro g _ _
    exact ⟨g, rfl, SameTypes.refl g, rfl, rfl, by simp⟩
  | cons s l ih =>
    intro g ht hd
    have hadd : g.addNode s [] = .ok { g with nodes := g.nodes.set s (((g.nodes.get? s).getD []).update []) } := by
      unfold addNode
      rw [ht, hd]
      rfl
    obtain ⟨g', h1, h2, h3, h4, h5⟩ := ih { g with nodes := g.nodes.set s (((g.nodes.get? s).getD []).update []) } ht hd
    refine ⟨g', ?_, SameTypes.trans ⟨rfl, rfl, rfl, rfl⟩ h2, h3, h4, ?_⟩
    · unfold addNodesFrom at h1 ⊢
      rw [List.map_cons]
      unfold seqM
      simp only [hadd]
      exact h1
    · intro t
      rw [h5 t, hasNode_addNode]
      simp only [List.mem_cons, Bool.or_eq_true, decide_eq_true_eq]
      rw [@eq_comm _ s t]
      tauto

theorem typedLetter {aps : List String} {g : LGraph Constr.Atom Guard}
    (ht : g.edgeTypes = [("letter", { contains := letterContains aps })]) (hd : g.edgeDefaults = []) (x : Guard) :
    typedAttr g.edgeTypes g.edgeDefaults [("letter", x)] =
      if letterContains aps x = true then .ok [("letter", x)] else .error .valueError := by
  rw [ht, hd]
  unfold typedAttr allowedOf TDict.update
  simp only [List.map_cons, List.map_nil]
  unfold TDict.update TDict.setItem
  simp only [Dict.get?, List.find?, beq_self_eq_true]
  by_cases h : letterContains aps x = true
  · simp [h, TDict.update, Dict.set]
  · simp [h]

/-- The edges so far have letters only. -/
def Lettered (es : List (Constr.Atom × Constr.Atom × Attr Guard)) : Prop :=
  ∀ e ∈ es, ∃ x, e.2.2 = [("letter", x)]

theorem beqv_letter (x y : Guard) : Dict.beqv [("letter", x)] [("letter", y)] = decide (x = y) := by
  unfold Dict.beqv
  by_cases h : x = y
  · subst h
    simp [Dict.get?]
  · simp [Dict.get?, h]

theorem addEdge_letter {aps : List String} {g : LGraph Constr.Atom Guard}
    (ht : g.edgeTypes = [("letter", { contains := letterContains aps })]) (hd : g.edgeDefaults = [])
    (he : Lettered g.edges) (u v : Constr.Atom) (x : Guard) :
    g.addEdge u v [("letter", x)] = if g.hasNode u = false then .error .valueError
      else if g.hasNode v = false then .error .valueError
      else if letterContains aps x = false then .error .valueError
      else if (u, v, [("letter", x)]) ∈ g.edges then .ok g
      else .ok { g with edges := g.edges ++ [(u, v, [("letter", x)])] } := by
  have hun : untyped g.edgeTypes [("letter", x)] true = false := by
    rw [ht]
    rfl
  unfold addEdge
  by_cases hu : g.hasNode u = true
  · by_cases hv : g.hasNode v = true
    · by_cases hl : letterContains aps x = true
      · have hemp : (g.edgeData u v).any (fun d => d.isEmpty) = false := by
          rw [List.any_eq_false]
          intro d hdd
          obtain ⟨y, hy⟩ := he _ (mem_edgeData.1 hdd)
          simp only at hy
          rw [hy]
          simp
        by_cases hm : (u, v, [("letter", x)]) ∈ g.edges
        · have hany : (g.edgeData u v).any (fun d => Dict.beqv [("letter", x)] d) = true := by
            rw [List.any_eq_true]
            exact ⟨_, mem_edgeData.2 hm, by rw [beqv_letter]; simp⟩
          simp only [typedLetter ht hd, hu, hv, hl, hemp, hany, hm, if_true, ok_bind, Bool.not_true, Bool.false_eq_true,
            if_false]
          rfl
        · have hany : (g.edgeData u v).any (fun d => Dict.beqv [("letter", x)] d) = false := by
            rw [List.any_eq_false]
            intro d hdd
            obtain ⟨y, hy⟩ := he _ (mem_edgeData.1 hdd)
            simp only at hy
            subst hy
            rw [beqv_letter]
            simp only [decide_eq_true_eq]
            rintro rfl
            exact hm (mem_edgeData.1 hdd)
          simp only [typedLetter ht hd, hu, hv, hl, hemp, hany, hm, hun, if_true, ok_bind, Bool.not_true,
            Bool.false_eq_true, if_false]
          rfl
      · simp [typedLetter ht hd, hu, hv, hl]
    · simp [hu, hv]
  · simp [hu]

theorem letterOf_some {x : Guard} {l : Finset String} (h : letterOf x = some l) :
    (if x = .none then Guard.set ∅ else x) = .set l := by
  cases x with
  | none => cases h; rfl
  | str s => cases h
  | set s => cases h; rfl

theorem letter_ok (aps : List String) (x : Guard) :
    letterContains aps (if x = .none then Guard.set ∅ else x) = true ↔ ∃ l, letterOf x = some l ∧ ∀ q ∈ l, q ∈ aps := by
  cases x with
  | none => simp [letterOf, letterContains]
  | str s => simp [letterOf, letterContains]
  | set s => simp [letterOf, letterContains]

theorem addGuarded_spec {aps : List String} (p : String) (trans : List (Constr.Atom × Constr.Atom × Guard)) :
    ∀ g : LGraph Constr.Atom Guard, g.edgeTypes = [("letter", { contains := letterContains aps })] →
    g.edgeDefaults = [] → Lettered g.edges → g.edges.Nodup →
    ((∀ e ∈ trans, (g.hasNode (Constr.nameOf p e.1) = true ∧ g.hasNode (Constr.nameOf p e.2.1) = true) ∧
      ∃ l, letterOf e.2.2 = some l ∧ ∀ q ∈ l, q ∈ aps) ↔ ∃ g', addGuarded (some p) g trans = .ok g') ∧
    ∀ g', addGuarded (some p) g trans = .ok g' → g'.nodes = g.nodes ∧ g'.initial = g.initial ∧ g'.edges.Nodup ∧
      ∀ u v d, (u, v, d) ∈ g'.edges ↔ (u, v, d) ∈ g.edges ∨ ∃ e ∈ trans, ∃ l, letterOf e.2.2 = some l ∧
        u = Constr.nameOf p e.1 ∧ v = Constr.nameOf p e.2.1 ∧ d = [("letter", .set l)] := by
  induction trans with
  | nil =>
    intro g _ _ _ hn
    refine ⟨⟨fun _ => ⟨g, rfl⟩, by simp⟩, ?_⟩
    intro g' h
    cases h
    exact ⟨rfl, rfl, hn, by simp⟩
  | cons e trans ih =>
    intro g ht hd he hn
    obtain ⟨u, v, x⟩ := e
    unfold addGuarded
    have hadd : g.addEdge (Constr.withPrefix (some p) u) (Constr.withPrefix (some p) v)
        [("letter", if x = .none then .set ∅ else x)] =
      g.addEdge (Constr.nameOf p u) (Constr.nameOf p v) [("letter", if x = .none then .set ∅ else x)] := rfl
    rw [hadd, addEdge_letter ht hd he]
    by_cases hu : g.hasNode (Constr.nameOf p u) = true
    · by_cases hv : g.hasNode (Constr.nameOf p v) = true
      · by_cases hl : letterContains aps (if x = .none then .set ∅ else x) = true
        · obtain ⟨l, hl1, hl2⟩ := (letter_ok aps x).1 hl
          have hx := letterOf_some hl1
          rw [if_neg (by simp [hu]), if_neg (by simp [hv]), if_neg (by simp [hl]), hx]
          by_cases hm : (Constr.nameOf p u, Constr.nameOf p v, [("letter", Guard.set l)]) ∈ g.edges
          · rw [if_pos hm]
            simp only [ok_bind]
            obtain ⟨k1, k2⟩ := ih g ht hd he hn
            constructor
            · rw [← k1]
              simp only [List.forall_mem_cons, hu, hv, true_and]
              constructor
              · exact fun h => h.2
              · exact fun h => ⟨⟨l, hl1, hl2⟩, h⟩
            · intro g' h
              obtain ⟨q1, q2, q3, q4⟩ := k2 g' h
              refine ⟨q1, q2, q3, ?_⟩
              intro a b d
              rw [q4]
              constructor
              · rintro (h | ⟨e, he, h⟩)
                · exact Or.inl h
                · exact Or.inr ⟨e, List.mem_cons_of_mem _ he, h⟩
              · rintro (h | ⟨e, he, l', h1, h2, h3, h4⟩)
                · exact Or.inl h
                · rcases List.mem_cons.1 he with rfl | he
                  · left
                    simp only at h1 h2 h3
                    rw [hl1] at h1
                    cases h1
                    rw [h2, h3, h4]
                    exact hm
                  · exact Or.inr ⟨e, he, l', h1, h2, h3, h4⟩
          · rw [if_neg hm]
            simp only [ok_bind]
            obtain ⟨k1, k2⟩ := ih { g with edges := g.edges ++ [(Constr.nameOf p u, Constr.nameOf p v,
                [("letter", Guard.set l)])] } ht hd (by
              intro e h
              rcases List.mem_append.1 h with h | h
              · exact he e h
              · rw [List.mem_singleton.1 h]
                exact ⟨_, rfl⟩) (by
              rw [List.nodup_append]
              refine ⟨hn, by simp, ?_⟩
              intro a ha b hb
              rw [List.mem_singleton.1 hb]
              rintro rfl
              exact hm ha)
            constructor
            · rw [← k1]
              simp only [List.forall_mem_cons, hu, hv, true_and]
              constructor
              · exact fun h => h.2
              · exact fun h => ⟨⟨l, hl1, hl2⟩, h⟩
            · intro g' h
              obtain ⟨q1, q2, q3, q4⟩ := k2 g' h
              refine ⟨q1, q2, q3, ?_⟩
              intro a b d
              rw [q4]
              simp only [List.mem_append, List.mem_singleton]
              constructor
              · rintro ((h | h) | ⟨e, he, h⟩)
                · exact Or.inl h
                · cases h
                  exact Or.inr ⟨(u, v, x), by simp, l, hl1, rfl, rfl, rfl⟩
                · exact Or.inr ⟨e, List.mem_cons_of_mem _ he, h⟩
              · rintro (h | ⟨e, he, l', h1, h2, h3, h4⟩)
                · exact Or.inl (Or.inl h)
                · rcases List.mem_cons.1 he with rfl | he
                  · left; right
                    simp only at h1 h2 h3
                    rw [hl1] at h1
                    cases h1
                    rw [h2, h3, h4]
                  · exact Or.inr ⟨e, he, l', h1, h2, h3, h4⟩
        · rw [if_neg (by simp [hu]), if_neg (by simp [hv]), if_pos (by simpa using hl)]
          refine ⟨⟨?_, ?_⟩, ?_⟩
          · intro h
            exact absurd ((letter_ok aps x).2 (h (u, v, x) (by simp)).2) hl
          · rintro ⟨g', h⟩
            cases h
          · intro g' h
            cases h
      · rw [if_neg (by simp [hu]), if_pos (by simpa using hv)]
        refine ⟨⟨?_, ?_⟩, ?_⟩
        · intro h
          exact absurd (h (u, v, x) (by simp)).1.2 hv
        · rintro ⟨g', h⟩
          cases h
        · intro g' h
          cases h
    · rw [if_pos (by simpa using hu)]
      refine ⟨⟨?_, ?_⟩, ?_⟩
      · intro h
        exact absurd (h (u, v, x) (by simp)).1.1 hu
      · rintro ⟨g', h⟩
        cases h
      · intro g' h
        cases h

/-- **C91**: `tuple2ba` with a prefix and atomic propositions succeeds exactly for a tuple that is a Büchi
automaton, and returns it. -/
theorem tuple2ba_spec (p : String) (S S0 Sa : List Constr.Atom) (AP : List String)
    (trans : List (Constr.Atom × Constr.Atom × Guard)) :
    (ConsistentBa p S S0 Sa AP trans ↔ ∃ r, tuple2ba S S0 Sa AP trans (some p) = .ok r) ∧
    ∀ a aps, tuple2ba S S0 Sa AP trans (some p) = .ok (a, aps) → DescribesBa a aps p S S0 Sa AP trans := by
  obtain ⟨g, h1, h2, h3, h4, h5⟩ := addNodesBa (Constr.prependWith (some p) S) (newBa (unique AP)) rfl rfl
  have hpre : ∀ l : List Constr.Atom, Constr.prependWith (some p) l = l.map (Constr.nameOf p) := fun _ => rfl
  have hnode : ∀ s, g.hasNode s = true ↔ s ∈ S.map (Constr.nameOf p) := by
    intro s
    rw [h5, hpre]
    simp [newBa, hasNode, Dict.has]
  have heq : tuple2ba S S0 Sa AP trans (some p) = g.addInitialFrom (S0.map (Constr.nameOf p)) >>= fun g1 =>
      (if (Sa.map (Constr.nameOf p)).all g1.hasNode then .ok (uniqueLoop [] (Sa.map (Constr.nameOf p)))
        else .error .valueError : Except PyErr (List Constr.Atom)) >>= fun acc =>
      addGuarded (some p) g1 trans >>= fun g2 => .ok (⟨g2, acc⟩, unique AP) := by
    unfold tuple2ba
    rw [h1]
    simp only [hpre, ok_bind]
    cases g.addInitialFrom (S0.map (Constr.nameOf p)) with
    | error e => rfl
    | ok g1 =>
      simp only [ok_bind]
      unfold acceptingAddFrom
      simp only
      by_cases hc : (Sa.map (Constr.nameOf p)).all g1.hasNode = true
      · rw [if_pos hc, if_pos hc]
        rfl
      · rw [if_neg hc, if_neg hc]
        rfl
  rw [heq]
  unfold addInitialFrom
  by_cases hS0 : (S0.map (Constr.nameOf p)).all g.hasNode = true
  · rw [if_pos hS0]
    simp only [ok_bind]
    have hS0' : ∀ x ∈ S0, Constr.nameOf p x ∈ S.map (Constr.nameOf p) := by
      intro x hx
      rw [← hnode]
      exact List.all_eq_true.1 hS0 _ (List.mem_map_of_mem hx)
    have hacc : ((Sa.map (Constr.nameOf p)).all ({ g with
        initial := uniqueLoop g.initial (S0.map (Constr.nameOf p)) } : LGraph Constr.Atom Guard).hasNode = true) ↔
        ∀ x ∈ Sa, Constr.nameOf p x ∈ S.map (Constr.nameOf p) := by
      rw [List.all_eq_true]
      constructor
      · intro h x hx
        rw [← hnode]
        exact h _ (List.mem_map_of_mem hx)
      · intro h s hs
        obtain ⟨x, hx, rfl⟩ := List.mem_map.1 hs
        exact (hnode _).2 (h x hx)
    have hes : ({ g with initial := uniqueLoop g.initial (S0.map (Constr.nameOf p)) } :
        LGraph Constr.Atom Guard).edges = [] := h3
    obtain ⟨k1, k2⟩ := addGuarded_spec (aps := unique AP) p trans
      { g with initial := uniqueLoop g.initial (S0.map (Constr.nameOf p)) } h2.2.2.1 h2.2.2.2
      (by rw [hes]; intro e he; simp at he) (by rw [hes]; simp)
    by_cases ha : (Sa.map (Constr.nameOf p)).all ({ g with
        initial := uniqueLoop g.initial (S0.map (Constr.nameOf p)) } : LGraph Constr.Atom Guard).hasNode = true
    · rw [if_pos ha]
      simp only [ok_bind]
      constructor
      · constructor
        · intro hc
          obtain ⟨g', hg'⟩ := k1.1 (by
            intro e he
            refine ⟨⟨(hnode _).2 (hc.ends e he).1, (hnode _).2 (hc.ends e he).2⟩, ?_⟩
            simpa only [mem_unique] using hc.letters e he)
          rw [hg']
          exact ⟨_, rfl⟩
        · rintro ⟨r, hr⟩
          obtain ⟨g', hg', _⟩ := Constr.bind_ok hr
          have := k1.2 ⟨g', hg'⟩
          refine ⟨hS0', hacc.1 ha, ?_, ?_⟩
          · intro e he
            exact ⟨(hnode _).1 (this e he).1.1, (hnode _).1 (this e he).1.2⟩
          · intro e he
            simpa only [mem_unique] using (this e he).2
      · intro a aps hr
        obtain ⟨g', hg', hr⟩ := Constr.bind_ok hr
        cases hr
        obtain ⟨q1, q2, q3, q4⟩ := k2 g' hg'
        have hn : ∀ s, g'.hasNode s = true ↔ s ∈ S.map (Constr.nameOf p) := by
          intro s
          rw [← hnode]
          unfold hasNode
          rw [q1]
        refine ⟨?_, ?_, ?_, ?_, ?_, q3⟩
        · intro s
          rw [hn, List.mem_map]
          simp only [@eq_comm _ s]
        · intro s
          simp only [q2]
          rw [mem_uniqueLoop, h4, List.mem_map]
          simp [newBa, @eq_comm _ s]
        · intro s
          simp only
          rw [mem_uniqueLoop, List.mem_map]
          simp [@eq_comm _ s]
        · intro q
          exact mem_unique AP q
        · intro u v d
          rw [q4, hes]
          simp
    · rw [if_neg ha]
      constructor
      · constructor
        · intro hc
          exact absurd (hacc.2 hc.accepting) ha
        · rintro ⟨r, hr⟩
          cases hr
      · intro a aps hr
        cases hr
  · rw [if_neg hS0]
    constructor
    · constructor
      · intro hc
        exfalso
        apply hS0
        rw [List.all_eq_true]
        intro s hs
        obtain ⟨x, hx, rfl⟩ := List.mem_map.1 hs
        exact (hnode _).2 (hc.initial x hx)
      · rintro ⟨t, ht⟩
        cases ht
    · intro a aps ht
      cases ht

/-- **C91**: with a set of letters instead of atomic propositions, `tuple2ba` always raises. -/
theorem tuple2baSigma_error (S S0 Sa : List Constr.Atom) (pre : Option String) :
    ∃ e, tuple2baSigma S S0 Sa pre = .error e := by
  cases h : tuple2baSigma S S0 Sa pre with
  | error e => exact ⟨e, rfl⟩
  | ok a =>
    exfalso
    unfold tuple2baSigma at h
    split at h
    · simp only [ok_bind] at h
      obtain ⟨g, _, h⟩ := Constr.bind_ok h
      split at h <;> cases h
    · cases h

/-- A Büchi automaton with two states. -/
example : ConsistentBa "q" [.int 0, .int 1] [.int 0] [.int 1] ["p"]
    [(.int 0, .int 1, .set {"p"}), (.int 1, .int 1, .none), (.int 0, .int 0, .none)] := by
  refine ⟨by decide +kernel, by decide +kernel, by decide +kernel, ?_⟩
  intro e he
  simp only [List.mem_cons, List.not_mem_nil, or_false] at he
  rcases he with rfl | rfl | rfl
  · exact ⟨{"p"}, rfl, by simp⟩
  · exact ⟨∅, rfl, by simp⟩
  · exact ⟨∅, rfl, by simp⟩

example : ((tuple2ba [.int 0, .int 1] [.int 0] [.int 1] ["p"]
    [(.int 0, .int 1, .set {"p"}), (.int 0, .int 1, .set {"p"}), (.int 1, .int 1, .none)] (some "q")).toOption.map
      fun r => (r.1.accepting, r.1.graph.edges.map (·.1))) = some ([.str "q1"], [.str "q0", .str "q1"]) := by
  decide +kernel

end Aut

end Tulip
