import Verif.Transys.Dumpsmach
import Verif.Transys.MachineConvProps

/-!
# C21: the Python class that `python_case` emits follows the machine
-/

namespace Tulip
namespace Mach
open LGraph

variable {ν V : Type} [DecidableEq ν] [DecidableEq V]

theorem nodeId_inj {m : Machine ν V} {s t : ν} (hs : m.graph.hasNode s = true)
    (h : nodeId m s = nodeId m t) : s = t :=
  (List.idxOf_inj ((mem_keys_iff_has _ _).2 hs)).1 h

/-- The arguments are one value for each input. -/
def ArgsOk (m : Machine ν V) (args : Attr V) : Prop := ∀ k, args.has k = m.inputs.has k

theorem guard_iff {m : Machine ν V} (hm : m.graph.Ok) (hl : Labeled m) {args : Attr V} (ha : ArgsOk m args)
    {e : ν × ν × Attr V} (he : e ∈ m.graph.edges) :
    guardHolds args (branchOf m e).guard = true ↔ args.get? = restrict m.inputs e.2.2 := by
  have hnone : ∀ k, m.inputs.has k = false → args.get? k = none := by
    intro k hk
    cases hg : args.get? k with
    | none => rfl
    | some v =>
      have := (Dict.has_iff args k).2 ⟨v, hg⟩
      rw [ha, hk] at this; cases this
  by_cases hi : m.inputs.isEmpty = true
  · have hin : ∀ k, m.inputs.has k = false := by
      intro k; rw [List.isEmpty_iff.1 hi]; rfl
    simp only [branchOf, hi, if_true, guardHolds, true_iff]
    funext k
    rw [hnone k (hin k), restrict, hin k]; rfl
  · simp only [branchOf, hi, guardHolds, Bool.false_eq_true, if_false, List.all_eq_true, decide_eq_true_eq]
    have hw : (projectDict e.2.2 m.inputs.has).Wf := wf_filter (hm.wf _ _ _ he) _
    constructor
    · intro h
      funext k
      cases hk : m.inputs.has k with
      | false => rw [hnone k hk, restrict, hk]; rfl
      | true =>
        obtain ⟨v, hv⟩ := (Dict.has_iff _ _).1 (hl e he k (.inl hk))
        have hp : (projectDict e.2.2 m.inputs.has).get? k = some v := by rw [get?_projectDict, if_pos hk, hv]
        rw [h _ (mem_of_get? hp), restrict, if_pos hk, hv]
    · intro h kv hkv
      rw [h, restrict_eq]
      exact get?_of_mem hw hkv

theorem move_eq {m : Machine ν V} {p : Prog V} {start s : ν} (hp : pythonCase m start = .ok p)
    (hs : m.graph.hasNode s = true) {args : Attr V} (ha : ArgsOk m args) :
    p.move (nodeId m s) args = (caseOf m s).exec args := by
  unfold pythonCase at hp
  split at hp
  · cases hp
    have hargs : (m.inputs.keys.all args.has && args.all fun kv => decide (kv.1 ∈ m.inputs.keys)) = true := by
      rw [Bool.and_eq_true, List.all_eq_true, List.all_eq_true]
      constructor
      · intro k hk; rw [ha]; exact (mem_keys_iff_has _ _).1 hk
      · intro kv hkv
        rw [decide_eq_true_eq, mem_keys_iff_has, ← ha, ← mem_keys_iff_has]
        exact List.mem_map.2 ⟨kv, hkv, rfl⟩
    have hfind : (m.graph.nodes.keys.map (caseOf m)).find? (fun c => decide (c.id = nodeId m s)) =
        some (caseOf m s) := by
      have hmem : s ∈ m.graph.nodes.keys := (mem_keys_iff_has _ _).2 hs
      have : ∀ l : List ν, s ∈ l → (∀ t ∈ l, m.graph.hasNode t = true) →
          (l.map (caseOf m)).find? (fun c => decide (c.id = nodeId m s)) = some (caseOf m s) := by
        intro l
        induction l with
        | nil => intro h; simp at h
        | cons t l ih =>
          intro h hl
          rw [List.map_cons, List.find?_cons]
          by_cases hts : t = s
          · subst hts; simp [caseOf]
          · have : ¬ nodeId m t = nodeId m s := fun e => hts (nodeId_inj (hl t (by simp)) e)
            have h2 : decide ((caseOf m t).id = nodeId m s) = false := decide_eq_false this
            rw [h2]
            refine ih ?_ fun x hx => hl x (by simp [hx])
            rcases List.mem_cons.1 h with rfl | h
            · exact absurd rfl hts
            · exact h
      exact this _ hmem fun t ht => (mem_keys_iff_has _ _).1 ht
    simp only [Prog.move, hargs, if_true, hfind]
  · cases hp

/-- **C21.** One call of `move`: if the machine has a transition from the state for the given inputs,
then `move` goes to its target and returns its outputs; if the state has transitions, but none
for these inputs, `ValueError` is raised; and in a state without transitions `RuntimeError`. -/
theorem move_spec {m : Machine ν V} (hm : m.graph.Ok) (hl : Labeled m) (hd : Det m) {p : Prog V}
    {start s : ν} (hp : pythonCase m start = .ok p) (hs : m.graph.hasNode s = true) {args : Attr V}
    (ha : ArgsOk m args) :
    (∀ o t, Step m s args.get? o t → ∃ d, p.move (nodeId m s) args = .ok (nodeId m t, d) ∧ d.get? = o) ∧
    ((∀ o t, ¬ Step m s args.get? o t) → (∃ t a, (s, t, a) ∈ m.graph.edges) →
      p.move (nodeId m s) args = .error .valueError) ∧
    ((∀ t a, (s, t, a) ∉ m.graph.edges) → p.move (nodeId m s) args = .error .runtime) := by
  rw [move_eq hp hs ha]
  have hout : ∀ e, e ∈ out m.graph s ↔ e ∈ m.graph.edges ∧ e.1 = s := by intro e; simp [out]
  refine ⟨?_, ?_, ?_⟩
  · rintro o t ⟨a, h1, h2, rfl⟩
    have hg := (guard_iff hm hl ha h1).2 h2
    have hsome : ∃ b, ((out m.graph s).map (branchOf m)).find? (fun b => guardHolds args b.guard) = some b := by
      rw [← Option.isSome_iff_exists, List.find?_isSome]
      exact ⟨_, List.mem_map.2 ⟨(s, t, a), (hout _).2 ⟨h1, rfl⟩, rfl⟩, hg⟩
    obtain ⟨b, hb⟩ := hsome
    have h3 := List.find?_some hb
    obtain ⟨e, he, rfl⟩ := List.mem_map.1 (List.mem_of_find?_eq_some hb)
    obtain ⟨he, hes⟩ := (hout e).1 he
    have h4 := (guard_iff hm hl ha he).1 h3
    have : e = (s, t, a) := hd e he _ h1 hes (h4.symm.trans h2)
    subst this
    refine ⟨_, by simp only [Case.exec, caseOf, hb]; rfl, ?_⟩
    simp only [branchOf]
    rw [update_nil_wf (a := projectDict a m.outputs.has) (wf_filter (hm.wf _ _ _ h1) _), ← restrict_eq]
  · intro hno hex
    have hnone : ((out m.graph s).map (branchOf m)).find? (fun b => guardHolds args b.guard) = none := by
      rw [List.find?_eq_none]
      intro b hb hg
      obtain ⟨⟨x, t, a⟩, he, rfl⟩ := List.mem_map.1 hb
      replace he := (hout _).1 he
      obtain ⟨he, rfl⟩ := he
      exact hno _ t ⟨a, he, (guard_iff hm hl ha he).1 hg, rfl⟩
    obtain ⟨t, a, he⟩ := hex
    have hne : m.inputs.isEmpty = false := by
      by_contra hc
      rw [Bool.not_eq_false] at hc
      have := (guard_iff hm hl ha he).1 (by simp [branchOf, hc, guardHolds])
      exact hno _ t ⟨a, he, this, rfl⟩
    have hbr : ((out m.graph s).map (branchOf m)).isEmpty = false := by
      cases h : out m.graph s with
      | nil =>
        have := (hout (s, t, a)).2 ⟨he, rfl⟩
        rw [h] at this; simp at this
      | cons => rfl
    simp only [Case.exec, caseOf, hnone, fallbackOf, hbr, hne, Bool.false_eq_true, if_false]
  · intro hno
    have : out m.graph s = [] := by
      cases h : out m.graph s with
      | nil => rfl
      | cons e l =>
        have h2 := (hout e).1 (by rw [h]; simp)
        obtain ⟨x, t, a⟩ := e
        obtain ⟨h2, rfl⟩ := h2
        exact absurd h2 (hno t a)
    simp only [Case.exec, caseOf, this, List.map_nil, List.find?_nil, fallbackOf, List.isEmpty_nil, if_true]

/-- `python_case` raises exactly for an initial state that is not a state of the machine. -/
theorem pythonCase_error {m : Machine ν V} {start : ν} (h : m.graph.hasNode start = false) :
    pythonCase m start = .error .keyError := by
  simp [pythonCase, h]

/-- **C21.** For a deterministic machine whose edges have a value for each port, `python_case` emits a class that
compiles and starts in the given state; for every word of inputs, the successive calls of `move`
succeed, go through given states and return given outputs if and only if this is an execution of the machine. -/
theorem pythonCase_spec {m : Machine ν V} (hm : m.graph.Ok) (hl : Labeled m) (hd : Det m) {start : ν}
    (hs : m.graph.hasNode start = true) :
    ∃ p, pythonCase m start = .ok p ∧ p.compiles = true ∧
      ∀ (word : List (Attr V)), (∀ args ∈ word, ArgsOk m args) → ∀ (ts : List ν) (os : List (Val V)),
        (os.length = word.length ∧ Exec m start ((word.map Dict.get?).zip os) ts) ↔
        ∃ ds, p.moves p.init word = .ok (ts.map (nodeId m), ds) ∧ ds.map Dict.get? = os ∧
          ∀ t ∈ ts, m.graph.hasNode t = true := by
  have hp : pythonCase m start = .ok (Prog.mk (nodeId m start) m.inputs.keys
      (m.graph.nodes.keys.map (caseOf m))) := by simp [pythonCase, hs]
  refine ⟨_, hp, ?_, ?_⟩
  · simp only [Prog.compiles, List.all_eq_true]
    intro c hc b hb
    obtain ⟨s, _, rfl⟩ := List.mem_map.1 hc
    obtain ⟨e, he, rfl⟩ := List.mem_map.1 hb
    have he : e ∈ m.graph.edges := (List.mem_filter.1 he).1
    rw [Bool.not_eq_true', decide_eq_false_iff_not]
    intro h
    simp only [branchOf] at h
    split at h
    · cases h
    · rename_i hne
      cases hi : m.inputs with
      | nil => rw [hi] at hne; exact hne rfl
      | cons p ps =>
        have hk : m.inputs.has p.1 = true := by rw [hi]; simp [Dict.has]
        obtain ⟨v, hv⟩ := (Dict.has_iff _ _).1 (hl e he p.1 (.inl hk))
        have h2 : (projectDict e.2.2 m.inputs.has).get? p.1 = some v := by rw [get?_projectDict, if_pos hk, hv]
        rw [Option.some.inj h] at h2
        simp at h2
  · intro word
    show _ → ∀ ts os, _ ↔ ∃ ds, Prog.moves _ (nodeId m start) word = _ ∧ _
    generalize hP : (Prog.mk (nodeId m start) m.inputs.keys (m.graph.nodes.keys.map (caseOf m)) : Prog V) = P
    rw [hP] at hp
    clear hP
    have key : ∀ (word : List (Attr V)) (s : ν), m.graph.hasNode s = true → (∀ args ∈ word, ArgsOk m args) →
        ∀ (ts : List ν) (os : List (Val V)),
        (os.length = word.length ∧ Exec m s ((word.map Dict.get?).zip os) ts) ↔
        ∃ ds, P.moves (nodeId m s) word = .ok (ts.map (nodeId m), ds) ∧ ds.map Dict.get? = os ∧
          ∀ t ∈ ts, m.graph.hasNode t = true := by
      intro word
      induction word with
      | nil =>
        intro s hs _ ts os
        constructor
        · rintro ⟨h1, h2⟩
          have : os = [] := List.eq_nil_of_length_eq_zero h1
          subst this
          cases h2
          exact ⟨[], rfl, rfl, by simp⟩
        · rintro ⟨ds, h1, rfl, _⟩
          simp only [Prog.moves, Except.ok.injEq, Prod.mk.injEq] at h1
          obtain ⟨h1, rfl⟩ := h1
          have : ts = [] := by
            cases ts with
            | nil => rfl
            | cons => simp at h1
          subst this
          exact ⟨rfl, .nil s⟩
      | cons a word ih =>
        intro s hs hargs ts os
        have ha := hargs a (by simp)
        obtain ⟨k1, k2, k3⟩ := move_spec hm hl hd hp hs ha
        constructor
        · rintro ⟨h1, h2⟩
          cases os with
          | nil => simp at h1
          | cons o os =>
            rw [List.map_cons, List.zip_cons_cons] at h2
            cases h2 with
            | @cons _ t _ _ _ ts hst hrest =>
              obtain ⟨d, e1, e2⟩ := k1 o t hst
              have ht : m.graph.hasNode t = true := by
                obtain ⟨b, hb, _⟩ := hst; exact hm.target _ _ _ hb
              obtain ⟨ds, j1, j2, j3⟩ := (ih t ht (fun x hx => hargs x (by simp [hx])) ts os).1
                ⟨by simpa using h1, hrest⟩
              refine ⟨d :: ds, ?_, by simp [e2, j2], ?_⟩
              · simp only [Prog.moves, e1, ok_bind, j1, List.map_cons]
              · intro x hx
                rcases List.mem_cons.1 hx with rfl | hx
                · exact ht
                · exact j3 x hx
        · rintro ⟨ds, h1, rfl, h3⟩
          simp only [Prog.moves] at h1
          by_cases hst : ∃ o t, Step m s a.get? o t
          · obtain ⟨o, t, hst⟩ := hst
            obtain ⟨d, e1, e2⟩ := k1 o t hst
            have ht : m.graph.hasNode t = true := by
              obtain ⟨b, hb, _⟩ := hst; exact hm.target _ _ _ hb
            rw [e1, ok_bind] at h1
            cases hmv : P.moves (nodeId m t) word with
            | error e => rw [hmv] at h1; cases h1
            | ok r =>
              rw [hmv] at h1
              simp only [ok_bind, Except.ok.injEq, Prod.mk.injEq] at h1
              obtain ⟨h1, rfl⟩ := h1
              cases ts with
              | nil => simp at h1
              | cons t' ts =>
                simp only [List.map_cons, List.cons.injEq] at h1
                have htt : t = t' := nodeId_inj ht h1.1
                subst htt
                obtain ⟨j1, j2⟩ := (ih t ht (fun x hx => hargs x (by simp [hx])) ts (r.2.map Dict.get?)).2
                  ⟨r.2, by rw [hmv, ← h1.2], rfl, fun x hx => h3 x (by simp [hx])⟩
                refine ⟨by simpa using j1, ?_⟩
                rw [List.map_cons, List.map_cons, List.zip_cons_cons, e2]
                exact .cons hst j2
          · have hno : ∀ o t, ¬ Step m s a.get? o t := fun o t h => hst ⟨o, t, h⟩
            by_cases hex : ∃ t b, (s, t, b) ∈ m.graph.edges
            · rw [k2 hno hex] at h1; cases h1
            · rw [k3 fun t b h => hex ⟨t, b, h⟩] at h1; cases h1
    exact fun hargs ts os => key word start hs hargs ts os

/-- The hypotheses are met. -/
example : ∃ p, pythonCase delay' "a" = .ok p ∧ p.compiles = true := by
  have hd : Det delay' := by
    intro e he f hf h1 h2
    have h3 := restrict_ext_of_get? h2 "in" (by decide +kernel)
    clear h2
    revert f e
    decide +kernel
  obtain ⟨p, h1, h2, _⟩ := pythonCase_spec delay'_ok.1.graph delay'_ok.2.1 hd (start := "a") (by decide +kernel)
  exact ⟨p, h1, h2⟩

/-- An edge without any input: the emitted text is not Python. -/
theorem pythonCase_counterexample : ∃ m : Machine String Nat, ∃ p, m.graph.Ok ∧
    pythonCase m "a" = .ok p ∧ p.compiles = false := by
  refine ⟨⟨LGraph.run [] [] (typesOf [("in", [0, 1])]) []
    [.addNodesFrom [("a", [])] true, .addEdge "a" "a" [] true], [("in", [0, 1])], []⟩, _, ?_, rfl, ?_⟩
  · exact (LGraph.run_ok _ _ _ _ (by simp [GOp.Wf, Dict.Wf, Dict.keys])).2.2.2
  · decide +kernel

end Mach
end Tulip
