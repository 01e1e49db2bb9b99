import Verif.Transys.MachineSim
import Verif.Transys.MachineRunProps

/-!
# A random run is an execution (C108)
-/

namespace Tulip
namespace Mach
open LGraph

variable {ν V : Type} [DecidableEq ν] [DecidableEq V]

/-- `random.choice` draws an index of the list. -/
def ChooseOk (choose : Nat → Nat → Nat) : Prop := ∀ t n, 0 < n → choose t n < n

/-- The state has no outgoing transition. -/
def DeadEnd (m : Machine ν V) (s : ν) : Prop := ∀ e ∈ m.graph.edges, e.1 ≠ s

/-- A dead end is reached in fewer than `n` moves. -/
def MayBlock (m : Machine ν V) (s : ν) (n : Nat) : Prop :=
  ∃ w ts t, Exec m s w ts ∧ ts.length < n ∧ (s :: ts).getLast? = some t ∧ DeadEnd m t

/-- The moves that are printed follow the run. -/
def Follows (s : ν) : List (Move ν V) → List ν → Prop
  | [], [] => True
  | p :: ps, t :: ts => p.source = s ∧ p.target = t ∧ Follows t ps ts
  | _, _ => False

omit [DecidableEq V] in
theorem mem_out {m : Machine ν V} {s : ν} {e : ν × ν × Attr V} :
    e ∈ out m.graph s ↔ e ∈ m.graph.edges ∧ e.1 = s := by simp [out]

omit [DecidableEq V] in
theorem out_nil {m : Machine ν V} {s : ν} : out m.graph s = [] ↔ DeadEnd m s := by
  simp [out, DeadEnd, List.filter_eq_nil_iff]

theorem choiceOf_mem {α : Type} {l : List α} {i : Nat} {a : α} (h : choiceOf l i = .ok a) : a ∈ l := by
  unfold choiceOf at h
  split at h
  · rename_i hb
    cases h
    exact List.mem_of_getElem? hb
  · cases h

theorem choiceOf_total {α : Type} {l : List α} {choose : Nat → Nat → Nat} (hc : ChooseOk choose) (t : Nat)
    (h : l ≠ []) : ∃ a, choiceOf l (choose t l.length) = .ok a := by
  have := hc t l.length (List.length_pos_iff.2 h)
  unfold choiceOf
  rw [List.getElem?_eq_getElem this]
  exact ⟨_, rfl⟩

theorem exec_split {α β : Type} {x : Except PyErr α} {f : α → Except PyErr β} {b : β} (h : x >>= f = .ok b) :
    ∃ a, x = .ok a ∧ f a = .ok b := by
  cases x with
  | error e => cases h
  | ok a => exact ⟨a, rfl, h⟩

omit [DecidableEq V] in
theorem appendOutputs_valAt {out : Attr V} {outs outs' : Dict String (List V)} {n : Nat} (hlen : AllLen outs n)
    (h : appendOutputs out outs = .ok outs') :
    AllLen outs' (n + 1) ∧ (∀ j < n, valAt outs' j = valAt outs j) ∧
      (∀ k, outs.has k = true → valAt outs' n k = out.get? k) := by
  obtain ⟨hkeys, hget⟩ := appendOutputs_ok h
  have hkey : ∀ k l, outs.get? k = some l → ∃ v, out.get? k = some v := by
    intro k l hk
    cases hv : out.get? k with
    | some v => exact ⟨v, rfl⟩
    | none =>
      exfalso
      have h1 : outs'.get? k = none := by rw [hget, hk, hv]; rfl
      have h2 : k ∈ outs.keys := (Dict.mem_keys_iff _ _).2 (by rw [hk]; simp)
      rw [← hkeys, Dict.mem_keys_iff, h1] at h2
      simp at h2
  refine ⟨?_, ?_, ?_⟩
  · intro k l hl
    rw [hget] at hl
    cases hk : outs.get? k with
    | none => rw [hk] at hl; cases hl
    | some l' =>
      obtain ⟨v, hv⟩ := hkey k l' hk
      rw [hk, hv] at hl
      simp only [Option.bind_some, Option.map_some, Option.some.injEq] at hl
      rw [← hl, List.length_append, hlen k l' hk]; rfl
  · intro j hj
    funext k
    unfold valAt
    rw [hget]
    cases hk : outs.get? k with
    | none => rfl
    | some l' =>
      obtain ⟨v, hv⟩ := hkey k l' hk
      rw [hv]
      simp only [Option.bind_some, Option.map_some]
      rw [List.getElem?_append_left (by rw [hlen k l' hk]; exact hj)]
  · intro k hk
    obtain ⟨l', hl'⟩ := (Dict.has_iff _ _).1 hk
    obtain ⟨v, hv⟩ := hkey k l' hl'
    unfold valAt
    rw [hget, hl', hv]
    simp only [Option.bind_some, Option.map_some]
    rw [List.getElem?_append_right (by rw [hlen k l' hl']), hlen k l' hl']
    simp

theorem edge_step {m : Machine ν V} {s : ν} {e : ν × ν × Attr V} (he : e ∈ out m.graph s) :
    Step m s (projectDict e.2.2 m.inputs.has).get? (projectDict e.2.2 m.outputs.has).get? e.2.1 := by
  obtain ⟨h1, h2⟩ := mem_out.1 he
  obtain ⟨u, v, a⟩ := e
  simp only at h2
  subst h2
  exact ⟨a, h1, (restrict_eq _ _).symm, (restrict_eq _ _).symm⟩

theorem randomLoop_sound (m : Machine ν V) (choose : Nat → Nat → Nat) (n t : Nat) (s : ν) (states : List ν)
    (outs : Dict String (List V)) (printed : List (Move ν V)) (hlen : AllLen outs states.length)
    (hkeys : ∀ k, m.outputs.has k = outs.has k)
    {states' : List ν} {outs' : Dict String (List V)} {printed' : List (Move ν V)}
    (h : randomLoop m choose n t s states outs printed = .ok ((states', outs'), printed')) :
    ∃ ts ps, states' = states ++ ts ∧ printed' = printed ++ ps ∧ ts.length = n ∧ outs'.keys = outs.keys ∧
      AllLen outs' (states.length + n) ∧ Follows s ps ts ∧ (∀ j < states.length, valAt outs' j = valAt outs j) ∧
      (∀ j p, ps[j]? = some p → valAt outs' (states.length + j) = p.outs.get?) ∧
      Exec m s (ps.map fun p => (p.ins.get?, p.outs.get?)) ts := by
  induction n generalizing t s states outs printed with
  | zero =>
    simp only [randomLoop, Except.ok.injEq, Prod.mk.injEq] at h
    obtain ⟨⟨rfl, rfl⟩, rfl⟩ := h
    exact ⟨[], [], by simp, by simp, rfl, rfl, hlen, trivial, fun _ _ => rfl, by simp, .nil _⟩
  | succ n ih =>
    simp only [randomLoop] at h
    obtain ⟨e, he, h⟩ := exec_split h
    obtain ⟨outs1, ho, h⟩ := exec_split h
    have hmem := choiceOf_mem he
    have hst := edge_step hmem
    obtain ⟨a1, a2, a3⟩ := appendOutputs_valAt hlen ho
    obtain ⟨k1, _⟩ := appendOutputs_ok ho
    have hkeys1 : ∀ k, m.outputs.has k = outs1.has k := by
      intro k
      rw [hkeys k, Bool.eq_iff_iff, ← mem_keys_iff_has, ← mem_keys_iff_has, k1]
    obtain ⟨ts, ps, e1, e2, e3, e4, e5, e6, e7, e8, e9⟩ := ih (t + 1) e.2.1 (states ++ [e.2.1]) outs1 _
      (by simpa using a1) hkeys1 h
    have hnow : valAt outs1 states.length = (projectDict e.2.2 m.outputs.has).get? := by
      funext k
      cases hk : outs.has k with
      | true => exact a3 k hk
      | false =>
        rw [get?_projectDict, hkeys k, hk, if_neg (by simp)]
        have : outs1.get? k = none := by
          rw [← Dict.has_false_iff, ← hkeys1, hkeys, hk]
        simp [valAt, this]
    refine ⟨e.2.1 :: ts, ⟨s, projectDict e.2.2 m.inputs.has, e.2.1, projectDict e.2.2 m.outputs.has⟩ :: ps, by simp [e1],
      by simp [e2], by simp [e3], e4.trans k1, ?_, ⟨rfl, rfl, e6⟩, ?_, ?_, ?_⟩
    · rw [List.length_append, List.length_singleton] at e5
      rw [show states.length + (n + 1) = states.length + 1 + n by omega]; exact e5
    · intro j hj
      rw [e7 j (by simp; omega), a2 j hj]
    · intro j p hp
      cases j with
      | zero =>
        simp only [List.getElem?_cons_zero, Option.some.injEq] at hp
        subst hp
        rw [Nat.add_zero, e7 _ (by simp), hnow]
      | succ j =>
        rw [List.getElem?_cons_succ] at hp
        have := e8 j p hp
        rw [List.length_append, List.length_singleton] at this
        rw [show states.length + (j + 1) = states.length + 1 + j by omega]; exact this
    · rw [List.map_cons]
      exact .cons hst e9

omit [DecidableEq ν] [DecidableEq V] in
theorem get?_emptySeqs (ports : Ports V) (k : String) (l : List V)
    (h : Dict.get? (ports.map fun q => (q.1, ([] : List V))) k = some l) : l = [] := by
  induction ports with
  | nil => cases h
  | cons p ps ih =>
    rw [List.map_cons, Dict.get?_cons] at h
    split at h
    · cases h; rfl
    · exact ih h

omit [DecidableEq ν] [DecidableEq V] in
theorem keys_emptySeqs (ports : Ports V) :
    Dict.keys (ports.map fun q => (q.1, ([] : List V))) = ports.keys := by
  simp [Dict.keys]

omit [DecidableEq ν] [DecidableEq V] in
theorem has_emptySeqs (ports : Ports V) (k : String) :
    ports.has k = Dict.has (ports.map fun q => (q.1, ([] : List V))) k := by
  rw [Bool.eq_iff_iff, ← mem_keys_iff_has, ← mem_keys_iff_has, keys_emptySeqs]

omit [DecidableEq ν] [DecidableEq V] in
theorem startsAt_iff {m : Machine ν V} {fromState : Option ν} {s : ν} :
    fromState.or m.graph.initial.head? = some s ↔ StartsAt m fromState s := by
  unfold StartsAt
  cases fromState <;> simp

/-- **C108.** A random run of `n` moves that returns is an execution of the machine: it starts at the given state (or
the first initial state), it has `n` states and `n` values of each output, consecutive states are transitions of the
machine with these outputs, and the inputs that are printed for each move are those of the transition. -/
theorem randomRun_sound (m : Machine ν V) (choose : Nat → Nat → Nat) (fromState : Option ν) (n : Nat)
    {states : List ν} {outs : Dict String (List V)} {printed : List (Move ν V)}
    (h : randomRun m choose fromState n = .ok ((states, outs), printed)) :
    ∃ s, StartsAt m fromState s ∧ states.length = n ∧ outs.keys = m.outputs.keys ∧
      (∀ k l, outs.get? k = some l → l.length = n) ∧ Follows s printed states ∧
      (∀ j p, printed[j]? = some p → valAt outs j = p.outs.get?) ∧
      Exec m s (printed.map fun p => (p.ins.get?, p.outs.get?)) states := by
  unfold randomRun at h
  split at h
  · cases h
  · rename_i s hs
    obtain ⟨ts, ps, e1, e2, e3, e4, e5, e6, _, e8, e9⟩ := randomLoop_sound m choose n 0 s [] _ []
      (fun k l hl => by rw [get?_emptySeqs _ _ _ hl]; rfl) (fun k => has_emptySeqs _ _) h
    simp only [List.nil_append] at e1 e2
    subst e1 e2
    simp only [List.length_nil, Nat.zero_add] at e5 e8
    exact ⟨s, startsAt_iff.1 hs, e3, e4.trans (keys_emptySeqs _), e5, e6, e8, e9⟩

theorem appendOutputs_edge {m : Machine ν V} (ho : OutComplete m) {s : ν} {e : ν × ν × Attr V}
    (he : e ∈ out m.graph s) {outs : Dict String (List V)} (hkeys : ∀ k, m.outputs.has k = outs.has k) :
    ∃ outs', appendOutputs (projectDict e.2.2 m.outputs.has) outs = .ok outs' ∧
      ∀ k, m.outputs.has k = outs'.has k := by
  obtain ⟨outs', h⟩ := appendOutputs_total (out := projectDict e.2.2 m.outputs.has) (outs := outs) (by
    intro k hk
    rw [mem_keys_iff_has, ← hkeys k] at hk
    obtain ⟨v, hv⟩ := ho e (mem_out.1 he).1 k hk
    exact ⟨v, by rw [get?_projectDict, if_pos hk, hv]⟩)
  refine ⟨outs', h, fun k => ?_⟩
  rw [hkeys k, Bool.eq_iff_iff, ← mem_keys_iff_has, ← mem_keys_iff_has, (appendOutputs_ok h).1]

theorem randomLoop_total {m : Machine ν V} (ho : OutComplete m) {choose : Nat → Nat → Nat} (hc : ChooseOk choose)
    (n t : Nat) (s : ν) (states : List ν) (outs : Dict String (List V)) (printed : List (Move ν V))
    (hkeys : ∀ k, m.outputs.has k = outs.has k) :
    (∃ r, randomLoop m choose n t s states outs printed = .ok r) ∨
      randomLoop m choose n t s states outs printed = .error .indexError ∧ MayBlock m s n := by
  induction n generalizing t s states outs printed with
  | zero => exact .inl ⟨_, rfl⟩
  | succ n ih =>
    simp only [randomLoop]
    by_cases hz : out m.graph s = []
    · refine .inr ⟨by rw [hz]; rfl, [], [], s, .nil _, by simp, rfl, out_nil.1 hz⟩
    · obtain ⟨e, he⟩ := choiceOf_total hc t hz
      have hmem := choiceOf_mem he
      obtain ⟨outs', h1, h2⟩ := appendOutputs_edge ho hmem hkeys
      rw [he, ok_bind, h1, ok_bind]
      rcases ih (t + 1) e.2.1 (states ++ [e.2.1]) outs' (printed ++ [_]) h2 with h | ⟨h, w, ts, u, q1, q2, q3, q4⟩
      · exact .inl h
      · refine .inr ⟨h, _ :: w, e.2.1 :: ts, u, .cons (edge_step hmem) q1, by simp; omega, ?_, q4⟩
        rw [List.getLast?_cons_cons]; exact q3

/-- **C108.** If the machine never reaches a dead end within `n` moves, then every random run of `n` moves returns;
otherwise the only exception is the `IndexError` at a dead end. -/
theorem randomRun_total {m : Machine ν V} (ho : OutComplete m) {choose : Nat → Nat → Nat} (hc : ChooseOk choose)
    (fromState : Option ν) (n : Nat) {s : ν} (hs : StartsAt m fromState s) :
    (¬ MayBlock m s n → ∃ r, randomRun m choose fromState n = .ok r) ∧
      (∀ e, randomRun m choose fromState n = .error e → e = .indexError ∧ MayBlock m s n) := by
  have := randomLoop_total ho hc n 0 s [] (m.outputs.map fun q => (q.1, [])) [] (fun k => has_emptySeqs _ _)
  unfold randomRun
  rw [startsAt_iff.2 hs]
  simp only
  refine ⟨fun hb => ?_, fun e he => ?_⟩
  · rcases this with h | ⟨_, h⟩
    · exact h
    · exact absurd h hb
  · rcases this with ⟨r, h⟩ | ⟨h, hb⟩
    · rw [h] at he; cases he
    · rw [h] at he
      cases he
      exact ⟨rfl, hb⟩

theorem randomLoop_complete {m : Machine ν V} (ho : OutComplete m) {s : ν} {w : List (Val V × Val V)} {ts : List ν}
    (h : Exec m s w ts) :
    ∃ is : Nat → Nat, ∀ (choose : Nat → Nat → Nat) (t : Nat), (∀ j k, is j < k → choose (t + j) k = is j) →
      ∀ (states : List ν) (outs : Dict String (List V)) (printed : List (Move ν V)),
        (∀ k, m.outputs.has k = outs.has k) →
        ∃ outs' ps, randomLoop m choose ts.length t s states outs printed
            = .ok ((states ++ ts, outs'), printed ++ ps) ∧ ps.map (fun p => (p.ins.get?, p.outs.get?)) = w := by
  induction h with
  | nil s => exact ⟨fun _ => 0, fun _ _ _ states outs printed _ => ⟨outs, [], by simp [randomLoop], rfl⟩⟩
  | @cons s u i o w ts hst _ ih =>
    obtain ⟨is, ih⟩ := ih
    obtain ⟨a, hmem, rfl, rfl⟩ := hst
    have hout : (s, u, a) ∈ out m.graph s := mem_out.2 ⟨hmem, rfl⟩
    obtain ⟨i0, hi0, hget⟩ := List.mem_iff_getElem.1 hout
    refine ⟨fun j => match j with | 0 => i0 | j + 1 => is j, ?_⟩
    intro choose t hch states outs printed hkeys
    obtain ⟨outs', h1, h2⟩ := appendOutputs_edge ho hout hkeys
    have hch0 : choose t (out m.graph s).length = i0 := by
      have := hch 0 (out m.graph s).length hi0
      simpa using this
    obtain ⟨outs'', ps, h3, h4⟩ := ih choose (t + 1) (fun j k hj => by
      have := hch (j + 1) k hj
      rw [show t + 1 + j = t + (j + 1) by omega]; exact this) (states ++ [u]) outs'
      (printed ++ [⟨s, projectDict a m.inputs.has, u, projectDict a m.outputs.has⟩]) h2
    refine ⟨outs'', ⟨s, projectDict a m.inputs.has, u, projectDict a m.outputs.has⟩ :: ps, ?_, ?_⟩
    · simp only [List.length_cons, randomLoop]
      have hcc : choiceOf (out m.graph s) (choose t (out m.graph s).length) = .ok (s, u, a) := by
        rw [hch0]
        unfold choiceOf
        rw [List.getElem?_eq_getElem hi0, hget]
      rw [hcc, ok_bind]
      simp only
      simp only at h1
      rw [h1, ok_bind, h3]
      simp
    · simp only [List.map_cons, h4, restrict_eq]

/-- **C108.** Every execution of the machine can be a random run: some choices yield its states, inputs and
outputs. -/
theorem randomRun_complete {m : Machine ν V} (ho : OutComplete m) (fromState : Option ν) {s : ν}
    (hs : StartsAt m fromState s) {w : List (Val V × Val V)} {ts : List ν} (h : Exec m s w ts) :
    ∃ choose, ChooseOk choose ∧ ∃ outs printed,
      randomRun m choose fromState ts.length = .ok ((ts, outs), printed) ∧
        printed.map (fun p => (p.ins.get?, p.outs.get?)) = w := by
  obtain ⟨is, hi⟩ := randomLoop_complete ho h
  refine ⟨fun j k => if is j < k then is j else 0, ?_, ?_⟩
  · intro t n hn
    simp only
    split <;> omega
  · obtain ⟨outs, ps, h1, h2⟩ := hi (fun j k => if is j < k then is j else 0) 0 (fun j k hj => by
      simp only [Nat.zero_add]; rw [if_pos hj]) [] (m.outputs.map fun q => (q.1, [])) []
      (fun k => has_emptySeqs _ _)
    refine ⟨outs, ps, ?_, h2⟩
    unfold randomRun
    rw [startsAt_iff.2 hs]
    simpa using h1

/-- **C108.** In a deterministic machine, a guided run with the inputs that a random run prints returns the states
and outputs of the random run. -/
theorem randomRun_guided {m : Machine ν V} (hm : m.graph.edges.Nodup) (hd : Det m) (ho : OutComplete m)
    (choose : Nat → Nat → Nat) (fromState : Option ν) (n : Nat) {states : List ν} {outs : Dict String (List V)}
    {printed : List (Move ν V)} (h : randomRun m choose fromState n = .ok ((states, outs), printed))
    (seqs : Dict String (List V)) (hports : ∀ k, m.inputs.has k = true → seqs.has k = true) (hne : seqs ≠ [])
    (hlen : ∀ p ∈ seqs, p.2.length = n) (hseqs : ∀ j p, printed[j]? = some p → valAt seqs j = p.ins.get?) :
    ∃ outs', guidedRun m fromState seqs = .ok (states, outs') ∧ ∀ j < n, valAt outs' j = valAt outs j := by
  obtain ⟨s, h1, h2, _, _, h5, h6, h7⟩ := randomRun_sound m choose fromState n h
  have hpl : printed.length = n := by
    have hf : ∀ (s : ν) (ps : List (Move ν V)) (ts : List ν), Follows s ps ts → ps.length = ts.length := by
      intro s ps
      induction ps generalizing s with
      | nil => intro ts hts; cases ts with | nil => rfl | cons => cases hts
      | cons p ps ih =>
        intro ts hts
        cases ts with
        | nil => cases hts
        | cons t ts => simp [ih _ _ hts.2.2]
    rw [hf _ _ _ h5, h2]
  obtain ⟨outs', g1, g2⟩ := guidedRun_complete hm hd ho fromState seqs h1 hports hne hlen h7 (by
    apply List.ext_getElem (by simp [hpl])
    intro j hj1 hj2
    simp only [List.length_map] at hj1
    simp only [List.getElem_map, List.getElem_range]
    exact (hseqs j _ (List.getElem?_eq_getElem hj1)).symm)
  refine ⟨outs', g1, fun j hj => ?_⟩
  have hp : printed[j]? = some printed[j] := List.getElem?_eq_getElem (by omega)
  have := congrArg (fun l => l[j]?) g2
  simp only [List.getElem?_map, hp, Option.map_some, List.getElem?_range hj, Option.some.injEq, Prod.mk.injEq] at this
  rw [h6 j _ hp, this.2]

/-- A machine that counts: one input, one output. -/
def counter : Machine Nat Nat where
  graph :=
    { nodes := [(0, []), (1, [])]
      edges := [(0, 1, [("i", 1), ("o", 0)]), (0, 0, [("i", 0), ("o", 0)]), (1, 0, [("i", 1), ("o", 1)])]
      initial := [0]
      edgeTypes := typesOf [("i", [0, 1]), ("o", [0, 1])] }
  inputs := [("i", [0, 1])]
  outputs := [("o", [0, 1])]

/-- Two runs of the machine. -/
def runOf (c : Nat → Nat → Nat) (n : Nat) : Option (List Nat × List (String × List Nat)) :=
  match randomRun counter c none n with
  | .ok r => some r.1
  | .error _ => none

example : runOf (fun t n => (t + 1) % n) 3 = some ([0, 1, 0], [("o", [0, 0, 1])]) := by decide +kernel
example : runOf (fun _ _ => 0) 4 = some ([1, 0, 1, 0], [("o", [0, 1, 0, 1])]) := by decide +kernel
example : OutComplete counter := by
  intro e he k hk
  simp only [counter, Dict.has, List.any_cons, List.any_nil, Bool.or_false, beq_iff_eq] at hk
  subst hk
  simp only [counter, List.mem_cons, List.not_mem_nil, or_false] at he
  rcases he with rfl | rfl | rfl <;> exact ⟨_, rfl⟩
example : ¬ MayBlock counter 0 5 := by
  rintro ⟨w, ts, t, h1, -, h3, h4⟩
  have hinv : ∀ (s : Nat) (w : List (Val Nat × Val Nat)) (ts : List Nat), Exec counter s w ts → (s = 0 ∨ s = 1) →
      ∀ u ∈ s :: ts, u = 0 ∨ u = 1 := by
    intro s w ts h
    induction h with
    | nil s => intro hs u hu; simp at hu; subst hu; exact hs
    | @cons s t i o w ts hst _ ih =>
      intro hs u hu
      rw [List.mem_cons] at hu
      rcases hu with rfl | hu
      · exact hs
      · refine ih ?_ u hu
        obtain ⟨a, ha, _⟩ := hst
        simp only [counter, List.mem_cons, List.not_mem_nil, or_false, Prod.mk.injEq] at ha
        omega
  rcases hinv 0 w ts h1 (Or.inl rfl) t (List.mem_of_getLast? h3) with rfl | rfl
  · exact h4 (0, 0, [("i", 0), ("o", 0)]) (by simp [counter]) rfl
  · exact h4 (1, 0, [("i", 1), ("o", 1)]) (by simp [counter]) rfl

omit [DecidableEq V] in
/-- **C108, restriction.** An interactive run cannot be used: if the state has an outgoing transition, then it reads
lines forever, whatever they are, because nothing leaves the loop that asks for a selection. -/
theorem interactiveRun_counterexample (m : Machine ν V) (parse : List Char → Option Nat) (lines : Nat → List Char)
    (fromState : Option ν) {s : ν} (hs : StartsAt m fromState s) (hd : ¬ DeadEnd m s) (fuel : Nat) :
    interactiveRun m parse lines fromState fuel = .waiting := by
  unfold interactiveRun
  rw [startsAt_iff.2 hs]
  simp only
  rw [if_neg (by rw [out_nil]; exact hd)]
  have key : ∀ t sel, selectLoop parse (out m.graph s) lines fuel t sel = .waiting := by
    induction fuel with
    | zero => intro t sel; rfl
    | succ fuel ih =>
      intro t sel
      unfold selectLoop
      split <;> exact ih _ _
  exact key 0 none

end Mach
end Tulip
