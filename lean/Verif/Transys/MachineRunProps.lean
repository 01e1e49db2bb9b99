import Verif.Transys.Machines
import Verif.Transys.GraphProps

/-!
# C16, C17: reactions and runs of Mealy machines

The specification: the transitions of a machine as a relation between states, valuations of the input
ports and valuations of the output ports, and its executions as sequences of transitions.
-/

namespace Tulip
namespace Mach
open LGraph

variable {ν V : Type} [DecidableEq ν] [DecidableEq V]

/-- A valuation of ports. -/
abbrev Val (V : Type) := String → Option V

/-- The part of a label that belongs to the given ports. -/
def restrict (ports : Ports V) (a : Attr V) : Val V := fun k => if ports.has k then a.get? k else none

/-- A transition of the machine from `s` to `t`, reading `i` and writing `o`. -/
def Step (m : Machine ν V) (s : ν) (i o : Val V) (t : ν) : Prop :=
  ∃ a, (s, t, a) ∈ m.graph.edges ∧ i = restrict m.inputs a ∧ o = restrict m.outputs a

/-- An execution from `s`: the word of inputs and outputs, and the states entered. -/
inductive Exec (m : Machine ν V) : ν → List (Val V × Val V) → List ν → Prop
  | nil (s : ν) : Exec m s [] []
  | cons {s t : ν} {i o : Val V} {w : List (Val V × Val V)} {ts : List ν} :
      Step m s i o t → Exec m t w ts → Exec m s ((i, o) :: w) (t :: ts)

/-- At most one edge leaves a state for each valuation of the inputs. -/
def Det (m : Machine ν V) : Prop :=
  ∀ e ∈ m.graph.edges, ∀ f ∈ m.graph.edges, e.1 = f.1 →
    restrict m.inputs e.2.2 = restrict m.inputs f.2.2 → e = f

theorem get?_filter {α : Type} (x : Dict String α) (y : String → Bool) (k : String) :
    Dict.get? (x.filter fun p => y p.1) k = if y k then x.get? k else none := by
  induction x with
  | nil => simp
  | cons p x ih =>
    by_cases hp : y p.1 = true
    · rw [List.filter_cons, if_pos hp, Dict.get?_cons, Dict.get?_cons, ih]
      by_cases hk : p.1 = k
      · simp [← hk, hp]
      · simp [hk]
    · rw [List.filter_cons, if_neg hp, ih, Dict.get?_cons]
      by_cases hk : p.1 = k
      · simp [← hk, hp]
      · simp [hk]

theorem get?_projectDict (x : Attr V) (y : String → Bool) (k : String) :
    (projectDict x y).get? k = if y k then x.get? k else none := get?_filter x y k

theorem restrict_eq (ports : Ports V) (a : Attr V) :
    restrict ports a = (projectDict a ports.has).get? := by
  funext k; rw [get?_projectDict]; rfl

/-- The edge's inputs are the given ones. Lazily: the given inputs are inputs of the edge. -/
def Matches (m : Machine ν V) (lazy : Bool) (ins a : Attr V) : Prop :=
  if lazy then ∀ k v, ins.get? k = some v → m.inputs.has k = true ∧ a.get? k = some v
  else restrict m.inputs a = ins.get?

theorem matches_iff (m : Machine ν V) (lazy : Bool) (ins a : Attr V) :
    (projectDict a fun k => m.inputs.has k && (!lazy || ins.has k)).beqv ins = true ↔
      Matches m lazy ins a := by
  rw [beqv_iff, Matches]
  simp only [get?_projectDict]
  cases lazy with
  | false =>
    simp only [Bool.not_false, Bool.true_or, Bool.and_true, Bool.false_eq_true, if_false]
    exact ⟨fun h => funext h, fun h k => congrFun h k⟩
  | true =>
    simp only [Bool.not_true, Bool.false_or, if_true]
    constructor
    · intro h k v hv
      have hk : ins.has k = true := by rw [has_eq, hv]; rfl
      have := h k
      rw [hk, Bool.and_true, hv] at this
      cases hi : m.inputs.has k with
      | false => simp [hi] at this
      | true => exact ⟨rfl, by simpa [hi] using this⟩
    · intro h k
      cases hv : ins.get? k with
      | none =>
        have hk : ins.has k = false := by rw [has_eq, hv]; rfl
        simp [hk]
      | some v =>
        have hk : ins.has k = true := by rw [has_eq, hv]; rfl
        obtain ⟨h1, h2⟩ := h k v hv
        simp [h1, hk, h2]

theorem mem_enabled (m : Machine ν V) (s : ν) (ins : Attr V) (lazy : Bool) (e : ν × ν × Attr V) :
    e ∈ enabled m s ins lazy ↔ e ∈ m.graph.edges ∧ e.1 = s ∧ Matches m lazy ins e.2.2 := by
  simp only [enabled, List.mem_filter, Bool.and_eq_true, decide_eq_true_eq, matches_iff]

theorem edges_nodup {g : LGraph ν V} (hg : g.Ok) (hd : g.edgeDefaults = []) : g.edges.Nodup :=
  (hg.distinct hd).imp fun h e => h (by subst e; exact ⟨rfl, rfl, fun _ => rfl⟩)

/-- **C16.** `reaction` returns the target and the outputs of an edge if and only if that is the only
edge that leaves the state and has the given inputs; in every other case it raises `ValueError`. -/
theorem reaction_spec {m : Machine ν V} (hm : m.graph.edges.Nodup) (s : ν) (ins : Attr V)
    (lazy : Bool) :
    (∀ t o, reaction m s ins lazy = .ok (t, o) ↔
      ∃ a, (s, t, a) ∈ m.graph.edges ∧ Matches m lazy ins a ∧
        (∀ e ∈ m.graph.edges, e.1 = s → Matches m lazy ins e.2.2 → e = (s, t, a)) ∧
        o = projectDict a m.outputs.has) ∧
    (∀ err, reaction m s ins lazy = .error err → err = .valueError) := by
  constructor
  · intro t o
    constructor
    · intro h
      simp only [reaction] at h
      split at h
      · rename_i e he
        obtain ⟨u, v, a⟩ := e
        have hmem := (mem_enabled m s ins lazy (u, v, a)).1 (by rw [he]; simp)
        simp only [Except.ok.injEq, Prod.mk.injEq] at h
        obtain ⟨rfl, rfl⟩ := h
        obtain ⟨h1, rfl, h3⟩ := hmem
        refine ⟨a, h1, h3, fun f hf hs hmt => ?_, rfl⟩
        have := (mem_enabled m _ ins lazy f).2 ⟨hf, hs, hmt⟩
        rw [he] at this
        simpa using this
      · cases h
    · rintro ⟨a, h1, h2, h3, rfl⟩
      have hen : enabled m s ins lazy = [(s, t, a)] := by
        have hnd : (enabled m s ins lazy).Nodup := hm.filter _
        have hmem : ∀ e, e ∈ enabled m s ins lazy ↔ e ∈ [(s, t, a)] := by
          intro e
          rw [mem_enabled, List.mem_singleton]
          constructor
          · rintro ⟨k1, k2, k3⟩; exact h3 e k1 k2 k3
          · rintro rfl; exact ⟨h1, rfl, h2⟩
        have := (List.perm_ext_iff_of_nodup hnd (List.nodup_singleton _)).2 hmem
        exact List.perm_singleton.1 this
      simp only [reaction, hen]
  · intro err h
    simp only [reaction] at h
    split at h
    · cases h
    · simpa using h.symm

/-- What a reaction returns is a transition. -/
theorem reaction_step {m : Machine ν V} {s t : ν} {ins o : Attr V}
    (h : reaction m s ins = .ok (t, o)) : Step m s ins.get? o.get? t := by
  simp only [reaction] at h
  split at h
  · rename_i e he
    obtain ⟨u, v, a⟩ := e
    have hmem := (mem_enabled m s ins false (u, v, a)).1 (by rw [he]; simp)
    simp only [Except.ok.injEq, Prod.mk.injEq] at h
    obtain ⟨rfl, rfl⟩ := h
    obtain ⟨h1, rfl, h3⟩ := hmem
    refine ⟨a, h1, ?_, (restrict_eq _ _).symm⟩
    simp only [Matches, Bool.false_eq_true, if_false] at h3
    exact h3.symm
  · cases h

/-- In a deterministic machine a transition is found by `reaction`. -/
theorem step_reaction {m : Machine ν V} (hm : m.graph.edges.Nodup) (hd : Det m) {s t : ν}
    {ins : Attr V} {o : Val V} (h : Step m s ins.get? o t) :
    ∃ d, reaction m s ins = .ok (t, d) ∧ d.get? = o := by
  obtain ⟨a, h1, h2, rfl⟩ := h
  refine ⟨projectDict a m.outputs.has, ((reaction_spec hm s ins false).1 _ _).2
    ⟨a, h1, by simp [Matches, h2], fun e he hs hmt => ?_, rfl⟩, (restrict_eq _ _).symm⟩
  refine hd e he _ h1 hs ?_
  simp only [Matches, Bool.false_eq_true, if_false] at hmt
  rw [hmt, h2]

/-! ### Runs -/

/-- The values of the sequences at an index. -/
def valAt (seqs : Dict String (List V)) (i : Nat) : Val V := fun k => (seqs.get? k).bind (·[i]?)

omit [DecidableEq V] in
theorem inputsAt_ok {seqs : Dict String (List V)} {i : Nat} {ins : Attr V}
    (h : inputsAt seqs i = .ok ins) : ins.get? = valAt seqs i := by
  induction seqs generalizing ins with
  | nil => simp only [inputsAt, Except.ok.injEq] at h; subst h; rfl
  | cons p rest ih =>
    simp only [inputsAt, itemAt] at h
    cases hp : p.2[i]? with
    | none => rw [hp] at h; cases h
    | some v =>
      rw [hp] at h
      simp only [ok_bind] at h
      cases hr : inputsAt rest i with
      | error e => rw [hr] at h; cases h
      | ok r =>
        rw [hr] at h
        simp only [ok_bind, Except.ok.injEq] at h
        subst h
        funext k
        rw [Dict.get?_cons, valAt, Dict.get?_cons, ih hr]
        split
        · simp [hp]
        · rfl

omit [DecidableEq V] in
theorem inputsAt_total {seqs : Dict String (List V)} {i : Nat} (h : ∀ p ∈ seqs, i < p.2.length) :
    ∃ ins, inputsAt seqs i = .ok ins := by
  induction seqs with
  | nil => exact ⟨[], rfl⟩
  | cons p rest ih =>
    obtain ⟨r, hr⟩ := ih fun p hp => h p (by simp [hp])
    have := h p (by simp)
    exact ⟨(p.1, p.2[i]) :: r, by
      simp only [inputsAt, itemAt, List.getElem?_eq_getElem this, ok_bind, hr]⟩

omit [DecidableEq V] in
theorem appendOutputs_ok {out : Attr V} {outs outs' : Dict String (List V)}
    (h : appendOutputs out outs = .ok outs') :
    outs'.keys = outs.keys ∧ ∀ k, outs'.get? k = (outs.get? k).bind fun l =>
      (out.get? k).map fun v => l ++ [v] := by
  induction outs generalizing outs' with
  | nil => simp only [appendOutputs, Except.ok.injEq] at h; subst h; exact ⟨rfl, fun _ => rfl⟩
  | cons p rest ih =>
    simp only [appendOutputs] at h
    cases hp : out.get? p.1 with
    | none => rw [hp] at h; cases h
    | some v =>
      rw [hp] at h
      simp only at h
      cases hr : appendOutputs out rest with
      | error e => rw [hr] at h; cases h
      | ok r =>
        rw [hr] at h
        simp only [ok_bind, Except.ok.injEq] at h
        subst h
        obtain ⟨h1, h2⟩ := ih hr
        refine ⟨by simp only [Dict.keys, List.map_cons] at h1 ⊢; rw [h1], fun k => ?_⟩
        rw [Dict.get?_cons, Dict.get?_cons, h2]
        split
        · rename_i hk; subst hk; simp [hp]
        · rfl

omit [DecidableEq V] in
theorem appendOutputs_total {out : Attr V} {outs : Dict String (List V)}
    (h : ∀ k ∈ outs.keys, ∃ v, out.get? k = some v) : ∃ outs', appendOutputs out outs = .ok outs' := by
  induction outs with
  | nil => exact ⟨[], rfl⟩
  | cons p rest ih =>
    obtain ⟨r, hr⟩ := ih fun k hk => h k (by
      simp only [Dict.keys, List.map_cons, List.mem_cons]; exact .inr hk)
    obtain ⟨v, hv⟩ := h p.1 (by simp [Dict.keys])
    exact ⟨(p.1, p.2 ++ [v]) :: r, by simp only [appendOutputs, hv, hr, ok_bind]⟩

/-- The outputs that a run has produced: sequences of one length. -/
def AllLen (outs : Dict String (List V)) (n : Nat) : Prop := ∀ k l, outs.get? k = some l → l.length = n

theorem runLoop_sound (m : Machine ν V) (seqs : Dict String (List V)) (is : List Nat) (s : ν)
    (states : List ν) (outs : Dict String (List V)) (hlen : AllLen outs states.length)
    (hkeys : ∀ k, m.outputs.has k = outs.has k)
    {states' : List ν} {outs' : Dict String (List V)}
    (h : runLoop m seqs is s states outs = .ok (states', outs')) :
    ∃ ts, states' = states ++ ts ∧ ts.length = is.length ∧ outs'.keys = outs.keys ∧
      AllLen outs' states'.length ∧
      (∀ j < states.length, valAt outs' j = valAt outs j) ∧
      Exec m s (is.zipIdx.map fun p => (valAt seqs p.1, valAt outs' (states.length + p.2))) ts := by
  induction is generalizing s states outs with
  | nil =>
    simp only [runLoop, Except.ok.injEq, Prod.mk.injEq] at h
    obtain ⟨rfl, rfl⟩ := h
    exact ⟨[], by simp, rfl, rfl, hlen, fun _ _ => rfl, .nil _⟩
  | cons i is ih =>
    simp only [runLoop] at h
    cases hi : inputsAt seqs i with
    | error e => rw [hi] at h; cases h
    | ok ins =>
      rw [hi] at h
      simp only [ok_bind] at h
      cases hr : reaction m s ins with
      | error e => rw [hr] at h; cases h
      | ok r =>
        obtain ⟨t, o⟩ := r
        rw [hr] at h
        simp only [ok_bind] at h
        cases ha : appendOutputs o outs with
        | error e => rw [ha] at h; cases h
        | ok outs1 =>
          rw [ha] at h
          simp only [ok_bind] at h
          obtain ⟨k1, k2⟩ := appendOutputs_ok ha
          have hlen1 : AllLen outs1 (states ++ [t]).length := by
            intro k l hl
            rw [k2] at hl
            cases hk : outs.get? k with
            | none => rw [hk] at hl; cases hl
            | some l0 =>
              rw [hk] at hl
              simp only [Option.bind_some, Option.map_eq_some_iff] at hl
              obtain ⟨v, _, rfl⟩ := hl
              simp [hlen k l0 hk]
          have hkeys1 : ∀ k, m.outputs.has k = outs1.has k := by
            intro k
            rw [hkeys k, Bool.eq_iff_iff, ← mem_keys_iff_has, ← mem_keys_iff_has, k1]
          obtain ⟨ts, e1, e2, e3, e4, e5, e6⟩ := ih t (states ++ [t]) outs1 hlen1 hkeys1 h
          have hout : ∀ j, valAt outs1 j = if j < states.length then valAt outs j
              else if j = states.length then o.get? else fun _ => none := by
            intro j
            funext k
            simp only [valAt, k2]
            have hstep := reaction_step hr
            obtain ⟨a, _, _, ho⟩ := hstep
            cases hk : outs.get? k with
            | none =>
              have : o.get? k = none := by
                rw [ho, restrict, hkeys k, (Dict.has_false_iff outs k).2 hk]
                simp
              split
              · simp [valAt, hk]
              · split
                · simp [this]
                · rfl
            | some l0 =>
              have hl0 := hlen k l0 hk
              have hpk : ∃ v, o.get? k = some v := by
                have : k ∈ outs1.keys := by
                  rw [k1, Dict.mem_keys_iff]; exact ⟨l0, hk⟩
                obtain ⟨l1, h1⟩ := (Dict.mem_keys_iff _ _).1 this
                rw [k2, hk] at h1
                simp only [Option.bind_some, Option.map_eq_some_iff] at h1
                exact ⟨h1.choose, h1.choose_spec.1⟩
              obtain ⟨v, hv⟩ := hpk
              simp only [Option.bind_some, hv, Option.map_some]
              split
              · rename_i hj
                rw [List.getElem?_append_left (by omega)]
                simp [valAt, hk]
              · split
                · rename_i hj; subst hj
                  rw [← hl0]; simp [hv]
                · rw [List.getElem?_append_right (by omega)]
                  rw [List.getElem?_eq_none]
                  simp; omega
          refine ⟨t :: ts, by simp [e1], by simp [e2], e3.trans k1, by simpa [e1] using e4, ?_, ?_⟩
          · intro j hj
            rw [e5 j (by simp; omega), hout j, if_pos hj]
          · rw [List.zipIdx_cons, List.map_cons]
            refine .cons ?_ ?_
            · have := reaction_step hr
              rw [inputsAt_ok hi] at this
              simp only [Nat.zero_add, Nat.add_zero]
              rw [e5 states.length (by simp), hout, if_neg (by omega), if_pos rfl]
              exact this
            · rw [Nat.zero_add, List.zipIdx_succ, List.map_map]
              simpa [Function.comp_def, Nat.add_assoc, Nat.add_comm 1] using e6

/-- Where a run starts: the given state, or else the first initial state. -/
def StartsAt (m : Machine ν V) (fromState : Option ν) (s : ν) : Prop :=
  fromState = some s ∨ fromState = none ∧ m.graph.initial.head? = some s

/-- **C17.** A guided run that returns is an execution of the machine: it starts at the given state
(or the first initial state), there is a state and a value of every output for every position of the
input sequences, and consecutive states are transitions with these inputs and outputs. -/
theorem guidedRun_sound (m : Machine ν V) (fromState : Option ν) (seqs : Dict String (List V))
    {states : List ν} {outs : Dict String (List V)}
    (h : guidedRun m fromState seqs = .ok (states, outs)) :
    ∃ s n, StartsAt m fromState s ∧ (∀ p ∈ seqs, p.2.length = n) ∧ states.length = n ∧
      outs.keys = m.outputs.keys ∧ (∀ k l, outs.get? k = some l → l.length = n) ∧
      Exec m s ((List.range n).map fun i => (valAt seqs i, valAt outs i)) states := by
  simp only [guidedRun] at h
  split at h
  · cases h
  · split at h
    · cases h
    · rename_i hc
      split at h
      · cases h
      · rename_i s hs
        cases seqs with
        | nil => cases h
        | cons p rest =>
          simp only at h
          have hlen : ∀ q ∈ p :: rest, q.2.length = p.2.length := by
            intro q hq
            by_contra hne
            apply hc
            rw [List.any_eq_true]
            exact ⟨q, hq, List.any_eq_true.2 ⟨p, by simp, by simpa using hne⟩⟩
          have hempty : ∀ k l, Dict.get? (m.outputs.map fun q => (q.1, ([] : List V))) k = some l →
              l = [] := by
            intro k l hl
            have := mem_of_get? hl
            obtain ⟨q, _, hq⟩ := List.mem_map.1 this
            exact (Prod.mk.inj hq).2.symm
          obtain ⟨ts, e1, e2, e3, e4, _, e6⟩ := runLoop_sound m (p :: rest) (List.range p.2.length) s []
            (m.outputs.map fun q => (q.1, []))
            (fun k l hl => by rw [hempty k l hl]; rfl)
            (fun k => by simp [Dict.has, List.any_map, Function.comp_def]) h
          simp only [List.nil_append] at e1
          subst e1
          refine ⟨s, p.2.length, ?_, hlen, by simpa using e2, ?_, ?_, ?_⟩
          · cases fromState with
            | none => exact .inr ⟨rfl, by simpa using hs⟩
            | some x => simp only [Option.some_or, Option.some.injEq] at hs; exact .inl (by rw [hs])
          · rw [e3]; simp [Dict.keys, Function.comp_def]
          · intro k l hl; rw [e4 k l hl]; simpa using e2
          · have : ((List.range p.2.length).zipIdx.map fun q =>
                (valAt (p :: rest) q.1, valAt outs (([] : List ν).length + q.2))) =
                (List.range p.2.length).map fun i => (valAt (p :: rest) i, valAt outs i) := by
              apply List.ext_getElem
              · simp
              · intro j h1 h2
                simp
            rw [← this]
            exact e6

/-- Executions of a deterministic machine on the same inputs agree. -/
theorem exec_det {m : Machine ν V} (hd : Det m) {s : ν} {w w' : List (Val V × Val V)} {ts ts' : List ν}
    (h : Exec m s w ts) (h' : Exec m s w' ts') (hw : w.map (·.1) = w'.map (·.1)) :
    w = w' ∧ ts = ts' := by
  induction h generalizing w' ts' with
  | nil =>
    cases h' with
    | nil => exact ⟨rfl, rfl⟩
    | cons => simp at hw
  | cons hst _ ih =>
    cases h' with
    | nil => simp at hw
    | cons hst' he' =>
      simp only [List.map_cons, List.cons.injEq] at hw
      obtain ⟨a, h1, h2, h3⟩ := hst
      obtain ⟨b, k1, k2, k3⟩ := hst'
      have := hd _ h1 _ k1 rfl (by rw [← h2, ← k2, hw.1])
      simp only [Prod.mk.injEq, true_and] at this
      obtain ⟨rfl, rfl⟩ := this
      obtain ⟨e1, e2⟩ := ih he' hw.2
      rw [h2, h3, k2, k3, e1, e2]
      exact ⟨rfl, rfl⟩

/-- Every edge has a value for every output port. -/
def OutComplete (m : Machine ν V) : Prop :=
  ∀ e ∈ m.graph.edges, ∀ k, m.outputs.has k = true → ∃ v, e.2.2.get? k = some v

theorem runLoop_total {m : Machine ν V} (hm : m.graph.edges.Nodup) (hd : Det m) (ho : OutComplete m)
    {seqs : Dict String (List V)} (is : List Nat) (his : ∀ i ∈ is, ∀ p ∈ seqs, i < p.2.length)
    {s : ν} {w : List (Val V × Val V)} {ts : List ν} (h : Exec m s w ts)
    (hw : w.map (·.1) = is.map (valAt seqs)) (states : List ν) (outs : Dict String (List V))
    (hkeys : ∀ k ∈ outs.keys, m.outputs.has k = true) :
    ∃ r, runLoop m seqs is s states outs = .ok r := by
  induction is generalizing s w ts states outs with
  | nil => exact ⟨_, rfl⟩
  | cons i is ih =>
    cases h with
    | nil => simp at hw
    | @cons _ t iv o w' ts' hst he =>
      simp only [List.map_cons, List.cons.injEq] at hw
      obtain ⟨ins, hins⟩ := inputsAt_total fun p hp => his i (by simp) p hp
      obtain ⟨d, hr, hdo⟩ := step_reaction hm hd (ins := ins)
        (by rw [inputsAt_ok hins, ← hw.1]; exact hst)
      have hpres : ∀ k ∈ outs.keys, ∃ v, d.get? k = some v := by
        intro k hk
        obtain ⟨a, ha, _, hoa⟩ := hst
        obtain ⟨v, hv⟩ := ho _ ha k (hkeys k hk)
        exact ⟨v, by rw [hdo, hoa, restrict, if_pos (hkeys k hk)]; exact hv⟩
      obtain ⟨outs1, ho1⟩ := appendOutputs_total hpres
      obtain ⟨r, hr'⟩ := ih (fun i hi => his i (by simp [hi])) he hw.2 (states ++ [t]) outs1
        (by rw [(appendOutputs_ok ho1).1]; exact hkeys)
      exact ⟨r, by simp only [runLoop, hins, hr, ho1, ok_bind]; exact hr'⟩

/-- **C17.** For a deterministic machine whose edges define all outputs, and sequences of equal length
for its input ports, an execution on these inputs from the start state is what `guided_run` returns:
it does not raise, and the run is unique. -/
theorem guidedRun_complete {m : Machine ν V} (hm : m.graph.edges.Nodup) (hd : Det m)
    (ho : OutComplete m) (fromState : Option ν) (seqs : Dict String (List V)) {s : ν} {n : Nat}
    (hs : StartsAt m fromState s) (hports : ∀ k, m.inputs.has k = true → seqs.has k = true)
    (hne : seqs ≠ []) (hlen : ∀ p ∈ seqs, p.2.length = n)
    {w : List (Val V × Val V)} {ts : List ν} (h : Exec m s w ts)
    (hw : w.map (·.1) = (List.range n).map (valAt seqs)) :
    ∃ outs, guidedRun m fromState seqs = .ok (ts, outs) ∧
      w = (List.range n).map fun i => (valAt seqs i, valAt outs i) := by
  have hany : m.inputs.any (fun p => !seqs.has p.1) = false := by
    rw [List.any_eq_false]
    intro p hp
    have : m.inputs.has p.1 = true := by
      rw [← mem_keys_iff_has]; exact List.mem_map.2 ⟨p, hp, rfl⟩
    simp [hports p.1 this]
  have huni : (seqs.any fun p => seqs.any fun q => p.2.length != q.2.length) = false := by
    rw [List.any_eq_false]
    intro p hp
    rw [Bool.not_eq_true, List.any_eq_false]
    intro q hq
    simp [hlen p hp, hlen q hq]
  have hst : fromState.or m.graph.initial.head? = some s := by
    rcases hs with rfl | ⟨rfl, h⟩
    · rfl
    · simpa using h
  obtain ⟨r, hr⟩ := runLoop_total hm hd ho (List.range n)
    (fun i hi p hp => by rw [hlen p hp]; exact List.mem_range.1 hi) h hw []
    (m.outputs.map fun q => (q.1, []))
    (by
      intro k hk
      rw [← mem_keys_iff_has]
      simpa [Dict.keys, Function.comp_def] using hk)
  have hrun : guidedRun m fromState seqs = .ok r := by
    cases seqs with
    | nil => exact absurd rfl hne
    | cons p rest =>
      simp only [guidedRun, hany, huni, hst, Bool.false_eq_true, if_false]
      rw [hlen p (by simp)]
      exact hr
  obtain ⟨states, outs⟩ := r
  obtain ⟨s', n', k1, k2, k3, _, _, k6⟩ := guidedRun_sound m fromState seqs hrun
  have hs' : s' = s := by
    rcases hs with rfl | ⟨rfl, h⟩ <;> rcases k1 with k1 | ⟨k1, k1'⟩ <;> simp_all
  have hn' : n' = n := by
    cases seqs with
    | nil => exact absurd rfl hne
    | cons p rest => rw [← k2 p (by simp), hlen p (by simp)]
  subst hs' hn'
  obtain ⟨e1, e2⟩ := exec_det hd h k6 (by rw [hw]; simp [Function.comp_def])
  subst e2
  exact ⟨outs, hrun, e1⟩

/-- A machine is complete if it has an edge for every state and every valuation of its input ports. -/
def InComplete (m : Machine ν V) : Prop :=
  ∀ s, m.graph.hasNode s = true → ∀ i : Val V,
    (∀ k, (∃ v vs, m.inputs.get? k = some vs ∧ v ∈ vs ∧ i k = some v) ∨
      m.inputs.get? k = none ∧ i k = none) → ∃ o t, Step m s i o t

/-- **C17.** In a deterministic and complete machine `guided_run` never raises, for sequences of equal
length of values of the input ports. -/
theorem guidedRun_total {m : Machine ν V} (hm : m.graph.Ok) (hdef : m.graph.edgeDefaults = [])
    (hd : Det m) (ho : OutComplete m) (hc : InComplete m) (fromState : Option ν)
    (seqs : Dict String (List V)) {s : ν} {n : Nat} (hs : StartsAt m fromState s)
    (hnode : m.graph.hasNode s = true) (hne : seqs ≠ []) (hwf : seqs.Wf)
    (hports : ∀ k, m.inputs.has k = seqs.has k)
    (hvals : ∀ k l vs, seqs.get? k = some l → m.inputs.get? k = some vs → ∀ v ∈ l, v ∈ vs)
    (hlen : ∀ p ∈ seqs, p.2.length = n) :
    ∃ ts outs, guidedRun m fromState seqs = .ok (ts, outs) := by
  have hval : ∀ i < n, ∀ k, (∃ v vs, m.inputs.get? k = some vs ∧ v ∈ vs ∧ valAt seqs i k = some v) ∨
      m.inputs.get? k = none ∧ valAt seqs i k = none := by
    intro i hi k
    have hp := hports k
    rw [has_eq, has_eq] at hp
    cases hk : seqs.get? k with
    | none =>
      right
      rw [hk] at hp
      exact ⟨by simpa using hp, by simp [valAt, hk]⟩
    | some l =>
      left
      rw [hk] at hp
      obtain ⟨vs, hvs⟩ := Option.isSome_iff_exists.1 hp
      have hl : i < l.length := by rw [hlen (k, l) (mem_of_get? hk)]; exact hi
      exact ⟨l[i], vs, hvs, hvals k l vs hk hvs _ (List.getElem_mem hl), by simp [valAt, hk, hl]⟩
  have hex : ∀ (is : List Nat) (s : ν), m.graph.hasNode s = true → (∀ i ∈ is, i < n) →
      ∃ w ts, Exec m s w ts ∧ w.map (·.1) = is.map (valAt seqs) := by
    intro is
    induction is with
    | nil => exact fun s _ _ => ⟨[], [], .nil s, rfl⟩
    | cons i is ih =>
      intro s hs his
      obtain ⟨o, t, hst⟩ := hc s hs (valAt seqs i) (hval i (his i (by simp)))
      have ht : m.graph.hasNode t = true := by
        obtain ⟨a, ha, _⟩ := hst
        exact hm.target _ _ _ ha
      obtain ⟨w, ts, h1, h2⟩ := ih t ht fun i hi => his i (by simp [hi])
      exact ⟨(valAt seqs i, o) :: w, t :: ts, .cons hst h1, by simp [h2]⟩
  obtain ⟨w, ts, h1, h2⟩ := hex (List.range n) s hnode fun i hi => List.mem_range.1 hi
  obtain ⟨outs, h, _⟩ := guidedRun_complete (edges_nodup hm hdef) hd ho fromState seqs hs
    (fun k hk => by rw [← hports k]; exact hk) hne hlen h1 h2
  exact ⟨ts, outs, h⟩

/-- **C17.** Missing ports, sequences of different length, no sequences, and a machine without initial
states when no state is given. -/
theorem guidedRun_raises (m : Machine ν V) (fromState : Option ν) (seqs : Dict String (List V)) :
    ((∃ p ∈ m.inputs, seqs.has p.1 = false) → guidedRun m fromState seqs = .error .valueError) ∧
    ((∃ p ∈ seqs, ∃ q ∈ seqs, p.2.length ≠ q.2.length) →
      guidedRun m fromState seqs = .error .valueError) ∧
    (m.inputs = [] → seqs = [] → guidedRun m fromState seqs = .error .stopIteration) ∧
    ((∀ p ∈ m.inputs, seqs.has p.1 = true) → (∀ p ∈ seqs, ∀ q ∈ seqs, p.2.length = q.2.length) →
      m.graph.initial = [] → guidedRun m none seqs = .error .stopIteration) := by
  refine ⟨?_, ?_, ?_, ?_⟩
  · rintro ⟨p, hp, h⟩
    have : m.inputs.any (fun p => !seqs.has p.1) = true := List.any_eq_true.2 ⟨p, hp, by simp [h]⟩
    simp [guidedRun, this]
  · rintro ⟨p, hp, q, hq, h⟩
    have : (seqs.any fun p => seqs.any fun q => p.2.length != q.2.length) = true :=
      List.any_eq_true.2 ⟨p, hp, List.any_eq_true.2 ⟨q, hq, by simpa using h⟩⟩
    simp only [guidedRun, this, if_true, ite_self]
  · rintro h rfl
    simp only [guidedRun, h, List.any_nil, Bool.false_eq_true, if_false]
    split <;> rfl
  · intro h1 h2 h3
    have a1 : m.inputs.any (fun p => !seqs.has p.1) = false := by
      rw [List.any_eq_false]; intro p hp; simp [h1 p hp]
    have a2 : (seqs.any fun p => seqs.any fun q => p.2.length != q.2.length) = false := by
      rw [List.any_eq_false]
      intro p hp
      rw [Bool.not_eq_true, List.any_eq_false]
      intro q hq
      simp [h2 p hp q hq]
    simp only [guidedRun, a1, a2, Bool.false_eq_true, if_false, h3, List.head?_nil, Option.none_or]

/-! ### An example -/

/-- A machine that copies its input with a delay of one step. -/
def delay : Machine String Nat where
  graph := {
    edgeTypes := typesOf [("in", [0, 1]), ("out", [0, 1])]
    nodes := [("a", []), ("b", [])]
    initial := ["a"]
    edges := [("a", "a", [("in", 0), ("out", 0)]), ("a", "b", [("in", 1), ("out", 0)]),
      ("b", "a", [("in", 0), ("out", 1)]), ("b", "b", [("in", 1), ("out", 1)])] }
  inputs := [("in", [0, 1])]
  outputs := [("out", [0, 1])]

example : (guidedRun delay none [("in", [1, 1, 0])]).toOption =
    some (["b", "b", "a"], [("out", [0, 1, 1])]) := by decide +kernel

theorem restrict_ext_of_get? {ports : Ports V} {a b : Attr V}
    (h : restrict ports a = restrict ports b) (k : String) (hk : ports.has k = true) :
    a.get? k = b.get? k := by
  have := congrFun h k
  simpa [restrict, hk] using this

/-- The hypotheses of the theorems above are met. -/
theorem delay_ok : delay.graph.edges.Nodup ∧ Det delay ∧ OutComplete delay ∧ InComplete delay := by
  refine ⟨by decide +kernel, ?_, ?_, ?_⟩
  · intro e he f hf h1 h2
    have h3 := restrict_ext_of_get? h2 "in" (by decide +kernel)
    clear h2
    revert f e
    decide +kernel
  · intro e he k hk
    have hk' : k = "out" := by
      have := (mem_keys_iff_has (delay.outputs) k).2 hk
      simpa [delay, Dict.keys] using this
    subst hk'
    revert e
    have : ∀ e ∈ delay.graph.edges, (e.2.2.get? "out").isSome = true := by decide +kernel
    exact fun e he => Option.isSome_iff_exists.1 (this e he)
  · intro s hs i hi
    have hs' : s = "a" ∨ s = "b" := by
      have := (mem_keys_iff_has (delay.graph.nodes) s).2 hs
      simpa [delay, Dict.keys] using this
    have hin : i "in" = some 0 ∨ i "in" = some 1 := by
      rcases hi "in" with ⟨v, vs, h1, h2, h3⟩ | ⟨h, _⟩
      · have : delay.inputs.get? "in" = some [0, 1] := by decide +kernel
        rw [this] at h1
        cases h1
        rcases List.mem_cons.1 h2 with rfl | h2
        · exact .inl h3
        · rw [List.mem_singleton.1 h2] at h3; exact .inr h3
      · exact absurd h (by decide +kernel)
    have heq : ∀ a : Attr Nat, a.get? "in" = i "in" → i = restrict delay.inputs a := by
      intro a ha
      funext k
      by_cases hk : delay.inputs.has k = true
      · have hk' : k = "in" := by
          have := (mem_keys_iff_has (delay.inputs) k).2 hk
          simpa [delay, Dict.keys] using this
        subst hk'
        rw [restrict, if_pos hk, ha]
      · rw [restrict, if_neg hk]
        rcases hi k with ⟨v, vs, h1, _⟩ | ⟨_, h⟩
        · exact absurd ((Dict.has_iff _ _).2 ⟨vs, h1⟩) hk
        · exact h
    rcases hs' with rfl | rfl <;> rcases hin with h | h
    · exact ⟨_, "a", [("in", 0), ("out", 0)], by decide +kernel, heq _ (by rw [h]; rfl), rfl⟩
    · exact ⟨_, "b", [("in", 1), ("out", 0)], by decide +kernel, heq _ (by rw [h]; rfl), rfl⟩
    · exact ⟨_, "a", [("in", 0), ("out", 1)], by decide +kernel, heq _ (by rw [h]; rfl), rfl⟩
    · exact ⟨_, "b", [("in", 1), ("out", 1)], by decide +kernel, heq _ (by rw [h]; rfl), rfl⟩

end Mach
end Tulip
