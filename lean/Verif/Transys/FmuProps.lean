import Verif.Transys.Fmu
import Verif.Transys.MachineRunProps
import Mathlib.Tactic.Ring

/-!
# C136: the tables of an exported controller

The specification: paths of the machine, as lists of edges; and the arrays of integers that encode the
inputs of an edge: for each port, in the order of the ports, the place of the value among the values
of the port, up to multiples of their number.
-/

namespace Tulip
namespace Fmu

open Mach LGraph

variable {ν V : Type} [DecidableEq ν] [DecidableEq V]

/-- A path of the machine from `s`. -/
def Path (m : Machine ν V) : ν → List (ν × ν × Attr V) → Prop
  | _, [] => True
  | s, e :: es => e ∈ m.graph.edges ∧ e.1 = s ∧ Path m e.2.1 es

/-- The integers `xs` encode the values that the label `a` gives to the input ports. -/
def Encodes (inputs : Ports V) (a : Attr V) (xs : List Int) : Prop :=
  List.Forall₂ (fun p x => 0 ≤ x ∧ ∃ v, a.get? p.1 = some v ∧ p.2[x.toNat % p.2.length]? = some v) inputs xs

/-- The integers of `r` are the place of the state that `e` enters and the location that it outputs. -/
def Shows (toInt : V → Option Int) (m : Machine ν V) (e : ν × ν × Attr V) (r : Int × Int) : Prop :=
  (∃ i : Nat, r.1 = i ∧ m.graph.nodes.keys[i]? = some e.2.1) ∧
    ∃ v, e.2.2.get? "loc" = some v ∧ toInt v = some r.2

/-- What the export relies on: edges connect states, labels have a value for every input port, taken from
the values of the port, and an integer location. -/
structure Exportable (toInt : V → Option Int) (m : Machine ν V) : Prop where
  states : m.graph.nodes.keys.Nodup
  ends : ∀ e ∈ m.graph.edges, e.1 ∈ m.graph.nodes.keys ∧ e.2.1 ∈ m.graph.nodes.keys
  initial : ∀ s ∈ m.graph.initial, s ∈ m.graph.nodes.keys
  ports : ∀ p ∈ m.inputs, p.2.Nodup
  reads : ∀ e ∈ m.graph.edges, ∀ p ∈ m.inputs, ∃ v ∈ p.2, e.2.2.get? p.1 = some v
  loc : ∀ e ∈ m.graph.edges, ∃ v x, e.2.2.get? "loc" = some v ∧ toInt v = some x

/-! ## Codes -/

/-- The number with the given digits, the first digit being the least significant. -/
def mix : List Nat → List Nat → Nat
  | n :: ns, d :: ds => d + n * mix ns ds
  | _, _ => 0

/-- The digits of a label. -/
def Digits (a : Attr V) (inputs : Ports V) (ds : List Nat) : Prop :=
  List.Forall₂ (fun p d => ∃ v, a.get? p.1 = some v ∧ p.2.idxOf? v = some d) inputs ds

def lens (inputs : Ports V) : List Nat := inputs.map fun p => p.2.length

theorem input2numLoop_digits {a : Attr V} {inputs : Ports V} {ds : List Nat} (h : Digits a inputs ds) :
    ∀ r t, input2numLoop a r t inputs = .ok (r + t * mix (lens inputs) ds) := by
  induction h with
  | nil => intro r t; simp [input2numLoop, lens, mix]
  | @cons p d ps ds hp _ ih =>
    intro r t
    obtain ⟨v, hv, hd⟩ := hp
    obtain ⟨name, values⟩ := p
    simp only at hv hd
    simp only [input2numLoop, hv, indexOf, hd, ok_bind]
    rw [ih]
    simp only [lens, List.map_cons, mix]
    congr 1
    ring

theorem input2num_digits {a : Attr V} {inputs : Ports V} {ds : List Nat} (h : Digits a inputs ds) :
    input2num inputs a = .ok (mix (lens inputs) ds) := by
  simp [input2num, input2numLoop_digits h]

theorem idxOf?_lt {α : Type} [DecidableEq α] {l : List α} {x : α} {i : Nat} (h : l.idxOf? x = some i) :
    l[i]? = some x := by
  rw [List.idxOf?, List.findIdx?_eq_some_iff_getElem] at h
  obtain ⟨hi, h1, _⟩ := h
  rw [List.getElem?_eq_getElem hi]
  simpa using h1

theorem idxOf?_of_mem {α : Type} [DecidableEq α] {l : List α} {x : α} (h : x ∈ l) :
    ∃ i, l.idxOf? x = some i := by
  cases e : l.idxOf? x with
  | some i => exact ⟨i, rfl⟩
  | none =>
    rw [List.idxOf?, List.findIdx?_eq_none_iff] at e
    have := e x h
    simp at this

theorem nodup_inj {α : Type} {l : List α} (hl : l.Nodup) {i j : Nat} (hi : i < l.length)
    (h : l[i]? = l[j]?) : i = j := (List.getElem?_inj hi hl).1 h

theorem idxOf?_of_getElem? {α : Type} [DecidableEq α] {l : List α} (hl : l.Nodup) {x : α} {i : Nat}
    (h : l[i]? = some x) : l.idxOf? x = some i := by
  obtain ⟨j, hj⟩ := idxOf?_of_mem (List.mem_of_getElem? h)
  have := idxOf?_lt hj
  have hi : i < l.length := by
    by_contra hc; rw [List.getElem?_eq_none (by omega)] at h; simp at h
  have := nodup_inj hl hi (h.trans this.symm)
  rw [hj, this]

theorem Digits.lt {a : Attr V} {inputs : Ports V} {ds : List Nat} (h : Digits a inputs ds) :
    List.Forall₂ (fun n d => d < n) (lens inputs) ds := by
  induction h with
  | nil => exact .nil
  | @cons p d ps ds hp _ ih =>
    obtain ⟨v, _, hd⟩ := hp
    refine .cons ?_ ih
    have := idxOf?_lt hd
    show d < p.2.length
    by_contra hc; rw [List.getElem?_eq_none (by omega)] at this; simp at this

theorem foldl_mul (l : List Nat) : ∀ c, l.foldl (· * ·) c = c * l.prod := by
  induction l with
  | nil => simp
  | cons x l ih => intro c; simp [ih, mul_assoc]

theorem mix_lt {ns ds : List Nat} (h : List.Forall₂ (fun n d => d < n) ns ds) : mix ns ds < ns.prod := by
  induction h with
  | nil => simp [mix]
  | @cons n d ns ds hd _ ih =>
    simp only [mix, List.prod_cons]
    have : n * (mix ns ds + 1) ≤ n * ns.prod := Nat.mul_le_mul_left n ih
    rw [Nat.mul_add] at this
    omega

theorem mix_inj {ns ds es : List Nat} (h : List.Forall₂ (fun n d => d < n) ns ds)
    (h' : List.Forall₂ (fun n d => d < n) ns es) (e : mix ns ds = mix ns es) : ds = es := by
  induction h generalizing es with
  | nil => cases h'; rfl
  | @cons n d ns ds hd _ ih =>
    cases h' with
    | @cons _ d' _ ds' hd' h'' =>
      simp only [mix] at e
      have e1 : d = d' := by
        have := congrArg (· % n) e
        simpa [Nat.add_mul_mod_self_left, Nat.mod_eq_of_lt hd, Nat.mod_eq_of_lt hd'] using this
      subst e1
      have : mix ns ds = mix ns ds' := by
        have hn : 0 < n := by omega
        exact Nat.eq_of_mul_eq_mul_left hn (by omega)
      rw [ih h'' this]

theorem Digits.values {a b : Attr V} {inputs : Ports V} {ds : List Nat} (h : Digits a inputs ds)
    (h' : Digits b inputs ds) : ∀ p ∈ inputs, a.get? p.1 = b.get? p.1 := by
  induction h with
  | nil => simp
  | @cons p d ps ds hp _ ih =>
    cases h' with
    | cons hq h'' =>
      obtain ⟨v, hv, hd⟩ := hp
      obtain ⟨w, hw, hd'⟩ := hq
      intro q hq
      rcases List.mem_cons.1 hq with rfl | hq
      · have := (idxOf?_lt hd).symm.trans (idxOf?_lt hd')
        rw [hv, hw, this]
      · exact ih h'' q hq

theorem restrict_eq_of {inputs : Ports V} {a b : Attr V} (h : ∀ p ∈ inputs, a.get? p.1 = b.get? p.1) :
    restrict inputs a = restrict inputs b := by
  funext k
  simp only [restrict]
  split
  · rename_i hk
    obtain ⟨p, hp, e⟩ := List.any_eq_true.1 hk
    rw [beq_iff_eq] at e
    rw [← e]
    exact h p hp
  · rfl

theorem digits_of {a : Attr V} {inputs : Ports V} (h : ∀ p ∈ inputs, ∃ v ∈ p.2, a.get? p.1 = some v) :
    ∃ ds, Digits a inputs ds := by
  induction inputs with
  | nil => exact ⟨[], .nil⟩
  | cons p ps ih =>
    obtain ⟨ds, hds⟩ := ih fun q hq => h q (List.mem_cons_of_mem _ hq)
    obtain ⟨v, hv, e⟩ := h p List.mem_cons_self
    obtain ⟨i, hi⟩ := idxOf?_of_mem hv
    exact ⟨i :: ds, .cons ⟨v, e, hi⟩ hds⟩

/-- The digits of an encoded label are the remainders of the integers. -/
theorem Encodes.digits {a : Attr V} {inputs : Ports V} {xs : List Int} (hn : ∀ p ∈ inputs, p.2.Nodup)
    (h : Encodes inputs a xs) : ∃ ds, Digits a inputs ds ∧
      ∀ r t : Int, value2indexLoop r t (lens inputs) xs = some (r + t * (mix (lens inputs) ds : Nat)) := by
  induction h with
  | nil => exact ⟨[], .nil, fun r t => by simp [value2indexLoop, lens, mix]⟩
  | @cons p x ps xs hp _ ih =>
    obtain ⟨ds, hds, hv⟩ := ih fun q hq => hn q (List.mem_cons_of_mem _ hq)
    obtain ⟨hx, v, h1, h2⟩ := hp
    refine ⟨(x.toNat % p.2.length) :: ds,
      .cons ⟨v, h1, idxOf?_of_getElem? (hn p List.mem_cons_self) h2⟩ hds, fun r t => ?_⟩
    have h0 : p.2.length ≠ 0 := by
      intro e
      rw [List.length_eq_zero_iff] at e
      rw [e] at h2; simp at h2
    obtain ⟨y, rfl⟩ := Int.eq_ofNat_of_zero_le hx
    simp only [lens, List.map_cons, value2indexLoop, if_neg h0, mix]
    have := hv (r + (y : Int).tmod p.2.length * t) (t * p.2.length)
    rw [lens] at this
    rw [this]
    congr 1
    rw [← Int.ofNat_tmod]
    push_cast
    simp only [Int.toNat_natCast]
    ring

/-! ## Tables -/

/-- An entry of a table. -/
def entry (t : List (List Int)) (i j : Nat) : Option Int := (t[i]?).bind fun row => row[j]?

theorem read_natCast (t : List (List Int)) (i j : Nat) : read t (i : Int) (j : Int) = entry t i j := by
  simp [read, entry]

/-- A table of `n` rows of `k` entries. -/
def Shape (n k : Nat) (t : List (List Int)) : Prop := t.length = n ∧ ∀ row ∈ t, row.length = k

theorem shape_zeros (n k : Nat) : Shape n k (zeros n k) := by
  refine ⟨by simp [zeros], fun row h => ?_⟩
  rw [zeros, List.mem_replicate] at h
  rw [h.2]; simp

theorem entry_zeros {n k i j : Nat} (hi : i < n) (hj : j < k) : entry (zeros n k) i j = some 0 := by
  simp [entry, zeros, hi, hj]

theorem put_ok {n k i j : Nat} {t : List (List Int)} (h : Shape n k t) (hi : i < n) (hj : j < k) (x : Int) :
    ∃ t', put t i j x = .ok t' ∧ Shape n k t' ∧
      ∀ i' j', entry t' i' j' = if i' = i ∧ j' = j then some x else entry t i' j' := by
  have hi' : i < t.length := h.1 ▸ hi
  have hrow : (t[i]).length = k := h.2 _ (List.getElem_mem hi')
  refine ⟨t.set i ((t[i]).set j x), ?_, ⟨by rw [List.length_set]; exact h.1, ?_⟩, ?_⟩
  · simp only [put, List.getElem?_eq_getElem hi', hrow, hj, if_true]
  · intro row hr
    rcases List.mem_or_eq_of_mem_set hr with hr | rfl
    · exact h.2 _ hr
    · rw [List.length_set]; exact hrow
  · intro i' j'
    simp only [entry, List.getElem?_set]
    by_cases h1 : i = i'
    · subst h1
      simp only [true_and, hi', if_true, Option.bind_some, List.getElem?_set, List.getElem?_eq_getElem hi']
      by_cases h2 : j = j'
      · subst h2
        simp [hrow, hj]
      · rw [if_neg h2, if_neg (fun e => h2 e.symm)]
    · rw [if_neg h1, if_neg (fun e => h1 e.1.symm)]

/-- The edge writes to row `i` and column `j`. -/
def Cell (m : Machine ν V) (e : ν × ν × Attr V) (i j : Nat) : Prop :=
  m.graph.nodes.keys[i]? = some e.1 ∧ input2num m.inputs e.2.2 = .ok j

/-- What the tables contain after the given edges. -/
structure Filled (toInt : V → Option Int) (m : Machine ν V) (n k : Nat) (done : List (ν × ν × Attr V))
    (t : List (List Int) × List (List Int)) : Prop where
  shape1 : Shape n k t.1
  shape2 : Shape n k t.2
  cell : ∀ i j, i < n → j < k →
    ((∀ e ∈ done, ¬ Cell m e i j) ∧ entry t.1 i j = some 0 ∧ entry t.2 i j = some 0) ∨
    ∃ e ∈ done, Cell m e i j ∧ ∃ x y, entry t.1 i j = some x ∧ entry t.2 i j = some y ∧ Shows toInt m e (x, y)

theorem exportEdge_filled {toInt : V → Option Int} {m : Machine ν V} (ok : Exportable toInt m)
    {done : List (ν × ν × Attr V)} {t : List (List Int) × List (List Int)}
    (h : Filled toInt m m.graph.nodes.keys.length (lens m.inputs).prod done t)
    {e : ν × ν × Attr V} (he : e ∈ m.graph.edges) {index : Nat} (hi : m.graph.nodes.keys[index]? = some e.1) :
    ∃ t', exportEdge toInt m.inputs m.graph.nodes.keys index t e = .ok t' ∧
      Filled toInt m m.graph.nodes.keys.length (lens m.inputs).prod (done ++ [e]) t' := by
  obtain ⟨ds, hds⟩ := digits_of (ok.reads e he)
  have hcode := input2num_digits hds
  have hlt := mix_lt hds.lt
  obtain ⟨q, hq⟩ := idxOf?_of_mem (ok.ends e he).2
  obtain ⟨v, x, hv, hx⟩ := ok.loc e he
  have hin : index < m.graph.nodes.keys.length := by
    by_contra hc; rw [List.getElem?_eq_none (by omega)] at hi; simp at hi
  obtain ⟨t1, e1, s1, g1⟩ := put_ok h.shape1 hin hlt (q : Int)
  obtain ⟨t2, e2, s2, g2⟩ := put_ok h.shape2 hin hlt x
  refine ⟨(t1, t2), ?_, s1, s2, ?_⟩
  · simp only [exportEdge, hcode, ok_bind, indexOf, hq, e1, hv, hx, e2]
  · intro i j hi' hj'
    by_cases hc : i = index ∧ j = mix (lens m.inputs) ds
    · obtain ⟨rfl, rfl⟩ := hc
      refine .inr ⟨e, by simp, ⟨hi, hcode⟩, (q : Int), x, by rw [g1]; simp, by rw [g2]; simp,
        ⟨q, rfl, idxOf?_lt hq⟩, v, hv, hx⟩
    · simp only [g1, g2, if_neg hc]
      rcases h.cell i j hi' hj' with ⟨h1, h2⟩ | ⟨f, hf, h1⟩
      · refine .inl ⟨fun f hf => ?_, h2⟩
        rcases List.mem_append.1 hf with hf | hf
        · exact h1 f hf
        · rw [List.mem_singleton] at hf
          subst hf
          rintro ⟨k1, k2⟩
          apply hc
          have := nodup_inj ok.states hi' (k1.trans hi.symm)
          rw [hcode] at k2
          exact ⟨this, (by injection k2 with k2; exact k2.symm)⟩
      · exact .inr ⟨f, List.mem_append_left _ hf, h1⟩

theorem exportEdges_filled {toInt : V → Option Int} {m : Machine ν V} (ok : Exportable toInt m) {s : ν} {index : Nat}
    (hi : m.graph.nodes.keys[index]? = some s) (es : List (ν × ν × Attr V))
    (hes : ∀ e ∈ es, e ∈ m.graph.edges ∧ e.1 = s) (done : List (ν × ν × Attr V))
    (t : List (List Int) × List (List Int))
    (h : Filled toInt m m.graph.nodes.keys.length (lens m.inputs).prod done t) :
    ∃ t', es.foldlM (exportEdge toInt m.inputs m.graph.nodes.keys index) t = .ok t' ∧
      Filled toInt m m.graph.nodes.keys.length (lens m.inputs).prod (done ++ es) t' := by
  induction es generalizing done t with
  | nil => exact ⟨t, rfl, by simpa using h⟩
  | cons e es ih =>
    obtain ⟨he, hs⟩ := hes e List.mem_cons_self
    obtain ⟨t1, h1, h2⟩ := exportEdge_filled ok h he (hs ▸ hi)
    obtain ⟨t2, h3, h4⟩ := ih (fun f hf => hes f (List.mem_cons_of_mem _ hf)) _ _ h2
    refine ⟨t2, by rw [List.foldlM_cons, h1, ok_bind, h3], by simpa using h4⟩

theorem exportStates_filled {toInt : V → Option Int} {m : Machine ν V} (ok : Exportable toInt m) (ss : List ν)
    (hss : ∀ s ∈ ss, s ∈ m.graph.nodes.keys) (done : List (ν × ν × Attr V))
    (t : List (List Int) × List (List Int))
    (h : Filled toInt m m.graph.nodes.keys.length (lens m.inputs).prod done t) :
    ∃ t', ss.foldlM (exportState toInt m m.graph.nodes.keys) t = .ok t' ∧
      Filled toInt m m.graph.nodes.keys.length (lens m.inputs).prod (done ++ ss.flatMap (out m.graph)) t' := by
  induction ss generalizing done t with
  | nil => exact ⟨t, rfl, by simpa using h⟩
  | cons s ss ih =>
    obtain ⟨i, hi⟩ := idxOf?_of_mem (hss s List.mem_cons_self)
    obtain ⟨t1, h1, h2⟩ := exportEdges_filled ok (idxOf?_lt hi) (out m.graph s)
      (fun e he => by simpa [out] using he) done t h
    obtain ⟨t2, h3, h4⟩ := ih (fun f hf => hss f (List.mem_cons_of_mem _ hf)) _ _ h2
    refine ⟨t2, ?_, by simpa using h4⟩
    rw [List.foldlM_cons, exportState, indexOf, hi]
    simp only [ok_bind]
    rw [h1, ok_bind, h3]

theorem mealyexport_filled {toInt : V → Option Int} {m : Machine ν V} (ok : Exportable toInt m) {pick : Nat} {s0 : ν}
    (h0 : m.graph.initial[pick]? = some s0) :
    ∃ tab, mealyexport toInt m pick = .ok (tab, { m with graph := { m.graph with
        initial := m.graph.initial.eraseIdx pick } }) ∧
      tab.nInputValue = lens m.inputs ∧ m.graph.nodes.keys[tab.initState]? = some s0 ∧
      Filled toInt m m.graph.nodes.keys.length (lens m.inputs).prod m.graph.edges (tab.transition, tab.output) := by
  obtain ⟨i, hi⟩ := idxOf?_of_mem (ok.initial s0 (List.mem_of_getElem? h0))
  obtain ⟨t, h1, h2⟩ := exportStates_filled ok m.graph.nodes.keys (fun _ h => h) []
    (zeros m.graph.nodes.keys.length (lens m.inputs).prod, zeros m.graph.nodes.keys.length (lens m.inputs).prod)
    ⟨shape_zeros _ _, shape_zeros _ _, fun i j hi hj =>
      .inl ⟨by simp, entry_zeros hi hj, entry_zeros hi hj⟩⟩
  have hmem : ∀ e, e ∈ [] ++ m.graph.nodes.keys.flatMap (out m.graph) ↔ e ∈ m.graph.edges := by
    intro e
    rw [List.nil_append]
    constructor
    · intro h
      obtain ⟨s, _, h⟩ := List.mem_flatMap.1 h
      exact (List.mem_filter.1 h).1
    · intro h
      exact List.mem_flatMap.2 ⟨e.1, (ok.ends e h).1, List.mem_filter.2 ⟨h, by simp⟩⟩
  refine ⟨⟨lens m.inputs, i, t.1, t.2⟩, ?_, rfl, idxOf?_lt hi, h2.shape1, h2.shape2, fun i j hi hj => ?_⟩
  · have hp : (m.inputs.map fun p => p.2.length).foldl (· * ·) 1 = (lens m.inputs).prod := by
      rw [foldl_mul, one_mul]; rfl
    simp only [mealyexport, h0, indexOf, hi, ok_bind, hp, h1]
    rfl
  · rcases h2.cell i j hi hj with ⟨h3, h4⟩ | ⟨e, he, h3⟩
    · exact .inl ⟨fun e he => h3 e ((hmem e).2 he), h4⟩
    · exact .inr ⟨e, (hmem e).1 he, h3⟩

/-! ## The theorems -/

/-- One call of `fsm_transition`: the edge of the machine that reads the input, if there is one. -/
theorem fsm_step {toInt : V → Option Int} {m : Machine ν V} (ok : Exportable toInt m) {tab : Tables}
    (hn : tab.nInputValue = lens m.inputs)
    (ht : Filled toInt m m.graph.nodes.keys.length (lens m.inputs).prod m.graph.edges (tab.transition, tab.output))
    {s : ν} {i : Nat} (hi : m.graph.nodes.keys[i]? = some s) {a : Attr V} {xs : List Int}
    (hx : Encodes m.inputs a xs) :
    ((∀ e ∈ m.graph.edges, e.1 = s → ∃ p ∈ m.inputs, e.2.2.get? p.1 ≠ a.get? p.1) ∧
      fsmTransition tab i xs = some (0, 0)) ∨
    ∃ e ∈ m.graph.edges, e.1 = s ∧ (∀ p ∈ m.inputs, e.2.2.get? p.1 = a.get? p.1) ∧
      ∃ r, fsmTransition tab i xs = some r ∧ Shows toInt m e r := by
  obtain ⟨ds, hds, hv⟩ := hx.digits ok.ports
  have hin : i < m.graph.nodes.keys.length := by
    by_contra hc; rw [List.getElem?_eq_none (by omega)] at hi; simp at hi
  have hidx : value2index tab xs = some ((mix (lens m.inputs) ds : Nat) : Int) := by
    rw [value2index, hn, hv]; simp
  rcases ht.cell i _ hin (mix_lt hds.lt) with ⟨h1, h2, h3⟩ | ⟨e, he, ⟨k1, k2⟩, x, y, h2, h3, hs⟩
  · refine .inl ⟨fun e he hes => ?_, ?_⟩
    · by_contra hc
      push Not at hc
      apply h1 e he
      refine ⟨by rw [hes]; exact hi, ?_⟩
      obtain ⟨es, hes⟩ := digits_of (ok.reads e he)
      have : Digits e.2.2 m.inputs ds := by
        refine List.Forall₂.imp ?_ ((List.forall₂_and_left _ _).2 ⟨fun p hp => hp, hds⟩)
        rintro p d ⟨hp, v, hv, hd⟩
        exact ⟨v, by rw [hc p hp]; exact hv, hd⟩
      exact input2num_digits this
    · simp only [fsmTransition, hidx, Option.bind_eq_bind, Option.bind_some, read_natCast, h2, h3]
  · refine .inr ⟨e, he, ?_, ?_, (x, y), ?_, hs⟩
    · rw [hi] at k1; injection k1 with k1; exact k1.symm
    · obtain ⟨es, hes⟩ := digits_of (ok.reads e he)
      rw [input2num_digits hes] at k2
      injection k2 with k2
      have := mix_inj hes.lt hds.lt k2
      subst this
      exact hes.values hds
    · simp only [fsmTransition, hidx, Option.bind_eq_bind, Option.bind_some, read_natCast, h2, h3]

theorem fsmRun_path {toInt : V → Option Int} {m : Machine ν V} (ok : Exportable toInt m) (hd : Det m) {tab : Tables}
    (hn : tab.nInputValue = lens m.inputs)
    (ht : Filled toInt m m.graph.nodes.keys.length (lens m.inputs).prod m.graph.edges (tab.transition, tab.output))
    (es : List (ν × ν × Attr V)) : ∀ {s : ν} {i : Nat}, m.graph.nodes.keys[i]? = some s → Path m s es →
    ∀ xss, List.Forall₂ (fun e xs => Encodes m.inputs e.2.2 xs) es xss →
    ∃ rs, fsmRun tab (i : Int) xss = some rs ∧ List.Forall₂ (Shows toInt m) es rs := by
  induction es with
  | nil =>
    intro s i hi _ xss h
    cases h
    exact ⟨[], rfl, .nil⟩
  | cons e es ih =>
    intro s i hi hp xss h
    cases h with
    | @cons _ xs _ xss hx h =>
      obtain ⟨he, hs, hp⟩ := hp
      rcases fsm_step ok hn ht hi hx with ⟨h1, _⟩ | ⟨f, hf, hfs, hv, r, hr, hsh⟩
      · obtain ⟨p, _, hne⟩ := h1 e he hs
        exact absurd rfl hne
      · have := hd f hf e he (hfs.trans hs.symm) (restrict_eq_of hv)
        subst this
        obtain ⟨j, hj, hj'⟩ := hsh.1
        obtain ⟨rs, hrs, hall⟩ := ih hj' hp xss h
        refine ⟨r :: rs, ?_, .cons hsh hall⟩
        simp only [fsmRun, hr, Option.bind_eq_bind, Option.bind_some, hj, hrs]

/-- **C136.** The export of a deterministic controller returns, and the C functions on its tables follow
every path of the controller from the exported initial state: fed with integers that encode the inputs
of the edges, the calls of `fsm_transition` return the locations that the edges output and enter the
states that the edges enter. -/
theorem mealyexport_simulates {toInt : V → Option Int} {m : Machine ν V} (ok : Exportable toInt m) (hd : Det m)
    {pick : Nat} {s0 : ν} (h0 : m.graph.initial[pick]? = some s0) :
    ∃ tab m', mealyexport toInt m pick = .ok (tab, m') ∧
      ∀ es, Path m s0 es → ∀ xss, List.Forall₂ (fun e xs => Encodes m.inputs e.2.2 xs) es xss →
      ∃ rs, fsmRun tab (initFsm tab) xss = some rs ∧ List.Forall₂ (Shows toInt m) es rs := by
  obtain ⟨tab, h1, h2, h3, h4⟩ := mealyexport_filled ok h0
  exact ⟨tab, _, h1, fun es hp xss hx => fsmRun_path ok hd h2 h4 es h3 hp xss hx⟩

/-- **C136.** Where the controller has no edge for an input, `fsm_transition` does not fail: it returns
location 0 and enters the first state. -/
theorem fsm_undefined {toInt : V → Option Int} {m : Machine ν V} (ok : Exportable toInt m)
    {pick : Nat} {s0 : ν} (h0 : m.graph.initial[pick]? = some s0) :
    ∃ tab m', mealyexport toInt m pick = .ok (tab, m') ∧
      ∀ (s : ν) (i : Nat) (a : Attr V) (xs : List Int), m.graph.nodes.keys[i]? = some s → Encodes m.inputs a xs →
      (∀ e ∈ m.graph.edges, e.1 = s → ∃ p ∈ m.inputs, e.2.2.get? p.1 ≠ a.get? p.1) →
      fsmTransition tab (i : Int) xs = some (0, 0) := by
  obtain ⟨tab, h1, h2, _, h4⟩ := mealyexport_filled ok h0
  refine ⟨tab, _, h1, fun s i a xs hi hx hno => ?_⟩
  rcases fsm_step ok h2 h4 hi hx with ⟨_, h⟩ | ⟨e, he, hs, hv, _⟩
  · exact h
  · obtain ⟨p, hp, hne⟩ := hno e he hs
    exact absurd (hv p hp) hne

/-- **C136.** The export removes the initial state from the controller, and changes nothing else: after
the export of a controller with one initial state, a second export raises `KeyError`. -/
theorem mealyexport_twice {toInt : V → Option Int} {m m' : Machine ν V} {pick : Nat} {tab : Tables}
    (h : mealyexport toInt m pick = .ok (tab, m')) :
    m' = { m with graph := { m.graph with initial := m.graph.initial.eraseIdx pick } } ∧
      (m.graph.initial.length = 1 → ∀ pick', mealyexport toInt m' pick' = .error .keyError) := by
  have e : m' = { m with graph := { m.graph with initial := m.graph.initial.eraseIdx pick } } ∧
      pick < m.graph.initial.length := by
    simp only [mealyexport] at h
    split at h
    · cases h
    · rename_i s0 hs
      have hp : pick < m.graph.initial.length := by
        by_contra hc; rw [List.getElem?_eq_none (by omega)] at hs; simp at hs
      refine ⟨?_, hp⟩
      cases h1 : indexOf m.graph.nodes.keys s0 with
      | error e => rw [h1] at h; simp only [error_bind] at h; cases h
      | ok i =>
        rw [h1] at h
        simp only [ok_bind] at h
        generalize hX : List.foldlM (exportState toInt m m.graph.nodes.keys) _ _ = X at h
        cases X with
        | error e => simp only [error_bind] at h; cases h
        | ok t =>
          simp only [ok_bind] at h
          injection h with h
          exact (congrArg Prod.snd h).symm
  refine ⟨e.1, fun h1 pick' => ?_⟩
  have : m'.graph.initial = [] := by
    rw [e.1]
    have hp := e.2
    apply List.length_eq_zero_iff.1
    simp only [List.length_eraseIdx]
    rw [if_pos hp]; omega
  simp [mealyexport, this]

/-! ### An example -/

/-- A controller with two input ports; it moves between two locations, and does not move when the
battery is low. It has no edge for a low battery at the second location. -/
def patrol : Machine String Nat where
  graph := {
    nodes := [("a", []), ("b", [])]
    initial := ["b"]
    edges := [("a", "b", [("go", 1), ("low", 0), ("loc", 7)]), ("a", "a", [("go", 0), ("low", 0), ("loc", 5)]),
      ("a", "a", [("go", 0), ("low", 2), ("loc", 5)]), ("a", "a", [("go", 1), ("low", 2), ("loc", 5)]),
      ("b", "a", [("go", 1), ("low", 0), ("loc", 5)]), ("b", "b", [("go", 0), ("low", 0), ("loc", 7)])] }
  inputs := [("go", [0, 1]), ("low", [2, 0])]
  outputs := [("loc", [5, 7])]

def patrolTables : Option Tables := (mealyexport (fun n : Nat => some (n : Int)) patrol 0).toOption.map (·.1)

theorem patrol_ok : Exportable (fun n : Nat => some (n : Int)) patrol ∧ Det patrol ∧
    patrol.graph.initial[0]? = some "b" := by
  refine ⟨⟨by decide +kernel, by decide +kernel, by decide +kernel, by decide +kernel, ?_, ?_⟩, ?_, by decide +kernel⟩
  · have : ∀ e ∈ patrol.graph.edges, ∀ p ∈ patrol.inputs, (p.2.any fun v => decide (e.2.2.get? p.1 = some v)) = true := by
      decide +kernel
    intro e he p hp
    obtain ⟨v, hv, h⟩ := List.any_eq_true.1 (this e he p hp)
    exact ⟨v, hv, by simpa using h⟩
  · have : ∀ e ∈ patrol.graph.edges, (e.2.2.get? "loc").isSome = true := by decide +kernel
    intro e he
    obtain ⟨v, hv⟩ := Option.isSome_iff_exists.1 (this e he)
    exact ⟨v, v, hv, rfl⟩
  · intro e he f hf h1 h2
    have h3 := restrict_ext_of_get? h2 "go" (by decide +kernel)
    have h4 := restrict_ext_of_get? h2 "low" (by decide +kernel)
    clear h2
    revert f e
    decide +kernel

example : patrolTables.map (fun t => (t.nInputValue, t.initState, t.transition, t.output)) =
    some ([2, 2], 1, [[0, 0, 0, 1], [0, 0, 1, 0]], [[5, 5, 5, 7], [0, 0, 7, 5]]) := by decide +kernel

/-- Moving, moving back and staying; the input 3 of the first port counts as 1. -/
example : patrolTables.bind (fun t => fsmRun t (initFsm t) [[3, 1], [1, 1], [0, 1]]) =
    some [(0, 5), (1, 7), (1, 7)] := by decide +kernel

/-- **C136.** A low battery at the second location, for which the controller has no edge, takes the C
functions to the first state, with a location that is not a value of the output port. -/
theorem fsm_undefined_counterexample :
    patrolTables.bind (fun t => fsmRun t (initFsm t) [[1, 0]]) = some [(0, 0)] ∧
      patrol.outputs.get? "loc" = some [5, 7] ∧
      (reaction patrol "b" [("go", 1), ("low", 2)]).toOption = none := by decide +kernel

end Fmu
end Tulip
