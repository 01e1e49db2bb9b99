import Verif.Transys.MathFuncJson
import Verif.Transys.MathFuncProps
import Mathlib.Data.List.Induction

/-!
# C123: the file that a function on labeled states saves, and constructors with single keys
-/

namespace Tulip
namespace MathFunc
variable {V : Type} [DecidableEq V]

/-! ## Specification -/

/-- The elements of a list, each once, in the order in which they come first. -/
def firsts {α} [DecidableEq α] : List α → List α
  | [] => []
  | a :: l => a :: (firsts l).filter (fun b => decide (b ≠ a))

/-- The outputs and labels of the last accepted call at `x`. -/
def lastCall (iks oks : List String) (calls : List (List V × List V × List V)) (x : List V) :
    Option (List V × List V) :=
  ((calls.filter fun c => Accepted iks oks c && decide (c.1 = x)).getLast?).map (·.2)

/-- The object for the input `x` with outputs `y`: the state, the labels, the other inputs by name,
the outputs by name. -/
def object (iks oks : List String) (x y : List V) (labels : Cell V) : Dict String (Cell V) :=
  ((iks.zip x).filter (fun p => decide (p.1 = "state"))).map (fun p => (p.1, Cell.val p.2)) ++
  [("labels", labels)] ++
  ((iks.zip x).filter (fun p => decide (p.1 ≠ "state"))).map (fun p => (p.1, Cell.val p.2)) ++
  (oks.zip y).map (fun p => (p.1, Cell.val p.2))

/-- The state in the input `x`. -/
def stateOf (iks : List String) (x : List V) : Option V :=
  ((iks.zip x).find? fun p => decide (p.1 = "state")).map (·.2)

/-- The labels that are saved for the input `x`: those of the last call, or, when a transition system
is given, the propositions of the state. -/
def labelsFor (ts : Option (V → Cell V)) (iks : List String) (x labels : List V) : Cell V :=
  match ts, stateOf iks x with
  | some ap, some s => ap s
  | _, _ => .list labels

/-- The objects to be saved: one for each input of an accepted call, in the order in which the inputs
came first. -/
def objects (ts : Option (V → Cell V)) (iks oks : List String)
    (calls : List (List V × List V × List V)) : List (Dict String (Cell V)) :=
  (firsts ((calls.filter (Accepted iks oks)).map (·.1))).filterMap fun x =>
    (lastCall iks oks calls x).map fun yl => object iks oks x yl.1 (labelsFor ts iks x yl.2)

/-! ## Lemmas -/

theorem mem_firsts {α} [DecidableEq α] (l : List α) (a : α) : a ∈ firsts l ↔ a ∈ l := by
  induction l with
  | nil => simp [firsts]
  | cons b l ih =>
    simp only [firsts, List.mem_cons, List.mem_filter, ih, decide_eq_true_eq]
    constructor
    · rintro (h | h)
      · exact .inl h
      · exact .inr h.1
    · rintro (h | h)
      · exact .inl h
      · by_cases e : a = b
        · exact .inl e
        · exact .inr ⟨h, e⟩

theorem nodup_firsts {α} [DecidableEq α] (l : List α) : (firsts l).Nodup := by
  induction l with
  | nil => exact List.nodup_nil
  | cons b l ih =>
    refine List.nodup_cons.2 ⟨?_, ih.filter _⟩
    simp

theorem firsts_concat {α} [DecidableEq α] (l : List α) (a : α) :
    firsts (l ++ [a]) = if a ∈ l then firsts l else firsts l ++ [a] := by
  induction l with
  | nil => simp [firsts]
  | cons b l ih =>
    simp only [List.cons_append, firsts, ih, List.mem_cons]
    by_cases hab : a = b
    · subst hab
      simp only [true_or, if_true]
      split
      · rfl
      · simp
    · by_cases hl : a ∈ l
      · simp [hl]
      · simp [hab, hl]

/-- Set the value at `x`, keeping the position of an `x` that is there. -/
def gput {α β} [DecidableEq α] (x : α) (y : β) : List (α × β) → List (α × β)
  | [] => [(x, y)]
  | e :: m => if e.1 = x then (x, y) :: m else e :: gput x y m

theorem gput_map {α β} [DecidableEq α] (x : α) (y : β) (ks : List α) (F : α → β) (h : ks.Nodup) :
    gput x y (ks.map fun k => (k, F k)) =
      (if x ∈ ks then ks else ks ++ [x]).map fun k => (k, if k = x then y else F k) := by
  induction ks with
  | nil => simp [gput]
  | cons k ks ih =>
    have hk := List.nodup_cons.1 h
    simp only [List.map_cons, gput]
    by_cases e : k = x
    · subst e
      simp only [if_true, List.mem_cons, true_or, List.map_cons]
      congr 1
      apply List.map_congr_left
      intro a ha
      have : a ≠ k := fun e => hk.1 (e ▸ ha)
      simp [this]
    · have e' : ¬ x = k := fun h => e h.symm
      simp only [if_neg e, ih hk.2, List.mem_cons, e', false_or]
      split <;> simp [e]

/-- The pairs of `f` are those of the inputs that `m` lists. -/
structure Rep2 (iks oks : List String) (f : Fn V) (m : List (List V × List V × List V)) : Prop where
  inKeys : f.inputKeys = iks
  outKeys : f.outputKeys = oks
  idx : f.stateIndex = iks.idxOf "state"
  pairs : List.Forall₂ (fun (p : Pair V) (e : List V × List V × List V) =>
    (iks.length = e.1.length ∧ oks.length = e.2.1.length ∧
    e.1[iks.idxOf "state"]? = some p.state ∧
    p.inputs = (iks.zip e.1).eraseIdx (iks.idxOf "state") ∧ p.outputs = oks.zip e.2.1) ∧
    p.labels = e.2.2) f.pairs m

theorem put_rep2 {iks oks : List String} (hi : iks.Nodup)
    {ps : List (Pair V)} {m : List (List V × List V × List V)}
    (h : List.Forall₂ (fun (p : Pair V) (e : List V × List V × List V) =>
      (iks.length = e.1.length ∧ oks.length = e.2.1.length ∧
      e.1[iks.idxOf "state"]? = some p.state ∧
      p.inputs = (iks.zip e.1).eraseIdx (iks.idxOf "state") ∧ p.outputs = oks.zip e.2.1) ∧
      p.labels = e.2.2) ps m)
    (x y labels : List V) (hx : iks.length = x.length) (hy : oks.length = y.length) {s : V}
    (hs : x[iks.idxOf "state"]? = some s) :
    List.Forall₂ (fun (p : Pair V) (e : List V × List V × List V) =>
      (iks.length = e.1.length ∧ oks.length = e.2.1.length ∧
      e.1[iks.idxOf "state"]? = some p.state ∧
      p.inputs = (iks.zip e.1).eraseIdx (iks.idxOf "state") ∧ p.outputs = oks.zip e.2.1) ∧
      p.labels = e.2.2)
      (put s ((iks.zip x).eraseIdx (iks.idxOf "state")) (oks.zip y) labels ps)
      (gput x (y, labels) m) := by
  induction h with
  | nil => exact .cons ⟨⟨hx, hy, hs, rfl, rfl⟩, rfl⟩ .nil
  | @cons p e ps m hp hps ih =>
    have := isAt_iff hi (e := (e.1, e.2.1)) hp.1 x hx hs
    by_cases he : e.1 = x
    · simp only [put, gput, if_pos (this.2 he), if_pos he]
      obtain ⟨e1, e2⟩ := e
      simp only at he
      subst he
      exact .cons ⟨⟨hx, hy, hp.1.2.2.1, hp.1.2.2.2.1, rfl⟩, rfl⟩ hps
    · simp only [put, gput, if_neg (fun hh => he (this.1 hh)), if_neg he]
      exact .cons hp ih

/-- The abstract map after a call. -/
def mcall2 (iks oks : List String) (m : List (List V × List V × List V))
    (c : List V × List V × List V) : List (List V × List V × List V) :=
  if Accepted iks oks c then gput c.1 c.2 m else m

theorem call_rep2 {iks oks : List String} (hi : iks.Nodup) (ho : oks.Nodup) (hs : "state" ∈ iks)
    {f : Fn V} {m : List (List V × List V × List V)} (h : Rep2 iks oks f m)
    (c : List V × List V × List V) : Rep2 iks oks (call f c) (mcall2 iks oks m c) := by
  obtain ⟨x, y, labels⟩ := c
  by_cases hx : iks.length = x.length
  · have hl : iks.idxOf "state" < x.length := by rw [← hx]; exact List.idxOf_lt_length_iff.2 hs
    have hs1 : x[iks.idxOf "state"]? = some x[iks.idxOf "state"] := List.getElem?_eq_getElem hl
    have hs2 : stateAndInputs f x =
        .ok (x[iks.idxOf "state"], (iks.zip x).eraseIdx (iks.idxOf "state")) := by
      simp only [stateAndInputs, h.inKeys, h.idx, if_pos hx, hs1]
      rw [update_nil _ (wf_erase iks x _ hx hi)]
    by_cases hy : oks.length = y.length
    · have ho2 : outputDict f y = .ok (oks.zip y) := by
        simp only [outputDict, h.outKeys, if_pos hy]
        rw [update_nil]
        rw [Dict.Wf, zip_keys _ _ hy]
        exact ho
      simp only [call, add, hs2, ok_bind, ho2, pure_eq_ok, mcall2, Accepted, hx,
        hy, BEq.rfl, Bool.and_self, if_true]
      exact ⟨h.inKeys, h.outKeys, h.idx, put_rep2 hi h.pairs x y labels hx hy hs1⟩
    · have ho2 : outputDict f y = .error .assertion := by
        simp only [outputDict, h.outKeys, if_neg hy]
      simp only [call, add, hs2, ok_bind, ho2, error_bind, mcall2, Accepted]
      have : (y.length == oks.length) = false := by simp; omega
      simp only [this, Bool.and_false, Bool.false_eq_true, if_false]
      exact h
  · have h1 : stateAndInputs f x = .error .assertion := by
      simp [stateAndInputs, h.inKeys, hx]
    have : (x.length == iks.length) = false := by simp; omega
    simp only [call, add, h1, error_bind, mcall2, Accepted, this, Bool.false_and, Bool.false_eq_true,
      if_false]
    exact h

theorem run_rep2 {iks oks : List String} (hi : iks.Nodup) (ho : oks.Nodup) (hs : "state" ∈ iks)
    (calls : List (List V × List V × List V)) (f : Fn V) (m : List (List V × List V × List V))
    (h : Rep2 iks oks f m) :
    Rep2 iks oks (calls.foldl call f) (calls.foldl (mcall2 iks oks) m) := by
  induction calls generalizing f m with
  | nil => exact h
  | cons c calls ih => exact ih _ _ (call_rep2 hi ho hs h c)

/-- The entry of the abstract map. -/
def entry (iks oks : List String) (calls : List (List V × List V × List V)) (x : List V) :
    List V × List V := (lastCall iks oks calls x).getD ([], [])

theorem fold_eq (iks oks : List String) (calls : List (List V × List V × List V)) :
    calls.foldl (mcall2 iks oks) [] =
      (firsts ((calls.filter (Accepted iks oks)).map (·.1))).map
        fun x => (x, entry iks oks calls x) := by
  induction calls using List.reverseRecOn with
  | nil => rfl
  | append_singleton calls c ih =>
    rw [List.foldl_append, ih, List.foldl_cons, List.foldl_nil, List.filter_append]
    by_cases hc : Accepted iks oks c = true
    · simp only [mcall2, hc, if_true, List.filter_cons, List.filter_nil, List.map_append,
        List.map_cons, List.map_nil]
      rw [gput_map _ _ _ _ (nodup_firsts _), firsts_concat]
      have hF : ∀ x : List V, (if x = c.1 then c.2 else entry iks oks calls x) =
          entry iks oks (calls ++ [c]) x := by
        intro x
        simp only [entry, lastCall, List.filter_append, List.filter_cons, List.filter_nil, hc,
          Bool.true_and, decide_eq_true_eq]
        by_cases e : x = c.1
        · subst e; simp
        · simp [e, Ne.symm e]
      simp only [hF]
      by_cases hm : c.1 ∈ (calls.filter (Accepted iks oks)).map (·.1)
      · rw [if_pos ((mem_firsts _ _).2 hm), if_pos hm]
      · rw [if_neg (fun h => hm ((mem_firsts _ _).1 h)), if_neg hm]
    · simp only [Bool.not_eq_true] at hc
      simp only [mcall2, hc, Bool.false_eq_true, if_false, List.filter_cons, List.filter_nil,
        List.append_nil]
      apply List.map_congr_left
      intro x _
      simp [entry, lastCall, List.filter_append, hc]

omit [DecidableEq V] in
theorem eraseIdx_idxOf (iks : List String) (x : List V) (h : iks.length = x.length)
    (hi : iks.Nodup) (k : String) :
    (iks.zip x).eraseIdx (iks.idxOf k) = (iks.zip x).filter fun p => decide (p.1 ≠ k) := by
  induction iks generalizing x with
  | nil => rfl
  | cons a iks ih => cases x with
    | nil => simp at h
    | cons v x =>
      have hn := List.nodup_cons.1 hi
      by_cases e : a = k
      · subst e
        rw [List.idxOf_cons_self]
        simp only [List.zip_cons_cons, List.eraseIdx_cons_zero, List.filter_cons, ne_eq,
          not_true_eq_false, decide_false, Bool.false_eq_true, if_false]
        rw [List.filter_eq_self.2]
        rintro ⟨b, w⟩ hm
        have : b ∈ iks := (List.of_mem_zip hm).1
        simp only [decide_eq_true_eq]
        intro e; exact hn.1 (e ▸ this)
      · rw [List.idxOf_cons_ne _ e]
        simp only [List.zip_cons_cons, List.eraseIdx_cons_succ, List.filter_cons, ne_eq, e,
          not_false_eq_true, decide_true, if_true]
        rw [ih x (by simpa using h) hn.2]

omit [DecidableEq V] in
theorem filter_state (iks : List String) (x : List V) (h : iks.length = x.length)
    (hi : iks.Nodup) (k : String) (s : V) (hs : x[iks.idxOf k]? = some s) (hk : k ∈ iks) :
    (iks.zip x).filter (fun p => decide (p.1 = k)) = [(k, s)] := by
  induction iks generalizing x with
  | nil => simp at hk
  | cons a iks ih => cases x with
    | nil => simp at h
    | cons v x =>
      have hn := List.nodup_cons.1 hi
      by_cases e : a = k
      · subst e
        rw [List.idxOf_cons_self] at hs
        simp only [List.getElem?_cons_zero, Option.some.injEq] at hs
        subst hs
        simp only [List.zip_cons_cons, List.filter_cons, decide_true, if_true]
        congr 1
        rw [List.filter_eq_nil_iff]
        rintro ⟨b, w⟩ hm
        have : b ∈ iks := (List.of_mem_zip hm).1
        simp only [decide_eq_true_eq]
        intro e; exact hn.1 (e ▸ this)
      · rw [List.idxOf_cons_ne _ e, List.getElem?_cons_succ] at hs
        simp only [List.zip_cons_cons, List.filter_cons, e, decide_false, Bool.false_eq_true,
          if_false]
        exact ih x (by simpa using h) hn.2 hs ((List.mem_cons.1 hk).resolve_left (Ne.symm e))

omit [DecidableEq V] in
theorem foldl_set_append {W : Type} (g : V → W) (l : List (String × V)) (d : Dict String W)
    (h : (Dict.keys d ++ l.map (·.1)).Nodup) :
    l.foldl (fun d kv => Dict.set d kv.1 (g kv.2)) d = d ++ l.map (fun p => (p.1, g p.2)) := by
  induction l generalizing d with
  | nil => simp
  | cons p l ih =>
    have hp : p.1 ∉ Dict.keys d := by
      intro hm
      simp only [List.map_cons, List.nodup_append] at h
      exact h.2.2 _ hm _ (List.mem_cons_self ..) rfl
    simp only [List.foldl_cons]
    rw [set_of_not_mem d p.1 (g p.2) hp, ih]
    · simp
    · simpa [Dict.keys] using h

theorem toJson_rep {iks oks : List String} (hs : "state" ∈ iks)
    (hd : (iks ++ oks ++ ["labels"]).Nodup) (ts : Option (V → Cell V)) {p : Pair V}
    {x y labels : List V}
    (h : (iks.length = x.length ∧ oks.length = y.length ∧
      x[iks.idxOf "state"]? = some p.state ∧
      p.inputs = (iks.zip x).eraseIdx (iks.idxOf "state") ∧ p.outputs = oks.zip y) ∧
      p.labels = labels) :
    toJson (ts.map fun ap s => .ok (ap s)) p =
      .ok (object iks oks x y (labelsFor ts iks x labels)) := by
  obtain ⟨⟨hx, hy, h1, h2, h3⟩, h4⟩ := h
  have hi : iks.Nodup := hd.sublist (by
    rw [List.append_assoc]; exact List.sublist_append_left _ _)
  have hst := filter_state iks x hx hi "state" p.state h1 hs
  have hso : stateOf iks x = some p.state := by
    unfold stateOf
    rw [← List.head?_filter, hst]
    rfl
  have hl : labelCell (ts.map fun ap s => .ok (ap s)) p = .ok (labelsFor ts iks x labels) := by
    cases ts with
    | none => simp [labelCell, labelsFor, h4]
    | some ap => simp [labelCell, labelsFor, hso]
  unfold toJson
  rw [hl]
  simp only [ok_bind, pure_eq_ok]
  have hin : p.inputs = (iks.zip x).filter fun p => decide (p.1 ≠ "state") := by
    rw [h2, eraseIdx_idxOf iks x hx hi]
  have hki : ((iks.zip x).filter fun p => decide (p.1 ≠ "state")).map (·.1) =
      iks.filter fun k => decide (k ≠ "state") := by
    have := zip_keys iks x hx
    simp only [Dict.keys] at this
    conv_rhs => rw [← this, List.filter_map]
    rfl
  have hko : (oks.zip y).map (·.1) = oks := zip_keys oks y hy
  have hlab : "labels" ∉ iks ∧ "labels" ∉ oks := by
    rw [List.nodup_append] at hd
    exact ⟨fun h => hd.2.2 _ (List.mem_append_left _ h) _ (List.mem_singleton_self _) rfl,
      fun h => hd.2.2 _ (List.mem_append_right _ h) _ (List.mem_singleton_self _) rfl⟩
  have hio := (List.nodup_append.1 (List.nodup_append.1 hd).1)
  have hkeys : ("state" :: "labels" :: ((iks.filter fun k => decide (k ≠ "state")) ++ oks)).Nodup := by
    rw [List.nodup_cons, List.nodup_cons, List.nodup_append]
    refine ⟨?_, ?_, hi.filter _, hio.2.1, fun a ha b hb => hio.2.2 a (List.mem_of_mem_filter ha) b hb⟩
    · simp only [List.mem_cons, List.mem_append, List.mem_filter, not_or]
      exact ⟨by decide, by simp, fun h => hio.2.2 _ hs _ h rfl⟩
    · simp only [List.mem_append, List.mem_filter, not_or]
      exact ⟨fun h => hlab.1 h.1, hlab.2⟩
  have hbase : (Dict.update [] [("state", Cell.val p.state), ("labels", labelsFor ts iks x labels)] :
      Dict String (Cell V)) =
      [("state", Cell.val p.state), ("labels", labelsFor ts iks x labels)] :=
    update_nil _ (by simp [Dict.Wf, Dict.keys])
  have e1 := foldl_set_append Cell.val ((iks.zip x).filter fun p => decide (p.1 ≠ "state"))
    [("state", Cell.val p.state), ("labels", labelsFor ts iks x labels)] (by
      rw [hki]
      refine hkeys.sublist ?_
      simp only [Dict.keys, List.map_cons, List.map_nil, List.cons_append, List.nil_append]
      exact ((List.sublist_append_left _ _).cons_cons _).cons_cons _)
  rw [hbase, hin, h3, e1, foldl_set_append Cell.val]
  · simp [object, hst]
  · have : Dict.keys ([("state", Cell.val p.state), ("labels", labelsFor ts iks x labels)] ++
        ((iks.zip x).filter fun p => decide (p.1 ≠ "state")).map (fun p => (p.1, Cell.val p.2))) =
        "state" :: "labels" :: iks.filter fun k => decide (k ≠ "state") := by
      simp only [Dict.keys, List.map_append, List.map_cons, List.map_nil, List.map_map,
        List.cons_append, List.nil_append]
      rw [← hki]
      rfl
    rw [this, hko]
    simpa using hkeys

theorem lastCall_isSome (iks oks : List String) (calls : List (List V × List V × List V))
    (x : List V) (h : x ∈ (calls.filter (Accepted iks oks)).map (·.1)) :
    lastCall iks oks calls x = some (entry iks oks calls x) := by
  obtain ⟨c, hc, rfl⟩ := List.mem_map.1 h
  have hc' := List.mem_filter.1 hc
  have : lastCall iks oks calls c.1 ≠ none := by
    simp only [lastCall, ne_eq, Option.map_eq_none_iff, List.getLast?_eq_none_iff,
      List.filter_eq_nil_iff, not_forall]
    exact ⟨c, hc'.1, by simp [hc'.2]⟩
  cases hl : lastCall iks oks calls c.1 with
  | none => exact absurd hl this
  | some e => simp [entry, hl]

theorem toJsons_rep {iks oks : List String} (hs : "state" ∈ iks)
    (hd : (iks ++ oks ++ ["labels"]).Nodup) (ts : Option (V → Cell V)) {ps : List (Pair V)}
    {m : List (List V × List V × List V)}
    (h : List.Forall₂ (fun (p : Pair V) (e : List V × List V × List V) =>
      (iks.length = e.1.length ∧ oks.length = e.2.1.length ∧
      e.1[iks.idxOf "state"]? = some p.state ∧
      p.inputs = (iks.zip e.1).eraseIdx (iks.idxOf "state") ∧ p.outputs = oks.zip e.2.1) ∧
      p.labels = e.2.2) ps m) :
    toJsons (ts.map fun ap s => .ok (ap s)) ps =
      .ok (m.map fun e => object iks oks e.1 e.2.1 (labelsFor ts iks e.1 e.2.2)) := by
  induction h with
  | nil => rfl
  | cons hp _ ih =>
    simp only [toJsons, toJson_rep hs hd ts hp, ok_bind, ih, List.map_cons]

/-! ## The property -/

/-- **C123.** Take a function of distinct input keys that include `"state"` and distinct output keys,
none of them `"labels"`, and any history of calls of `add`. Then `save` writes one object for each
input of an accepted call, in the order in which the inputs came first, with the state, the labels,
the other inputs and the outputs of the *last* accepted call at this input; the labels are those of
that call, or those of the states of the transition system that is passed. When some label is a set,
`save` raises `TypeError`, and what was in the file before is lost. -/
theorem save_spec (iks oks : List String) (hs : "state" ∈ iks)
    (hd : (iks ++ oks ++ ["labels"]).Nodup) (ts : Option (V → Cell V))
    (calls : List (List V × List V × List V)) :
    ∃ f : Fn V, new iks oks = .ok f ∧
      ((∀ d ∈ objects ts iks oks calls, ∀ k l, (k, Cell.set l) ∉ d) →
        save (calls.foldl call f) (ts.map fun ap s => .ok (ap s)) =
          (.ok (), .objects (objects ts iks oks calls))) ∧
      ((∃ d ∈ objects ts iks oks calls, ∃ k l, (k, Cell.set l) ∈ d) →
        save (calls.foldl call f) (ts.map fun ap s => .ok (ap s)) = (.error .typeError, .cut)) := by
  refine ⟨⟨iks, oks, iks.idxOf "state", []⟩, by simp [new, hs], ?_⟩
  have hio := (List.nodup_append.1 (List.nodup_append.1 hd).1)
  have h0 : Rep2 iks oks (⟨iks, oks, iks.idxOf "state", []⟩ : Fn V) [] := ⟨rfl, rfl, rfl, .nil⟩
  have h := run_rep2 hio.1 hio.2.1 hs calls _ _ h0
  have hobj : (calls.foldl (mcall2 iks oks) []).map
      (fun e => object iks oks e.1 e.2.1 (labelsFor ts iks e.1 e.2.2)) = objects ts iks oks calls := by
    rw [fold_eq, List.map_map, objects, ← List.filterMap_eq_map]
    apply List.filterMap_congr
    intro x hx
    rw [mem_firsts] at hx
    rw [lastCall_isSome iks oks calls x hx]
    rfl
  simp only [save, toJsons_rep hs hd ts h.pairs, hobj]
  have hw : ((objects ts iks oks calls).all fun d => d.all fun kv => kv.2.writable) = true ↔
      ∀ d ∈ objects ts iks oks calls, ∀ k l, (k, Cell.set l) ∉ d := by
    simp only [List.all_eq_true]
    constructor
    · intro h d hd k l hm
      simpa [Cell.writable] using h d hd _ hm
    · rintro h d hd ⟨k, c⟩ hm
      cases c with
      | val => rfl
      | list => rfl
      | set l => exact absurd hm (h d hd k l)
  refine ⟨fun hc => by rw [if_pos (hw.2 hc)], ?_⟩
  rintro ⟨d, hd, k, l, hm⟩
  rw [if_neg (fun e => hw.1 e d hd k l hm)]

/-- **C123.** Without a transition system `save` always succeeds. -/
theorem save_succeeds (iks oks : List String) (hs : "state" ∈ iks)
    (hd : (iks ++ oks ++ ["labels"]).Nodup) (calls : List (List V × List V × List V)) :
    ∃ f : Fn V, new iks oks = .ok f ∧
      save (calls.foldl call f) none = (.ok (), .objects (objects none iks oks calls)) := by
  obtain ⟨f, h1, h2⟩ := save_spec iks oks hs hd none calls
  refine ⟨f, h1, ?_⟩
  refine h2.1 ?_
  intro d hd k l hm
  simp only [objects, List.mem_filterMap, Option.map_eq_some_iff] at hd
  obtain ⟨x, _, yl, _, rfl⟩ := hd
  simp only [object, labelsFor, List.mem_append, List.mem_map, List.mem_singleton, Prod.mk.injEq] at hm
  rcases hm with ((⟨p, _, hp⟩ | hm) | ⟨p, _, hp⟩) | ⟨p, _, hp⟩
  · cases hp.2
  · cases hm.2
  · cases hp.2
  · cases hp.2

/-- **C123.** With a transition system whose states are labelled by sets of propositions, as
`FiniteTransitionSystem` has them, every function with an entry fails to be saved: a set cannot be
written as JSON. -/
theorem save_transys_counterexample (iks oks : List String) (hs : "state" ∈ iks)
    (hd : (iks ++ oks ++ ["labels"]).Nodup) (ap : V → List V)
    (calls : List (List V × List V × List V)) (c : List V × List V × List V) (hc : c ∈ calls)
    (ha : Accepted iks oks c = true) :
    ∃ f : Fn V, new iks oks = .ok f ∧
      save (calls.foldl call f) (some fun s => .ok (.set (ap s))) = (.error .typeError, .cut) := by
  obtain ⟨f, h1, h2⟩ := save_spec iks oks hs hd (some fun s => .set (ap s)) calls
  refine ⟨f, h1, ?_⟩
  refine h2.2 ?_
  have hx : c.1 ∈ (calls.filter (Accepted iks oks)).map (·.1) :=
    List.mem_map.2 ⟨c, List.mem_filter.2 ⟨hc, ha⟩, rfl⟩
  have hlen : iks.length = c.1.length := by
    simp only [Accepted, Bool.and_eq_true, beq_iff_eq] at ha
    exact ha.1.symm
  have hio := (List.nodup_append.1 (List.nodup_append.1 hd).1)
  have hl : iks.idxOf "state" < c.1.length := by
    rw [← hlen]; exact List.idxOf_lt_length_iff.2 hs
  have hst : stateOf iks c.1 = some c.1[iks.idxOf "state"] := by
    unfold stateOf
    rw [← List.head?_filter, filter_state iks c.1 hlen hio.1 "state" _ (List.getElem?_eq_getElem hl) hs]
    rfl
  refine ⟨object iks oks c.1 (entry iks oks calls c.1).1
    (labelsFor (some fun s => .set (ap s)) iks c.1 (entry iks oks calls c.1).2), ?_, "labels",
    ap c.1[iks.idxOf "state"], ?_⟩
  · simp only [objects, List.mem_filterMap]
    exact ⟨c.1, (mem_firsts _ _).2 hx, by rw [lastCall_isSome iks oks calls _ hx]; rfl⟩
  · simp [object, labelsFor, hst]

omit [DecidableEq V] in
/-- **C123.** The constructor takes single keys as well as lists: the key `"state"` gives the same
function as the list `["state"]`, and a list of inputs without `"state"` raises `ValueError`. -/
theorem init_spec (iks oks : List String) (o : List Char) :
    (init (.many iks) (.many oks) : Except PyErr (Fn V)) = new iks oks ∧
    (init (.many iks) (.one o) : Except PyErr (Fn V)) = new iks [String.ofList o] ∧
    (init (.one ['s', 't', 'a', 't', 'e']) (.many oks) : Except PyErr (Fn V)) = new ["state"] oks ∧
    (init (.one ['s', 't', 'a', 't', 'e']) (.one o) : Except PyErr (Fn V)) =
      new ["state"] [String.ofList o] ∧
    ("state" ∉ iks → (new iks oks : Except PyErr (Fn V)) = .error .valueError) := by
  refine ⟨?_, ?_, rfl, rfl, fun h => by simp [new, h]⟩
  · by_cases h : "state" ∈ iks <;> simp [init, Keys.indexOfState, Keys.list, new, h]
  · by_cases h : "state" ∈ iks <;> simp [init, Keys.indexOfState, Keys.list, new, h]

/-- **C123.** A single key that only *contains* the text `state` is accepted by the constructor, but
every look-up and every `add` with it raises `IndexError` then. -/
theorem init_substring_counterexample :
    ∃ f : Fn Nat, init (.one ['m', 'y', 's', 't', 'a', 't', 'e']) (.one ['a']) = .ok f ∧
      ∀ v w : Nat, stateAndInputs f [v] = .error .indexError ∧
        add f [v] [w] [] = .error .indexError ∧ getItem f [v] = .error .indexError :=
  ⟨⟨["mystate"], ["a"], 2, []⟩, rfl, fun _ _ => ⟨rfl, rfl, rfl⟩⟩

/-! ### A single key -/

/-- The text `p` starts at place `n` of `s`. -/
def StartsAt (p s : List Char) (n : Nat) : Prop := ∃ a b, s = a ++ p ++ b ∧ a.length = n

theorem startsWith_iff (p s : List Char) : startsWith p s = true ↔ ∃ b, s = p ++ b := by
  induction p generalizing s with
  | nil => simp [startsWith]
  | cons x p ih =>
    cases s with
    | nil => simp [startsWith]
    | cons y s =>
      simp only [startsWith, Bool.and_eq_true, beq_iff_eq, ih, List.cons_append, List.cons.injEq]
      constructor
      · rintro ⟨rfl, b, rfl⟩; exact ⟨b, rfl, rfl⟩
      · rintro ⟨b, rfl, rfl⟩; exact ⟨rfl, b, rfl⟩

theorem textIndex_spec (p s : List Char) :
    (∀ n, textIndex p s = some n ↔ StartsAt p s n ∧ ∀ k < n, ¬ StartsAt p s k) ∧
    (textIndex p s = none ↔ ∀ n, ¬ StartsAt p s n) := by
  have some_of : ∀ s, (∀ n, textIndex p s = some n → StartsAt p s n ∧ ∀ k < n, ¬ StartsAt p s k) ∧
      (textIndex p s = none → ∀ n, ¬ StartsAt p s n) := by
    intro s
    induction s with
    | nil =>
      unfold textIndex
      constructor
      · intro n h
        split at h
        · rename_i hp
          cases h
          exact ⟨⟨[], [], by simp [hp], rfl⟩, by omega⟩
        · cases h
      · intro h n
        split at h
        · cases h
        · rename_i hp
          rintro ⟨a, b, h1, -⟩
          have := (List.append_eq_nil_iff.1 h1.symm).1
          exact hp (List.append_eq_nil_iff.1 this).2
    | cons c s ih =>
      have succ : ∀ n, StartsAt p (c :: s) (n + 1) ↔ StartsAt p s n := by
        intro n
        constructor
        · rintro ⟨a, b, h1, h2⟩
          cases a with
          | nil => simp at h2
          | cons x a => exact ⟨a, b, by simpa using (List.cons.inj h1).2, by simpa using h2⟩
        · rintro ⟨a, b, h1, h2⟩
          exact ⟨c :: a, b, by simp [h1], by simp [h2]⟩
      have zero : StartsAt p (c :: s) 0 ↔ startsWith p (c :: s) = true := by
        rw [startsWith_iff]
        constructor
        · rintro ⟨a, b, h1, h2⟩
          cases a with
          | nil => exact ⟨b, by simpa using h1⟩
          | cons x a => simp at h2
        · rintro ⟨b, h⟩
          exact ⟨[], b, by simpa using h, rfl⟩
      unfold textIndex
      by_cases h0 : startsWith p (c :: s) = true
      · rw [if_pos h0]
        exact ⟨fun n h => by cases h; exact ⟨zero.2 h0, by omega⟩, fun h => by cases h⟩
      · rw [if_neg h0]
        constructor
        · intro n h
          obtain ⟨m, hm, rfl⟩ := Option.map_eq_some_iff.1 h
          obtain ⟨h1, h2⟩ := ih.1 m hm
          refine ⟨(succ m).2 h1, fun k hk => ?_⟩
          cases k with
          | zero => exact fun h => h0 (zero.1 h)
          | succ k => rw [succ]; exact h2 k (by omega)
        · intro h n
          have hn := ih.2 (Option.map_eq_none_iff.1 h)
          cases n with
          | zero => exact fun h => h0 (zero.1 h)
          | succ n => rw [succ]; exact hn n
  obtain ⟨h1, h2⟩ := some_of s
  refine ⟨fun n => ⟨h1 n, ?_⟩, ⟨h2, ?_⟩⟩
  · rintro ⟨h3, h4⟩
    cases h : textIndex p s with
    | none => exact absurd h3 (h2 h n)
    | some m =>
      obtain ⟨h5, h6⟩ := h1 m h
      rcases Nat.lt_trichotomy m n with hl | rfl | hl
      · exact absurd h5 (h4 m hl)
      · rfl
      · exact absurd h3 (h6 n hl)
  · intro h
    cases hx : textIndex p s with
    | none => rfl
    | some m => exact absurd (h1 m hx).1 (h m)

omit [DecidableEq V] in
/-- **C123.** A single key of the inputs is accepted exactly if it contains the text `state`, and the first place of that text is taken
for the position of the state; else the constructor raises `ValueError`. -/
theorem init_one (k : List Char) (o : Keys) :
    (∀ n, StartsAt ['s', 't', 'a', 't', 'e'] k n → (∀ j < n, ¬ StartsAt ['s', 't', 'a', 't', 'e'] k j) →
      (init (.one k) o : Except PyErr (Fn V)) = .ok ⟨[String.ofList k], o.list, n, []⟩) ∧
    ((∀ n, ¬ StartsAt ['s', 't', 'a', 't', 'e'] k n) → (init (.one k) o : Except PyErr (Fn V)) = .error .valueError) := by
  constructor
  · intro n h1 h2
    unfold init Keys.indexOfState
    simp only [((textIndex_spec _ k).1 n).2 ⟨h1, h2⟩]
    rfl
  · intro h
    unfold init Keys.indexOfState
    simp only [(textIndex_spec _ k).2.2 h]
    rfl

example : StartsAt ['s', 't', 'a', 't', 'e'] ['m', 'y', 's', 't', 'a', 't', 'e'] 2 ∧
    (init (.one ['m', 'o', 'd', 'e']) (.many []) : Except PyErr (Fn Nat)) = .error .valueError :=
  ⟨⟨['m', 'y'], [], rfl, rfl⟩, rfl⟩

/-! ## The hypotheses hold -/

/-- A policy with memory, with a second call at one of the inputs. -/
example : ("state" ∈ ["mode", "state"]) ∧ (["mode", "state"] ++ ["action"] ++ ["labels"]).Nodup ∧
    objects none ["mode", "state"] ["action"]
      [([0, 1], [5], []), ([1, 0], [6], [2]), ([0, 1], [7], [3]), ([0], [9], [])] =
    [[("state", .val 1), ("labels", .list [3]), ("mode", .val 0), ("action", .val 7)],
     [("state", .val 0), ("labels", .list [2]), ("mode", .val 1), ("action", .val 6)]] :=
  ⟨by decide, by decide, by decide +kernel⟩

example : Accepted ["mode", "state"] ["action"] (([0, 1], [5], []) : List Nat × List Nat × List Nat)
    = true := by decide

end MathFunc
end Tulip
