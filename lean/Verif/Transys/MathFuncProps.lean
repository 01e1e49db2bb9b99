import Verif.Transys.MathFunc
import Mathlib.Data.List.Nodup
import Mathlib.Data.List.Dedup

/-!
# C65: `FunctionOnLabeledState` is a finite map, and the last call wins
-/

namespace Tulip
namespace MathFunc
variable {V : Type} [DecidableEq V]

/-- How outputs are returned: none as `None`, one as itself, several as a tuple. -/
def wrap : List V → Out V
  | [] => .none
  | [v] => .one v
  | l => .tuple l

/-- The calls that are accepted: those with the right number of inputs and of outputs. -/
def Accepted (inputKeys outputKeys : List String) (c : List V × List V × List V) : Bool :=
  c.1.length == inputKeys.length && c.2.1.length == outputKeys.length

/-- The outputs of the last accepted call at `x`. -/
def lastAt (inputKeys outputKeys : List String) (calls : List (List V × List V × List V))
    (x : List V) : Option (List V) :=
  ((calls.filter fun c => Accepted inputKeys outputKeys c && decide (c.1 = x)).getLast?).map (·.2.1)

/-! ### Dictionaries from tuples -/

omit [DecidableEq V] in
theorem zip_keys (ks : List String) (x : List V) (h : ks.length = x.length) :
    Dict.keys (ks.zip x) = ks := by
  simp only [Dict.keys]
  exact List.map_fst_zip (by omega)

omit [DecidableEq V] in
theorem set_of_not_mem (d : Dict String V) (k : String) (v : V) (h : k ∉ Dict.keys d) :
    Dict.set d k v = d ++ [(k, v)] := by
  induction d with
  | nil => rfl
  | cons p d ih =>
    simp only [Dict.keys, List.map_cons, List.mem_cons, not_or] at h
    simp only [Dict.set, if_neg (Ne.symm h.1), List.cons_append]
    rw [ih h.2]

omit [DecidableEq V] in
theorem update_append (d e : Dict String V) (h : Dict.Wf (d ++ e)) : Dict.update d e = d ++ e := by
  induction e generalizing d with
  | nil => simp [Dict.update]
  | cons p e ih =>
    have hp : p.1 ∉ Dict.keys d := by
      intro hm
      simp only [Dict.Wf, Dict.keys, List.map_append, List.map_cons, List.nodup_append] at h
      exact h.2.2 _ hm _ (List.mem_cons_self ..) rfl
    simp only [Dict.update, List.foldl_cons]
    rw [set_of_not_mem d p.1 p.2 hp]
    have := ih (d ++ [(p.1, p.2)]) (by simpa using h)
    simp only [Dict.update] at this
    rw [this]
    simp

omit [DecidableEq V] in
theorem update_nil (e : Dict String V) (h : Dict.Wf e) : Dict.update [] e = e := by
  simpa using update_append [] e (by simpa using h)

omit [DecidableEq V] in
theorem wf_erase (ks : List String) (x : List V) (n : Nat) (h : ks.length = x.length)
    (hk : ks.Nodup) : Dict.Wf ((ks.zip x).eraseIdx n) := by
  have h1 : Dict.Wf (ks.zip x) := by rw [Dict.Wf, zip_keys ks x h]; exact hk
  exact h1.sublist ((List.eraseIdx_sublist ..).map _)

theorem get?_of_mem_wf {d : Dict String V} (h : Dict.Wf d) {k : String} {v : V} (hm : (k, v) ∈ d) :
    Dict.get? d k = some v := by
  induction d with
  | nil => simp at hm
  | cons p d ih =>
    have hw := List.nodup_cons.1 h
    rw [Dict.get?_cons]
    rcases List.mem_cons.1 hm with rfl | hm
    · simp
    · have : p.1 ≠ k := fun e => hw.1 (List.mem_map.2 ⟨(k, v), hm, e.symm⟩)
      rw [if_neg this]
      exact ih hw.2 hm

omit [DecidableEq V] in
theorem mem_of_get? {d : Dict String V} {k : String} {v : V} (h : Dict.get? d k = some v) :
    (k, v) ∈ d := by
  induction d with
  | nil => simp at h
  | cons p d ih =>
    rw [Dict.get?_cons] at h
    split at h
    · rename_i hk; cases h; subst hk; simp
    · exact List.mem_cons_of_mem _ (ih h)

/-- The inputs of two tuples are the same dictionary and the states agree only when the tuples are
equal. -/
theorem same_inputs (ks : List String) (hk : ks.Nodup) (x x' : List V) (h : ks.length = x.length)
    (h' : ks.length = x'.length) (n : Nat) :
    (x[n]? = x'[n]? ∧ sameDict ((ks.zip x).eraseIdx n) ((ks.zip x').eraseIdx n) = true) ↔
      x = x' := by
  constructor
  · rintro ⟨h1, h2⟩
    simp only [sameDict, Bool.and_eq_true, beq_iff_eq, List.all_eq_true] at h2
    apply List.ext_getElem?
    intro i
    by_cases hi : i = n
    · subst hi; exact h1
    · by_cases hl : i < ks.length
      · have hm : (ks[i], x[i]'(by omega)) ∈ (ks.zip x).eraseIdx n := by
          rw [List.mem_eraseIdx_iff_getElem?]
          exact ⟨i, hi, by rw [List.getElem?_eq_getElem (by simp; omega)]; simp⟩
        have := mem_of_get? (h2.2 _ hm)
        rw [List.mem_eraseIdx_iff_getElem?] at this
        obtain ⟨j, hj, hj'⟩ := this
        rw [List.getElem?_eq_some_iff] at hj'
        obtain ⟨hl', he⟩ := hj'
        simp only [List.getElem_zip, Prod.mk.injEq] at he
        have hij : j = i := by
          have := (hk.getElem_inj_iff).1 he.1
          exact this
        subst hij
        rw [List.getElem?_eq_getElem (by omega), List.getElem?_eq_getElem (by omega), he.2]
      · rw [List.getElem?_eq_none (by omega), List.getElem?_eq_none (by omega)]
  · rintro rfl
    refine ⟨rfl, ?_⟩
    simp only [sameDict, Bool.and_eq_true, beq_iff_eq, List.all_eq_true, true_and]
    rintro ⟨k, v⟩ hm
    exact get?_of_mem_wf (wf_erase ks x n h hk) hm

/-! ### The invariant -/

/-- The pairs of `f` are those of the inputs `m` lists, each input once. -/
structure Rep (iks oks : List String) (f : Fn V) (m : List (List V × List V)) : Prop where
  inKeys : f.inputKeys = iks
  outKeys : f.outputKeys = oks
  idx : f.stateIndex = iks.idxOf "state"
  pairs : List.Forall₂ (fun (p : Pair V) (e : List V × List V) =>
    iks.length = e.1.length ∧ oks.length = e.2.length ∧ e.1[iks.idxOf "state"]? = some p.state ∧
    p.inputs = (iks.zip e.1).eraseIdx (iks.idxOf "state") ∧ p.outputs = oks.zip e.2) f.pairs m
  once : (m.map (·.1)).Nodup

omit [DecidableEq V] in
theorem stateAndInputs_ok {iks oks : List String} (hi : iks.Nodup) (hs : "state" ∈ iks) {f : Fn V}
    {m : List (List V × List V)} (h : Rep iks oks f m) (x : List V) (hx : iks.length = x.length) :
    ∃ s, x[iks.idxOf "state"]? = some s ∧
      stateAndInputs f x = .ok (s, (iks.zip x).eraseIdx (iks.idxOf "state")) := by
  have hl : iks.idxOf "state" < x.length := by rw [← hx]; exact List.idxOf_lt_length_iff.2 hs
  refine ⟨x[iks.idxOf "state"], List.getElem?_eq_getElem hl, ?_⟩
  simp only [stateAndInputs, h.inKeys, h.idx, if_pos hx, List.getElem?_eq_getElem hl]
  rw [update_nil _ (wf_erase iks x _ hx hi)]

theorem isAt_iff {iks oks : List String} (hi : iks.Nodup) {p : Pair V} {e : List V × List V}
    (hp : iks.length = e.1.length ∧ oks.length = e.2.length ∧
      e.1[iks.idxOf "state"]? = some p.state ∧
      p.inputs = (iks.zip e.1).eraseIdx (iks.idxOf "state") ∧ p.outputs = oks.zip e.2)
    (x : List V) (hx : iks.length = x.length) {s : V} (hs : x[iks.idxOf "state"]? = some s) :
    isAt s ((iks.zip x).eraseIdx (iks.idxOf "state")) p = true ↔ e.1 = x := by
  rw [← same_inputs iks hi e.1 x hp.1 hx (iks.idxOf "state"), hs, hp.2.2.1, ← hp.2.2.2.1]
  simp [isAt]

/-- Set the value at `x`, keeping the position of an `x` that is there. -/
def mput (x y : List V) : List (List V × List V) → List (List V × List V)
  | [] => [(x, y)]
  | e :: m => if e.1 = x then (x, y) :: m else e :: mput x y m

theorem mput_keys (x y : List V) (m : List (List V × List V)) :
    (mput x y m).map (·.1) = if x ∈ m.map (·.1) then m.map (·.1) else m.map (·.1) ++ [x] := by
  induction m with
  | nil => simp [mput]
  | cons e m ih =>
    by_cases he : e.1 = x
    · simp [mput, he]
    · simp only [mput, if_neg he, List.map_cons, ih, List.mem_cons, Ne.symm he, false_or]
      split <;> simp

theorem put_rep {iks oks : List String} (hi : iks.Nodup)
    {ps : List (Pair V)} {m : List (List V × List V)}
    (h : List.Forall₂ (fun (p : Pair V) (e : List V × List V) =>
      iks.length = e.1.length ∧ oks.length = e.2.length ∧ e.1[iks.idxOf "state"]? = some p.state ∧
      p.inputs = (iks.zip e.1).eraseIdx (iks.idxOf "state") ∧ p.outputs = oks.zip e.2) ps m)
    (x y labels : List V) (hx : iks.length = x.length) (hy : oks.length = y.length) {s : V}
    (hs : x[iks.idxOf "state"]? = some s) :
    List.Forall₂ (fun (p : Pair V) (e : List V × List V) =>
      iks.length = e.1.length ∧ oks.length = e.2.length ∧ e.1[iks.idxOf "state"]? = some p.state ∧
      p.inputs = (iks.zip e.1).eraseIdx (iks.idxOf "state") ∧ p.outputs = oks.zip e.2)
      (put s ((iks.zip x).eraseIdx (iks.idxOf "state")) (oks.zip y) labels ps) (mput x y m) := by
  induction h with
  | nil => exact .cons ⟨hx, hy, hs, rfl, rfl⟩ .nil
  | @cons p e ps m hp hps ih =>
    have := isAt_iff hi hp x hx hs
    by_cases he : e.1 = x
    · simp only [put, mput, if_pos (this.2 he), if_pos he]
      obtain ⟨e1, e2⟩ := e
      simp only at he
      subst he
      exact .cons ⟨hx, hy, hp.2.2.1, hp.2.2.2.1, rfl⟩ hps
    · simp only [put, mput, if_neg (fun hh => he (this.1 hh)), if_neg he]
      exact .cons hp ih

omit [DecidableEq V] in
theorem outputDict_ok {iks oks : List String} (ho : oks.Nodup) {f : Fn V}
    {m : List (List V × List V)} (h : Rep iks oks f m) (y : List V) (hy : oks.length = y.length) :
    outputDict f y = .ok (oks.zip y) := by
  simp only [outputDict, h.outKeys, if_pos hy]
  rw [update_nil]
  rw [Dict.Wf, zip_keys _ _ hy]
  exact ho

omit [DecidableEq V] in
theorem outputDict_err {iks oks : List String} {f : Fn V}
    {m : List (List V × List V)} (h : Rep iks oks f m) (y : List V) (hy : oks.length ≠ y.length) :
    outputDict f y = .error .assertion := by
  simp only [outputDict, h.outKeys, if_neg hy]

/-- The abstract map after a call. -/
def mcall (iks oks : List String) (m : List (List V × List V)) (c : List V × List V × List V) :
    List (List V × List V) :=
  if Accepted iks oks c then mput c.1 c.2.1 m else m

theorem call_rep {iks oks : List String} (hi : iks.Nodup) (ho : oks.Nodup) (hs : "state" ∈ iks)
    {f : Fn V} {m : List (List V × List V)} (h : Rep iks oks f m) (c : List V × List V × List V) :
    Rep iks oks (call f c) (mcall iks oks m c) := by
  obtain ⟨x, y, labels⟩ := c
  by_cases hx : iks.length = x.length
  · obtain ⟨s, hs1, hs2⟩ := stateAndInputs_ok hi hs h x hx
    by_cases hy : oks.length = y.length
    · simp only [call, add, hs2, ok_bind, outputDict_ok ho h y hy, pure_eq_ok, mcall, Accepted, hx,
        hy, BEq.rfl, Bool.and_self, if_true]
      refine ⟨h.inKeys, h.outKeys, h.idx, put_rep hi h.pairs x y labels hx hy hs1, ?_⟩
      rw [mput_keys]
      split
      · exact h.once
      · rename_i hn
        rw [List.nodup_append]
        refine ⟨h.once, by simp, fun a ha b hb => ?_⟩
        rw [List.mem_singleton.1 hb]
        intro e; exact hn (e ▸ ha)
    · simp only [call, add, hs2, ok_bind, outputDict_err h y hy, error_bind, mcall, Accepted]
      have : (y.length == oks.length) = false := by simp; omega
      simp only [this, Bool.and_false, Bool.false_eq_true, if_false]
      exact h
  · have h1 : stateAndInputs f x = .error .assertion := by
      simp [stateAndInputs, h.inKeys, hx]
    have : (x.length == iks.length) = false := by simp; omega
    simp only [call, add, h1, error_bind, mcall, Accepted, this, Bool.false_and, Bool.false_eq_true,
      if_false]
    exact h

/-- The value of the abstract map at `x`. -/
def mget (m : List (List V × List V)) (x : List V) : Option (List V) :=
  (m.find? fun e => e.1 == x).map (·.2)

theorem mget_mput (x y z : List V) (m : List (List V × List V)) :
    mget (mput x y m) z = if x = z then some y else mget m z := by
  induction m with
  | nil => by_cases h : x = z <;> simp [mput, mget, h]
  | cons e m ih =>
    by_cases he : e.1 = x
    · by_cases h : x = z
      · simp [mput, mget, he, h]
      · simp only [mput, if_pos he, mget, List.find?_cons, h, beq_eq_false_iff_ne.2 h,
          beq_eq_false_iff_ne.2 (fun e' => h (he.symm.trans e')), if_false]
    · by_cases hz : e.1 = z
      · have : ¬ x = z := fun e' => he (hz.trans e'.symm)
        simp only [mput, if_neg he, mget, List.find?_cons, beq_iff_eq.2 hz, if_neg this]
      · have := ih
        simp only [mget] at this
        simp only [mput, if_neg he, mget, List.find?_cons, beq_eq_false_iff_ne.2 hz]
        exact this

theorem mget_lastAt (iks oks : List String) (calls : List (List V × List V × List V))
    (m : List (List V × List V)) (x : List V) :
    mget (calls.foldl (mcall iks oks) m) x = (lastAt iks oks calls x).or (mget m x) := by
  induction calls generalizing m with
  | nil => simp [lastAt]
  | cons c calls ih =>
    simp only [List.foldl_cons]
    rw [ih]
    simp only [lastAt, List.filter_cons]
    by_cases hc : (Accepted iks oks c && decide (c.1 = x)) = true
    · rw [if_pos hc]
      simp only [Bool.and_eq_true, decide_eq_true_eq] at hc
      simp only [mcall, hc.1, if_true, mget_mput, if_pos hc.2]
      generalize (calls.filter _) = l
      cases hl : l.getLast? with
      | none => rw [List.getLast?_eq_none_iff] at hl; subst hl; simp
      | some e => simp [List.getLast?_cons, hl]
    · rw [if_neg hc]
      congr 1
      simp only [mcall]
      split
      · rename_i ha
        rw [mget_mput, if_neg]
        intro e
        exact hc (by simp [ha, e])
      · rfl

theorem run_rep {iks oks : List String} (hi : iks.Nodup) (ho : oks.Nodup) (hs : "state" ∈ iks)
    (calls : List (List V × List V × List V)) (f : Fn V) (m : List (List V × List V))
    (h : Rep iks oks f m) : Rep iks oks (calls.foldl call f) (calls.foldl (mcall iks oks) m) := by
  induction calls generalizing f m with
  | nil => exact h
  | cons c calls ih => exact ih _ _ (call_rep hi ho hs h c)

theorem find_rep {iks oks : List String} (hi : iks.Nodup)
    {ps : List (Pair V)} {m : List (List V × List V)}
    (h : List.Forall₂ (fun (p : Pair V) (e : List V × List V) =>
      iks.length = e.1.length ∧ oks.length = e.2.length ∧ e.1[iks.idxOf "state"]? = some p.state ∧
      p.inputs = (iks.zip e.1).eraseIdx (iks.idxOf "state") ∧ p.outputs = oks.zip e.2) ps m)
    (x : List V) (hx : iks.length = x.length) {s : V}
    (hs : x[iks.idxOf "state"]? = some s) :
    match mget m x with
    | none => ps.find? (isAt s ((iks.zip x).eraseIdx (iks.idxOf "state"))) = none
    | some y => oks.length = y.length ∧
      ∃ p, ps.find? (isAt s ((iks.zip x).eraseIdx (iks.idxOf "state"))) = some p ∧
        p.outputs = oks.zip y := by
  induction h with
  | nil => simp [mget]
  | @cons p e ps m hp hps ih =>
    have := isAt_iff hi hp x hx hs
    by_cases he : e.1 = x
    · have h1 : mget (e :: m) x = some e.2 := by simp [mget, he]
      rw [h1]
      exact ⟨hp.2.1, p, by simp [this.2 he], hp.2.2.2.2⟩
    · have h1 : mget (e :: m) x = mget m x := by simp [mget, he]
      rw [h1]
      have h2 : isAt s ((iks.zip x).eraseIdx (iks.idxOf "state")) p = false := by
        rw [← Bool.not_eq_true, this]; exact he
      simp only [List.find?_cons, h2]
      exact ih

theorem mapM_get? (d : Dict String V) (ks : List String) (y : List V) (h : ks.length = y.length)
    (hw : Dict.Wf d) (hsub : ∀ p ∈ ks.zip y, p ∈ d) :
    ks.mapM (fun k => Dict.get? d k) = some y := by
  induction ks generalizing y with
  | nil => cases y with
    | nil => rfl
    | cons => simp at h
  | cons k ks ih => cases y with
    | nil => simp at h
    | cons v y =>
      rw [List.mapM_cons, get?_of_mem_wf hw (hsub (k, v) (by simp)),
        ih y (by simpa using h) (fun p hp => hsub p (by simp [hp]))]
      rfl

theorem outputTuple_zip {oks : List String} (ho : oks.Nodup) {f : Fn V} (hf : f.outputKeys = oks)
    (y : List V) (hy : oks.length = y.length) : outputTuple f (oks.zip y) = .ok (wrap y) := by
  match oks, y, hy with
  | [], [], _ => rfl
  | [k], [v], _ => rfl
  | k :: k' :: ks, v :: v' :: y, hy =>
    have := mapM_get? ((k :: k' :: ks).zip (v :: v' :: y)) (k :: k' :: ks) (v :: v' :: y) hy
      (by rw [Dict.Wf, zip_keys _ _ hy]; exact ho) (fun p hp => hp)
    simp only [outputTuple, hf, List.zip_cons_cons] at this ⊢
    rw [this]
    rfl

/-- **C65.** Take a function of any distinct input keys that include `"state"` and any distinct
output keys, and any history of calls of `add`. Then `f[x]` returns what the last accepted call at
`x` gave, and raises `KeyError` when there was none; an input of the wrong length raises
`AssertionError`. -/
theorem getItem_spec (iks oks : List String) (hi : iks.Nodup) (ho : oks.Nodup)
    (hs : "state" ∈ iks) (calls : List (List V × List V × List V)) (x : List V) :
    ∃ f : Fn V, new iks oks = .ok f ∧ getItem (calls.foldl call f) x =
      if x.length ≠ iks.length then .error .assertion
      else match lastAt iks oks calls x with
        | some y => .ok (wrap y)
        | none => .error .keyError := by
  refine ⟨⟨iks, oks, iks.idxOf "state", []⟩, by simp [new, hs], ?_⟩
  have h0 : Rep iks oks (⟨iks, oks, iks.idxOf "state", []⟩ : Fn V) [] :=
    ⟨rfl, rfl, rfl, .nil, by simp⟩
  have h := run_rep hi ho hs calls _ _ h0
  by_cases hx : x.length = iks.length
  · rw [if_neg (by simpa using hx)]
    obtain ⟨s, hs1, hs2⟩ := stateAndInputs_ok hi hs h x hx.symm
    have h2 := find_rep hi h.pairs x hx.symm hs1
    rw [mget_lastAt] at h2
    simp only [mget, List.find?_nil, Option.map_none, Option.or_none] at h2
    simp only [getItem, hs2, ok_bind]
    cases hl : lastAt iks oks calls x with
    | none =>
      rw [hl] at h2
      simp only at h2
      rw [h2]
    | some y =>
      rw [hl] at h2
      obtain ⟨hy, p, h3, h4⟩ := h2
      rw [h3]
      simp only [h4]
      exact outputTuple_zip ho h.outKeys y hy
  · have h1 : stateAndInputs (calls.foldl call ⟨iks, oks, iks.idxOf "state", []⟩) x =
        .error .assertion := by
      simp [stateAndInputs, h.inKeys, Ne.symm hx]
    rw [if_pos hx]
    simp [getItem, h1]

theorem mput_length (x y : List V) (m : List (List V × List V)) :
    (mput x y m).length = if x ∈ m.map (·.1) then m.length else m.length + 1 := by
  have := congrArg List.length (mput_keys x y m)
  simp only [List.length_map] at this
  rw [this]
  split <;> simp

/-- **C65.** `len(f)` is the number of different inputs of the accepted calls: a second call at an
input replaces, and does not add. -/
theorem len_spec (iks oks : List String) (hi : iks.Nodup) (ho : oks.Nodup)
    (hs : "state" ∈ iks) (calls : List (List V × List V × List V)) :
    ∃ f : Fn V, new iks oks = .ok f ∧ len (calls.foldl call f) =
      ((calls.filter (Accepted iks oks)).map (·.1)).dedup.length := by
  refine ⟨⟨iks, oks, iks.idxOf "state", []⟩, by simp [new, hs], ?_⟩
  have h0 : Rep iks oks (⟨iks, oks, iks.idxOf "state", []⟩ : Fn V) [] :=
    ⟨rfl, rfl, rfl, .nil, by simp⟩
  have h := run_rep hi ho hs calls _ _ h0
  have hlen : len (calls.foldl call (⟨iks, oks, iks.idxOf "state", []⟩ : Fn V)) =
      ((calls.foldl (mcall iks oks) []).map (·.1)).length := by
    rw [len, h.pairs.length_eq, List.length_map]
  rw [hlen]
  have hm : ∀ (calls : List (List V × List V × List V)) (m : List (List V × List V)) (x : List V),
      x ∈ (calls.foldl (mcall iks oks) m).map (·.1) ↔
        x ∈ m.map (·.1) ∨ x ∈ (calls.filter (Accepted iks oks)).map (·.1) := by
    intro calls
    induction calls with
    | nil => simp
    | cons c calls ih =>
      intro m x
      simp only [List.foldl_cons]
      rw [ih]
      simp only [mcall, List.filter_cons]
      split
      · rw [mput_keys]
        split
        · rename_i hmem
          simp only [List.map_cons, List.mem_cons]
          constructor
          · tauto
          · rintro (h | h | h)
            · exact .inl h
            · exact .inl (h ▸ hmem)
            · exact .inr h
        · simp only [List.map_cons, List.mem_cons, List.mem_append, List.mem_singleton,
            List.not_mem_nil, or_false, or_assoc]
      · rfl
  refine ((List.perm_ext_iff_of_nodup h.once (List.nodup_dedup _)).2 fun x => ?_).length_eq
  rw [hm, List.mem_dedup]
  simp

/-- A policy with memory: two calls at one input, one call of the wrong length. -/
example : ∃ f : Fn Nat, new ["mode", "state"] ["action"] = .ok f ∧
    (getItem ([([0, 1], [5], []), ([1, 0], [6], []), ([0, 1], [7], [3]), ([0], [9], [])].foldl
      call f) [0, 1]).toOption.isSome ∧
    lastAt ["mode", "state"] ["action"]
      [([0, 1], [5], []), ([1, 0], [6], []), ([0, 1], [7], [3]), ([0], [9], [])] [0, 1] =
        some [7] :=
  ⟨_, rfl, by decide +kernel, by decide +kernel⟩

end MathFunc
end Tulip
