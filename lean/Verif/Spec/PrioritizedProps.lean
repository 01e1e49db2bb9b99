import Verif.Spec.Prioritized
import Mathlib.Data.List.Forall2

/-!
# C47: a prioritized specification lists its rules by level, then by order of addition
-/

namespace Tulip
namespace Prio
variable {A B : Type} [DecidableEq B]

/-- A call is accepted when its priority is a positive integer, its level is not negative, and its
atomic propositions are those of the first accepted rule. -/
def accept (ap : A → B) (rs : List (Rule A)) (c : Call A) : List (Rule A) :=
  match c.priority with
  | .int n =>
    if 0 < n ∧ 0 ≤ c.level ∧ (∀ r ∈ rs.head?, ap r.fa = ap c.fa) then
      rs ++ [⟨c.fa, n, c.level.toNat⟩]
    else rs
  | .float _ => rs

/-- The rules of the accepted calls, in the order of the calls. -/
def accepted (ap : A → B) (calls : List (Call A)) : List (Rule A) := calls.foldl (accept ap) []

/-- One more than the greatest level of the rules. -/
def levelCount (rs : List (Rule A)) : Nat := rs.foldl (fun n r => max n (r.level + 1)) 0

/-- The rules by level, and within a level in the given order. -/
def byLevel (rs : List (Rule A)) : List (Rule A) :=
  (List.range (levelCount rs)).flatMap fun l => rs.filter fun r => r.level == l

omit [DecidableEq B] in
theorem levelCount_append (rs : List (Rule A)) (r : Rule A) :
    levelCount (rs ++ [r]) = max (levelCount rs) (r.level + 1) := by
  simp [levelCount]

/-- The table of levels that stands for the rules. -/
def table (rs : List (Rule A)) : List (List (Rule A)) :=
  (List.range (levelCount rs)).map fun l => rs.filter fun r => r.level == l

theorem filter_above (rs : List (Rule A)) (l : Nat) (h : levelCount rs ≤ l) :
    rs.filter (fun r => r.level == l) = [] := by
  rw [List.filter_eq_nil_iff]
  intro r hr
  have : ∀ (rs : List (Rule A)) (n : Nat), n ≤ rs.foldl (fun n r => max n (r.level + 1)) n ∧
      ∀ r ∈ rs, r.level < rs.foldl (fun n r => max n (r.level + 1)) n := by
    intro rs
    induction rs with
    | nil => simp
    | cons a rs ih =>
      intro n
      simp only [List.foldl_cons]
      have h1 := ih (max n (a.level + 1))
      refine ⟨by omega, fun r hr => ?_⟩
      rcases List.mem_cons.1 hr with rfl | hr
      · omega
      · exact h1.2 r hr
  have h2 := (this rs 0).2 r hr
  have h3 : r.level < levelCount rs := h2
  simp; omega

theorem insert_table (rs : List (Rule A)) (r : Rule A) :
    insert (table rs) r = table (rs ++ [r]) := by
  have hlen : (insert (table rs) r).length = max (levelCount rs) (r.level + 1) := by
    simp [insert, table]; omega
  apply List.ext_getElem
  · rw [hlen]; simp [table, levelCount_append]
  · intro i h1 h2
    rw [hlen] at h1
    simp only [insert, List.getElem_modify]
    have hi : (table rs ++ List.replicate (r.level + 1 - (table rs).length) [])[i]'(by
        simp [table]; omega) = rs.filter fun r => r.level == i := by
      rw [List.getElem_append]
      split
      · simp [table]
      · rename_i hge
        simp only [List.getElem_replicate]
        rw [filter_above]
        simpa [table] using hge
    rw [hi]
    simp only [table, List.getElem_map, List.getElem_range, List.filter_append]
    by_cases h : r.level = i
    · simp [h]
    · simp [h]

omit [DecidableEq B] in
theorem table_eq_nil (rs : List (Rule A)) : (table rs).isEmpty = rs.isEmpty := by
  cases h : rs.reverse with
  | nil => simp at h; subst h; rfl
  | cons r l =>
    have : rs = l.reverse ++ [r] := by simpa using congrArg List.reverse h
    subst this
    have h2 : 0 < (table (l.reverse ++ [r])).length := by
      simp only [table, List.length_map, List.length_range, levelCount_append]; omega
    cases ht : table (l.reverse ++ [r]) with
    | nil => rw [ht] at h2; simp at h2
    | cons => simp

theorem accept_step (ap : A → B) (s : PSpec A B) (rs : List (Rule A)) (c : Call A)
    (h1 : s.psi = table rs) (h2 : ∀ r ∈ rs.head?, s.aps = some (ap r.fa)) :
    (addRule ap s c.fa c.priority c.level).2.psi = table (accept ap rs c) ∧
    ∀ r ∈ (accept ap rs c).head?,
      (addRule ap s c.fa c.priority c.level).2.aps = some (ap r.fa) := by
  obtain ⟨fa, pr, level⟩ := c
  have hemp : s.psi.isEmpty = rs.isEmpty := by rw [h1, table_eq_nil]
  cases rs with
  | nil =>
    have he : s.psi.isEmpty = true := by rw [hemp]; rfl
    have ht : table ([] : List (Rule A)) = [] := rfl
    cases pr with
    | float p => cases p <;> by_cases hl : level < 0 <;>
        simp [addRule, Priority.nonpos, accept, hl, h1, ht]
    | int n =>
      by_cases hn : n ≤ 0
      · have : ¬ 0 < n := by omega
        simp [addRule, Priority.nonpos, accept, hn, this, h1]
      · have hn' : 0 < n := by omega
        by_cases hl : level < 0
        · have : ¬ 0 ≤ level := by omega
          simp [addRule, Priority.nonpos, accept, hn, hl, this, h1]
        · have hl' : 0 ≤ level := by omega
          simp only [addRule, Priority.nonpos, accept, hn, hl, he, decide_false, hn', hl',
            Bool.false_eq_true, if_false, if_true, Bool.not_true, List.head?_nil, Option.mem_def,
            reduceCtorEq, false_implies, implies_true, true_and, and_self, and_true]
          rw [h1, insert_table]
          simp
  | cons r rs =>
    have he : s.psi.isEmpty = false := by rw [hemp]; rfl
    have ht : table (r :: rs) ≠ [] := by
      intro e; have := table_eq_nil (r :: rs); rw [e] at this; simp at this
    have h3 := h2 r (by simp)
    cases pr with
    | float p => cases p <;> by_cases hl : level < 0 <;> by_cases hap : ap r.fa = ap fa <;>
        simp [addRule, Priority.nonpos, accept, hl, h1, h3, hap, ht]
    | int n =>
      by_cases hn : n ≤ 0
      · have : ¬ 0 < n := by omega
        simp [addRule, Priority.nonpos, accept, hn, this, h1, h3]
      · have hn' : 0 < n := by omega
        by_cases hl : level < 0
        · have : ¬ 0 ≤ level := by omega
          simp [addRule, Priority.nonpos, accept, hn, hl, this, h1, h3]
        · have hl' : 0 ≤ level := by omega
          by_cases hap : ap r.fa = ap fa
          · simp only [addRule, Priority.nonpos, accept, hn, hl, he, decide_false, hn', hl', h3, hap,
              Bool.false_eq_true, if_false, if_true, Bool.not_true, List.head?_cons, Option.mem_def,
              Option.some.injEq, forall_eq', decide_true, true_and, and_self, List.cons_append]
            rw [h1, insert_table]
            simp [hap]
          · simp [addRule, Priority.nonpos, accept, hn, hl, h1, h3, hap, ht]

/-- The object after any history holds the table of the accepted rules, and their common atomic
propositions. -/
theorem run_table (ap : A → B) (calls : List (Call A)) :
    (run ap calls).psi = table (accepted ap calls) ∧
    ∀ r ∈ (accepted ap calls).head?, (run ap calls).aps = some (ap r.fa) := by
  have key : ∀ (calls : List (Call A)) (s : PSpec A B) (rs : List (Rule A)),
      s.psi = table rs → (∀ r ∈ rs.head?, s.aps = some (ap r.fa)) →
      (calls.foldl (fun s c => (addRule ap s c.fa c.priority c.level).2) s).psi =
        table (calls.foldl (accept ap) rs) ∧
      ∀ r ∈ (calls.foldl (accept ap) rs).head?,
        (calls.foldl (fun s c => (addRule ap s c.fa c.priority c.level).2) s).aps =
          some (ap r.fa) := by
    intro calls
    induction calls with
    | nil => intro s rs h1 h2; exact ⟨h1, h2⟩
    | cons c calls ih =>
      intro s rs h1 h2
      have := accept_step ap s rs c h1 h2
      exact ih _ _ this.1 this.2
  exact key calls {} [] rfl (by simp)

theorem flatten_table (rs : List (Rule A)) : (table rs).flatMap id = byLevel rs := by
  simp [table, byLevel, List.flatMap_map]

omit [DecidableEq B] in
theorem itemLoop_spec (psi : List (List (Rule A))) (k : Nat) :
    itemLoop psi k = match (psi.flatMap id)[k]? with
      | some r => .ok r
      | none => .error .indexError := by
  induction psi generalizing k with
  | nil => simp [itemLoop]
  | cons l psi ih =>
    simp only [itemLoop, List.flatMap_cons, id]
    split
    · rename_i h
      rw [ih, List.getElem?_append_right h]
    · rename_i h
      rw [List.getElem?_append_left (by omega)]
      cases l[k]? <;> rfl

/-! ### Iteration -/

/-- What remains to be yielded from the position `(l, i)`. -/
def rest (psi : List (List (Rule A))) (p : Nat × Nat) : List (Rule A) :=
  (psi[p.1]?.getD []).drop p.2 ++ (psi.drop (p.1 + 1)).flatMap id

omit [DecidableEq B] in
theorem drop_flat (psi : List (List (Rule A))) (l : Nat) :
    (psi.drop l).flatMap id = psi[l]?.getD [] ++ (psi.drop (l + 1)).flatMap id := by
  by_cases h : l < psi.length
  · rw [List.drop_eq_getElem_cons h, List.getElem?_eq_getElem h, List.flatMap_cons]
    rfl
  · simp [List.drop_eq_nil_of_le (Nat.le_of_not_lt h), List.getElem?_eq_none (Nat.le_of_not_lt h),
      List.drop_eq_nil_of_le (show psi.length ≤ l + 1 by omega)]

theorem skip_spec (psi : List (List (Rule A))) (fuel : Nat) (p : Nat × Nat)
    (h : psi.length < fuel + p.1) :
    rest psi (skip psi fuel p) = rest psi p ∧
    (∀ rs, psi[(skip psi fuel p).1]? = some rs → (skip psi fuel p).2 < rs.length) := by
  induction fuel generalizing p with
  | zero =>
    simp only [skip, true_and]
    intro rs hrs
    rw [List.getElem?_eq_none (by omega)] at hrs
    cases hrs
  | succ fuel ih =>
    obtain ⟨l, i⟩ := p
    simp only [skip]
    cases hl : psi[l]? with
    | none => simp [hl]
    | some rs =>
      simp only
      by_cases hi : i ≥ rs.length
      · rw [if_pos hi]
        have := ih (l + 1, 0) (by simp only at h ⊢; omega)
        refine ⟨?_, this.2⟩
        rw [this.1]
        simp only [rest, hl, Option.getD_some, List.drop_eq_nil_of_le hi, List.nil_append,
          List.drop_zero]
        rw [← drop_flat]
      · rw [if_neg hi]
        refine ⟨rfl, ?_⟩
        intro rs' hrs'
        rw [hl] at hrs'; cases hrs'
        simp only; omega

omit [DecidableEq B] in
theorem next_spec (s : PSpec A B) :
    match rest s.psi s.iter with
    | [] => ∃ p, next s = (none, { s with iter := p }) ∧ rest s.psi p = []
    | r :: rs => ∃ p, next s = (some r, { s with iter := p }) ∧ rest s.psi p = rs := by
  have h := skip_spec s.psi (s.psi.length + 1) s.iter (by omega)
  generalize hp : skip s.psi (s.psi.length + 1) s.iter = p at h
  rw [← h.1]
  cases hl : s.psi[p.1]? with
  | none =>
    have h0 : rest s.psi p = [] := by
      rw [List.getElem?_eq_none_iff] at hl
      simp [rest, List.getElem?_eq_none hl, List.drop_eq_nil_of_le (show s.psi.length ≤ p.1 + 1 by omega)]
    rw [h0]
    exact ⟨p, by simp only [next, hp, hl], h0⟩
  | some rs =>
    have hi := h.2 rs hl
    have h0 : rest s.psi p = rs[p.2] :: (rs.drop (p.2 + 1) ++ (s.psi.drop (p.1 + 1)).flatMap id) := by
      simp only [rest, hl, Option.getD_some]
      rw [List.drop_eq_getElem_cons hi]
      rfl
    rw [h0]
    refine ⟨(p.1, p.2 + 1), by simp only [next, hp, hl, List.getElem?_eq_getElem hi], ?_⟩
    simp only [rest, hl, Option.getD_some]

omit [DecidableEq B] in
theorem collect_spec (fuel : Nat) (s : PSpec A B) (h : (rest s.psi s.iter).length < fuel) :
    (collect fuel s).1 = rest s.psi s.iter ∧ (collect fuel s).2.psi = s.psi ∧
      rest s.psi (collect fuel s).2.iter = [] := by
  induction fuel generalizing s with
  | zero => omega
  | succ fuel ih =>
    have hn := next_spec s
    cases hr : rest s.psi s.iter with
    | nil =>
      rw [hr] at hn
      obtain ⟨p, h1, h2⟩ := hn
      simp [collect, h1, h2]
    | cons r rs =>
      rw [hr] at hn h
      obtain ⟨p, h1, h2⟩ := hn
      have := ih { s with iter := p } (by simp only [h2]; simp only [List.length_cons] at h; omega)
      simp only [h2] at this
      simp only [collect, h1]
      exact ⟨by rw [this.1], this.2⟩

omit [DecidableEq B] in
theorem rest_start (psi : List (List (Rule A))) : rest psi (0, 0) = psi.flatMap id := by
  have := drop_flat psi 0
  simp only [List.drop_zero] at this
  rw [this]
  simp [rest]

omit [DecidableEq B] in
theorem iterate_eq (fuel : Nat) (s : PSpec A B) (h : (getRules s).length < fuel) :
    iterate fuel s = getRules s := by
  have := (collect_spec fuel (iterStart s) (by simp only [iterStart, rest_start]; exact h)).1
  simpa [iterate, iterStart, rest_start, getRules] using this

omit [DecidableEq B] in
theorem len_eq (s : PSpec A B) : len s = (getRules s).length := by
  simp [len, getRules, List.length_flatMap]

/-- **C47.** After any history of calls of `add_rule`, `get_rules` lists the accepted rules by level
and, within a level, in the order of addition; `len`, indexing and iteration agree with that list, and
`get_rules_at` and `get_num_levels` with its levels. -/
theorem prioritized_rules (ap : A → B) (calls : List (Call A)) :
    let s := run ap calls
    let rs := accepted ap calls
    getRules s = byLevel rs ∧
    len s = (byLevel rs).length ∧
    (∀ k : Nat, getItem s k = match (byLevel rs)[k]? with
      | some r => .ok r
      | none => .error .indexError) ∧
    (∀ k : Int, k < 0 → getItem s k = .error .assertion) ∧
    (∀ fuel, (byLevel rs).length < fuel → iterate fuel s = byLevel rs) ∧
    (∀ l, getRulesAt s l = rs.filter fun r => r.level == l) ∧
    numLevels s = levelCount rs := by
  intro s rs
  have h := (run_table ap calls).1
  have hg : getRules s = byLevel rs := by
    rw [getRules, show s.psi = table rs from h, flatten_table]
  refine ⟨hg, by rw [len_eq, hg], ?_, ?_, ?_, ?_, ?_⟩
  · intro k
    have : ¬ ((k : Int) < 0) := by omega
    simp only [getItem, if_neg this, Int.toNat_natCast]
    rw [itemLoop_spec, show s.psi = table rs from h, flatten_table]
  · intro k hk
    simp [getItem, hk]
  · intro fuel hf
    rw [iterate_eq fuel s (by rw [hg]; exact hf), hg]
  · intro l
    simp only [getRulesAt, show s.psi = table rs from h]
    split
    · rename_i hl
      rw [filter_above]
      simpa [table] using hl
    · rename_i hl
      have : l < levelCount rs := by simpa [table] using hl
      simp [table, this]
  · simp [numLevels, show s.psi = table rs from h, table]

/-- **C47.** A call that raises leaves the rules as they are, and a call that does not raise adds its
rule at the end of its level. -/
theorem addRule_spec (ap : A → B) (s : PSpec A B) (fa : A) (p : Priority) (level : Int) :
    ((addRule ap s fa p level).1 ≠ none → (addRule ap s fa p level).2.psi = s.psi) ∧
    ((addRule ap s fa p level).1 = none → ∃ n, p = .int n ∧ 0 < n ∧ 0 ≤ level ∧
      (∀ l, getRulesAt (addRule ap s fa p level).2 l =
        getRulesAt s l ++ if (l : Int) = level then [⟨fa, n, level.toNat⟩] else [])) := by
  unfold addRule
  by_cases h1 : p.nonpos = true
  · simp [h1]
  by_cases h2 : level < 0
  · simp [h1, h2]
  simp only [h1, h2, if_false, Bool.false_eq_true]
  by_cases he : s.psi.isEmpty = true
  · cases p with
    | float b => simp [he]
    | int n =>
      simp only [Priority.nonpos, decide_eq_true_eq] at h1
      simp only [he, if_true, Bool.not_true, Bool.false_eq_true, if_false, ne_eq, not_true,
        false_implies, forall_const, true_and]
      refine ⟨n, rfl, by omega, by omega, fun l => ?_⟩
      have hs : s.psi = [] := by simpa using he
      simp only [getRulesAt, insert, hs, List.nil_append, List.length_nil, Nat.sub_zero,
        List.length_modify, List.length_replicate, List.getElem?_modify]
      by_cases hl : (l : Int) = level
      · have : l = level.toNat := by omega
        subst this
        have h3 : ¬ (level.toNat ≥ level.toNat + 1) := by omega
        simp [h3, hl]
      · simp only [hl, if_false, List.append_nil, ge_iff_le, Nat.zero_le, if_true]
        split
        · rfl
        · have h4 : ¬ level.toNat = l := by omega
          simp [h4, List.getElem?_replicate]
          split <;> simp
  · simp only [he, if_false, Bool.false_eq_true]
    by_cases hap : s.aps = some (ap fa)
    · cases p with
      | float b => simp [hap]
      | int n =>
        simp only [Priority.nonpos, decide_eq_true_eq] at h1
        simp only [hap, decide_true, Bool.not_true, Bool.false_eq_true, if_false, ne_eq, not_true,
          false_implies, forall_const, true_and]
        refine ⟨n, rfl, by omega, by omega, fun l => ?_⟩
        simp only [getRulesAt, insert, List.length_modify, List.length_append,
          List.length_replicate, List.getElem?_modify]
        by_cases hl : (l : Int) = level
        · have : l = level.toNat := by omega
          subst this
          have h3 : ¬ (level.toNat ≥ s.psi.length + (level.toNat + 1 - s.psi.length)) := by omega
          simp only [h3, if_false, hl, if_true]
          by_cases h5 : level.toNat < s.psi.length
          · rw [List.getElem?_append_left h5]
            rw [if_neg (by omega), List.getElem?_eq_getElem h5]
            simp
          · rw [List.getElem?_append_right (by omega), if_pos (by omega)]
            rw [List.getElem?_replicate, if_pos (by omega)]
            simp
        · simp only [hl, if_false, List.append_nil]
          have h4 : ¬ level.toNat = l := by omega
          simp only [h4, if_false, Option.map_eq_map, Option.map_id_fun', id]
          by_cases h5 : l < s.psi.length
          · rw [if_neg (by omega), if_neg (by omega), List.getElem?_append_left h5]
          · rw [if_pos (show l ≥ s.psi.length by omega)]
            split
            · rfl
            · rw [List.getElem?_append_right (by omega), List.getElem?_replicate]
              split <;> rfl
    · simp [hap]

omit [DecidableEq B] in
theorem mem_product {σ : Type} (ls : List (List σ)) (xs : List σ) :
    xs ∈ product ls ↔ List.Forall₂ (fun x l => x ∈ l) xs ls := by
  induction ls generalizing xs with
  | nil =>
    simp only [product, List.mem_singleton]
    constructor
    · rintro rfl; exact .nil
    · intro h; cases h; rfl
  | cons l ls ih =>
    simp only [product, List.mem_flatMap, List.mem_map]
    constructor
    · rintro ⟨x, hx, ys, hy, rfl⟩
      exact .cons hx ((ih ys).1 hy)
    · intro h
      cases h with
      | @cons x _ ys _ hx hy => exact ⟨x, hx, ys, (ih ys).2 hy, rfl⟩

omit [DecidableEq B] in
/-- **C47.** A tuple is listed by `get_states` (and likewise by `get_initial_states` and
`get_accepting_states`) exactly when its entry at `i` is a state of the automaton of `spec[i]`. -/
theorem productOf_spec {σ : Type} (f : A → List σ) (s : PSpec A B) (xs : List σ) :
    xs ∈ productOf f s ↔ List.Forall₂ (fun x (r : Rule A) => x ∈ f r.fa) xs (getRules s) := by
  rw [productOf, mem_product, iterate_eq _ s (by rw [len_eq]; omega), List.forall₂_map_right_iff]

/-- **C47** fails for nested loops: `[(a, b) for a in spec for b in spec]` over a specification of
two rules yields two pairs and not four, since both loops share the counters. -/
theorem nested_iteration_counterexample :
    ∃ s : PSpec Nat Nat, (getRules s).length = 2 ∧
      (∀ fuel inner, 3 < fuel → 3 < inner → pairsLoop fuel inner (iterStart s) =
        (getRules s).map fun b => (⟨0, 1, 0⟩, b)) := by
  refine ⟨{ psi := [[⟨0, 1, 0⟩], [⟨1, 1, 1⟩]], aps := some 0 }, rfl, ?_⟩
  intro fuel inner hf hi
  obtain ⟨f, rfl⟩ : ∃ f, fuel = f + 2 := ⟨fuel - 2, by omega⟩
  obtain ⟨g, rfl⟩ : ∃ g, inner = g + 3 := ⟨inner - 3, by omega⟩
  rfl

/-- Rules added out of order, a rejected priority and a rejected level. -/
example : byLevel (accepted (fun _ : Nat => 0)
    [⟨7, .int 1, 2⟩, ⟨8, .int 3, 0⟩, ⟨9, .int 0, 0⟩, ⟨10, .int 5, 2⟩, ⟨11, .int 5, -1⟩,
      ⟨12, .float true, 0⟩, ⟨13, .int 2, 0⟩]) =
    [⟨8, 3, 0⟩, ⟨13, 2, 0⟩, ⟨7, 1, 2⟩, ⟨10, 5, 2⟩] := by decide +kernel

end Prio
end Tulip
