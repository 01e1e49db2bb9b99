import Verif.Mvp
import Verif.Spec.PrioritizedProps
import Mathlib.Algebra.Order.Group.Int
import Mathlib.Tactic.Ring

/-!
# C15: minimum-violation planning

Specification: `PlanRun ks spec s p v k` says that `p` is a path of the structure that starts at an
initial state and ends at `s`, read by the automata of the rules along some run that starts at an
initial state and ends at `q`, with `v l` the sum of the priorities of the rules violated at level
`l`, and `k` the sum of the costs of the transitions. A rule is violated at a step when its automaton
has no transition between the two states of its run that is labelled with the propositions of the
state entered.
-/

namespace Tulip
namespace Mvp
open Prio
variable {B : Type}

/-- The automaton moves from `a` to `b` on the set of propositions `ap`. -/
def Allows (fa : Fa B) (a b : String) (ap : List String) : Prop :=
  ∃ L, (a, b, L) ∈ fa.trans ∧ ∀ x, x ∈ L ↔ x ∈ ap

open Classical in
/-- The violation at level `l` of a joint step of the automata from `q` to `q'`. -/
noncomputable def violation : List (Rule (Fa B)) → List String → List String → List String → Nat →
    Int
  | r :: rules, a :: q, b :: q', ap, l =>
    (if r.level = l ∧ ¬ Allows r.fa a b ap then r.priority else 0) + violation rules q q' ap l
  | _, _, _, _, _ => 0

/-- A tuple of states, one of each automaton (from `f`: all, initial, or accepting states). -/
def Tuple (f : Fa B → List String) (spec : PSpec (Fa B) B) (q : List String) : Prop :=
  List.Forall₂ (fun x (r : Rule (Fa B)) => x ∈ f r.fa) q (getRules spec)

/-- A path of the structure with a run of the automata: see the head of the file. -/
inductive PlanRun (ks : Ks B) (spec : PSpec (Fa B) B) :
    String → List String → List String → (Nat → Int) → Int → Prop
  | start {s : String} {q0 q : List String} (hs : s ∈ ks.initial) (h0 : Tuple Fa.initial spec q0)
      (hq : Tuple Fa.states spec q) :
      PlanRun ks spec s q [s] (violation (getRules spec) q0 q (ks.ap s)) 0
  | step {s t : String} {q q' p : List String} {v : Nat → Int} {k d : Int}
      (h : PlanRun ks spec s q p v k) (he : (s, t, d) ∈ ks.edges) (hq : Tuple Fa.states spec q') :
      PlanRun ks spec t q' (p ++ [t])
        (fun l => v l + violation (getRules spec) q q' (ks.ap t) l) (k + d)

/-- The cost of a plan: violations by level, then the cost of its transitions. -/
def costVector (levels : Nat) (v : Nat → Int) (k : Int) : List Int := (List.range levels).map v ++ [k]

/-- What is required of the structure: transitions and initial states within its states, and costs
that are not negative (`WeightedKripkeStructure` admits no others). -/
structure KsOk (ks : Ks B) : Prop where
  edge : ∀ e ∈ ks.edges, e.1 ∈ ks.states ∧ e.2.1 ∈ ks.states ∧ 0 ≤ e.2.2
  init : ∀ s ∈ ks.initial, s ∈ ks.states

/-- What is required of the rules: priorities that are not negative, levels below the number of
levels (both follow from `add_rule`), and no state name that contains the name of another. -/
structure SpecOk (spec : PSpec (Fa B) B) : Prop where
  rule : ∀ r ∈ getRules spec, 0 ≤ r.priority ∧ r.level < numLevels spec
  names : ∀ r ∈ getRules spec, ∀ t ∈ r.fa.trans, ∀ q ∈ r.fa.states,
    t.2.1.toList <:+: q.toList → t.2.1 = q

/-! ### Costs -/

theorem sameSet_iff (a b : List String) : sameSet a b = true ↔ ∀ x, x ∈ b ↔ x ∈ a := by
  simp only [sameSet, Bool.and_eq_true, List.all_eq_true, List.contains_iff_mem]
  exact ⟨fun h x => ⟨h.2 x, h.1 x⟩, fun h => ⟨fun x => (h x).2, fun x => (h x).1⟩⟩

theorem letters_any (fa : Fa B) (a b : String) (ap : List String)
    (hb : ∀ t ∈ fa.trans, t.2.1.toList <:+: b.toList → t.2.1 = b) :
    (letters fa a b).any (sameSet ap) = true ↔ Allows fa a b ap := by
  simp only [letters, List.any_map, List.any_filter, List.any_eq_true, Bool.and_eq_true, beq_iff_eq,
    inName, decide_eq_true_eq, Function.comp, sameSet_iff, Allows]
  constructor
  · rintro ⟨⟨u, v, L⟩, h1, ⟨h2, h3⟩, h4⟩
    have := hb _ h1 h3
    simp only at h2 this h4
    subst h2; subst this
    exact ⟨L, h1, h4⟩
  · rintro ⟨L, h1, h2⟩
    exact ⟨(a, b, L), h1, ⟨rfl, List.infix_refl _⟩, h2⟩

theorem ruleCost_fold (rules : List (Rule (Fa B))) (levels : Nat) (q q' ap : List String)
    (hr : ∀ r ∈ rules, r.level < levels)
    (hn : ∀ r ∈ rules, ∀ t ∈ r.fa.trans, ∀ q ∈ r.fa.states, t.2.1.toList <:+: q.toList → t.2.1 = q)
    (qs qs' : List String) (pre : Nat) (hq : qs.drop pre = q) (hq' : qs'.drop pre = q')
    (h1 : q.length = rules.length)
    (h2 : List.Forall₂ (fun x (r : Rule (Fa B)) => x ∈ r.fa.states) q' rules)
    (c : List Int) (hc : c.length = levels) :
    ((rules.zipIdx pre).foldl (fun cost r =>
      if (letters r.1.fa (qs[r.2]?.getD "") (qs'[r.2]?.getD "")).any (sameSet ap) then cost
      else cost.modify r.1.level (· + r.1.priority)) c) =
      (List.range levels).map fun l => c[l]?.getD 0 + violation rules q q' ap l := by
  induction rules generalizing q q' pre c with
  | nil =>
    simp only [List.zipIdx_nil, List.foldl_nil, violation, add_zero]
    apply List.ext_getElem
    · simp [hc]
    · intro i hi1 hi2
      simp [List.getElem?_eq_getElem hi1]
  | cons r rules ih =>
    cases h2 with
    | @cons b _ q'' _ hb h2 =>
      cases q with
      | nil => simp at h1
      | cons a q =>
        have ha : qs[pre]? = some a := by
          have := congrArg (·[0]?) hq
          simpa using this
        have hb' : qs'[pre]? = some b := by
          have := congrArg (·[0]?) hq'
          simpa using this
        have hA := letters_any r.fa a b ap fun t ht => hn r (by simp) t ht b hb
        simp only [List.zipIdx_cons, List.foldl_cons, ha, hb', Option.getD_some]
        have hq2 : qs.drop (pre + 1) = q := by
          rw [← List.drop_drop, hq]; rfl
        have hq2' : qs'.drop (pre + 1) = q'' := by
          rw [← List.drop_drop, hq']; rfl
        rw [ih q q'' (fun r h => hr r (by simp [h])) (fun r h => hn r (by simp [h])) (pre + 1) hq2
          hq2' (by simpa using h1) h2 _ (by split <;> simp [hc])]
        apply List.map_congr_left
        intro l hl
        have hl' : l < c.length := by rw [hc]; exact List.mem_range.1 hl
        simp only [violation]
        by_cases hA' : Allows r.fa a b ap
        · rw [if_pos (hA.2 hA'), if_neg (by simp [hA'])]
          ring
        · rw [if_neg (fun h => hA' (hA.1 h))]
          by_cases hrl : r.level = l
          · subst hrl
            rw [if_pos ⟨rfl, hA'⟩]
            simp [List.getElem?_eq_getElem hl']
            ring
          · rw [if_neg (fun h => hrl h.1)]
            simp [List.getElem?_modify, hrl]

theorem ruleCost_spec {spec : PSpec (Fa B) B} (hs : SpecOk spec) (q q' ap : List String)
    (h1 : q.length = (getRules spec).length) (h2 : Tuple Fa.states spec q') :
    ruleCost (getRules spec) (numLevels spec) q q' ap =
      (List.range (numLevels spec)).map (violation (getRules spec) q q' ap) := by
  unfold ruleCost
  rw [ruleCost_fold (getRules spec) (numLevels spec) q q' ap (fun r h => (hs.rule r h).2) hs.names
    q q' 0 rfl rfl h1 h2 _ (by simp)]
  apply List.map_congr_left
  intro l hl
  have := List.mem_range.1 hl
  simp [List.getElem?_replicate, this]

theorem violation_nonneg (rules : List (Rule (Fa B))) (h : ∀ r ∈ rules, 0 ≤ r.priority)
    (q q' ap : List String) (l : Nat) : 0 ≤ violation rules q q' ap l := by
  induction rules generalizing q q' with
  | nil => simp [violation]
  | cons r rules ih =>
    cases q with
    | nil => simp [violation]
    | cons a q => cases q' with
      | nil => simp [violation]
      | cons b q' =>
        simp only [violation]
        have h1 := ih (fun r hr => h r (by simp [hr])) q q'
        have h2 := h r (by simp)
        split <;> omega

/-! ### The state before the initial states -/

theorem nullLoop_fresh (states : List String) (fuel : Nat) (s : String)
    (h : (states.filter fun t => s.length ≤ t.length).length < fuel) :
    nullLoop states fuel s ∉ states := by
  induction fuel generalizing s with
  | zero => omega
  | succ fuel ih =>
    rw [nullLoop]
    split
    · rename_i hs
      apply ih
      have : (states.filter fun t => (s ++ "0").length ≤ t.length).length <
          (states.filter fun t => s.length ≤ t.length).length := by
        have hsub : (states.filter fun t => (s ++ "0").length ≤ t.length) =
            (states.filter fun t => s.length ≤ t.length).filter
              fun t => (s ++ "0").length ≤ t.length := by
          rw [List.filter_filter]
          apply List.filter_congr
          intro t _
          have : (s ++ "0").length = s.length + 1 := by simp [String.length_append]; rfl
          rw [Bool.eq_iff_iff]
          simp only [this, Bool.and_eq_true, decide_eq_true_eq]
          omega
        rw [hsub]
        apply List.length_filter_lt_length_iff_exists.2
        refine ⟨s, by simp [hs], ?_⟩
        have : (s ++ "0").length = s.length + 1 := by simp [String.length_append]; rfl
        simp [this]
      omega
    · rename_i hs; exact hs

theorem nullState_fresh (ks : Ks B) : nullState ks ∉ ks.states :=
  nullLoop_fresh _ _ _ (Nat.lt_succ_of_le (List.length_filter_le ..))

/-! ### Edges of the product -/

theorem mem_addTransition {ks : Ks B} {rules : List (Rule (Fa B))} {levels : Nat} {k : Int}
    {froms tos : List PState} {e : PState × PState × VCost Int (levels + 1)} :
    e ∈ addTransition ks rules levels k froms tos ↔
      ∃ x xs y, froms = x :: xs ∧ y ∈ tos ∧ e = edgeOf ks rules levels k x y := by
  have hnil : ∀ froms : List PState, addTransition ks rules levels k froms [] = [] := by
    intro froms
    induction froms with
    | nil => rfl
    | cons x xs ih => simp [addTransition, ih]
  cases froms with
  | nil => simp [addTransition]
  | cons x xs =>
    simp only [addTransition, hnil, List.append_nil, List.mem_map]
    constructor
    · rintro ⟨y, h1, rfl⟩; exact ⟨x, xs, y, rfl, h1, rfl⟩
    · rintro ⟨x', xs', y, h, h1, rfl⟩; cases h; exact ⟨y, h1, rfl⟩

/-- An edge of the full weighted product (Definition 9 of the paper that the code cites). -/
def FullEdge (ks : Ks B) (spec : PSpec (Fa B) B) (x y : PState) (v : Nat → Int) (k : Int) : Prop :=
  ((x.1, y.1, k) ∈ ks.edges ∧ Tuple Fa.states spec x.2 ∧ Tuple Fa.states spec y.2 ∧
    v = violation (getRules spec) x.2 y.2 (ks.ap y.1)) ∨
  (x.1 = nullState ks ∧ Tuple Fa.initial spec x.2 ∧ y.1 ∈ ks.initial ∧ Tuple Fa.states spec y.2 ∧
    k = 0 ∧ v = violation (getRules spec) x.2 y.2 (ks.ap y.1))

theorem wpaEdges_sound {ks : Ks B} {spec : PSpec (Fa B) B} (hs : SpecOk spec)
    {e : PState × PState × VCost Int (numLevels spec + 1)} (he : e ∈ wpaEdges ks spec) :
    ∃ v k, FullEdge ks spec e.1 e.2.1 v k ∧ e.2.2.1 = costVector (numLevels spec) v k := by
  simp only [wpaEdges, List.mem_append, List.mem_flatMap, mem_addTransition] at he
  rcases he with ⟨d, hd, x, xs, y, hx, hy, rfl⟩ | ⟨x, xs, y, hx, hy, rfl⟩
  · have hxm : x ∈ (productOf Fa.states spec).map fun q => (d.1, q) := by rw [hx]; simp
    obtain ⟨q, hq, rfl⟩ := List.mem_map.1 hxm
    obtain ⟨q', hq', rfl⟩ := List.mem_map.1 hy
    rw [productOf_spec] at hq hq'
    refine ⟨_, d.2.2, .inl ⟨hd, hq, hq', rfl⟩, ?_⟩
    simp only [edgeOf, costVector]
    rw [ruleCost_spec hs q q' _ hq.length_eq hq']
  · have hxm : x ∈ (productOf Fa.initial spec).map fun q => (nullState ks, q) := by rw [hx]; simp
    obtain ⟨q, hq, rfl⟩ := List.mem_map.1 hxm
    simp only [List.mem_flatMap, List.mem_map] at hy
    obtain ⟨s, hs0, q', hq', rfl⟩ := hy
    rw [productOf_spec] at hq hq'
    refine ⟨_, 0, .inr ⟨rfl, hq, hs0, hq', rfl, rfl⟩, ?_⟩
    simp only [edgeOf, costVector]
    rw [ruleCost_spec hs q q' _ hq.length_eq hq']

/-- When the automata have one joint state, which is initial, no edge of the product is missing. -/
theorem wpaEdges_complete {ks : Ks B} {spec : PSpec (Fa B) B} (hs : SpecOk spec) {q0 : List String}
    (h1 : productOf Fa.states spec = [q0]) (h2 : productOf Fa.initial spec = [q0])
    {x y : PState} {v : Nat → Int} {k : Int} (h : FullEdge ks spec x y v k) :
    ∃ c : VCost Int (numLevels spec + 1), (x, y, c) ∈ wpaEdges ks spec ∧
      c.1 = costVector (numLevels spec) v k := by
  have hq : ∀ q, Tuple Fa.states spec q ↔ q = q0 := by
    intro q; rw [Tuple, ← productOf_spec, h1]; simp
  have hi : ∀ q, Tuple Fa.initial spec q ↔ q = q0 := by
    intro q; rw [Tuple, ← productOf_spec, h2]; simp
  obtain ⟨x1, x2⟩ := x
  obtain ⟨y1, y2⟩ := y
  have hlen : q0.length = (getRules spec).length := ((hq q0).2 rfl).length_eq
  rcases h with ⟨hd, hx, hy, rfl⟩ | ⟨hx, hx', hy, hy', rfl, rfl⟩
  · simp only [hq] at hx hy
    subst hx; subst hy
    refine ⟨(edgeOf ks (getRules spec) (numLevels spec) k (x1, y2) (y1, y2)).2.2, ?_, ?_⟩
    · simp only [wpaEdges, List.mem_append, List.mem_flatMap, mem_addTransition, h1]
      exact .inl ⟨_, hd, (x1, y2), [], (y1, y2), rfl, by simp, rfl⟩
    · simp only [edgeOf, costVector]
      rw [ruleCost_spec hs y2 y2 _ hlen ((hq y2).2 rfl)]
  · simp only [hq] at hy'
    simp only [hi] at hx'
    simp only at hx
    subst hx'; subst hy'; subst hx
    refine ⟨(edgeOf ks (getRules spec) (numLevels spec) 0 (nullState ks, y2) (y1, y2)).2.2, ?_, ?_⟩
    · simp only [wpaEdges, List.mem_append, List.mem_flatMap, mem_addTransition, h1, h2]
      exact .inr ⟨(nullState ks, y2), [], (y1, y2), rfl, by simpa using hy, rfl⟩
    · simp only [edgeOf, costVector]
      rw [ruleCost_spec hs y2 y2 _ hlen ((hq y2).2 rfl)]

/-! ### Walks of the product are plans -/

theorem costVector_add (levels : Nat) (v w : Nat → Int) (k d : Int) :
    List.zipWith (· + ·) (costVector levels w d) (costVector levels v k) =
      costVector levels (fun l => v l + w l) (k + d) := by
  simp only [costVector]
  rw [List.zipWith_append (by simp)]
  simp only [List.zipWith_cons_cons, List.zipWith_nil_right, Int.add_comm d k]
  congr 1
  apply List.ext_getElem
  · simp
  · intro i h1 h2
    simp [Int.add_comm]

theorem walk_plan {ks : Ks B} {spec : PSpec (Fa B) B} (hk : KsOk ks) (hs : SpecOk spec)
    {q0 : List String} (h0 : Tuple Fa.initial spec q0) {x : PState} {p : List PState}
    {c : VCost Int (numLevels spec + 1)}
    (h : Walk (wpaEdges ks spec) (nullState ks, q0) x p c) :
    (x = (nullState ks, q0) ∧ p = [x] ∧ c = 0) ∨
    ∃ v k, PlanRun ks spec x.1 x.2 ((p.map (·.1)).filter (· ≠ nullState ks)) v k ∧
      c.1 = costVector (numLevels spec) v k ∧ x.1 ∈ ks.states := by
  have hnull := nullState_fresh ks
  induction h with
  | nil => exact .inl ⟨rfl, rfl, rfl⟩
  | @snoc x y p c d hw he ih =>
    right
    obtain ⟨v, k, hf, hc⟩ := wpaEdges_sound hs he
    simp only at hf hc
    rcases ih with ⟨rfl, rfl, rfl⟩ | ⟨v', k', hp, hc', hx⟩
    · rcases hf with ⟨hd, _⟩ | ⟨_, hx', hy, hy', rfl, rfl⟩
      · exact absurd (hk.edge _ hd).1 hnull
      · have hys := hk.init _ hy
        have hne : y.1 ≠ nullState ks := fun e => hnull (e ▸ hys)
        refine ⟨_, 0, ?_, by rw [add_zero, hc], hys⟩
        have := PlanRun.start hy h0 hy'
        simpa [hne] using this
    · rcases hf with ⟨hd, hx', hy, rfl⟩ | ⟨hx', _⟩
      · have hys := (hk.edge _ hd).2.1
        have hne : y.1 ≠ nullState ks := fun e => hnull (e ▸ hys)
        refine ⟨fun l => v' l + violation (getRules spec) x.2 y.2 (ks.ap y.1) l, k' + k, ?_, ?_, hys⟩
        · have := PlanRun.step hp hd hy
          simpa [hne] using this
        · change List.zipWith _ d.1 c.1 = _
          rw [hc, hc', costVector_add]
      · exact absurd (hx' ▸ hx) hnull

theorem plan_walk {ks : Ks B} {spec : PSpec (Fa B) B} (hs : SpecOk spec) {q0 : List String}
    (h1 : productOf Fa.states spec = [q0]) (h2 : productOf Fa.initial spec = [q0])
    {s : String} {q p : List String} {v : Nat → Int} {k : Int} (h : PlanRun ks spec s q p v k) :
    Tuple Fa.states spec q ∧ ∃ (w : List PState) (c : VCost Int (numLevels spec + 1)),
      Walk (wpaEdges ks spec) (nullState ks, q0) (s, q) w c ∧
      c.1 = costVector (numLevels spec) v k := by
  induction h with
  | @start s q1 q hs0 h0 hq =>
    have : q1 = q0 := by
      have := (productOf_spec Fa.initial spec q1).2 h0
      rw [h2] at this; simpa using this
    subst this
    obtain ⟨c, hc1, hc2⟩ := wpaEdges_complete (ks := ks) hs h1 h2
      (x := (nullState ks, q1)) (y := (s, q)) (.inr ⟨rfl, h0, hs0, hq, rfl, rfl⟩)
    exact ⟨hq, _, _, .snoc .nil hc1, by rw [add_zero, hc2]⟩
  | @step s t q q' p v k d h he hq ih =>
    obtain ⟨hq0, w, c, hw, hc⟩ := ih
    obtain ⟨c', hc1, hc2⟩ := wpaEdges_complete (ks := ks) hs h1 h2
      (x := (s, q)) (y := (t, q')) (.inl ⟨he, hq0, hq, rfl⟩)
    refine ⟨hq, _, _, .snoc hw hc1, ?_⟩
    change List.zipWith _ c'.1 c.1 = _
    rw [hc2, hc, costVector_add]

theorem wpaEdges_nonneg {ks : Ks B} {spec : PSpec (Fa B) B} (hk : KsOk ks) (hs : SpecOk spec)
    {e : PState × PState × VCost Int (numLevels spec + 1)} (he : e ∈ wpaEdges ks spec) :
    0 ≤ e.2.2 := by
  obtain ⟨v, k, hf, hc⟩ := wpaEdges_sound hs he
  change ¬ (e.2.2 < 0)
  rw [vcost_lt_iff, hc]
  have hv : ∀ l, 0 ≤ v l := by
    intro l
    rcases hf with ⟨_, _, _, rfl⟩ | ⟨_, _, _, _, _, rfl⟩ <;>
      exact violation_nonneg _ (fun r hr => (hs.rule r hr).1) _ _ _ l
  have hk' : 0 ≤ k := by
    rcases hf with ⟨h, _⟩ | ⟨_, _, _, _, rfl, _⟩
    · exact (hk.edge _ h).2.2
    · exact le_refl 0
  rintro ⟨i, _, x, y, hx, hy, hxy⟩
  change (List.replicate _ (0 : Int))[i]? = some y at hy
  rw [List.getElem?_replicate] at hy
  split at hy
  · cases hy
    have hm := List.mem_of_getElem? hx
    simp only [costVector, List.mem_append, List.mem_map, List.mem_range, List.mem_singleton] at hm
    rcases hm with ⟨l, _, rfl⟩ | rfl
    · have := hv l; omega
    · omega
  · cases hy

theorem mem_goalStates {ks : Ks B} {goal : String} {spec : PSpec (Fa B) B} {goals : List PState}
    (h : goalStates ks goal spec = .ok goals) (x : PState) :
    x ∈ goals ↔ x.1 ∈ ks.states ∧ goal ∈ ks.ap x.1 ∧ Tuple Fa.states spec x.2 := by
  simp only [goalStates] at h
  split at h
  · cases h
    obtain ⟨s, q⟩ := x
    simp only [List.mem_flatMap, List.mem_filter, List.mem_map, List.contains_iff_mem,
      Prod.mk.injEq, productOf_spec, Tuple]
    constructor
    · rintro ⟨s', ⟨h1, h2⟩, q', hq, rfl, rfl⟩; exact ⟨h1, h2, hq⟩
    · rintro ⟨h1, h2, h3⟩; exact ⟨s, ⟨h1, h2⟩, q, h3, rfl, rfl⟩
  · cases h

variable [DecidableEq B]

/-- **C15.** Any plan that `solve` returns is genuine: a path of the structure from an initial state
to a goal state, with the cost that some run of the automata gives it. For all structures, all
specifications and whatever way the heap breaks ties. -/
theorem solve_sound (ks : Ks B) (goal : String) (spec : PSpec (Fa B) B)
    (pop : List (HeapEntry PState (VCost Int (numLevels spec + 1))) →
      Option (HeapEntry PState (VCost Int (numLevels spec + 1)) ×
        List (HeapEntry PState (VCost Int (numLevels spec + 1)))))
    (hpop : HeapPop pop) (hk : KsOk ks) (hs : SpecOk spec) {c : VCost Int (numLevels spec + 1)}
    {pp : List PState} {path : List String}
    (h : solve ks goal spec pop = .ok (.found c pp, path)) :
    ∃ s q v k, PlanRun ks spec s q path v k ∧ goal ∈ ks.ap s ∧
      c.1 = costVector (numLevels spec) v k := by
  simp only [solve] at h
  split at h
  · cases h
  · cases hg : goalStates ks goal spec with
    | error e => rw [hg] at h; simp at h
    | ok goals =>
      rw [hg] at h
      simp only [ok_bind, pure_eq_ok, Except.ok.injEq, Prod.mk.injEq] at h
      obtain ⟨h1, h2⟩ := h
      rw [h1] at h2
      simp only at h2
      have hd := dijkstraMany_correct (wpaEdges ks spec)
        ((productOf Fa.initial spec).map fun q => (nullState ks, q)) (goals.contains ·)
        (fun _ => false) pop hpop (fun e he => wpaEdges_nonneg hk hs he)
      rw [h1] at hd
      obtain ⟨⟨x, y, hx, hy, hw⟩, _⟩ := hd
      obtain ⟨q0, hq0, rfl⟩ := List.mem_map.1 hx
      rw [productOf_spec] at hq0
      have hy' := (mem_goalStates hg y).1 (by simpa using hy)
      rcases walk_plan hk hs hq0 hw with ⟨rfl, _, _⟩ | ⟨v, k, hp, hc, _⟩
      · exact absurd hy'.1 (nullState_fresh ks)
      · exact ⟨y.1, y.2, v, k, by rw [← h2]; exact hp, hy'.2.1, hc⟩

/-- **C15.** When each rule's automaton has a single state, which is initial, `solve` returns a plan
that violates least: no plan to a goal state has a lexicographically smaller cost (violations at level
0, then level 1, …, then the cost of transitions), and when it finds none there is no plan. -/
theorem solve_optimal (ks : Ks B) (goal : String) (spec : PSpec (Fa B) B)
    (pop : List (HeapEntry PState (VCost Int (numLevels spec + 1))) →
      Option (HeapEntry PState (VCost Int (numLevels spec + 1)) ×
        List (HeapEntry PState (VCost Int (numLevels spec + 1)))))
    (hpop : HeapPop pop) (hk : KsOk ks) (hs : SpecOk spec)
    (h1 : ∀ r ∈ getRules spec, ∃ q, r.fa.states = [q] ∧ r.fa.initial = [q])
    {r : Search PState (VCost Int (numLevels spec + 1))} {path : List String}
    (h : solve ks goal spec pop = .ok (r, path)) :
    (∃ c pp, r = .found c pp ∧ ∀ s q p v k, PlanRun ks spec s q p v k → goal ∈ ks.ap s →
      ¬ VectorCost.LexLt (costVector (numLevels spec) v k) c.1) ∨
    (r = .unreachable ∧ ∀ s q p v k, PlanRun ks spec s q p v k → goal ∉ ks.ap s) := by
  obtain ⟨q0, hq1, hq2⟩ : ∃ q0, productOf Fa.states spec = [q0] ∧
      productOf Fa.initial spec = [q0] := by
    simp only [productOf]
    rw [iterate_eq _ spec (by rw [len_eq]; omega)]
    generalize getRules spec = rules at h1
    induction rules with
    | nil => exact ⟨[], rfl, rfl⟩
    | cons r rules ih =>
      obtain ⟨q, hq, hq'⟩ := h1 r (by simp)
      obtain ⟨q0, ha, hb⟩ := ih (fun r hr => h1 r (by simp [hr]))
      refine ⟨q :: q0, ?_, ?_⟩
      · simp only [List.map_cons, product, hq, ha, List.flatMap_cons, List.flatMap_nil,
          List.append_nil, List.map_nil]
      · simp only [List.map_cons, product, hq', hb, List.flatMap_cons, List.flatMap_nil,
          List.append_nil, List.map_nil]
  have hgs : ∀ {s q p v k}, PlanRun ks spec s q p v k → s ∈ ks.states := by
    intro s q p v k hp
    cases hp with
    | start hs0 _ _ => exact hk.init _ hs0
    | step _ he _ => exact (hk.edge _ he).2.1
  simp only [solve] at h
  split at h
  · cases h
  · cases hg : goalStates ks goal spec with
    | error e => rw [hg] at h; simp at h
    | ok goals =>
      rw [hg] at h
      simp only [ok_bind, pure_eq_ok, Except.ok.injEq, Prod.mk.injEq] at h
      have hd := dijkstraMany_correct (wpaEdges ks spec)
        ((productOf Fa.initial spec).map fun q => (nullState ks, q)) (goals.contains ·)
        (fun _ => false) pop hpop (fun e he => wpaEdges_nonneg hk hs he)
      rw [h.1] at hd
      have key : ∀ s q p v k, PlanRun ks spec s q p v k → goal ∈ ks.ap s →
          ∃ (w : List PState) (d : VCost Int (numLevels spec + 1)),
            Walk (wpaEdges ks spec) (nullState ks, q0) (s, q) w d ∧
            d.1 = costVector (numLevels spec) v k ∧ goals.contains (s, q) = true := by
        intro s q p v k hp hgoal
        obtain ⟨hq, w, d, hw, hd⟩ := plan_walk hs hq1 hq2 hp
        exact ⟨w, d, hw, hd, by
          simpa using (mem_goalStates hg (s, q)).2 ⟨hgs hp, hgoal, hq⟩⟩
      have hsrc : (nullState ks, q0) ∈ (productOf Fa.initial spec).map fun q => (nullState ks, q) := by
        rw [hq2]; simp
      cases r with
      | found c pp =>
        refine .inl ⟨c, pp, rfl, fun s q p v k hp hgoal => ?_⟩
        obtain ⟨w, d, hw, hd1, hd2⟩ := key s q p v k hp hgoal
        have : ¬ d < c := hd.2 _ _ _ _ hsrc hd2 hw
        rw [vcost_lt_iff, hd1] at this
        exact this
      | unreachable =>
        refine .inr ⟨rfl, fun s q p v k hp hgoal => ?_⟩
        obtain ⟨w, d, hw, hd1, hd2⟩ := key s q p v k hp hgoal
        exact hd _ _ _ _ hsrc hd2 hw
      | outOfFuel => exact hd.elim

/-- **C15.** `solve` raises exactly when the propositions of the structure and of the rules differ,
or a tuple of states is not accepting although a goal state exists. -/
theorem solve_raises (ks : Ks B) (goal : String) (spec : PSpec (Fa B) B)
    (pop : List (HeapEntry PState (VCost Int (numLevels spec + 1))) →
      Option (HeapEntry PState (VCost Int (numLevels spec + 1)) ×
        List (HeapEntry PState (VCost Int (numLevels spec + 1))))) :
    solve ks goal spec pop = .error .valueError ↔
      spec.aps ≠ some ks.aps ∨
      ∃ s ∈ ks.states, goal ∈ ks.ap s ∧
        ∃ q, Tuple Fa.states spec q ∧ ¬ Tuple Fa.accepting spec q := by
  simp only [solve]
  by_cases hap : spec.aps = some ks.aps
  · rw [if_neg (by simp [hap])]
    simp only [hap, ne_eq, not_true, false_or]
    cases hg : goalStates ks goal spec with
    | ok goals =>
      simp only [ok_bind, pure_eq_ok, reduceCtorEq, false_iff, not_exists, not_and, not_not]
      intro s hs hgoal q hq
      simp only [goalStates] at hg
      split at hg
      · rename_i hall
        rw [List.all_eq_true] at hall
        have := hall (s, q) (by
          simp only [List.mem_flatMap, List.mem_filter, List.mem_map]
          exact ⟨s, ⟨hs, by simpa using hgoal⟩, q, (productOf_spec ..).2 hq, rfl⟩)
        simp only [List.contains_iff_mem, List.mem_flatMap, List.mem_map, Prod.mk.injEq] at this
        obtain ⟨s', _, q', hq', _, rfl⟩ := this
        exact (productOf_spec ..).1 hq'
      · cases hg
    | error e =>
      simp only [goalStates] at hg
      split at hg
      · cases hg
      · rename_i hall
        cases hg
        simp only [error_bind, true_iff]
        rw [Bool.not_eq_true, List.all_eq_false] at hall
        obtain ⟨x, hx, hx'⟩ := hall
        simp only [List.mem_flatMap, List.mem_filter, List.mem_map] at hx
        obtain ⟨s, ⟨hs, hgoal⟩, q, hq, rfl⟩ := hx
        refine ⟨s, hs, by simpa using hgoal, q, (productOf_spec ..).1 hq, fun ha => hx' ?_⟩
        simp only [List.contains_iff_mem, List.mem_flatMap, List.mem_map, Prod.mk.injEq]
        exact ⟨s, hs, q, (productOf_spec ..).2 ha, rfl, rfl⟩
  · rw [if_pos (by simpa using hap)]
    simp [hap]

/-! ### Where the code falls short -/

/-- A rule whose automaton has two states: `q0` before a state with `a`, `q1` from then on. -/
def twoStates : Fa Nat := ⟨["q0", "q1"], ["q0"], ["q0", "q1"], [("q0", "q1", ["a"]),
  ("q1", "q1", ["b"]), ("q1", "q1", ["b", "goal"])], 0⟩

/-- A structure with one path: `s` (labelled `a`), `t` (labelled `b`), `g` (labelled `b` and `goal`). -/
def line : Ks Nat := ⟨["s", "t", "g"], ["s"],
  fun x => if x = "s" then ["a"] else if x = "t" then ["b"] else ["b", "goal"],
  [("s", "t", 0), ("t", "g", 0)], 0⟩

/-- The cost and the path of a result. -/
def view {n : Nat} : Except PyErr (Search PState (VCost Int n) × List String) →
    Option (List Int × List String)
  | .ok (.found c _, path) => some (c.1, path)
  | _ => none

/-- **C15** fails with two states: the plan `s, t, g` along `q0, q1, q1, q1` violates no rule, but the
plan that `solve` returns is charged for three violations, because only the first state of the
automaton has outgoing edges. -/
theorem solve_counterexample :
    let spec : PSpec (Fa Nat) Nat := (addRule Fa.aps {} twoStates (.int 1) 0).2
    view (solve line "goal" spec firstLeast) = some ([3, 0], ["s", "t", "g"]) ∧
    ∃ v, PlanRun line spec "g" ["q1"] ["s", "t", "g"] v 0 ∧ ∀ l, v l = 0 := by
  intro spec
  have hr : getRules spec = [⟨twoStates, 1, 0⟩] := rfl
  have ht : ∀ q, q ∈ twoStates.states → Tuple Fa.states spec [q] := by
    intro q hq; rw [Tuple, hr]; exact .cons hq .nil
  have hi : Tuple Fa.initial spec ["q0"] := by
    rw [Tuple, hr]; exact .cons (by simp [twoStates]) .nil
  refine ⟨by decide +kernel, _, .step (q := ["q1"]) (.step (q := ["q1"]) (.start (q0 := ["q0"])
    (by simp [line]) hi (ht _ (by simp [twoStates]))) (t := "t") (d := 0) (by simp [line])
    (ht _ (by simp [twoStates]))) (t := "g") (d := 0) (by simp [line])
    (ht _ (by simp [twoStates])), ?_⟩
  intro l
  have a1 : Allows twoStates "q0" "q1" ["a"] := ⟨["a"], by simp [twoStates], by simp⟩
  have a2 : Allows twoStates "q1" "q1" ["b"] := ⟨["b"], by simp [twoStates], by simp⟩
  have a3 : Allows twoStates "q1" "q1" ["b", "goal"] :=
    ⟨["b", "goal"], by simp [twoStates], by simp⟩
  simp [hr, violation, line, a1, a2, a3]

/-- A rule whose automaton has the states `q1` and `q10`. -/
def tenStates : Fa Nat := ⟨["q10", "q1"], ["q10"], ["q10", "q1"], [("q10", "q1", ["a"])], 0⟩

/-- **C15** fails for state names that contain one another: on the letter `a` the automaton moves from
`q10` to `q1` only, but the step from `q10` to `q10` is charged no violation. -/
theorem ruleCost_counterexample :
    ruleCost [⟨tenStates, 1, 0⟩] 1 ["q10"] ["q10"] ["a"] = [0] ∧
    violation [⟨tenStates, 1, 0⟩] ["q10"] ["q10"] ["a"] 0 = 1 := by
  refine ⟨by decide +kernel, ?_⟩
  have : ¬ Allows tenStates "q10" "q10" ["a"] := by
    rintro ⟨L, h, _⟩
    simp [tenStates] at h
  simp [violation, this]

/-- The rule "always `a` or `b`", with one state. -/
def safe : Fa Nat := ⟨["q"], ["q"], ["q"], [("q", "q", ["a"]), ("q", "q", ["b", "goal"])], 0⟩

/-- Two rules on two levels, and two plans: the one through `t` violates the rule of level 0. -/
example :
    let spec : PSpec (Fa Nat) Nat := run Fa.aps [⟨safe, .int 2, 0⟩, ⟨safe, .int 1, 1⟩]
    let ks : Ks Nat := { line with
      states := ["s", "t", "u", "g"],
      ap := fun x => if x = "u" then ["a"] else line.ap x,
      edges := [("s", "t", 0), ("t", "g", 0), ("s", "u", 9), ("u", "g", 9)] }
    KsOk ks ∧ SpecOk spec ∧ (∀ r ∈ getRules spec, ∃ q, r.fa.states = [q] ∧ r.fa.initial = [q]) ∧
    view (solve ks "goal" spec firstLeast) = some ([0, 0, 18], ["s", "u", "g"]) := by
  intro spec ks
  have hr : getRules spec = [⟨safe, 2, 0⟩, ⟨safe, 1, 1⟩] := rfl
  have hl : numLevels spec = 2 := rfl
  refine ⟨⟨by decide +kernel, by decide +kernel⟩, ⟨?_, ?_⟩, ?_, by decide +kernel⟩
  · simp [hr, hl]
  · rw [hr]; simp only [List.mem_cons, List.not_mem_nil, or_false, forall_eq_or_imp, forall_eq]
    exact ⟨by decide +kernel, by decide +kernel⟩
  · simp [hr, safe]

end Mvp
end Tulip
