import Verif.Abstract.GetInputProps

/-!
# The inputs that implement a transition: theorems about `get_input`
-/

namespace Tulip

namespace Abs

open Finset

set_option linter.unusedSectionVars false

variable {R : Type} [Field R] [LinearOrder R] [IsStrictOrderedRing R]

/-! ## Specification -/

/-- The polytopes of a region. -/
def Cell.polys (c : Cell R) : List (HP R) := if c.parts = [] then [c.poly] else c.parts

/-- The point `x` is in the region. -/
def Cell.Mem (c : Cell R) (x : Nat → R) : Prop := ∃ P ∈ c.polys, P.Mem x

/-- What is assumed of a polytope: its dimension and, if the constraints on the inputs involve the states,
that it leaves no direction free. -/
def HP.Fits (s : Lti R) (P : HP R) : Prop :=
  P.A.cols = s.A.cols ∧ (s.U.A.cols = s.B.cols ∨ P.Pointed)

/-- What is assumed of the arguments of `get_input`. -/
structure Setting (T : Tools R) (s : Lti R) (ab : PwaAbs R) (xn : Nat) (r : Option (Mat R)) : Prop where
  shaped : s.Shaped
  dist : s.GoodDist T.toPc
  horizon : 0 < ab.N
  inputs : 0 < s.B.cols
  xn : xn = s.A.cols
  r : ∀ r0, r = some r0 → r0.rows = ab.N * s.A.cols
  regions : ∀ c ∈ ab.regions, ∀ P ∈ c.polys, P.Fits s
  origRegions : ∀ c ∈ ab.origRegions, ∀ P ∈ c.polys, P.Fits s
  qhull : ∀ l, (T.qhull l).Fits s
  lp : T.GoodLp
  qp : T.GoodQp

/-- The set where the states before the last one must be: the original region if the abstraction is not
conservative and knows it, otherwise the first region, or the convex hull of its polytopes. -/
def StaySpec (T : Tools R) (ab : PwaAbs R) (start : Nat) (cs : Cell R) (stay : HP R) : Prop :=
  (∃ orig i c, ab.conservative = false ∧ ab.orig = some orig ∧ orig[start]? = some i ∧
    ab.origRegions[i]? = some c ∧ ∀ x, stay.Mem x ↔ c.Mem x) ∨
  ((ab.conservative = true ∨ ab.orig = none) ∧
    ((cs.parts.length ≤ 1 ∧ ∀ x, stay.Mem x ↔ cs.Mem x) ∨ (2 ≤ cs.parts.length ∧ stay = T.qhull cs.parts)))

/-! ## Proofs -/

theorem feas_open (pc : Pc R) (s : Lti R) (N : Nat) (hN : 0 < N) (P1 P3 : HP R) (x0 : Nat → R)
    (u : Nat → Nat → R) :
    FeasLM pc s N (P1 :: (List.replicate (N - 1) P1 ++ [P3])) none x0 u ↔ s.Leads pc N x0 u P1 P3 := by
  have hget : ∀ i, 0 < i → i < N → (P1 :: (List.replicate (N - 1) P1 ++ [P3]))[i]? = some P1 := by
    intro i h0 h
    obtain ⟨j, rfl⟩ : ∃ j, i = j + 1 := ⟨i - 1, by omega⟩
    rw [List.getElem?_cons_succ, List.getElem?_append_left (by simp; omega), List.getElem?_replicate,
      if_pos (by omega)]
  have hlast : (P1 :: (List.replicate (N - 1) P1 ++ [P3]))[N]? = some P3 := by
    obtain ⟨j, rfl⟩ : ∃ j, N = j + 1 := ⟨N - 1, by omega⟩
    rw [List.getElem?_cons_succ, List.getElem?_append_right (by simp)]
    simp
  have hd : ∀ i, 0 < i → i ≤ N → ∀ d : Nat → Nat → R,
      distAt ((none : Option (List Nat)).getD (List.range' 1 N)) i d = d := by
    intro i h0 h d
    unfold distAt
    rw [if_pos]
    show i ∈ List.range' 1 N
    rw [List.mem_range'_1]
    omega
  constructor
  · intro h d hp
    refine ⟨fun k h0 hk => ?_, ?_, fun k hk => ?_⟩
    · have := (h d hp k (by omega)).1 P1 h0 (hget k h0 hk)
      rwa [hd k h0 (by omega)] at this
    · have := (h d hp N (le_refl _)).1 P3 hN hlast
      rwa [hd N hN (le_refl _)] at this
    · have := (h d hp k (by omega)).2 hk
      by_cases h0 : k = 0
      · subst h0; exact this
      · rwa [hd k (by omega) (by omega)] at this
  · intro h d hp i hi
    obtain ⟨h1, h2, h3⟩ := h d hp
    refine ⟨fun P h0 hP => ?_, fun hi' => ?_⟩
    · rw [hd i h0 hi]
      by_cases hiN : i = N
      · subst hiN
        rw [hlast] at hP
        cases hP
        exact h2
      · rw [hget i h0 (by omega)] at hP
        cases hP
        exact h1 i h0 (by omega)
    · by_cases h0 : i = 0
      · subst h0; exact h3 0 hi'
      · rw [hd i (by omega) hi]
        exact h3 i hi'

/-- The inputs that `get_input_helper` returns without `closed_loop`: they lead to the target, and no inputs
that do have a lower cost. If it fails to find inputs, there are none. -/
theorem helper_open (T : Tools R) (s : Lti R) (hs : s.Shaped) (hW : s.GoodDist T.toPc) (N : Nat) (hN : 0 < N)
    (hm : 0 < s.B.cols) (x0 : Nat → R) (P1 P3 : HP R) (h1 : P1.Fits s) (h3 : P3.Fits s) (sn : Bool)
    (Rm r Q : Mat R) (hR : Rm.rows = N * s.A.cols ∧ Rm.cols = N * s.A.cols) (hr : r.rows = N * s.A.cols)
    (hQ : Q.rows = N * s.B.cols ∧ Q.cols = N * s.B.cols) (ord : Norm)
    (hlp : T.GoodLp) (hqp : T.GoodQp) :
    match getInputHelper T x0 s P1 P3 N Rm r Q ord false sn with
    | .ok u c =>
      s.Leads T.toPc N x0 u P1 P3 ∧
      (ord ≠ .two → c = costOf ord s.A.cols s.B.cols N Rm r Q (s.counted ord x0 u) u) ∧
      ∀ u', s.Leads T.toPc N x0 u' P1 P3 →
        costOf ord s.A.cols s.B.cols N Rm r Q (s.counted ord x0 u) u ≤
          costOf ord s.A.cols s.B.cols N Rm r Q (s.counted ord x0 u') u'
    | .lpFail => (ord = .one ∨ ord = .inf) ∧ (s.Bounded → ¬ ∃ u, s.Leads T.toPc N x0 u P1 P3)
    | .err e => (ord = .two ∧ sn = false ∧ e = .exception) ∨ (ord = .two ∧ e = .runtime) ∨
        (ord = .other ∧ e = .unboundLocal) := by
  have hmem : ∀ P ∈ P1 :: (List.replicate (N - 1) P1 ++ [P3]), P = P1 ∨ P = P3 := by
    intro P hP
    rcases List.mem_cons.1 hP with h | h
    · exact Or.inl h
    · rcases List.mem_append.1 h with h | h
      · exact Or.inl (List.mem_replicate.1 h).2
      · exact Or.inr (List.mem_singleton.1 h)
  have := helper_core T s hs hW N hN hm x0 P1 P3 false sn
    (fun P hP => by rcases hmem P hP with rfl | rfl <;> [exact h1.1; exact h3.1])
    (by show (P1 :: (List.replicate (N - 1) P1 ++ [P3])).length = N + 1; simp; omega) rfl
    (by
      rcases h1.2 with h | h
      · exact Or.inl h
      · rcases h3.2 with h' | h'
        · exact Or.inl h'
        · exact Or.inr fun P hP => by rcases hmem P hP with rfl | rfl <;> [exact h; exact h'])
    Rm r Q hR hr hQ ord hlp hqp
  have e : ∀ u, FeasLM T.toPc s N (helperList T P1 P3 N false).1 (helperList T P1 P3 N false).2 x0 u ↔
      s.Leads T.toPc N x0 u P1 P3 := fun u => feas_open T.toPc s N hN P1 P3 x0 u
  simp only [e] at this
  split at this
  · rename_i u c heq
    rw [heq]
    exact this.2
  · rename_i heq
    rw [heq]
    exact this
  · rename_i e heq
    rw [heq]
    exact this

/-! ### With `closed_loop` -/

theorem closedList_length (T : Tools R) (P1 P3 : HP R) (k : Nat) : (closedList T P1 P3 k).2.length = k + 1 := by
  induction k with
  | zero => rfl
  | succ k ih => simp [closedList, ih]

theorem closedList_head (T : Tools R) (P1 P3 : HP R) (k : Nat) :
    (closedList T P1 P3 k).2[0]? = some (closedList T P1 P3 k).1 := by
  cases k <;> rfl

theorem closedList_last (T : Tools R) (P1 P3 : HP R) (k : Nat) : (closedList T P1 P3 k).2[k]? = some P3 := by
  induction k with
  | zero => rfl
  | succ k ih => simpa [closedList] using ih

theorem closedList_fits (T : Tools R) (s : Lti R) (P1 P3 : HP R) (h3 : P3.Fits s)
    (hpre : ∀ Q, Q.Fits s → (T.pre P1 Q).Fits s) (k : Nat) :
    (closedList T P1 P3 k).1.Fits s ∧ ∀ P ∈ (closedList T P1 P3 k).2, P.Fits s := by
  induction k with
  | zero => exact ⟨h3, fun P hP => by rw [List.mem_singleton.1 hP]; exact h3⟩
  | succ k ih =>
    have h := hpre _ ih.1
    refine ⟨h, fun P hP => ?_⟩
    rcases List.mem_cons.1 hP with rfl | hP
    · exact h
    · exact ih.2 P hP

theorem closedList_ctrl (T : Tools R) (s : Lti R) (P1 P3 : HP R) (h3 : P3.Fits s)
    (hpre : ∀ Q, Q.Fits s → (T.pre P1 Q).Fits s)
    (hsound : ∀ Q, Q.Fits s → ∀ x, (T.pre P1 Q).Mem x → s.Ctrl T.toPc P1 Q 1 x) (k : Nat) (x : Nat → R)
    (hx : (closedList T P1 P3 k).1.Mem x) : s.Ctrl T.toPc P1 P3 k x := by
  induction k generalizing x with
  | zero => exact hx
  | succ k ih =>
    obtain ⟨h1, u, hu, hd⟩ := hsound _ (closedList_fits T s P1 P3 h3 hpre k).1 x hx
    exact ⟨h1, u, hu, fun d hp => ih _ (hd d hp)⟩

/-- The inputs that `get_input_helper` returns with `closed_loop`: whatever the first disturbance, a
controller that observes the states can lead from the next state to the target in the rest of the horizon, and
the inputs lead to the target if there are no disturbances. -/
theorem helper_closed (T : Tools R) (s : Lti R) (hs : s.Shaped) (hW : s.GoodDist T.toPc) (N : Nat) (hN : 0 < N)
    (hm : 0 < s.B.cols) (x0 : Nat → R) (P1 P3 : HP R) (h1 : P1.Fits s) (h3 : P3.Fits s) (sn : Bool)
    (hpre : ∀ Q, Q.Fits s → (T.pre P1 Q).Fits s)
    (hsound : ∀ Q, Q.Fits s → ∀ x, (T.pre P1 Q).Mem x → s.Ctrl T.toPc P1 Q 1 x)
    (Rm r Q : Mat R) (hR : Rm.rows = N * s.A.cols ∧ Rm.cols = N * s.A.cols) (hr : r.rows = N * s.A.cols)
    (hQ : Q.rows = N * s.B.cols ∧ Q.cols = N * s.B.cols) (ord : Norm)
    (hlp : T.GoodLp) (hqp : T.GoodQp) (u : Nat → Nat → R) (c : R)
    (h : getInputHelper T x0 s P1 P3 N Rm r Q ord true sn = .ok u c) :
    s.InputOk x0 (u 0) ∧
    (∀ d, (s.Disturbed → InHull (T.extreme s.W) d) → s.Ctrl T.toPc P1 P3 (N - 1) (s.next x0 (u 0) d)) ∧
    (2 ≤ N → P3.Mem (s.traj x0 u (fun _ _ => 0) N)) := by
  have hfit : ∀ P ∈ (helperList T P1 P3 N true).1, P.Fits s := by
    intro P hP
    rcases List.mem_cons.1 hP with rfl | hP
    · exact h1
    · exact (closedList_fits T s P1 P3 h3 hpre (N - 1)).2 P hP
  have := helper_core T s hs hW N hN hm x0 P1 P3 true sn (fun P hP => (hfit P hP).1)
    (by show (P1 :: (closedList T P1 P3 (N - 1)).2).length = N + 1
        rw [List.length_cons, closedList_length]; omega) rfl
    (by
      by_cases hc : s.U.A.cols = s.B.cols
      · exact Or.inl hc
      · exact Or.inr fun P hP => (hfit P hP).2.resolve_left hc)
    Rm r Q hR hr hQ ord hlp hqp
  rw [h] at this
  obtain ⟨_, hf, _⟩ := this
  obtain ⟨d0, hd0⟩ := possible_exists T.toPc s hW N
  refine ⟨(hf d0 hd0 0 (by omega)).2 hN, fun d hd => ?_, fun h2 => ?_⟩
  · have := (hf (fun _ => d) (fun h _ _ => hd h) 1 hN).1 (closedList T P1 P3 (N - 1)).1 (by omega)
      (closedList_head T P1 P3 (N - 1))
    have e : distAt ((helperList T P1 P3 N true).2.getD (List.range' 1 N)) 1 (fun _ => d) = fun _ => d := if_pos (by
      show 1 ∈ [1]
      simp)
    rw [e] at this
    exact closedList_ctrl T s P1 P3 h3 hpre hsound (N - 1) _ this
  · have := (hf d0 hd0 N (le_refl _)).1 P3 hN (by
      show (P1 :: (closedList T P1 P3 (N - 1)).2)[N]? = some P3
      obtain ⟨j, rfl⟩ : ∃ j, N = j + 1 := ⟨N - 1, by omega⟩
      exact closedList_last T P1 P3 j)
    have e : distAt ((helperList T P1 P3 N true).2.getD (List.range' 1 N)) N d0 = fun _ _ => 0 := if_neg (by
      show ¬ N ∈ [1]
      simp
      omega)
    rwa [e] at this

/-! ### `get_input` -/

theorem addMid_addMid (Rm : Mat R) (n N : Nat) (v w : R) :
    addMid (addMid Rm n N v) n N w = addMid Rm n N (v + w) := by
  unfold addMid
  congr 1
  funext i j
  dsimp only
  split
  · ring
  · rfl

theorem addMid_zero (Rm : Mat R) (n N : Nat) : addMid Rm n N 0 = Rm := by
  unfold addMid
  cases Rm
  congr 1
  funext i j
  dsimp only
  split
  · ring
  · rfl

theorem addCenter_cancel (r : Mat R) (n N : Nat) (w : R) (xc : Nat → R) :
    addCenter (addCenter r n N (-w) xc) n N w xc = r := by
  unfold addCenter
  cases r
  congr 1
  funext i j
  dsimp only
  split
  · ring
  · rfl

/-- The call of `get_input_helper` for polytope number `i` of the target. -/
def callAt (T : Tools R) (x0 : Nat → R) (s : Lti R) (P1 : HP R) (N : Nat) (Rm r Q : Mat R) (w : R) (ord : Norm)
    (cl sn : Bool) (i : Nat) (P : HP R) : Help R :=
  getInputHelper T x0 s P1 P N (addMid Rm s.A.cols N ((i + 1 : Nat) * w))
    (addCenter r s.A.cols N (-w) (T.center P)) Q ord cl sn

theorem tryPart_eq (T : Tools R) (x0 : Nat → R) (s : Lti R) (P1 : HP R) (N : Nat) (Rm r Q : Mat R) (w : R)
    (hw : 0 < w) (ord : Norm) (cl sn : Bool) (i : Nat) (P : HP R) (best : Option ((Nat → Nat → R) × R)) :
    tryPart T x0 s P1 N Q w ord cl sn ⟨addMid Rm s.A.cols N ((i : Nat) * w), r, best⟩ P =
      match callAt T x0 s P1 N Rm r Q w ord cl sn i P with
      | .err e => .error e
      | .lpFail => .ok ⟨addMid Rm s.A.cols N ((i + 1 : Nat) * w), r, best⟩
      | .ok u cost => .ok ⟨addMid Rm s.A.cols N ((i + 1 : Nat) * w), r,
          match best with
          | none => some (u, cost)
          | some (u', low) => if cost < low then some (u, cost) else some (u', low)⟩ := by
  unfold tryPart
  rw [if_pos hw]
  dsimp only
  have e : (i : R) * w + w = (i + 1 : Nat) * w := by
    rw [Nat.cast_add, Nat.cast_one]
    ring
  rw [addMid_addMid, e, addCenter_cancel]
  rfl

theorem parts_loop (T : Tools R) (x0 : Nat → R) (s : Lti R) (P1 : HP R) (N : Nat) (Rm r Q : Mat R) (w : R)
    (hw : 0 < w) (ord : Norm) (cl sn : Bool) (l : List (HP R)) (k : Nat) (best : Option ((Nat → Nat → R) × R))
    (st : Best R)
    (h : l.foldlM (tryPart T x0 s P1 N Q w ord cl sn) ⟨addMid Rm s.A.cols N ((k : Nat) * w), r, best⟩ = .ok st) :
    st.Rm = addMid Rm s.A.cols N ((k + l.length : Nat) * w) ∧ st.r = r ∧
    (∀ u c, st.best = some (u, c) → best = some (u, c) ∨
      ∃ (i : Nat) (P : HP R), l[i]? = some P ∧ callAt T x0 s P1 N Rm r Q w ord cl sn (k + i) P = .ok u c) ∧
    (∀ u0 c0, best = some (u0, c0) ∨
      (∃ (i : Nat) (P : HP R), l[i]? = some P ∧ callAt T x0 s P1 N Rm r Q w ord cl sn (k + i) P = .ok u0 c0) →
      ∃ u c, st.best = some (u, c) ∧ c ≤ c0) := by
  induction l generalizing k best with
  | nil =>
    cases h
    exact ⟨by simp, rfl, fun u c h => Or.inl h, fun u0 c0 h => by
      rcases h with h | ⟨i, P, h, _⟩
      · exact ⟨u0, c0, h, le_refl _⟩
      · simp at h⟩
  | cons P l ih =>
    rw [List.foldlM_cons, tryPart_eq T x0 s P1 N Rm r Q w hw] at h
    have hshift : ∀ {u c}, (∃ (i : Nat) (P' : HP R), l[i]? = some P' ∧
        callAt T x0 s P1 N Rm r Q w ord cl sn (k + 1 + i) P' = .ok u c) →
        ∃ (i : Nat) (P' : HP R), (P :: l)[i]? = some P' ∧ callAt T x0 s P1 N Rm r Q w ord cl sn (k + i) P' = .ok u c := by
      rintro u c ⟨i, P', h1, h2⟩
      refine ⟨i + 1, P', h1, ?_⟩
      rw [← h2]
      congr 1
      omega
    have hcases : ∀ {u c}, (∃ (i : Nat) (P' : HP R), (P :: l)[i]? = some P' ∧
        callAt T x0 s P1 N Rm r Q w ord cl sn (k + i) P' = .ok u c) →
        callAt T x0 s P1 N Rm r Q w ord cl sn k P = .ok u c ∨ ∃ (i : Nat) (P' : HP R), l[i]? = some P' ∧
          callAt T x0 s P1 N Rm r Q w ord cl sn (k + 1 + i) P' = .ok u c := by
      rintro u c ⟨i, P', h1, h2⟩
      cases i with
      | zero =>
        rw [List.getElem?_cons_zero] at h1
        cases h1
        exact Or.inl h2
      | succ i =>
        refine Or.inr ⟨i, P', h1, ?_⟩
        rw [← h2]
        congr 1
        omega
    have hlen : k + 1 + l.length = k + (P :: l).length := by rw [List.length_cons]; omega
    rcases hcall : callAt T x0 s P1 N Rm r Q w ord cl sn k P with ⟨u1, c1⟩ | _ | e
    · simp only [hcall, ok_bind] at h
      obtain ⟨g1, g2, g3, g4⟩ := ih (k + 1) _ h
      refine ⟨by rw [g1, hlen], g2, fun u c hb => ?_, fun u0 c0 hb => ?_⟩
      · rcases g3 u c hb with hb' | hb'
        · rcases best with _ | ⟨ub, cb⟩
          · simp only [Option.some.injEq, Prod.mk.injEq] at hb'
            obtain ⟨rfl, rfl⟩ := hb'
            exact Or.inr ⟨0, P, rfl, hcall⟩
          · simp only at hb'
            split at hb'
            · simp only [Option.some.injEq, Prod.mk.injEq] at hb'
              obtain ⟨rfl, rfl⟩ := hb'
              exact Or.inr ⟨0, P, rfl, hcall⟩
            · exact Or.inl hb'
        · exact Or.inr (hshift hb')
      · rcases hb with hb | hb
        · subst hb
          simp only at g4
          by_cases hlt : c1 < c0
          · rw [if_pos hlt] at g4
            obtain ⟨u, c, h1, h2⟩ := g4 u1 c1 (Or.inl rfl)
            exact ⟨u, c, h1, le_trans h2 hlt.le⟩
          · rw [if_neg hlt] at g4
            exact g4 u0 c0 (Or.inl rfl)
        · rcases hcases hb with hb | hb
          · rw [hcall] at hb
            cases hb
            rcases best with _ | ⟨ub, cb⟩
            · exact g4 u1 c1 (Or.inl rfl)
            · simp only at g4
              by_cases hlt : c1 < cb
              · rw [if_pos hlt] at g4
                exact g4 u1 c1 (Or.inl rfl)
              · rw [if_neg hlt] at g4
                obtain ⟨u, c, h1, h2⟩ := g4 ub cb (Or.inl rfl)
                exact ⟨u, c, h1, le_trans h2 (not_lt.1 hlt)⟩
          · exact g4 u0 c0 (Or.inr hb)
    · simp only [hcall, ok_bind] at h
      obtain ⟨g1, g2, g3, g4⟩ := ih (k + 1) _ h
      refine ⟨by rw [g1, hlen], g2, fun u c hb => ?_, fun u0 c0 hb => ?_⟩
      · rcases g3 u c hb with hb' | hb'
        · exact Or.inl hb'
        · exact Or.inr (hshift hb')
      · rcases hb with hb | hb
        · exact g4 u0 c0 (Or.inl hb)
        · rcases hcases hb with hb | hb
          · rw [hcall] at hb
            cases hb
          · exact g4 u0 c0 (Or.inr hb)
    · simp only [hcall, error_bind] at h
      cases h

theorem parts_loop_total (T : Tools R) (x0 : Nat → R) (s : Lti R) (P1 : HP R) (N : Nat) (Rm r Q : Mat R) (w : R)
    (hw : 0 < w) (ord : Norm) (cl sn : Bool) (l : List (HP R)) (k : Nat) (best : Option ((Nat → Nat → R) × R))
    (h : ∀ (i : Nat) (P : HP R), P ∈ l → ∀ e, callAt T x0 s P1 N Rm r Q w ord cl sn i P ≠ .err e) :
    ∃ st, l.foldlM (tryPart T x0 s P1 N Q w ord cl sn) ⟨addMid Rm s.A.cols N ((k : Nat) * w), r, best⟩ = .ok st := by
  induction l generalizing k best with
  | nil => exact ⟨_, rfl⟩
  | cons P l ih =>
    rw [List.foldlM_cons, tryPart_eq T x0 s P1 N Rm r Q w hw]
    rcases hcall : callAt T x0 s P1 N Rm r Q w ord cl sn k P with ⟨u1, c1⟩ | _ | e
    · simp only [ok_bind]
      exact ih (k + 1) _ fun i P hP => h i P (List.mem_cons_of_mem _ hP)
    · simp only [ok_bind]
      exact ih (k + 1) _ fun i P hP => h i P (List.mem_cons_of_mem _ hP)
    · exact absurd hcall (h k P (List.mem_cons_self ..) e)

theorem parts_loop_zero (T : Tools R) (x0 : Nat → R) (s : Lti R) (P1 : HP R) (N : Nat) (Q : Mat R) (w : R)
    (hw : ¬ 0 < w) (ord : Norm) (cl sn : Bool) (l : List (HP R)) (st : Best R) :
    l.foldlM (tryPart T x0 s P1 N Q w ord cl sn) st = .ok st := by
  induction l with
  | nil => rfl
  | cons P l ih =>
    rw [List.foldlM_cons]
    have : tryPart T x0 s P1 N Q w ord cl sn st P = .ok st := if_neg hw
    rw [this, ok_bind, ih]

theorem stayPoly_spec (T : Tools R) (ab : PwaAbs R) (start : Nat) (cs : Cell R) (stay : HP R)
    (h : stayPoly T ab start cs = .ok stay) : StaySpec T ab start cs stay ∧
      ((∃ P ∈ cs.polys, stay = P) ∨ (∃ c ∈ ab.origRegions, ∃ P ∈ c.polys, stay = P) ∨
        ∃ l, stay = T.qhull l) := by
  unfold stayPoly at h
  have hone : ∀ (c : Cell R) (P : HP R), c.parts = [P] → c.polys = [P] := fun c P h => by
    unfold Cell.polys
    rw [h, if_neg (by simp)]
  split at h
  · rename_i ho
    have ho' : ab.conservative = true ∨ ab.orig = none := by
      by_cases hc : ab.conservative = true
      · exact Or.inl hc
      · rw [if_neg hc] at ho
        exact Or.inr ho
    split at h
    · rename_i hp
      cases h
      have hpoly : cs.polys = [cs.poly] := by unfold Cell.polys; rw [if_pos hp]
      refine ⟨Or.inr ⟨ho', Or.inl ⟨by rw [hp]; simp, fun x => ?_⟩⟩, Or.inl ⟨cs.poly, by rw [hpoly]; simp, rfl⟩⟩
      unfold Cell.Mem
      rw [hpoly]
      simp
    · rename_i P hp
      cases h
      refine ⟨Or.inr ⟨ho', Or.inl ⟨by rw [hp]; simp, fun x => ?_⟩⟩, Or.inl ⟨stay, by rw [hone _ _ hp]; simp, rfl⟩⟩
      unfold Cell.Mem
      rw [hone _ _ hp]
      simp
    · rename_i P Q l hp
      cases h
      exact ⟨Or.inr ⟨ho', Or.inr ⟨by rw [hp]; simp, by rw [hp]⟩⟩, Or.inr (Or.inr ⟨_, rfl⟩)⟩
  · rename_i orig ho
    have ho' : ab.conservative = false ∧ ab.orig = some orig := by
      by_cases hc : ab.conservative = true
      · rw [if_pos hc] at ho
        cases ho
      · rw [if_neg hc] at ho
        exact ⟨by simpa using hc, ho⟩
    split at h
    · cases h
    · rename_i i hi
      split at h
      · cases h
      · rename_i c hc
        split at h
        · cases h
        · rename_i P hp
          cases h
          refine ⟨Or.inl ⟨orig, i, c, ho'.1, ho'.2, hi, hc, fun x => ?_⟩,
            Or.inr (Or.inl ⟨c, List.mem_of_getElem? hc, stay, by rw [hone _ _ hp]; simp, rfl⟩)⟩
          unfold Cell.Mem
          rw [hone _ _ hp]
          simp
        · cases h

/-- The array `R`, `r`, `Q` that `get_input` uses if the argument is `None`, and the weight. -/
theorem inputDefaults_eq (s : Lti R) (xn N : Nat) (Rm r Q : Option (Mat R)) (w : R) :
    inputDefaults s xn N Rm r Q w = (Rm.getD (Mat.zeros (N * xn) (N * xn)), r.getD (Mat.zeros (N * xn) 1),
      Q.getD (Mat.eye (N * s.B.cols)), if Rm = none ∧ Q = none ∧ r = none ∧ w = 0 then 3 else w) := by
  unfold inputDefaults
  simp [Option.isNone_iff_eq_none]

/-- The weight that `get_input` uses. -/
def effWeight (Rm r Q : Option (Mat R)) (w : R) : R :=
  if Rm = none ∧ Q = none ∧ r = none ∧ w = 0 then 3 else w

/-- The arrays `R`, `r`, `Q` that `get_input` uses. -/
def effR (xn N : Nat) (Rm : Option (Mat R)) : Mat R := Rm.getD (Mat.zeros (N * xn) (N * xn))
def effr (xn N : Nat) (r : Option (Mat R)) : Mat R := r.getD (Mat.zeros (N * xn) 1)
def effQ (s : Lti R) (N : Nat) (Q : Option (Mat R)) : Mat R := Q.getD (Mat.eye (N * s.B.cols))

/-- The checks before the search. -/
def Checks (s : Lti R) (ab : PwaAbs R) (xn start stop : Nat) (Rm Q : Option (Mat R)) : Prop :=
  ((effR xn ab.N Rm).rows = ab.N * xn ∧ (effR xn ab.N Rm).cols = ab.N * xn) ∧
  ((effQ s ab.N Q).rows = ab.N * s.B.cols ∧ (effQ s ab.N Q).cols = ab.N * s.B.cols) ∧
  ∀ t, ab.ts = some t → (start, stop) ∈ t

/-- `get_input` after the checks. -/
def afterChecks (T : Tools R) (x0 : Nat → R) (s : Lti R) (ab : PwaAbs R) (start stop : Nat)
    (Rm r Q : Mat R) (ord : Norm) (w : R) (sn : Bool) : Except PyErr ((Nat → Nat → R) × Mat R × Mat R) :=
  match ab.regions[start]?, ab.regions[stop]? with
  | some Pstart, some Pend =>
    stayPoly T ab start Pstart >>= fun P1 =>
    match Pend.parts with
    | [] =>
      let Rr := if w > 0 then (addMid Rm s.A.cols ab.N w, addCenter r s.A.cols ab.N (-w) (T.center Pend.poly))
        else (Rm, r)
      match getInputHelper T x0 s P1 Pend.poly ab.N Rr.1 Rr.2 Q ord ab.closedLoop sn with
      | .err e => .error e
      | .lpFail => .error .runtime
      | .ok u _ => .ok (u, Rr)
    | P :: l =>
      (P :: l).foldlM (tryPart T x0 s P1 ab.N Q w ord ab.closedLoop sn) ⟨Rm, r, none⟩ >>= fun st =>
      match st.best with
      | none => .error .exception
      | some (u, _) => .ok (u, st.Rm, st.r)
  | _, _ => .error .indexError

theorem getInput_checks (T : Tools R) (x0 : Nat → R) (xn : Nat) (s : Lti R) (ab : PwaAbs R) (start stop : Nat)
    (Rm r Q : Option (Mat R)) (ord : Norm) (w : R) (sn : Bool) :
    (¬ Checks s ab xn start stop Rm Q → getInput T x0 xn s ab start stop Rm r Q ord w sn = .error .exception) ∧
    (Checks s ab xn start stop Rm Q → getInput T x0 xn s ab start stop Rm r Q ord w sn =
      afterChecks T x0 s ab start stop (effR xn ab.N Rm) (effr xn ab.N r) (effQ s ab.N Q) ord
        (effWeight Rm r Q w) sn) := by
  unfold getInput
  rw [inputDefaults_eq]
  dsimp only
  change (_ → (if (effR xn ab.N Rm).rows ≠ (effR xn ab.N Rm).cols ∨ (effR xn ab.N Rm).rows ≠ ab.N * xn then _
    else if (effQ s ab.N Q).rows ≠ (effQ s ab.N Q).cols ∨ (effQ s ab.N Q).rows ≠ ab.N * s.B.cols then _
    else _) = _) ∧ (_ → (if (effR xn ab.N Rm).rows ≠ (effR xn ab.N Rm).cols ∨ (effR xn ab.N Rm).rows ≠ ab.N * xn
      then _
    else if (effQ s ab.N Q).rows ≠ (effQ s ab.N Q).cols ∨ (effQ s ab.N Q).rows ≠ ab.N * s.B.cols then _
    else _) = _)
  by_cases h1 : (effR xn ab.N Rm).rows ≠ (effR xn ab.N Rm).cols ∨ (effR xn ab.N Rm).rows ≠ ab.N * xn
  · rw [if_pos h1]
    refine ⟨fun _ => rfl, fun h => ?_⟩
    have := h.1
    omega
  · rw [if_neg h1]
    by_cases h2 : (effQ s ab.N Q).rows ≠ (effQ s ab.N Q).cols ∨ (effQ s ab.N Q).rows ≠ ab.N * s.B.cols
    · rw [if_pos h2]
      refine ⟨fun _ => rfl, fun h => ?_⟩
      have := h.2.1
      omega
    · rw [if_neg h2]
      by_cases h3 : (ab.ts.map fun t => decide ((start, stop) ∈ t)) = some false
      · rw [if_pos h3]
        refine ⟨fun _ => rfl, fun h => ?_⟩
        obtain ⟨t, ht, hd⟩ := Option.map_eq_some_iff.1 h3
        exact absurd (h.2.2 t ht) (of_decide_eq_false hd)
      · rw [if_neg h3]
        refine ⟨fun h => absurd ?_ h, fun _ => ?_⟩
        · refine ⟨by omega, by omega, fun t ht => ?_⟩
          by_contra hn
          exact h3 (by rw [ht]; simp [hn])
        · rfl

end Abs

end Tulip
