import Verif.Abstract.GetInputTop

/-!
# The inputs that implement a transition: the properties of `get_input`
-/

namespace Tulip

namespace Abs

open Finset

set_option linter.unusedSectionVars false

variable {R : Type} [Field R] [LinearOrder R] [IsStrictOrderedRing R]

/-- The successful call of `get_input_helper`, and the arrays at the end. -/
theorem getInput_ok_inv (T : Tools R) (x0 : Nat → R) (xn : Nat) (s : Lti R) (ab : PwaAbs R) (start stop : Nat)
    (Rm r Q : Option (Mat R)) (ord : Norm) (w : R) (sn : Bool) (u : Nat → Nat → R) (R' r' : Mat R)
    (h : getInput T x0 xn s ab start stop Rm r Q ord w sn = .ok (u, R', r')) :
    Checks s ab xn start stop Rm Q ∧
    ∃ cs ce stay, ab.regions[start]? = some cs ∧ ab.regions[stop]? = some ce ∧
      stayPoly T ab start cs = .ok stay ∧
      ((ce.parts = [] ∧ (∃ c, getInputHelper T x0 s stay ce.poly ab.N R' r' (effQ s ab.N Q) ord ab.closedLoop sn =
          .ok u c) ∧
        (0 < effWeight Rm r Q w → R' = addMid (effR xn ab.N Rm) s.A.cols ab.N (effWeight Rm r Q w) ∧
          r' = addCenter (effr xn ab.N r) s.A.cols ab.N (- effWeight Rm r Q w) (T.center ce.poly)) ∧
        (¬ 0 < effWeight Rm r Q w → R' = effR xn ab.N Rm ∧ r' = effr xn ab.N r)) ∨
      (ce.parts ≠ [] ∧ 0 < effWeight Rm r Q w ∧
        R' = addMid (effR xn ab.N Rm) s.A.cols ab.N (ce.parts.length * effWeight Rm r Q w) ∧
        r' = effr xn ab.N r ∧
        ∃ (i : Nat) (P3 : HP R) (c : R), ce.parts[i]? = some P3 ∧
          callAt T x0 s stay ab.N (effR xn ab.N Rm) (effr xn ab.N r) (effQ s ab.N Q) (effWeight Rm r Q w) ord
            ab.closedLoop sn i P3 = .ok u c ∧
          ∀ (j : Nat) (P : HP R) u' c', ce.parts[j]? = some P →
            callAt T x0 s stay ab.N (effR xn ab.N Rm) (effr xn ab.N r) (effQ s ab.N Q) (effWeight Rm r Q w) ord
              ab.closedLoop sn j P = .ok u' c' → c ≤ c')) := by
  obtain ⟨hbad, hgood⟩ := getInput_checks T x0 xn s ab start stop Rm r Q ord w sn
  by_cases hc : Checks s ab xn start stop Rm Q
  swap
  · rw [hbad hc] at h
    cases h
  refine ⟨hc, ?_⟩
  rw [hgood hc] at h
  generalize effR xn ab.N Rm = R0 at *
  generalize effr xn ab.N r = r0 at *
  generalize effQ s ab.N Q = Q0 at *
  generalize effWeight Rm r Q w = w0 at *
  unfold afterChecks at h
  split at h
  swap
  · cases h
  rename_i cs ce hcs hce
  rcases hst : stayPoly T ab start cs with e | stay
  · rw [hst, error_bind] at h
    cases h
  rw [hst, ok_bind] at h
  refine ⟨cs, ce, stay, hcs, hce, hst, ?_⟩
  split at h
  · rename_i hp
    refine Or.inl ⟨hp, ?_⟩
    by_cases hw : 0 < w0
    · simp only [gt_iff_lt, if_pos hw] at h
      split at h
      · cases h
      · cases h
      · rename_i u1 c1 hh
        cases h
        exact ⟨⟨_, hh⟩, fun _ => ⟨rfl, rfl⟩, fun h => absurd hw h⟩
    · simp only [gt_iff_lt, if_neg hw] at h
      split at h
      · cases h
      · cases h
      · rename_i u1 c1 hh
        cases h
        exact ⟨⟨_, hh⟩, fun h => absurd h hw, fun _ => ⟨rfl, rfl⟩⟩
  · rename_i P l hp
    rw [← hp] at h
    refine Or.inr ⟨by rw [hp]; simp, ?_⟩
    by_cases hw : 0 < w0
    · rcases hf : ce.parts.foldlM (tryPart T x0 s stay ab.N Q0 w0 ord ab.closedLoop sn) ⟨R0, r0, none⟩ with e | st
      · rw [hf, error_bind] at h
        cases h
      rw [hf, ok_bind] at h
      have hf' : ce.parts.foldlM (tryPart T x0 s stay ab.N Q0 w0 ord ab.closedLoop sn)
          ⟨addMid R0 s.A.cols ab.N ((0 : Nat) * w0), r0, none⟩ = .ok st := by
        rw [Nat.cast_zero, zero_mul, addMid_zero]
        exact hf
      obtain ⟨h1, h2, h3, h4⟩ := parts_loop T x0 s stay ab.N R0 r0 Q0 w0 hw ord ab.closedLoop sn ce.parts 0 none st hf'
      split at h
      · cases h
      · rename_i u1 c1 hb
        cases h
        rw [Nat.zero_add] at h1
        refine ⟨hw, h1, h2, ?_⟩
        rcases h3 _ _ hb with h3 | ⟨i, P3, hi, hcall⟩
        · cases h3
        · rw [Nat.zero_add] at hcall
          refine ⟨i, P3, c1, hi, hcall, fun j P' u' c' hj hc' => ?_⟩
          obtain ⟨u2, c2, hb2, hle⟩ := h4 u' c' (Or.inr ⟨j, P', hj, by rw [Nat.zero_add]; exact hc'⟩)
          rw [hb] at hb2
          cases hb2
          exact hle
    · rw [parts_loop_zero T x0 s stay ab.N Q0 w0 hw, ok_bind] at h
      cases h

theorem stay_fits {T : Tools R} {s : Lti R} {ab : PwaAbs R} {xn : Nat} {r : Option (Mat R)}
    (hset : Setting T s ab xn r) {start : Nat} {cs : Cell R} {stay : HP R} (hcs : ab.regions[start]? = some cs)
    (h : stayPoly T ab start cs = .ok stay) : stay.Fits s := by
  rcases (stayPoly_spec T ab start cs stay h).2 with ⟨P, hP, rfl⟩ | ⟨c, hc, P, hP, rfl⟩ | ⟨l, rfl⟩
  · exact hset.regions cs (List.mem_of_getElem? hcs) _ hP
  · exact hset.origRegions c hc _ hP
  · exact hset.qhull l

theorem eff_shapes {T : Tools R} {s : Lti R} {ab : PwaAbs R} {xn : Nat} {r : Option (Mat R)}
    (hset : Setting T s ab xn r) {start stop : Nat} {Rm Q : Option (Mat R)}
    (hc : Checks s ab xn start stop Rm Q) :
    ((effR xn ab.N Rm).rows = ab.N * s.A.cols ∧ (effR xn ab.N Rm).cols = ab.N * s.A.cols) ∧
    ((effQ s ab.N Q).rows = ab.N * s.B.cols ∧ (effQ s ab.N Q).cols = ab.N * s.B.cols) ∧
    (effr xn ab.N r).rows = ab.N * s.A.cols := by
  have hxn := hset.xn
  subst hxn
  refine ⟨hc.1, hc.2.1, ?_⟩
  unfold effr
  rcases hr : r with _ | r0
  · rfl
  · exact hset.r r0 hr

theorem poly_of_parts {c : Cell R} (h : c.parts = []) : c.poly ∈ c.polys := by
  unfold Cell.polys
  rw [if_pos h]
  simp

theorem part_of_parts {c : Cell R} {i : Nat} {P : HP R} (h : c.parts[i]? = some P) : P ∈ c.polys := by
  unfold Cell.polys
  rw [if_neg (by intro h0; rw [h0] at h; simp at h)]
  exact List.mem_of_getElem? h

/-- The inputs that `get_input` returns lead, whatever the disturbances, from the state to the last region in
`N` steps, through the set where the states must stay; each input is allowed; and the transition is in the
transition system. -/
theorem getInput_reaches (T : Tools R) (x0 : Nat → R) (xn : Nat) (s : Lti R) (ab : PwaAbs R) (start stop : Nat)
    (Rm r Q : Option (Mat R)) (ord : Norm) (w : R) (sn : Bool) (hset : Setting T s ab xn r)
    (hopen : ab.closedLoop = false) (u : Nat → Nat → R) (R' r' : Mat R)
    (h : getInput T x0 xn s ab start stop Rm r Q ord w sn = .ok (u, R', r')) :
    (∀ t, ab.ts = some t → (start, stop) ∈ t) ∧
    ∃ cs ce stay, ab.regions[start]? = some cs ∧ ab.regions[stop]? = some ce ∧ StaySpec T ab start cs stay ∧
      ∀ d, s.Possible T.toPc ab.N d →
        (∀ k, 0 < k → k < ab.N → stay.Mem (s.traj x0 u d k)) ∧ ce.Mem (s.traj x0 u d ab.N) ∧
        ∀ k < ab.N, s.InputOk (s.traj x0 u d k) (u k) := by
  obtain ⟨hc, cs, ce, stay, hcs, hce, hst, hcases⟩ := getInput_ok_inv T x0 xn s ab start stop Rm r Q ord w sn u R' r' h
  refine ⟨hc.2.2, cs, ce, stay, hcs, hce, (stayPoly_spec T ab start cs stay hst).1, ?_⟩
  obtain ⟨hR0, hQ0, hr0⟩ := eff_shapes hset hc
  have hfit := stay_fits hset hcs hst
  have key : ∀ P3 ∈ ce.polys, ∀ R1 r1 c, (R1.rows = ab.N * s.A.cols ∧ R1.cols = ab.N * s.A.cols) →
      r1.rows = ab.N * s.A.cols →
      getInputHelper T x0 s stay P3 ab.N R1 r1 (effQ s ab.N Q) ord ab.closedLoop sn = .ok u c →
      ∀ d, s.Possible T.toPc ab.N d →
        (∀ k, 0 < k → k < ab.N → stay.Mem (s.traj x0 u d k)) ∧ ce.Mem (s.traj x0 u d ab.N) ∧
        ∀ k < ab.N, s.InputOk (s.traj x0 u d k) (u k) := by
    intro P3 hP3 R1 r1 c hR1 hr1 hh d hd
    have := helper_open T s hset.shaped hset.dist ab.N hset.horizon hset.inputs x0 stay P3 hfit
      (hset.regions ce (List.mem_of_getElem? hce) P3 hP3) sn R1 r1 (effQ s ab.N Q) hR1 hr1 hQ0 ord hset.lp hset.qp
    rw [← hopen, hh] at this
    obtain ⟨h1, h2, h3⟩ := this.1 d hd
    exact ⟨h1, ⟨P3, hP3, h2⟩, h3⟩
  rcases hcases with ⟨hp, ⟨c, hh⟩, hw1, hw2⟩ | ⟨_, _, _, _, i, P3, c, hi, hh, _⟩
  · refine key _ (poly_of_parts hp) R' r' c ?_ ?_ hh
    · by_cases hw : 0 < effWeight Rm r Q w
      · rw [(hw1 hw).1]; exact hR0
      · rw [(hw2 hw).1]; exact hR0
    · by_cases hw : 0 < effWeight Rm r Q w
      · rw [(hw1 hw).2]; exact hr0
      · rw [(hw2 hw).2]; exact hr0
  · unfold callAt at hh
    exact key P3 (part_of_parts hi) _ _ c (by exact hR0) (by exact hr0) hh

/-- With `closed_loop`: the first input is allowed, and whatever the first disturbance, a controller that
observes the states can lead from the next state to the last region in the rest of the horizon, through the
set where the states must stay. -/
theorem getInput_closed (T : Tools R) (x0 : Nat → R) (xn : Nat) (s : Lti R) (ab : PwaAbs R) (start stop : Nat)
    (Rm r Q : Option (Mat R)) (ord : Norm) (w : R) (sn : Bool) (hset : Setting T s ab xn r)
    (hpre : ∀ P Q, P.Fits s → Q.Fits s → (T.pre P Q).Fits s ∧
      ∀ x, (T.pre P Q).Mem x → s.Ctrl T.toPc P Q 1 x)
    (hclosed : ab.closedLoop = true) (u : Nat → Nat → R) (R' r' : Mat R)
    (h : getInput T x0 xn s ab start stop Rm r Q ord w sn = .ok (u, R', r')) :
    (∀ t, ab.ts = some t → (start, stop) ∈ t) ∧
    ∃ cs ce stay P3, ab.regions[start]? = some cs ∧ ab.regions[stop]? = some ce ∧ StaySpec T ab start cs stay ∧
      P3 ∈ ce.polys ∧ s.InputOk x0 (u 0) ∧
      (∀ d, (s.Disturbed → InHull (T.extreme s.W) d) → s.Ctrl T.toPc stay P3 (ab.N - 1) (s.next x0 (u 0) d)) ∧
      (2 ≤ ab.N → P3.Mem (s.traj x0 u (fun _ _ => 0) ab.N)) := by
  obtain ⟨hc, cs, ce, stay, hcs, hce, hst, hcases⟩ := getInput_ok_inv T x0 xn s ab start stop Rm r Q ord w sn u R' r' h
  refine ⟨hc.2.2, cs, ce, stay, ?_⟩
  obtain ⟨hR0, hQ0, hr0⟩ := eff_shapes hset hc
  have hfit := stay_fits hset hcs hst
  have key : ∀ P3 ∈ ce.polys, ∀ R1 r1 c, (R1.rows = ab.N * s.A.cols ∧ R1.cols = ab.N * s.A.cols) →
      r1.rows = ab.N * s.A.cols →
      getInputHelper T x0 s stay P3 ab.N R1 r1 (effQ s ab.N Q) ord ab.closedLoop sn = .ok u c →
      s.InputOk x0 (u 0) ∧
      (∀ d, (s.Disturbed → InHull (T.extreme s.W) d) → s.Ctrl T.toPc stay P3 (ab.N - 1) (s.next x0 (u 0) d)) ∧
      (2 ≤ ab.N → P3.Mem (s.traj x0 u (fun _ _ => 0) ab.N)) := by
    intro P3 hP3 R1 r1 c hR1 hr1 hh
    rw [hclosed] at hh
    exact helper_closed T s hset.shaped hset.dist ab.N hset.horizon hset.inputs x0 stay P3 hfit
      (hset.regions ce (List.mem_of_getElem? hce) P3 hP3) sn (fun Q hQ => (hpre stay Q hfit hQ).1)
      (fun Q hQ => (hpre stay Q hfit hQ).2) R1 r1 (effQ s ab.N Q) hR1 hr1 hQ0 ord hset.lp hset.qp u c hh
  rcases hcases with ⟨hp, ⟨c, hh⟩, hw1, hw2⟩ | ⟨_, _, _, _, i, P3, c, hi, hh, _⟩
  · refine ⟨ce.poly, hcs, hce, (stayPoly_spec T ab start cs stay hst).1, poly_of_parts hp,
      key _ (poly_of_parts hp) R' r' c ?_ ?_ hh⟩
    · by_cases hw : 0 < effWeight Rm r Q w
      · rw [(hw1 hw).1]; exact hR0
      · rw [(hw2 hw).1]; exact hR0
    · by_cases hw : 0 < effWeight Rm r Q w
      · rw [(hw1 hw).2]; exact hr0
      · rw [(hw2 hw).2]; exact hr0
  · unfold callAt at hh
    exact ⟨P3, hcs, hce, (stayPoly_spec T ab start cs stay hst).1, part_of_parts hi,
      key P3 (part_of_parts hi) _ _ c (by exact hR0) (by exact hr0) hh⟩

/-- The cost that is minimised if the last region is a polytope: that of the arrays `R` and `r` as they are
after the call. For `ord = 2` the states are counted, otherwise the response to the inputs. -/
theorem getInput_optimal (T : Tools R) (x0 : Nat → R) (xn : Nat) (s : Lti R) (ab : PwaAbs R) (start stop : Nat)
    (Rm r Q : Option (Mat R)) (ord : Norm) (w : R) (sn : Bool) (hset : Setting T s ab xn r)
    (hopen : ab.closedLoop = false) (u : Nat → Nat → R) (R' r' : Mat R)
    (h : getInput T x0 xn s ab start stop Rm r Q ord w sn = .ok (u, R', r'))
    (ce : Cell R) (hce : ab.regions[stop]? = some ce) (hpoly : ce.parts = []) :
    ∃ stay, (∃ cs, ab.regions[start]? = some cs ∧ StaySpec T ab start cs stay) ∧
      s.Leads T.toPc ab.N x0 u stay ce.poly ∧
      ∀ u', s.Leads T.toPc ab.N x0 u' stay ce.poly →
        costOf ord s.A.cols s.B.cols ab.N R' r' (effQ s ab.N Q) (s.counted ord x0 u) u ≤
          costOf ord s.A.cols s.B.cols ab.N R' r' (effQ s ab.N Q) (s.counted ord x0 u') u' := by
  obtain ⟨hc, cs, ce', stay, hcs, hce', hst, hcases⟩ := getInput_ok_inv T x0 xn s ab start stop Rm r Q ord w sn u R' r' h
  rw [hce] at hce'
  cases hce'
  obtain ⟨hR0, hQ0, hr0⟩ := eff_shapes hset hc
  have hfit := stay_fits hset hcs hst
  refine ⟨stay, ⟨cs, hcs, (stayPoly_spec T ab start cs stay hst).1⟩, ?_⟩
  rcases hcases with ⟨hp, ⟨c, hh⟩, hw1, hw2⟩ | ⟨hp, _⟩
  · have hR1 : R'.rows = ab.N * s.A.cols ∧ R'.cols = ab.N * s.A.cols := by
      by_cases hw : 0 < effWeight Rm r Q w
      · rw [(hw1 hw).1]; exact hR0
      · rw [(hw2 hw).1]; exact hR0
    have hr1 : r'.rows = ab.N * s.A.cols := by
      by_cases hw : 0 < effWeight Rm r Q w
      · rw [(hw1 hw).2]; exact hr0
      · rw [(hw2 hw).2]; exact hr0
    have := helper_open T s hset.shaped hset.dist ab.N hset.horizon hset.inputs x0 stay ce.poly hfit
      (hset.regions ce (List.mem_of_getElem? hce) _ (poly_of_parts hp)) sn R' r' (effQ s ab.N Q) hR1 hr1 hQ0 ord
      hset.lp hset.qp
    rw [← hopen, hh] at this
    exact ⟨this.1, this.2.2⟩
  · exact absurd hpoly hp

/-- The cost that is minimised if the last region has several polytopes, for `ord` 1 or infinity: for polytope
number `i` the weight is added `i + 1` times to the last block of `R`. -/
theorem getInput_best (T : Tools R) (x0 : Nat → R) (xn : Nat) (s : Lti R) (ab : PwaAbs R) (start stop : Nat)
    (Rm r Q : Option (Mat R)) (ord : Norm) (w : R) (sn : Bool) (hset : Setting T s ab xn r)
    (hb : s.Bounded) (hord : ord = .one ∨ ord = .inf)
    (hopen : ab.closedLoop = false) (u : Nat → Nat → R) (R' r' : Mat R)
    (h : getInput T x0 xn s ab start stop Rm r Q ord w sn = .ok (u, R', r'))
    (ce : Cell R) (hce : ab.regions[stop]? = some ce) (hparts : ce.parts ≠ []) :
    ∃ stay, (∃ cs, ab.regions[start]? = some cs ∧ StaySpec T ab start cs stay) ∧
      ∃ (i : Nat) (P3 : HP R), ce.parts[i]? = some P3 ∧ s.Leads T.toPc ab.N x0 u stay P3 ∧
      ∀ (j : Nat) (P : HP R) u', ce.parts[j]? = some P → s.Leads T.toPc ab.N x0 u' stay P →
        costOf ord s.A.cols s.B.cols ab.N
            (addMid (effR xn ab.N Rm) s.A.cols ab.N ((i + 1 : Nat) * effWeight Rm r Q w))
            (addCenter (effr xn ab.N r) s.A.cols ab.N (- effWeight Rm r Q w) (T.center P3))
            (effQ s ab.N Q) (s.forced u) u ≤
          costOf ord s.A.cols s.B.cols ab.N
            (addMid (effR xn ab.N Rm) s.A.cols ab.N ((j + 1 : Nat) * effWeight Rm r Q w))
            (addCenter (effr xn ab.N r) s.A.cols ab.N (- effWeight Rm r Q w) (T.center P))
            (effQ s ab.N Q) (s.forced u') u' := by
  obtain ⟨hc, cs, ce', stay, hcs, hce', hst, hcases⟩ := getInput_ok_inv T x0 xn s ab start stop Rm r Q ord w sn u R' r' h
  rw [hce] at hce'
  cases hce'
  obtain ⟨hR0, hQ0, hr0⟩ := eff_shapes hset hc
  have hfit := stay_fits hset hcs hst
  refine ⟨stay, ⟨cs, hcs, (stayPoly_spec T ab start cs stay hst).1⟩, ?_⟩
  rcases hcases with ⟨hp, _⟩ | ⟨_, hw, _, _, i, P3, c, hi, hh, hmin⟩
  · exact absurd hp hparts
  have hcnt : ∀ u, s.counted ord x0 u = s.forced u := fun u => by rcases hord with rfl | rfl <;> rfl
  have hcall : ∀ (j : Nat) (P : HP R), ce.parts[j]? = some P → _ := fun j P hj =>
    helper_open T s hset.shaped hset.dist ab.N hset.horizon hset.inputs x0 stay P hfit
      (hset.regions ce (List.mem_of_getElem? hce) P (part_of_parts hj)) sn
      (addMid (effR xn ab.N Rm) s.A.cols ab.N ((j + 1 : Nat) * effWeight Rm r Q w))
      (addCenter (effr xn ab.N r) s.A.cols ab.N (- effWeight Rm r Q w) (T.center P)) (effQ s ab.N Q) hR0 hr0 hQ0 ord
      hset.lp hset.qp
  have hi' := hcall i P3 hi
  unfold callAt at hh hmin
  rw [← hopen, hh] at hi'
  refine ⟨i, P3, hi, hi'.1, fun j P u' hj hu' => ?_⟩
  have hne : ord ≠ .two := by rcases hord with rfl | rfl <;> simp
  rw [← hcnt, ← hcnt, ← hi'.2.1 hne]
  have hj' := hcall j P hj
  rw [← hopen] at hj'
  rcases hres : getInputHelper T x0 s stay P ab.N
      (addMid (effR xn ab.N Rm) s.A.cols ab.N ((j + 1 : Nat) * effWeight Rm r Q w))
      (addCenter (effr xn ab.N r) s.A.cols ab.N (- effWeight Rm r Q w) (T.center P)) (effQ s ab.N Q) ord
      ab.closedLoop sn with ⟨u1, c1⟩ | _ | e
  · rw [hres] at hj'
    refine le_trans (hmin j P u1 c1 hj hres) ?_
    rw [hj'.2.1 hne]
    exact hj'.2.2 u' hu'
  · rw [hres] at hj'
    exact absurd ⟨u', hu'⟩ (hj'.2 hb)
  · rw [hres] at hj'
    rcases hord with rfl | rfl <;> simp at hj'

theorem getInput_complete_aux (T : Tools R) (x0 : Nat → R) (xn : Nat) (s : Lti R) (ab : PwaAbs R) (start stop : Nat)
    (Rm r Q : Option (Mat R)) (ord : Norm) (w : R) (sn : Bool) (hset : Setting T s ab xn r)
    (hc : Checks s ab xn start stop Rm Q)
    (cs ce : Cell R) (hcs : ab.regions[start]? = some cs) (hce : ab.regions[stop]? = some ce)
    (hw : 0 < effWeight Rm r Q w ∨ ce.parts = [])
    (stay : HP R) (hst : stayPoly T ab start cs = .ok stay)
    (P3 : HP R) (hP3 : P3 ∈ ce.polys)
    (hgood : ∀ P ∈ ce.polys, ∀ R1 r1 : Mat R, (R1.rows = ab.N * s.A.cols ∧ R1.cols = ab.N * s.A.cols) →
      r1.rows = ab.N * s.A.cols → ∀ e,
      getInputHelper T x0 s stay P ab.N R1 r1 (effQ s ab.N Q) ord ab.closedLoop sn ≠ .err e)
    (hfound : ∀ R1 r1 : Mat R, (R1.rows = ab.N * s.A.cols ∧ R1.cols = ab.N * s.A.cols) →
      r1.rows = ab.N * s.A.cols → ∃ u' c',
      getInputHelper T x0 s stay P3 ab.N R1 r1 (effQ s ab.N Q) ord ab.closedLoop sn = .ok u' c') :
    ∃ res, getInput T x0 xn s ab start stop Rm r Q ord w sn = .ok res := by
  rw [(getInput_checks T x0 xn s ab start stop Rm r Q ord w sn).2 hc]
  obtain ⟨hR0, hQ0, hr0⟩ := eff_shapes hset hc
  unfold afterChecks
  rw [hcs, hce]
  dsimp only
  rw [hst, ok_bind]
  generalize effWeight Rm r Q w = w0 at *
  split
  · rename_i hp
    have : P3 = ce.poly := by
      unfold Cell.polys at hP3
      rw [if_pos hp] at hP3
      simpa using hP3
    subst this
    by_cases hw0 : 0 < w0
    · obtain ⟨u', c', h⟩ := hfound (addMid (effR xn ab.N Rm) s.A.cols ab.N w0)
        (addCenter (effr xn ab.N r) s.A.cols ab.N (-w0) (T.center ce.poly)) hR0 hr0
      simp only [gt_iff_lt, if_pos hw0, h]
      exact ⟨_, rfl⟩
    · obtain ⟨u', c', h⟩ := hfound (effR xn ab.N Rm) (effr xn ab.N r) hR0 hr0
      simp only [gt_iff_lt, if_neg hw0, h]
      exact ⟨_, rfl⟩
  · rename_i P l hp
    rw [← hp]
    have hw0 : 0 < w0 := hw.resolve_right (by rw [hp]; simp)
    have hpolys : ce.polys = ce.parts := by
      unfold Cell.polys
      rw [if_neg (by rw [hp]; simp)]
    obtain ⟨st, hf⟩ := parts_loop_total T x0 s stay ab.N (effR xn ab.N Rm) (effr xn ab.N r) (effQ s ab.N Q) w0 hw0
      ord ab.closedLoop sn ce.parts 0 none (fun i P hP e => by
        unfold callAt
        exact hgood P (by rw [hpolys]; exact hP) _ _ (by exact hR0) (by exact hr0) e)
    obtain ⟨_, _, _, h4⟩ := parts_loop T x0 s stay ab.N _ _ _ w0 hw0 ord ab.closedLoop sn ce.parts 0 none st hf
    obtain ⟨i, hi⟩ : ∃ i : Nat, ce.parts[i]? = some P3 := by
      rw [hpolys] at hP3
      obtain ⟨i, hi, h⟩ := List.getElem_of_mem hP3
      exact ⟨i, by rw [List.getElem?_eq_getElem hi, h]⟩
    obtain ⟨u', c', h⟩ := hfound (addMid (effR xn ab.N Rm) s.A.cols ab.N ((i + 1 : Nat) * w0))
        (addCenter (effr xn ab.N r) s.A.cols ab.N (-w0) (T.center P3)) hR0 hr0
    obtain ⟨u2, c2, hb2, _⟩ := h4 u' c' (Or.inr ⟨i, P3, hi, by rw [Nat.zero_add]; exact h⟩)
    rw [Nat.cast_zero, zero_mul, addMid_zero] at hf
    rw [hf, ok_bind, hb2]
    exact ⟨_, rfl⟩

/-- For `ord` 1 or infinity, a positive weight and bounded inputs: if some inputs lead to the last region,
`get_input` returns inputs. -/
theorem getInput_complete (T : Tools R) (x0 : Nat → R) (xn : Nat) (s : Lti R) (ab : PwaAbs R) (start stop : Nat)
    (Rm r Q : Option (Mat R)) (ord : Norm) (w : R) (sn : Bool) (hset : Setting T s ab xn r)
    (hb : s.Bounded) (hord : ord = .one ∨ ord = .inf) (hopen : ab.closedLoop = false)
    (hc : Checks s ab xn start stop Rm Q)
    (cs ce : Cell R) (hcs : ab.regions[start]? = some cs) (hce : ab.regions[stop]? = some ce)
    (hw : 0 < effWeight Rm r Q w ∨ ce.parts = [])
    (stay : HP R) (hst : stayPoly T ab start cs = .ok stay)
    (P3 : HP R) (hP3 : P3 ∈ ce.polys) (u : Nat → Nat → R) (hu : s.Leads T.toPc ab.N x0 u stay P3) :
    ∃ res, getInput T x0 xn s ab start stop Rm r Q ord w sn = .ok res := by
  obtain ⟨hR0, hQ0, hr0⟩ := eff_shapes hset hc
  have hfit := stay_fits hset hcs hst
  have hcall : ∀ P ∈ ce.polys, ∀ R1 r1 : Mat R, (R1.rows = ab.N * s.A.cols ∧ R1.cols = ab.N * s.A.cols) →
      r1.rows = ab.N * s.A.cols → _ := fun P hP R1 r1 hR1 hr1 =>
    helper_open T s hset.shaped hset.dist ab.N hset.horizon hset.inputs x0 stay P hfit
      (hset.regions ce (List.mem_of_getElem? hce) P hP) sn R1 r1 (effQ s ab.N Q) hR1 hr1 hQ0 ord hset.lp hset.qp
  have hgood : ∀ P ∈ ce.polys, ∀ R1 r1, (R1.rows = ab.N * s.A.cols ∧ R1.cols = ab.N * s.A.cols) →
      r1.rows = ab.N * s.A.cols → ∀ e,
      getInputHelper T x0 s stay P ab.N R1 r1 (effQ s ab.N Q) ord ab.closedLoop sn ≠ .err e := by
    intro P hP R1 r1 hR1 hr1 e he
    have := hcall P hP R1 r1 hR1 hr1
    rw [← hopen, he] at this
    rcases hord with rfl | rfl <;> simp at this
  have hfound : ∀ R1 r1, (R1.rows = ab.N * s.A.cols ∧ R1.cols = ab.N * s.A.cols) →
      r1.rows = ab.N * s.A.cols → ∃ u' c',
      getInputHelper T x0 s stay P3 ab.N R1 r1 (effQ s ab.N Q) ord ab.closedLoop sn = .ok u' c' := by
    intro R1 r1 hR1 hr1
    have := hcall P3 hP3 R1 r1 hR1 hr1
    rw [← hopen] at this
    rcases hres : getInputHelper T x0 s stay P3 ab.N R1 r1 (effQ s ab.N Q) ord ab.closedLoop sn with ⟨u1, c1⟩ | _ | e
    · exact ⟨u1, c1, rfl⟩
    · rw [hres] at this
      exact absurd ⟨u, hu⟩ (this.2 hb)
    · exact absurd hres (hgood P3 hP3 R1 r1 hR1 hr1 e)
  exact getInput_complete_aux T x0 xn s ab start stop Rm r Q ord w sn hset hc cs ce hcs hce hw stay hst P3 hP3 hgood
    hfound

theorem closedList_get (T : Tools R) (P1 P3 : HP R) (k j : Nat) (hj : j ≤ k) :
    (closedList T P1 P3 k).2[j]? = some (closedList T P1 P3 (k - j)).1 := by
  induction k generalizing j with
  | zero =>
    obtain rfl : j = 0 := by omega
    rfl
  | succ k ih =>
    rcases j with _ | j
    · rfl
    · rw [Nat.add_sub_add_right]
      exact ih j (by omega)

theorem ctrl_closedList (T : Tools R) (s : Lti R) (P1 P3 : HP R) (h3 : P3.Fits s)
    (hpre : ∀ Q, Q.Fits s → (T.pre P1 Q).Fits s)
    (hcomp : ∀ Q, Q.Fits s → ∀ x, s.Ctrl T.toPc P1 Q 1 x → (T.pre P1 Q).Mem x) (k : Nat) (x : Nat → R)
    (hx : s.Ctrl T.toPc P1 P3 k x) : (closedList T P1 P3 k).1.Mem x := by
  induction k generalizing x with
  | zero => exact hx
  | succ k ih =>
    obtain ⟨h1, u, hu, hd⟩ := hx
    exact hcomp _ (closedList_fits T s P1 P3 h3 hpre k).1 x ⟨h1, u, hu, fun d hp => ih _ (hd d hp)⟩

theorem traj_cons (s : Lti R) (x : Nat → R) (u0 : Nat → R) (u : Nat → Nat → R) (i : Nat) :
    s.traj x (fun k => match k with | 0 => u0 | k + 1 => u k) (fun _ _ => 0) (i + 1) =
      s.traj (s.next x u0 fun _ => 0) u (fun _ _ => 0) i := by
  induction i with
  | zero => rfl
  | succ i ih =>
    show s.next (s.traj x _ (fun _ _ => 0) (i + 1)) (u i) (fun _ => 0) = _
    rw [ih]
    rfl

/-- The inputs of a controller, if there are no disturbances. -/
theorem ctrl_inputs (pc : Pc R) (s : Lti R) (P1 P3 : HP R)
    (h0 : s.Disturbed → InHull (pc.extreme s.W) fun _ => 0) (k : Nat) (x : Nat → R) (hx : s.Ctrl pc P1 P3 k x) :
    ∃ u, (∀ i < k, s.InputOk (s.traj x u (fun _ _ => 0) i) (u i)) ∧
      ∀ i ≤ k, s.Ctrl pc P1 P3 (k - i) (s.traj x u (fun _ _ => 0) i) := by
  induction k generalizing x with
  | zero =>
    refine ⟨fun _ _ => 0, fun i hi => absurd hi (by omega), fun i hi => ?_⟩
    obtain rfl : i = 0 := by omega
    exact hx
  | succ k ih =>
    have hx0 := hx
    obtain ⟨h1, u0, hu0, hd⟩ := hx
    obtain ⟨u, h2, h3⟩ := ih _ (hd (fun _ => 0) h0)
    refine ⟨fun k => match k with | 0 => u0 | k + 1 => u k, fun i hi => ?_, fun i hi => ?_⟩
    · rcases i with _ | i
      · exact hu0
      · rw [traj_cons]
        exact h2 i (by omega)
    · rcases i with _ | i
      · exact hx0
      · rw [traj_cons, Nat.add_sub_add_right]
        exact h3 i (by omega)

theorem inputOk_any (s : Lti R) (hU : s.U.A.cols = s.B.cols) (x y u : Nat → R) (h : s.InputOk x u) :
    s.InputOk y u := by
  unfold Lti.InputOk at *
  rw [if_pos hU] at *
  exact h

theorem feas_closed (T : Tools R) (s : Lti R) (N : Nat) (hN : 0 < N) (P1 P3 : HP R) (h3 : P3.Fits s)
    (hU : s.U.A.cols = s.B.cols) (h0 : s.Disturbed → InHull (T.extreme s.W) fun _ => 0)
    (hpre : ∀ Q, Q.Fits s → (T.pre P1 Q).Fits s)
    (hcomp : ∀ Q, Q.Fits s → ∀ x, s.Ctrl T.toPc P1 Q 1 x → (T.pre P1 Q).Mem x) (x0 : Nat → R)
    (u0 : Nat → R) (hu0 : s.InputOk x0 u0)
    (hnext : ∀ d, (s.Disturbed → InHull (T.extreme s.W) d) → s.Ctrl T.toPc P1 P3 (N - 1) (s.next x0 u0 d)) :
    ∃ u, FeasLM T.toPc s N (helperList T P1 P3 N true).1 (helperList T P1 P3 N true).2 x0 u := by
  obtain ⟨u, h1, h2⟩ := ctrl_inputs T.toPc s P1 P3 h0 (N - 1) _ (hnext (fun _ => 0) h0)
  refine ⟨fun k => match k with | 0 => u0 | k + 1 => u k, fun d hd i hi => ⟨fun P hi0 hP => ?_, fun hi' => ?_⟩⟩
  · obtain ⟨j, rfl⟩ : ∃ j, i = j + 1 := ⟨i - 1, by omega⟩
    change (P1 :: (closedList T P1 P3 (N - 1)).2)[j + 1]? = some P at hP
    rw [List.getElem?_cons_succ, closedList_get T P1 P3 _ j (by omega)] at hP
    cases hP
    refine ctrl_closedList T s P1 P3 h3 hpre hcomp _ _ ?_
    rcases j with _ | j
    · exact hnext _ fun h => by
        have e : distAt ((helperList T P1 P3 N true).2.getD (List.range' 1 N)) 1 d = d := if_pos (by
          show 1 ∈ [1]
          simp)
        rw [e]
        exact hd h 0 hN
    · have e : distAt ((helperList T P1 P3 N true).2.getD (List.range' 1 N)) (j + 1 + 1) d = fun _ _ => 0 := if_neg (by
          show ¬ (j + 1 + 1 ∈ [1])
          simp)
      rw [e, traj_cons]
      exact h2 _ (by omega)
  · rcases i with _ | i
    · exact hu0
    · exact inputOk_any s hU _ _ _ (h1 i (by omega))

/-- With `closed_loop`, for `ord` 1 or infinity, a positive weight and bounded inputs: if a controller that
observes the states can lead from the state to a polytope of the last region, `get_input` returns inputs. The
constraints on the inputs do not involve the states, and 0 is a possible disturbance. -/
theorem getInput_closed_complete (T : Tools R) (x0 : Nat → R) (xn : Nat) (s : Lti R) (ab : PwaAbs R)
    (start stop : Nat) (Rm r Q : Option (Mat R)) (ord : Norm) (w : R) (sn : Bool) (hset : Setting T s ab xn r)
    (hb : s.Bounded) (hord : ord = .one ∨ ord = .inf) (hclosed : ab.closedLoop = true)
    (hU : s.U.A.cols = s.B.cols) (h0 : s.Disturbed → InHull (T.extreme s.W) fun _ => 0)
    (hpre : ∀ P Q, P.Fits s → Q.Fits s → (T.pre P Q).Fits s ∧
      ∀ x, s.Ctrl T.toPc P Q 1 x → (T.pre P Q).Mem x)
    (hc : Checks s ab xn start stop Rm Q)
    (cs ce : Cell R) (hcs : ab.regions[start]? = some cs) (hce : ab.regions[stop]? = some ce)
    (hw : 0 < effWeight Rm r Q w ∨ ce.parts = [])
    (stay : HP R) (hst : stayPoly T ab start cs = .ok stay)
    (P3 : HP R) (hP3 : P3 ∈ ce.polys) (hx : s.Ctrl T.toPc stay P3 ab.N x0) :
    ∃ res, getInput T x0 xn s ab start stop Rm r Q ord w sn = .ok res := by
  obtain ⟨hR0, hQ0, hr0⟩ := eff_shapes hset hc
  have hfit := stay_fits hset hcs hst
  have hfits : ∀ P ∈ ce.polys, ∀ P' ∈ (helperList T stay P ab.N true).1, P'.Fits s := by
    intro P hP P' hP'
    rcases List.mem_cons.1 hP' with rfl | hP'
    · exact hfit
    · exact (closedList_fits T s stay P (hset.regions ce (List.mem_of_getElem? hce) P hP)
        (fun Q hQ => (hpre stay Q hfit hQ).1) (ab.N - 1)).2 P' hP'
  have hN := hset.horizon
  have hcall : ∀ P ∈ ce.polys, ∀ R1 r1 : Mat R, (R1.rows = ab.N * s.A.cols ∧ R1.cols = ab.N * s.A.cols) →
      r1.rows = ab.N * s.A.cols → _ := fun P hP R1 r1 hR1 hr1 =>
    helper_core T s hset.shaped hset.dist ab.N hset.horizon hset.inputs x0 stay P true sn
      (fun P' hP' => (hfits P hP P' hP').1)
      (by show (stay :: (closedList T stay P (ab.N - 1)).2).length = ab.N + 1
          rw [List.length_cons, closedList_length]; omega) rfl (Or.inl hU) R1 r1 (effQ s ab.N Q) hR1 hr1 hQ0 ord
      hset.lp hset.qp
  have hgood : ∀ P ∈ ce.polys, ∀ R1 r1 : Mat R, (R1.rows = ab.N * s.A.cols ∧ R1.cols = ab.N * s.A.cols) →
      r1.rows = ab.N * s.A.cols → ∀ e,
      getInputHelper T x0 s stay P ab.N R1 r1 (effQ s ab.N Q) ord ab.closedLoop sn ≠ .err e := by
    intro P hP R1 r1 hR1 hr1 e he
    have := hcall P hP R1 r1 hR1 hr1
    rw [hclosed] at he
    rw [he] at this
    rcases hord with rfl | rfl <;> simp at this
  refine getInput_complete_aux T x0 xn s ab start stop Rm r Q ord w sn hset hc cs ce hcs hce hw stay hst P3 hP3 hgood
    fun R1 r1 hR1 hr1 => ?_
  have := hcall P3 hP3 R1 r1 hR1 hr1
  rcases hres : getInputHelper T x0 s stay P3 ab.N R1 r1 (effQ s ab.N Q) ord ab.closedLoop sn with ⟨u1, c1⟩ | _ | e
  · exact ⟨u1, c1, rfl⟩
  · rw [hclosed] at hres
    rw [hres] at this
    refine absurd ?_ (this.2 hb)
    obtain ⟨k, hk⟩ : ∃ k, ab.N = k + 1 := ⟨ab.N - 1, by omega⟩
    rw [hk] at hx
    obtain ⟨_, u0, hu0, hd⟩ := hx
    exact feas_closed T s ab.N hN stay P3 (hset.regions ce (List.mem_of_getElem? hce) P3 hP3) hU h0
      (fun Q hQ => (hpre stay Q hfit hQ).1) (fun Q hQ => (hpre stay Q hfit hQ).2) x0 u0 hu0
      (by rw [hk, Nat.add_sub_cancel]; exact hd)
  · exact absurd hres (hgood P3 hP3 R1 r1 hR1 hr1 e)

/-- A polytope of the states of `P` from which one step leads to `Q` exists, so the assumption about
`solve_feasible` can be met. -/
theorem pre_exists (pc : Pc R) (s : Lti R) (hs : s.Shaped) (hW : s.GoodDist pc) (hm : 0 < s.B.cols)
    (hU : s.U.A.cols = s.B.cols) (P Q : HP R) (hP : P.Fits s) (hQ : Q.Fits s) :
    ∃ X : HP R, X.Fits s ∧ ∀ x, X.Mem x ↔ s.Ctrl pc P Q 1 x := by
  obtain ⟨L, M, _, hc, hspec⟩ := createLM3_spec pc s hs hW 1 (by omega) P P Q hP.1 hP.1 hQ.1 (Or.inl hU)
  rw [Nat.one_mul] at hc
  let l : List (Ineq R) := (List.range L.rows).map fun r => ⟨fun c => L.get r c, M.get r 0⟩
  let e := elimMany s.A.cols s.B.cols l
  let z : Ineq R := ⟨fun _ => 0, 0⟩
  refine ⟨⟨⟨e.length, s.A.cols, fun i j => (e.getD i z).a j⟩, fun i => (e.getD i z).b⟩, ⟨rfl, Or.inl hU⟩, fun x => ?_⟩
  have h1 : (∀ q ∈ e, q.Ok s.A.cols x) ↔ s.Ctrl pc P Q 1 x := by
    rw [elimMany_ok]
    constructor
    · rintro ⟨y, hy, hok⟩
      have hsat : Sat L M (s.stack x fun _ j => y (s.A.cols + j)) := by
        intro r hr
        have := hok ⟨fun c => L.get r c, M.get r 0⟩ (List.mem_map.2 ⟨r, List.mem_range.2 hr, rfl⟩)
        refine le_trans (le_of_eq ?_) this
        rw [hc]
        refine sum_congr rfl fun c hcm => ?_
        congr 1
        unfold Lti.stack
        split
        · rename_i h
          exact (hy c h).symm
        · have := mem_range.1 hcm
          have e : s.A.cols + (c - s.A.cols) % s.B.cols = c := by
            rw [Nat.mod_eq_of_lt (by omega)]
            omega
          dsimp only
          rw [e]
      obtain ⟨h2, h3⟩ := (hspec _ _).1 hsat
      obtain ⟨d0, hd0⟩ := possible_exists pc s hW 1
      exact ⟨h2, fun j => y (s.A.cols + j), (h3 d0 hd0).2.2 0 (by omega), fun d hd =>
        (h3 (fun _ => d) fun h _ _ => hd h).2.1⟩
    · rintro ⟨h2, u, hu, hd⟩
      have hsat := (hspec x fun _ => u).2 ⟨h2, fun d hp => ⟨fun k h0 h1 => by omega,
        hd (d 0) fun h => hp h 0 (by omega), fun k hk => by
          obtain rfl : k = 0 := by omega
          exact hu⟩⟩
      refine ⟨s.stack x fun _ => u, fun c hc => if_pos hc, fun q hq => ?_⟩
      obtain ⟨r, hr, rfl⟩ := List.mem_map.1 hq
      have := hsat r (List.mem_range.1 hr)
      rw [hc] at this
      exact this
  rw [← h1]
  constructor
  · intro h q hq
    obtain ⟨i, hi, rfl⟩ := List.getElem_of_mem hq
    have := h i hi
    simp only [List.getD_eq_getElem?_getD, List.getElem?_eq_getElem hi, Option.getD_some] at this
    exact this
  · intro h i hi
    have hi : i < e.length := hi
    have := h _ (List.getElem_mem hi)
    simp only [List.getD_eq_getElem?_getD, List.getElem?_eq_getElem hi, Option.getD_some]
    exact this

/-- The arguments that `get_input` refuses: arrays `R` and `Q` with wrong shapes, and a pair of regions without
a transition. -/
theorem getInput_refuses (T : Tools R) (x0 : Nat → R) (xn : Nat) (s : Lti R) (ab : PwaAbs R) (start stop : Nat)
    (Rm r Q : Option (Mat R)) (ord : Norm) (w : R) (sn : Bool)
    (h : (∃ R0, Rm = some R0 ∧ (R0.rows ≠ ab.N * xn ∨ R0.cols ≠ ab.N * xn)) ∨
      (∃ Q0, Q = some Q0 ∧ (Q0.rows ≠ ab.N * s.B.cols ∨ Q0.cols ≠ ab.N * s.B.cols)) ∨
      ∃ t, ab.ts = some t ∧ (start, stop) ∉ t) :
    getInput T x0 xn s ab start stop Rm r Q ord w sn = .error .exception := by
  refine (getInput_checks T x0 xn s ab start stop Rm r Q ord w sn).1 fun hc => ?_
  rcases h with ⟨R0, rfl, h⟩ | ⟨Q0, rfl, h⟩ | ⟨t, ht, h⟩
  · have h1 : R0.rows = ab.N * xn ∧ R0.cols = ab.N * xn := hc.1
    omega
  · have h1 : Q0.rows = ab.N * s.B.cols ∧ Q0.cols = ab.N * s.B.cols := hc.2.1
    omega
  · exact h (hc.2.2 t ht)

/-- If the weight `mid_weight` is not positive, and `R`, `r`, `Q` are not all `None`, then `get_input` returns no
inputs for a region with polytopes, whatever the system: `get_input_helper` is not called. -/
theorem getInput_zero_weight (T : Tools R) (x0 : Nat → R) (xn : Nat) (s : Lti R) (ab : PwaAbs R)
    (start stop : Nat) (Rm r Q : Option (Mat R)) (ord : Norm) (w : R) (sn : Bool)
    (hnone : ¬ (Rm = none ∧ Q = none ∧ r = none)) (hw : w ≤ 0) (ce : Cell R)
    (hce : ab.regions[stop]? = some ce) (hparts : ce.parts ≠ []) (res) :
    getInput T x0 xn s ab start stop Rm r Q ord w sn ≠ .ok res := by
  intro h
  obtain ⟨u, R', r'⟩ := res
  obtain ⟨_, _, ce', _, _, hce', _, hcases⟩ := getInput_ok_inv T x0 xn s ab start stop Rm r Q ord w sn u R' r' h
  rw [hce] at hce'
  cases hce'
  rcases hcases with ⟨hp, _⟩ | ⟨_, hw', _⟩
  · exact hparts hp
  · unfold effWeight at hw'
    rw [if_neg (fun h => hnone ⟨h.1, h.2.1, h.2.2.1⟩)] at hw'
    exact absurd (lt_of_lt_of_le hw' hw) (lt_irrefl _)

/-- The array `R` of the caller is modified: for each polytope of the last region the weight is added to the
diagonal of its last block. The array `r` is left as it was if the last region has polytopes; if it is a
polytope, the center times the weight is subtracted from the last block of `r`. -/
theorem getInput_arrays (T : Tools R) (x0 : Nat → R) (xn : Nat) (s : Lti R) (ab : PwaAbs R)
    (start stop : Nat) (R0 r0 : Mat R) (Q : Option (Mat R)) (ord : Norm) (w : R) (hw : 0 < w) (sn : Bool)
    (u : Nat → Nat → R) (R' r' : Mat R)
    (h : getInput T x0 xn s ab start stop (some R0) (some r0) Q ord w sn = .ok (u, R', r'))
    (ce : Cell R) (hce : ab.regions[stop]? = some ce) (i j : Nat) (hi : i < s.A.cols) (hj : j < s.A.cols) :
    R'.get (s.A.cols * (ab.N - 1) + i) (s.A.cols * (ab.N - 1) + j) =
      R0.get (s.A.cols * (ab.N - 1) + i) (s.A.cols * (ab.N - 1) + j) +
        (if i = j ∧ 0 < ab.N then ce.polys.length * w else 0) ∧
    r'.get ((ab.N - 1) * s.A.cols + i) 0 = r0.get ((ab.N - 1) * s.A.cols + i) 0 -
      (if ce.parts = [] ∧ 0 < ab.N then w * T.center ce.poly i else 0) := by
  obtain ⟨_, _, ce', _, _, hce', _, hcases⟩ := getInput_ok_inv T x0 xn s ab start stop _ _ Q ord w sn u R' r' h
  rw [hce] at hce'
  cases hce'
  have hwe : effWeight (some R0) (some r0) Q w = w := if_neg (by simp)
  rw [hwe] at hcases
  have hN : s.A.cols * ab.N = if 0 < ab.N then s.A.cols * (ab.N - 1) + s.A.cols else 0 := by
    split
    · obtain ⟨k, hk⟩ : ∃ k, ab.N = k + 1 := ⟨ab.N - 1, by omega⟩
      rw [hk, Nat.add_sub_cancel, Nat.mul_succ]
    · rw [show ab.N = 0 by omega, Nat.mul_zero]
  have hmid : ∀ v : R, (addMid R0 s.A.cols ab.N v).get (s.A.cols * (ab.N - 1) + i) (s.A.cols * (ab.N - 1) + j) =
      R0.get (s.A.cols * (ab.N - 1) + i) (s.A.cols * (ab.N - 1) + j) + (if i = j ∧ 0 < ab.N then v else 0) := by
    intro v
    unfold addMid
    dsimp only
    by_cases h0 : 0 < ab.N
    · rw [if_pos h0] at hN
      rw [if_pos (by omega), Nat.add_sub_cancel_left, Nat.add_sub_cancel_left]
      by_cases hij : i = j
      · rw [if_pos hij, if_pos ⟨hij, h0⟩, mul_one]
      · rw [if_neg hij, if_neg (fun h => hij h.1), mul_zero]
    · rw [if_neg h0] at hN
      rw [if_neg (by omega), if_neg (fun h => h0 h.2), add_zero]
  rcases hcases with ⟨hp, _, h1, _⟩ | ⟨hp, _, h1, h2, _⟩
  · obtain ⟨rfl, rfl⟩ := h1 hw
    refine ⟨?_, ?_⟩
    · show (addMid R0 s.A.cols ab.N w).get _ _ = _
      rw [hmid]
      congr 2
      unfold Cell.polys
      rw [if_pos hp]
      simp
    · show (addCenter r0 s.A.cols ab.N (-w) (T.center ce.poly)).get _ _ = _
      unfold addCenter
      dsimp only
      by_cases h0 : 0 < ab.N
      · rw [if_pos h0, Nat.mul_comm, Nat.mul_comm s.A.cols] at hN
        rw [if_pos (by omega), if_pos ⟨hp, h0⟩, Nat.add_sub_cancel_left]
        ring
      · rw [if_neg h0, Nat.mul_comm] at hN
        rw [if_neg (by omega), if_neg (fun h => h0 h.2), sub_zero]
  · subst h1
    subst h2
    refine ⟨?_, ?_⟩
    · show (addMid R0 s.A.cols ab.N _).get _ _ = _
      rw [hmid]
      congr 2
      unfold Cell.polys
      rw [if_neg hp]
    · rw [if_neg (fun h => hp h.1), sub_zero]

end Abs

end Tulip
