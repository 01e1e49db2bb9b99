import Verif.Abstract.GetInputMain
import Verif.Abstract.CreateLMErrProps

/-!
# `get_input`: examples, and differences from its documentation
-/

namespace Tulip

namespace Abs

open Finset

/-- The cost in the documentation of `get_input` (`find_controller.py:139-162`), for a system with one state
and one input, with horizon 1, at the norms 1 and infinity: `R`, `r`, `Q` are numbers. -/
def docCost (Rm r Q w xc x u : Rat) : Rat := |Rm * x| + |Q * u| + r * x + w * |xc - x|

/-! ## Solvers that meet the contracts -/

open Classical in
/-- A solver of linear programs. -/
noncomputable def bestLp (c G h : Mat Rat) : Option ((Nat → Rat) × Rat) :=
  if H : ∃ v, Sat G h v ∧ ∀ v', Sat G h v' → c.app v 0 ≤ c.app v' 0 then
    some (H.choose, c.app H.choose 0) else none

open Classical in
/-- A solver of quadratic programs. -/
noncomputable def bestQp (P q G h : Mat Rat) : Option ((Nat → Rat) × Rat) :=
  if H : ∃ v, Sat G h v ∧ ∀ v', Sat G h v' → qpCost P q v ≤ qpCost P q v' then
    some (H.choose, qpCost P q H.choose) else none

/-- The interval from `a` to `b`. -/
def iv (a b : Rat) : HP Rat := ⟨Mat.ofRows 1 [[1], [-1]], fun i => if i = 0 then b else -a⟩

/-- The functions, for intervals. The states from which one step leads to `Q` are not needed. -/
noncomputable def lineTools : Tools Rat where
  fulldim := linePc.fulldim
  extreme := linePc.extreme
  pre := fun _ Q => Q
  qhull := fun l => iv (l.foldl (fun a P => min a (-P.b 1)) (-(l.headD (sym 1)).b 1))
    (l.foldl (fun a P => max a (P.b 0)) ((l.headD (sym 1)).b 0))
  center := fun P _ => (P.b 0 - P.b 1) / 2
  lp := bestLp
  qp := bestQp

theorem lineTools_lp : lineTools.GoodLp where
  sound := by
    intro c G h v f hv
    change bestLp c G h = _ at hv
    unfold bestLp at hv
    split at hv
    · rename_i H
      cases hv
      exact ⟨H.choose_spec.1, rfl, H.choose_spec.2⟩
    · cases hv
  complete := by
    intro c G h hc hn
    change bestLp c G h = _ at hn
    unfold bestLp at hn
    split at hn
    · cases hn
    · rename_i H
      by_cases hf : ∃ v, Sat G h v
      · right
        intro b
        by_contra hb
        refine H ?_
        obtain ⟨v, h1, h2⟩ := lp_attains (fun k => c.get 0 k) G h hf ⟨b, fun v hv => by
          by_contra hlt
          refine hb ⟨v, hv, ?_⟩
          unfold Mat.app
          rw [hc]
          exact lt_of_not_ge hlt⟩
        refine ⟨v, h1, fun v' hv' => ?_⟩
        unfold Mat.app
        rw [hc]
        exact h2 v' hv'
      · exact Or.inl hf

theorem lineTools_qp : lineTools.GoodQp := by
  intro P q G h v f hv
  change bestQp P q G h = _ at hv
  unfold bestQp at hv
  split at hv
  · rename_i H
    cases hv
    exact ⟨H.choose_spec.1, rfl, H.choose_spec.2⟩
  · cases hv

/-! ## A case of the hypotheses -/

/-- Two regions: from -1 to 1, and from 1 to 3 or from -3 to -1; horizon 2. -/
def lineAbs : PwaAbs Rat :=
  { regions := [⟨[iv (-1) 1], sym 1⟩, ⟨[iv 1 3, iv (-3) (-1)], sym 1⟩], ts := some [(0, 1)], origRegions := [],
    orig := none, N := 2, conservative := false, closedLoop := false }

theorem lineAbs_setting : Setting lineTools lineSys lineAbs 1 none where
  shaped := lineSys_shaped
  dist := lineSys_dist
  horizon := by decide
  inputs := by decide
  xn := rfl
  r := by simp
  regions := by
    intro c hc P hP
    refine ⟨?_, Or.inl rfl⟩
    simp only [lineAbs, List.mem_cons, List.not_mem_nil, or_false] at hc
    rcases hc with rfl | rfl <;> simp [Cell.polys] at hP
    · subst hP; rfl
    · rcases hP with rfl | rfl <;> rfl
  origRegions := by simp [lineAbs]
  qhull := fun l => ⟨rfl, Or.inl rfl⟩
  lp := lineTools_lp
  qp := lineTools_qp

theorem lineSys_bounded : lineSys.Bounded := by
  refine ⟨1, fun x u h j hj => ?_⟩
  have hj : j = 0 := Nat.lt_one_iff.1 hj
  subst hj
  have h1 := h 0 (by decide)
  have h2 := h 1 (by decide)
  simp [lineSys, thinSys, sym, Mat.ofRows] at h1 h2
  exact abs_le.2 ⟨by linarith, by linarith⟩

/-- The inputs 9/10 and 9/10 lead from 0 to the interval from 1 to 3. -/
theorem line_leads : lineSys.Leads lineTools.toPc 2 (fun _ => 0) (fun _ _ => 9/10) (iv (-1) 1) (iv 1 3) := by
  obtain ⟨L, M, h, hs⟩ := holds_sat (r := createLM3 linePc lineSys 2 (iv (-1) 1) (iv (-1) 1) (iv 1 3))
    (v := lineSys.stack (fun _ => 0) fun _ _ => 9/10) (by decide +kernel)
  obtain ⟨L', M', h', _, hspec⟩ := createLM3_spec linePc lineSys lineSys_shaped lineSys_dist 2 (by omega)
    (iv (-1) 1) (iv (-1) 1) (iv 1 3) rfl rfl rfl (Or.inl rfl)
  rw [h] at h'
  cases h'
  exact ((hspec _ _).1 hs).2

/-- With the defaults `get_input` returns inputs, by `getInput_complete`. -/
theorem line_input (ord : Norm) (hord : ord = .one ∨ ord = .inf) :
    ∃ res, getInput lineTools (fun _ => 0) 1 lineSys lineAbs 0 1 none none none ord 0 true = .ok res :=
  getInput_complete lineTools (fun _ => 0) 1 lineSys lineAbs 0 1 none none none ord 0 true lineAbs_setting
    lineSys_bounded hord rfl ⟨⟨rfl, rfl⟩, ⟨rfl, rfl⟩, by simp [lineAbs]⟩ _ _ rfl rfl
    (Or.inl (by simp [effWeight])) (iv (-1) 1) rfl (iv 1 3) (by simp [Cell.polys]) _ line_leads

/-- These inputs lead to the second region. -/
example : ∃ u R' r', getInput lineTools (fun _ => 0) 1 lineSys lineAbs 0 1 none none none .one 0 true =
      .ok (u, R', r') ∧ ∀ d, lineSys.Possible linePc 2 d →
        (iv (-1) 1).Mem (lineSys.traj (fun _ => 0) u d 1) ∧
        ((iv 1 3).Mem (lineSys.traj (fun _ => 0) u d 2) ∨ (iv (-3) (-1)).Mem (lineSys.traj (fun _ => 0) u d 2)) := by
  obtain ⟨⟨u, R', r'⟩, h⟩ := line_input .one (Or.inl rfl)
  refine ⟨u, R', r', h, fun d hd => ?_⟩
  obtain ⟨_, cs, ce, stay, hcs, hce, hst, hall⟩ := getInput_reaches lineTools _ 1 lineSys lineAbs 0 1 none none none
    .one 0 true lineAbs_setting rfl u R' r' h
  cases hcs
  cases hce
  obtain ⟨h1, ⟨P, hP, h2⟩, _⟩ := hall d hd
  refine ⟨?_, ?_⟩
  · rcases hst with ⟨orig, _, _, _, ho, _⟩ | ⟨_, ⟨_, hst⟩ | ⟨hl, _⟩⟩
    · cases ho
    · obtain ⟨Q, hQ, h⟩ := (hst _).1 (h1 1 (by omega) (by decide))
      simp [Cell.polys] at hQ
      subst hQ
      exact h
    · simp at hl
  · simp [Cell.polys] at hP
    rcases hP with rfl | rfl
    · exact Or.inl h2
    · exact Or.inr h2

/-! ## With `closed_loop` -/

theorem iv_mem (a b : Rat) (x : Nat → Rat) : (iv a b).Mem x ↔ a ≤ x 0 ∧ x 0 ≤ b := by
  constructor
  · intro h
    have h1 := h 0 (by show 0 < 2; omega)
    have h2 := h 1 (by show 1 < 2; omega)
    simp [iv, Mat.ofRows] at h1 h2
    exact ⟨by linarith, h1⟩
  · rintro ⟨h1, h2⟩ r hr
    have hr : r < 2 := hr
    interval_cases r <;> simp [iv, Mat.ofRows] <;> linarith

theorem line_inputOk (x u : Nat → Rat) : lineSys.InputOk x u ↔ -1 ≤ u 0 ∧ u 0 ≤ 1 := by
  have : lineSys.InputOk x u ↔ (iv (-1) 1).Mem u := by
    show (sym 1).Mem u ↔ _
    refine forall_congr' fun r => forall_congr' fun hr => ?_
    have hr : r < 2 := hr
    interval_cases r <;> simp [sym, iv]
  rw [this, iv_mem]

theorem line_next (x u d : Nat → Rat) : lineSys.next x u d 0 = x 0 + u 0 + d 0 := by
  simp [Lti.next, lineSys, thinSys, Mat.ofRows]

theorem line_hull (d : Nat → Rat) (h : InHull (linePc.extreme lineSys.W) d) : -1/10 ≤ d 0 ∧ d 0 ≤ 1/10 := by
  obtain ⟨w, h1, h2, h3⟩ := h
  have a := h1 0 (by decide)
  have b := h1 1 (by decide)
  have c := h3 0 (by decide)
  simp [linePc, Mat.ofRows, sum_range_succ] at h2 c
  constructor <;> linarith

open Classical in
/-- As `lineTools`, with polytopes of the states from which one step of `lineSys` leads to `Q`. -/
noncomputable def closedTools : Tools Rat :=
  { lineTools with pre := fun P Q => if h : P.Fits lineSys ∧ Q.Fits lineSys then
      (pre_exists linePc lineSys lineSys_shaped lineSys_dist (by decide) rfl P Q h.1 h.2).choose else Q }

theorem closedTools_pre (P Q : HP Rat) (hP : P.Fits lineSys) (hQ : Q.Fits lineSys) :
    (closedTools.pre P Q).Fits lineSys ∧
      ∀ x, (closedTools.pre P Q).Mem x ↔ lineSys.Ctrl closedTools.toPc P Q 1 x := by
  have h := (pre_exists linePc lineSys lineSys_shaped lineSys_dist (by decide) rfl P Q hP hQ).choose_spec
  have e : closedTools.pre P Q =
      (pre_exists linePc lineSys lineSys_shaped lineSys_dist (by decide) rfl P Q hP hQ).choose := dif_pos ⟨hP, hQ⟩
  rw [e]
  exact h

def closedAbs : PwaAbs Rat := { lineAbs with closedLoop := true }

theorem closedAbs_setting : Setting closedTools lineSys closedAbs 1 none :=
  ⟨lineSys_shaped, lineSys_dist, by decide, by decide, rfl, by simp, lineAbs_setting.regions,
    lineAbs_setting.origRegions, lineAbs_setting.qhull, ⟨lineTools_lp.sound, lineTools_lp.complete⟩, lineTools_qp⟩

theorem line_zero : InHull (linePc.extreme lineSys.W) fun _ => 0 := by
  refine ⟨fun _ => 1/2, fun _ _ => by norm_num, ?_, fun j hj => ?_⟩
  · show ∑ i ∈ range 2, _ = _
    norm_num
  · have hj : j < 1 := hj
    obtain rfl : j = 0 := by omega
    show _ = ∑ i ∈ range 2, _
    norm_num [linePc, Mat.ofRows, sum_range_succ]

/-- A controller that observes the states can lead from 0 to the interval from 1 to 3. -/
theorem line_ctrl : lineSys.Ctrl closedTools.toPc (iv (-1) 1) (iv 1 3) 2 (fun _ => 0) := by
  have hd := lineSys_disturbed
  refine ⟨(iv_mem _ _ _).2 (by norm_num), fun _ => 9/10, (line_inputOk _ _).2 (by norm_num), fun d h1 => ?_⟩
  obtain ⟨a, b⟩ := line_hull d (h1 hd)
  refine ⟨(iv_mem _ _ _).2 ?_, fun _ => 1, (line_inputOk _ _).2 (by norm_num), fun d' h2 => (iv_mem _ _ _).2 ?_⟩
  · rw [line_next]
    constructor <;> linarith
  · obtain ⟨a', b'⟩ := line_hull d' (h2 hd)
    rw [line_next, line_next]
    constructor <;> linarith

/-- `get_input` returns inputs, and the first of them is right whatever the first disturbance. -/
example : ∃ u R' r', getInput closedTools (fun _ => 0) 1 lineSys closedAbs 0 1 none none none .inf 0 true =
      .ok (u, R', r') ∧ ∀ d, -1/10 ≤ d 0 → d 0 ≤ 1/10 → InHull (linePc.extreme lineSys.W) d →
        (lineSys.Ctrl linePc (iv (-1) 1) (iv 1 3) 1 (lineSys.next (fun _ => 0) (u 0) d) ∨
          lineSys.Ctrl linePc (iv (-1) 1) (iv (-3) (-1)) 1 (lineSys.next (fun _ => 0) (u 0) d)) := by
  obtain ⟨⟨u, R', r'⟩, h⟩ := getInput_closed_complete closedTools (fun _ => 0) 1 lineSys closedAbs 0 1 none none none
    .inf 0 true closedAbs_setting lineSys_bounded (Or.inr rfl) rfl rfl (fun _ => line_zero)
    (fun P Q hP hQ => ⟨(closedTools_pre P Q hP hQ).1, fun x => ((closedTools_pre P Q hP hQ).2 x).2⟩)
    ⟨⟨rfl, rfl⟩, ⟨rfl, rfl⟩, by simp [closedAbs, lineAbs]⟩ _ _ rfl rfl
    (Or.inl (by simp [effWeight])) (iv (-1) 1) rfl (iv 1 3) (by simp [Cell.polys]) line_ctrl
  refine ⟨u, R', r', h, fun d _ _ hd => ?_⟩
  obtain ⟨_, cs, ce, stay, P3, hcs, hce, hst, hP3, _, hall, _⟩ := getInput_closed closedTools _ 1 lineSys closedAbs 0 1
    none none none .inf 0 true closedAbs_setting
    (fun P Q hP hQ => ⟨(closedTools_pre P Q hP hQ).1, fun x => ((closedTools_pre P Q hP hQ).2 x).1⟩) rfl u R' r' h
  cases hcs
  cases hce
  have hstay : ∀ x, stay.Mem x → (iv (-1) 1).Mem x := by
    rcases hst with ⟨orig, _, _, _, ho, _⟩ | ⟨_, ⟨_, hst⟩ | ⟨hl, _⟩⟩
    · cases ho
    · intro x hx
      obtain ⟨Q, hQ, h⟩ := (hst _).1 hx
      simp [Cell.polys] at hQ
      subst hQ
      exact h
    · simp at hl
  obtain ⟨h1, h2⟩ := hall d fun _ => hd
  simp [Cell.polys] at hP3
  rcases hP3 with rfl | rfl
  · exact Or.inl ⟨hstay _ h1, h2⟩
  · exact Or.inr ⟨hstay _ h1, h2⟩

/-! ## Differences from the documentation -/

/-- `x(t + 1) = x(t) + u(t)`, with inputs from -10 to 10. -/
def unitSys : Lti Rat :=
  { A := .ofRows 1 [[1]], B := .ofRows 1 [[1]], E := .ofRows 1 [[0]], K := .ofRows 1 [[0]], U := sym 10,
    W := sym 1 }

theorem unitSys_shaped : unitSys.Shaped := ⟨rfl, by decide, rfl, rfl, ⟨rfl, rfl⟩, Or.inl rfl⟩

theorem unitSys_undisturbed : ¬ unitSys.Disturbed := by
  rintro ⟨i, hi, j, hj, h⟩
  have hi : i < 1 := hi
  have hj : j < 1 := hj
  obtain rfl : i = 0 := by omega
  obtain rfl : j = 0 := by omega
  exact h rfl

theorem unit_next (x u d : Nat → Rat) : unitSys.next x u d 0 = x 0 + u 0 := by
  simp [Lti.next, unitSys, Mat.ofRows]

theorem unit_inputOk (x u : Nat → Rat) : unitSys.InputOk x u ↔ -10 ≤ u 0 ∧ u 0 ≤ 10 := by
  have : unitSys.InputOk x u ↔ (iv (-10) 10).Mem u := by
    show (sym 10).Mem u ↔ _
    refine forall_congr' fun r => forall_congr' fun hr => ?_
    have hr : r < 2 := hr
    interval_cases r <;> simp [sym, iv]
  rw [this, iv_mem]

theorem unit_leads (x0 : Nat → Rat) (u : Nat → Nat → Rat) (stay : HP Rat) (a b : Rat) :
    unitSys.Leads lineTools.toPc 1 x0 u stay (iv a b) ↔
      (a ≤ x0 0 + u 0 0 ∧ x0 0 + u 0 0 ≤ b) ∧ -10 ≤ u 0 0 ∧ u 0 0 ≤ 10 := by
  constructor
  · intro h
    obtain ⟨_, h1, h2⟩ := h (fun _ _ => 0) fun hd => absurd hd unitSys_undisturbed
    rw [iv_mem] at h1
    have h3 := h2 0 (by omega)
    rw [unit_inputOk] at h3
    have e : unitSys.traj x0 u (fun _ _ => 0) 1 0 = x0 0 + u 0 0 := unit_next _ _ _
    rw [e] at h1
    exact ⟨h1, h3⟩
  · rintro ⟨h1, h2⟩ d _
    refine ⟨fun k h0 hk => by omega, ?_, fun k hk => ?_⟩
    · rw [iv_mem]
      have e : unitSys.traj x0 u d 1 0 = x0 0 + u 0 0 := unit_next _ _ _
      rw [e]
      exact h1
    · obtain rfl : k = 0 := by omega
      rw [unit_inputOk]
      exact h2

theorem unitSys_bounded : unitSys.Bounded := by
  refine ⟨10, fun x u h j hj => ?_⟩
  have hj : j < 1 := hj
  obtain rfl : j = 0 := by omega
  rw [unit_inputOk] at h
  exact abs_le.2 h

/-- A horizon of 1, from a region to the region `ce`. -/
def unitAbs (ce : Cell Rat) : PwaAbs Rat :=
  { regions := [⟨[], sym 10⟩, ce], ts := none, origRegions := [], orig := none, N := 1, conservative := true,
    closedLoop := false }

theorem unitAbs_setting (ce : Cell Rat) (h : ∀ P ∈ ce.polys, P.A.cols = 1) (r) (hr : ∀ r0, r = some r0 → r0.rows = 1) :
    Setting lineTools unitSys (unitAbs ce) 1 r where
  shaped := unitSys_shaped
  dist := fun h => absurd h unitSys_undisturbed
  horizon := Nat.one_pos
  inputs := by decide
  xn := rfl
  r := hr
  regions := by
    intro c hc P hP
    refine ⟨?_, Or.inl rfl⟩
    simp only [unitAbs, List.mem_cons, List.not_mem_nil, or_false] at hc
    rcases hc with rfl | rfl
    · simp [Cell.polys] at hP
      subst hP; rfl
    · exact h P hP
  origRegions := by simp [unitAbs]
  qhull := fun l => ⟨rfl, Or.inl rfl⟩
  lp := lineTools_lp
  qp := lineTools_qp

theorem unit_forced (u : Nat → Nat → Rat) : unitSys.forced u 0 0 = u 0 0 := by
  simp [Lti.forced, Lti.states, Lti.traj, Lti.next, unitSys, Mat.ofRows, Mat.zeros]

/-- The cost that is minimised, for the norms 1 and infinity. -/
theorem unit_cost (ord : Norm) (hord : ord = .one ∨ ord = .inf) (Rm r Q : Mat Rat)
    (hR : Rm.cols = 1) (hQ : Q.cols = 1) (x0 : Nat → Rat) (u : Nat → Nat → Rat) :
    costOf ord unitSys.A.cols unitSys.B.cols 1 Rm r Q (unitSys.counted ord x0 u) u =
      |Rm.get 0 0 * u 0 0| + |Q.get 0 0 * u 0 0| + r.get 0 0 * u 0 0 := by
  have e : unitSys.counted ord x0 u = unitSys.forced u := by rcases hord with rfl | rfl <;> rfl
  rw [e]
  have h1 : unitSys.A.cols = 1 := rfl
  have h2 : unitSys.B.cols = 1 := rfl
  unfold costOf
  rw [h1, h2]
  rcases hord with rfl | rfl
  · simp [normOf, Mat.app, hR, hQ, flatSeq, unit_forced]
  · simp only [normOf, supNorm, Mat.app, hR, hQ, flatSeq, range_one, sum_singleton, Nat.zero_div, Nat.zero_mod,
      unit_forced, Nat.mul_one]
    rw [max_eq_right (abs_nonneg (Rm.get 0 0 * u 0 0)), max_eq_right (abs_nonneg (Q.get 0 0 * u 0 0))]

theorem unit_complete (ce : Cell Rat) (hce : ∀ P ∈ ce.polys, P.A.cols = 1) (x0 : Nat → Rat)
    (Rm Q : Option (Mat Rat)) (hR : ∀ R0, Rm = some R0 → R0.rows = 1 ∧ R0.cols = 1)
    (hQ : ∀ Q0, Q = some Q0 → Q0.rows = 1 ∧ Q0.cols = 1) (ord : Norm) (hord : ord = .one ∨ ord = .inf) (w : Rat)
    (hw : 0 < effWeight Rm none Q w ∨ ce.parts = []) (a b : Rat) (hP : iv a b ∈ ce.polys) (v : Rat)
    (hv : (a ≤ x0 0 + v ∧ x0 0 + v ≤ b) ∧ -10 ≤ v ∧ v ≤ 10) :
    ∃ res, getInput lineTools x0 1 unitSys (unitAbs ce) 0 1 Rm none Q ord w true = .ok res := by
  refine getInput_complete lineTools x0 1 unitSys (unitAbs ce) 0 1 Rm none Q ord w true
    (unitAbs_setting ce hce none (by simp)) unitSys_bounded hord rfl ⟨?_, ?_, by simp [unitAbs]⟩ _ _ rfl rfl
    hw (sym 10) rfl (iv a b) hP (fun _ _ => v) ((unit_leads _ _ _ _ _).2 hv)
  · rcases Rm with _ | R0
    · exact ⟨rfl, rfl⟩
    · exact hR R0 rfl
  · rcases Q with _ | Q0
    · exact ⟨rfl, rfl⟩
    · exact hQ Q0 rfl

/-- A matrix with one element. -/
def num (a : Rat) : Mat Rat := .ofRows 1 [[a]]

/-- The cost with `ord` 1 or infinity is not that of the states: from the state 1, with `R = 1` and `Q = 1/2`, the
input 0 is returned, but the input -1 leads to the state 0, with a lower cost. -/
theorem getInput_states_counterexample (ord : Norm) (hord : ord = .one ∨ ord = .inf) :
    ∃ u R' r', getInput lineTools (fun _ => 1) 1 unitSys (unitAbs ⟨[], iv (-10) 10⟩) 0 1 (some (num 1)) none
        (some (num (1/2))) ord 0 true = .ok (u, R', r') ∧
      u 0 0 = 0 ∧ unitSys.Leads lineTools.toPc 1 (fun _ => 1) (fun _ _ => -1) (sym 10) (iv (-10) 10) ∧
      docCost 1 0 (1/2) 0 0 (1 + -1) (-1) < docCost 1 0 (1/2) 0 0 (1 + u 0 0) (u 0 0) := by
  have hce : ∀ P ∈ (⟨[], iv (-10) 10⟩ : Cell Rat).polys, P.A.cols = 1 := by
    simp [Cell.polys, iv, Mat.ofRows]
  obtain ⟨⟨u, R', r'⟩, h⟩ := unit_complete ⟨[], iv (-10) 10⟩ hce (fun _ => 1) (some (num 1)) (some (num (1/2)))
    (by rintro R0 ⟨⟩; exact ⟨rfl, rfl⟩) (by rintro R0 ⟨⟩; exact ⟨rfl, rfl⟩) ord hord 0 (Or.inr rfl) (-10) 10
    (by simp [Cell.polys]) 0 (by norm_num)
  have hset := unitAbs_setting ⟨[], iv (-10) 10⟩ hce none (by simp)
  obtain ⟨stay, _, h2, h3⟩ := getInput_optimal lineTools _ 1 unitSys _ 0 1 _ _ _ ord 0 true hset rfl u R' r' h _ rfl rfl
  obtain ⟨_, _, ce, _, _, hce', _, hcases⟩ := getInput_ok_inv lineTools _ 1 unitSys _ 0 1 _ _ _ ord 0 true u R' r' h
  cases hce'
  have hw : ¬ (0 : Rat) < effWeight (some (num 1)) none (some (num (1/2))) 0 := by simp [effWeight]
  rcases hcases with ⟨_, _, _, hRr⟩ | ⟨hp, _⟩
  swap
  · exact absurd rfl hp
  obtain ⟨rfl, rfl⟩ := hRr hw
  have hu := h3 (fun _ _ => 0) ((unit_leads _ _ _ _ _).2 (by norm_num))
  change costOf ord unitSys.A.cols unitSys.B.cols 1 _ _ _ _ _ ≤ costOf ord unitSys.A.cols unitSys.B.cols 1 _ _ _ _ _ at hu
  rw [unit_cost ord hord _ _ _ rfl rfl, unit_cost ord hord _ _ _ rfl rfl] at hu
  have e0 : u 0 0 = 0 := by
    simp [effR, effr, effQ, num, Mat.ofRows, Mat.zeros] at hu
    have := abs_nonneg (u 0 0)
    exact abs_eq_zero.1 (by linarith)
  refine ⟨u, _, _, h, e0, (unit_leads _ _ _ _ _).2 (by norm_num), ?_⟩
  rw [e0]
  unfold docCost
  norm_num

/-- The term of `mid_weight` is not the distance from the center: with the defaults, from the state 0, the input
4 to the border of the interval from 0 to 4 is returned, but the input 2 leads to its center, with a lower
cost. -/
theorem getInput_center_counterexample (ord : Norm) (hord : ord = .one ∨ ord = .inf) :
    ∃ u R' r', getInput lineTools (fun _ => 0) 1 unitSys (unitAbs ⟨[], iv 0 4⟩) 0 1 none none none ord 0 true =
        .ok (u, R', r') ∧
      u 0 0 = 4 ∧ unitSys.Leads lineTools.toPc 1 (fun _ => 0) (fun _ _ => 2) (sym 10) (iv 0 4) ∧
      docCost 0 0 1 3 2 (0 + 2) 2 < docCost 0 0 1 3 2 (0 + u 0 0) (u 0 0) := by
  have hce : ∀ P ∈ (⟨[], iv 0 4⟩ : Cell Rat).polys, P.A.cols = 1 := by
    simp [Cell.polys, iv, Mat.ofRows]
  obtain ⟨⟨u, R', r'⟩, h⟩ := unit_complete ⟨[], iv 0 4⟩ hce (fun _ => 0) none none (by simp) (by simp) ord hord 0
    (Or.inr rfl) 0 4 (by simp [Cell.polys]) 0 (by norm_num)
  have hset := unitAbs_setting ⟨[], iv 0 4⟩ hce none (by simp)
  obtain ⟨stay, _, h2, h3⟩ := getInput_optimal lineTools _ 1 unitSys _ 0 1 _ _ _ ord 0 true hset rfl u R' r' h _ rfl rfl
  obtain ⟨_, _, ce, _, _, hce', _, hcases⟩ := getInput_ok_inv lineTools _ 1 unitSys _ 0 1 _ _ _ ord 0 true u R' r' h
  cases hce'
  have ew : effWeight (none : Option (Mat Rat)) none none 0 = 3 := by simp [effWeight]
  rw [ew] at hcases
  rcases hcases with ⟨_, _, hRr, _⟩ | ⟨hp, _⟩
  swap
  · exact absurd rfl hp
  obtain ⟨rfl, rfl⟩ := hRr (by norm_num)
  have hu := h3 (fun _ _ => 4) ((unit_leads _ _ _ _ _).2 (by norm_num))
  have hl := (unit_leads _ _ _ _ _).1 h2
  change costOf ord unitSys.A.cols unitSys.B.cols 1 _ _ _ _ _ ≤ costOf ord unitSys.A.cols unitSys.B.cols 1 _ _ _ _ _ at hu
  rw [unit_cost ord hord _ _ _ rfl rfl, unit_cost ord hord _ _ _ rfl rfl] at hu
  have e0 : u 0 0 = 4 := by
    have hpos : 0 ≤ u 0 0 := by simpa using hl.1.1
    have hle : u 0 0 ≤ 4 := by simpa using hl.1.2
    simp [effR, effr, effQ, addMid, addCenter, Mat.zeros, Mat.eye, unitAbs, lineTools, iv, unitSys, Mat.ofRows,
      abs_of_nonneg hpos] at hu
    linarith
  refine ⟨u, _, _, h, e0, (unit_leads _ _ _ _ _).2 (by norm_num), ?_⟩
  rw [e0]
  unfold docCost
  norm_num

/-- The order of the polytopes of the last region matters: the same two intervals, in two orders, with the
defaults. -/
theorem getInput_order_counterexample (ord : Norm) (hord : ord = .one ∨ ord = .inf) :
    ∃ u v R1 r1 R2 r2,
      getInput lineTools (fun _ => 0) 1 unitSys (unitAbs ⟨[iv 2 4, iv (-21/5) (-11/5)], sym 10⟩) 0 1 none none none ord 0
        true = .ok (u, R1, r1) ∧
      getInput lineTools (fun _ => 0) 1 unitSys (unitAbs ⟨[iv (-21/5) (-11/5), iv 2 4], sym 10⟩) 0 1 none none none ord 0
        true = .ok (v, R2, r2) ∧ 2 ≤ u 0 0 ∧ v 0 0 ≤ -11/5 := by
  have hce1 : ∀ P ∈ (⟨[iv 2 4, iv (-21/5) (-11/5)], sym 10⟩ : Cell Rat).polys, P.A.cols = 1 := by
    simp [Cell.polys, iv, Mat.ofRows]
  have hce2 : ∀ P ∈ (⟨[iv (-21/5) (-11/5), iv 2 4], sym 10⟩ : Cell Rat).polys, P.A.cols = 1 := by
    simp [Cell.polys, iv, Mat.ofRows]
  have ew : effWeight (none : Option (Mat Rat)) none none 0 = 3 := by simp [effWeight]
  obtain ⟨⟨u, R1, r1⟩, h1⟩ := unit_complete _ hce1 (fun _ => 0) none none (by simp) (by simp) ord hord 0
    (Or.inl (by rw [ew]; norm_num)) 2 4 (by simp [Cell.polys]) 2 (by norm_num)
  obtain ⟨⟨v, R2, r2⟩, h2⟩ := unit_complete _ hce2 (fun _ => 0) none none (by simp) (by simp) ord hord 0
    (Or.inl (by rw [ew]; norm_num)) 2 4 (by simp [Cell.polys]) 2 (by norm_num)
  refine ⟨u, v, R1, r1, R2, r2, h1, h2, ?_, ?_⟩
  · obtain ⟨stay, _, i, P3, hi, hl, hmin⟩ := getInput_best lineTools _ 1 unitSys _ 0 1 _ _ _ ord 0 true
      (unitAbs_setting _ hce1 none (by simp)) unitSys_bounded hord rfl u R1 r1 h1 _ rfl (by simp)
    have hcnt : ∀ u, unitSys.forced u = unitSys.counted ord (fun _ => 0) u := fun u => by
      rcases hord with rfl | rfl <;> rfl
    have hu := hmin 0 (iv 2 4) (fun _ _ => 4) rfl ((unit_leads _ _ _ _ _).2 (by norm_num))
    rw [hcnt, hcnt, ew] at hu
    change costOf ord unitSys.A.cols unitSys.B.cols 1 _ _ _ _ _ ≤ costOf ord unitSys.A.cols unitSys.B.cols 1 _ _ _ _ _ at hu
    rw [unit_cost ord hord _ _ _ rfl rfl, unit_cost ord hord _ _ _ rfl rfl] at hu
    rcases i with _ | _ | i
    · cases hi
      have := (unit_leads _ _ _ _ _).1 hl
      linarith [this.1.1]
    · cases hi
      have hl := (unit_leads _ _ _ _ _).1 hl
      have hneg : u 0 0 ≤ -11/5 := by simpa using hl.1.2
      have hge : -21/5 ≤ u 0 0 := by simpa using hl.1.1
      simp [effR, effr, effQ, addMid, addCenter, Mat.zeros, Mat.eye, unitAbs, lineTools, iv, unitSys, Mat.ofRows,
        abs_of_nonpos (show u 0 0 ≤ 0 by linarith)] at hu
      linarith
    · simp at hi
  · obtain ⟨stay, _, i, P3, hi, hl, hmin⟩ := getInput_best lineTools _ 1 unitSys _ 0 1 _ _ _ ord 0 true
      (unitAbs_setting _ hce2 none (by simp)) unitSys_bounded hord rfl v R2 r2 h2 _ rfl (by simp)
    have hcnt : ∀ u, unitSys.forced u = unitSys.counted ord (fun _ => 0) u := fun u => by
      rcases hord with rfl | rfl <;> rfl
    have hu := hmin 0 (iv (-21/5) (-11/5)) (fun _ _ => -21/5) rfl ((unit_leads _ _ _ _ _).2 (by norm_num))
    rw [hcnt, hcnt, ew] at hu
    change costOf ord unitSys.A.cols unitSys.B.cols 1 _ _ _ _ _ ≤ costOf ord unitSys.A.cols unitSys.B.cols 1 _ _ _ _ _ at hu
    rw [unit_cost ord hord _ _ _ rfl rfl, unit_cost ord hord _ _ _ rfl rfl] at hu
    rcases i with _ | _ | i
    · cases hi
      have := (unit_leads _ _ _ _ _).1 hl
      linarith [this.1.2]
    · cases hi
      have hl := (unit_leads _ _ _ _ _).1 hl
      have hpos : 2 ≤ v 0 0 := by simpa using hl.1.1
      have hle : v 0 0 ≤ 4 := by simpa using hl.1.2
      simp [effR, effr, effQ, addMid, addCenter, Mat.zeros, Mat.eye, unitAbs, lineTools, iv, unitSys, Mat.ofRows,
        abs_of_nonneg (show 0 ≤ v 0 0 by linarith)] at hu
      linarith
    · simp at hi

end Abs

end Tulip
