import Verif.Abstract.Simulate
import Verif.Abstract.GetInputMain
import Verif.Abstract.ClosedLoopEx
import Verif.Abstract.FindControllerProps
import Verif.Transys.MachineRunProps

/-!
# Simulation of a controlled system: theorems
-/

namespace Tulip

namespace Abs

open Finset
open Mach (Machine reaction)

set_option linter.unusedSectionVars false

variable {R : Type} [Field R] [LinearOrder R] [IsStrictOrderedRing R] {ν : Type} [DecidableEq ν]

/-! ## Specification -/

/-- The system that is simulated is the given one, without disturbances: there is no constant term, and the
disturbance may be zero. -/
structure Nominal (s : Lti R) (pc : Pc R) : Prop where
  offset : ∀ i, s.K.get i 0 = 0
  zero : s.Disturbed → InHull (pc.extreme s.W) fun _ => 0

/-- One interval of a simulation, from the state `nd` of the controller, in the region `part`, at the point `x`: the
controller reacts to the inputs `ins` with the outputs `out`, whose `loc` is the name of the region `part'`; the points `xs` are
the states that the inputs `u` of `get_input` lead to, all of which are allowed; and the last point, `x'`, is in the region. -/
structure Interval (T : Tools R) (m : Machine ν Synth.Elem) (s : Lti R) (ab : PwaAbs R) (names : List Synth.Elem)
    (ins : Attr Synth.Elem) (nd : ν) (part : Nat) (x : Nat → R) (nd' : ν) (part' : Nat) (x' : Nat → R)
    (xs : List (Nat → R)) (out : Attr Synth.Elem) : Prop where
  reacts : reaction m nd ins = .ok (nd', out)
  named : ∃ v, Dict.get? out "loc" = some v ∧ names[part']? = some v
  transition : ∀ t, ab.ts = some t → (part, part') ∈ t
  points : ∃ u stay cs, ab.regions[part]? = some cs ∧ StaySpec T ab part cs stay ∧ xs.length = ab.N ∧
    (∀ k < ab.N, xs[k]? = some (s.traj x u (fun _ _ => 0) (k + 1))) ∧
    (∀ k < ab.N, s.InputOk (s.traj x u (fun _ _ => 0) k) (u k)) ∧
    ∀ k, 0 < k → k < ab.N → stay.Mem (s.traj x u (fun _ _ => 0) k)
  last : xs.getLast? = some x'
  region : ∃ c, ab.regions[part']? = some c ∧ c.Mem x'

/-! ## Proofs -/

/-- **C114.** `simulate2d` raises, whatever its arguments: `TypeError` for the quantifiers with `\E`, `NameError` for `\A \A`,
and `ValueError` for other texts. -/
theorem simulate2d_raises (T : Tools R) (m : Machine ν Synth.Elem) (s : Lti R) (ab : PwaAbs R) (names : List Synth.Elem)
    (inside : Cell R → (Nat → R) → Bool) (center : Nat → Nat → R) (inputs : List (Attr Synth.Elem)) (qinit : List Char)
    (xInit : Nat → R) :
    simulate2d T m s ab names inside center inputs qinit xInit = .error
      (if qinit ∈ ["\\E \\A".toList, "\\A \\E".toList, "\\E \\E".toList] then .typeError
       else if qinit = "\\A \\A".toList then .nameError else .valueError) := by
  unfold simulate2d simInit
  simp only [List.mem_cons, List.not_mem_nil, or_false]
  by_cases h1 : qinit = "\\E \\A".toList
  · rw [if_pos (Or.inl h1), if_pos (Or.inl h1)]; rfl
  by_cases h2 : qinit = "\\A \\E".toList
  · rw [if_pos (Or.inr h2), if_pos (Or.inr (Or.inl h2))]; rfl
  by_cases h3 : qinit = "\\E \\E".toList
  · rw [if_neg (not_or.2 ⟨h1, h2⟩), if_pos h3, if_pos (Or.inr (Or.inr h3))]; rfl
  rw [if_neg (not_or.2 ⟨h1, h2⟩), if_neg h3, if_neg (not_or.2 ⟨h1, not_or.2 ⟨h2, h3⟩⟩)]
  split <;> rfl

theorem sum_map_range (n : Nat) (f : Nat → R) : ((List.range n).map f).sum = ∑ j ∈ range n, f j := by
  induction n with
  | zero => simp
  | succ n ih => rw [List.range_succ, List.map_append, List.sum_append, ih, sum_range_succ]; simp

theorem simNext_eq {s : Lti R} (hK : ∀ i, s.K.get i 0 = 0) (x u : Nat → R) :
    simNext s x u = s.next x u fun _ => 0 := by
  funext i
  unfold simNext Lti.next
  rw [sum_map_range, sum_map_range, hK]
  simp

theorem simStates_spec {s : Lti R} (hK : ∀ i, s.K.get i 0 = 0) (u : Nat → Nat → R) (x0 : Nat → R) (n : Nat) :
    ∀ k, (simStates s u (s.traj x0 u (fun _ _ => 0) k) k n).length = n ∧
      (∀ j < n, (simStates s u (s.traj x0 u (fun _ _ => 0) k) k n)[j]? = some (s.traj x0 u (fun _ _ => 0) (k + j + 1))) := by
  induction n with
  | zero => intro k; exact ⟨rfl, fun j hj => by omega⟩
  | succ n ih =>
    intro k
    have e : simNext s (s.traj x0 u (fun _ _ => 0) k) (u k) = s.traj x0 u (fun _ _ => 0) (k + 1) := by
      rw [simNext_eq hK]; rfl
    unfold simStates
    dsimp only
    rw [e]
    obtain ⟨h1, h2⟩ := ih (k + 1)
    refine ⟨by rw [List.length_cons, h1], fun j hj => ?_⟩
    cases j with
    | zero => rfl
    | succ j =>
      rw [List.getElem?_cons_succ, h2 j (by omega)]
      congr 2
      omega

theorem simStates_zero {s : Lti R} (hK : ∀ i, s.K.get i 0 = 0) (u : Nat → Nat → R) (x : Nat → R) {n : Nat} (hn : 0 < n) :
    (simStates s u x 0 n).length = n ∧ (∀ j < n, (simStates s u x 0 n)[j]? = some (s.traj x u (fun _ _ => 0) (j + 1))) ∧
      (simStates s u x 0 n).getLast? = some (s.traj x u (fun _ _ => 0) n) := by
  obtain ⟨h1, h2⟩ := simStates_spec hK u x n 0
  have h3 : ∀ j < n, (simStates s u x 0 n)[j]? = some (s.traj x u (fun _ _ => 0) (j + 1)) := fun j hj => by
    have := h2 j hj
    rw [Nat.zero_add] at this
    exact this
  refine ⟨h1, h3, ?_⟩
  rw [List.getLast?_eq_getElem?]
  have h1' : (simStates s u x 0 n).length = n := h1
  rw [h1', h3 (n - 1) (by omega)]
  congr 2
  omega

theorem indexOf_ok {names : List Synth.Elem} {v : Synth.Elem} {i : Nat} (h : indexOf names v = .ok i) :
    names[i]? = some v := by
  unfold indexOf at h
  split at h
  · rename_i j hj
    cases h
    rw [List.findIdx?_eq_some_iff_getElem] at hj
    obtain ⟨hi, hv, _⟩ := hj
    rw [List.getElem?_eq_getElem hi]
    simpa using hv
  · cases h

theorem indexOf_nodup {names : List Synth.Elem} (hn : names.Nodup) {v : Synth.Elem} {i : Nat} (h : names[i]? = some v) :
    indexOf names v = .ok i := by
  unfold indexOf
  obtain ⟨hi, hv⟩ := List.getElem?_eq_some_iff.1 h
  have : names.findIdx? (· == v) = some i := by
    rw [List.findIdx?_eq_some_iff_getElem]
    refine ⟨hi, by simpa using hv, fun j hj => ?_⟩
    have hne : names[j] ≠ v := fun he => by
      have := (List.Nodup.getElem_inj_iff hn).1 (he.trans hv.symm)
      omega
    simpa using hne
  rw [this]

/-- **C114.** An interval of a simulation. If the controller reacts, its output `loc` is the name of a region, and
`get_input` returns inputs to this region, then the last point is in the region. The interval succeeds if this point is
in no region before it in the partition; otherwise `AssertionError` is raised. -/
theorem simPeriod_iff {T : Tools R} {m : Machine ν Synth.Elem} {s : Lti R} {ab : PwaAbs R} {names : List Synth.Elem}
    {inside : Cell R → (Nat → R) → Bool} (hin : ∀ c x, inside c x = true ↔ c.Mem x) (hn : names.Nodup)
    (hlen : names.length = ab.regions.length)
    (hset : Setting T s ab s.A.cols none) (hopen : ab.closedLoop = false) (hnom : Nominal s T.toPc)
    {ins out : Attr Synth.Elem} {nd nd' : ν} {part stop : Nat} {x : Nat → R} {v : Synth.Elem}
    (hr : reaction m nd ins = .ok (nd', out)) (hv : Dict.get? out "loc" = some v) (hstop : names[stop]? = some v)
    {u : Nat → Nat → R} {R' r' : Mat R}
    (hu : getInput T x s.A.cols s ab part stop none none none .one 5 true = .ok (u, R', r')) :
    (∃ c, ab.regions[stop]? = some c ∧ c.Mem (s.traj x u (fun _ _ => 0) ab.N)) ∧
    ((∃ (i : Nat) (c : Cell R), i < stop ∧ ab.regions[i]? = some c ∧ c.Mem (s.traj x u (fun _ _ => 0) ab.N)) →
      simPeriod T m s ab names inside ins nd part x = .error .assertion) ∧
    ((∀ (i : Nat) (c : Cell R), i < stop → ab.regions[i]? = some c → ¬ c.Mem (s.traj x u (fun _ _ => 0) ab.N)) →
      ∃ xs, simPeriod T m s ab names inside ins nd part x = .ok (nd', stop, xs, out) ∧ xs.length = ab.N ∧
        ∀ k < ab.N, xs[k]? = some (s.traj x u (fun _ _ => 0) (k + 1))) := by
  obtain ⟨_, cs, ce, stay, hcs, hce, hst, hall⟩ := getInput_reaches T x _ s ab part stop none none none .one 5 true hset
    hopen u R' r' hu
  have hlast := (hall (fun _ _ => 0) (fun hd k _ => hnom.zero hd)).2.1
  obtain ⟨h1, h2, h3⟩ := simStates_zero hnom.offset u x hset.horizon
  have hperiod : simPeriod T m s ab names inside ins nd part x =
      match findDiscreteState inside (s.traj x u (fun _ _ => 0) ab.N) ab.regions with
      | none => .error .typeError
      | some part =>
        match names[part]? with
        | none => .error .indexError
        | some name => if name = v then .ok (nd', part, simStates s u x 0 ab.N, out) else .error .assertion := by
    unfold simPeriod
    rw [hr, ok_bind]
    simp only [hv]
    rw [indexOf_nodup hn hstop, ok_bind, hu, ok_bind]
    simp only [h3, Option.getD_some]
    rfl
  refine ⟨⟨ce, hce, hlast⟩, ?_⟩
  rw [hperiod]
  obtain ⟨f1, f2⟩ := findDiscreteState_spec inside (s.traj x u (fun _ _ => 0) ab.N) ab.regions
  have hbool : ∀ c, inside c (s.traj x u (fun _ _ => 0) ab.N) = false ↔ ¬ c.Mem (s.traj x u (fun _ _ => 0) ab.N) := by
    intro c
    rw [← hin, Bool.not_eq_true]
  have hnamed : ∀ k c, ab.regions[k]? = some c → ∃ w, names[k]? = some w := fun k c hk => by
    have : k < names.length := by rw [hlen]; exact (List.getElem?_eq_some_iff.1 hk).1
    exact ⟨_, List.getElem?_eq_getElem this⟩
  constructor
  · rintro ⟨i, c, hi, hc, hm⟩
    cases hf : findDiscreteState inside (s.traj x u (fun _ _ => 0) ab.N) ab.regions with
    | none =>
      have := (hbool c).1 (f2.1 hf c (List.mem_of_getElem? hc))
      exact absurd hm this
    | some k =>
      obtain ⟨⟨c', hc', _⟩, hbefore⟩ := (f1 k).1 hf
      have hk : k < stop := by
        by_contra hk
        have := (hbool c).1 (hbefore i (by omega) c hc)
        exact this hm
      obtain ⟨w, hw⟩ := hnamed k c' hc'
      simp only [hw]
      rw [if_neg]
      rintro rfl
      have := indexOf_nodup hn hw
      rw [indexOf_nodup hn hstop] at this
      cases this
      omega
  · intro hex
    have hf : findDiscreteState inside (s.traj x u (fun _ _ => 0) ab.N) ab.regions = some stop :=
      (f1 stop).2 ⟨⟨ce, hce, (hin _ _).2 hlast⟩, fun j hj c hc => (hbool c).2 fun hm => hex j c hj hc hm⟩
    refine ⟨simStates s u x 0 ab.N, ?_, h1, h2⟩
    rw [hf]
    simp only [hstop, if_true]

theorem sim_split {α β : Type} {x : Except PyErr α} {f : α → Except PyErr β} {b : β} (h : x >>= f = .ok b) :
    ∃ a, x = .ok a ∧ f a = .ok b := by
  cases x with
  | error e => rw [error_bind] at h; cases h
  | ok a => exact ⟨a, rfl, h⟩

theorem simPeriod_ok {T : Tools R} {m : Machine ν Synth.Elem} {s : Lti R} {ab : PwaAbs R} {names : List Synth.Elem}
    {inside : Cell R → (Nat → R) → Bool} (hn : names.Nodup)
    (hset : Setting T s ab s.A.cols none) (hopen : ab.closedLoop = false) (hnom : Nominal s T.toPc)
    {ins out : Attr Synth.Elem} {nd nd' : ν} {part part' : Nat} {x : Nat → R} {xs : List (Nat → R)}
    (h : simPeriod T m s ab names inside ins nd part x = .ok (nd', part', xs, out)) :
    Interval T m s ab names ins nd part x nd' part' (xs.getLast?.getD x) xs out := by
  unfold simPeriod at h
  obtain ⟨⟨nd1, out1⟩, hr, h⟩ := sim_split h
  dsimp only at h
  split at h
  · cases h
  · rename_i v hv
    obtain ⟨stop, hstop, h⟩ := sim_split h
    obtain ⟨⟨u, R', r'⟩, hu, h⟩ := sim_split h
    dsimp only at h
    obtain ⟨h1, h2, h3⟩ := simStates_zero hnom.offset u x hset.horizon
    split at h
    · cases h
    · rename_i k hk
      split at h
      · cases h
      · rename_i name hname
        split at h
        · rename_i hnv
          cases h
          subst hnv
          have hs := indexOf_ok hstop
          have : stop = part' := by
            have := indexOf_nodup hn hname
            rw [hstop] at this
            cases this
            rfl
          subst this
          obtain ⟨ht, cs, ce, stay, hcs, hce, hst, hall⟩ := getInput_reaches T x _ s ab part stop none none none .one 5
            true hset hopen u R' r' hu
          have hz := hall (fun _ _ => 0) (fun hd k _ => hnom.zero hd)
          refine ⟨hr, ⟨_, hv, hname⟩, ht, ⟨u, stay, cs, hcs, hst, h1, h2, hz.2.2, hz.1⟩, ?_, ce, hce, ?_⟩
          · rw [h3]; rfl
          · rw [h3]
            exact hz.2.1
        · cases h

/-- **C114.** A simulation that ends without an exception: each interval is as `Interval` says, and starts where the one
before it ended. -/
theorem simLoop_spec {T : Tools R} {m : Machine ν Synth.Elem} {s : Lti R} {ab : PwaAbs R} {names : List Synth.Elem}
    {inside : Cell R → (Nat → R) → Bool} (hn : names.Nodup)
    (hset : Setting T s ab s.A.cols none) (hopen : ab.closedLoop = false) (hnom : Nominal s T.toPc)
    (inputs : List (Attr Synth.Elem)) : ∀ (nd : ν) (part : Nat) (x : Nat → R) (L : List (List (Nat → R) × Attr Synth.Elem)),
    simLoop T m s ab names inside inputs nd part x = .ok L →
    L.length = inputs.length ∧ ∃ (nds : Nat → ν) (parts : Nat → Nat) (pts : Nat → Nat → R),
      nds 0 = nd ∧ parts 0 = part ∧ pts 0 = x ∧ ∀ (k : Nat) ins, inputs[k]? = some ins → ∃ xs out, L[k]? = some (xs, out) ∧
        Interval T m s ab names ins (nds k) (parts k) (pts k) (nds (k + 1)) (parts (k + 1)) (pts (k + 1)) xs out := by
  induction inputs with
  | nil =>
    intro nd part x L h
    cases h
    exact ⟨rfl, fun _ => nd, fun _ => part, fun _ => x, rfl, rfl, rfl, fun k ins hk => by simp at hk⟩
  | cons ins rest ih =>
    intro nd part x L h
    unfold simLoop at h
    obtain ⟨⟨nd1, part1, xs1, out1⟩, h1, h⟩ := sim_split h
    obtain ⟨L1, h2, h⟩ := sim_split h
    cases h
    obtain ⟨hlen, nds, parts, pts, e1, e2, e3, hk⟩ := ih _ _ _ _ h2
    have hint := simPeriod_ok hn hset hopen hnom h1
    refine ⟨by simp [hlen], fun k => k.casesOn nd nds, fun k => k.casesOn part parts, fun k => k.casesOn x pts, rfl, rfl, rfl,
      ?_⟩
    intro k ins' hk'
    cases k with
    | zero =>
      simp only [List.getElem?_cons_zero, Option.some.injEq] at hk'
      subst hk'
      refine ⟨xs1, out1, rfl, ?_⟩
      simp only [e1, e2, e3]
      exact hint
    | succ k => exact hk k ins' (by simpa using hk')

/-! ## Cases of the hypotheses -/

open Classical in
/-- The test that a point is in a region. -/
noncomputable def cellMem (c : Cell Rat) (x : Nat → Rat) : Bool := decide (c.Mem x)

theorem cellMem_iff (c : Cell Rat) (x : Nat → Rat) : cellMem c x = true ↔ c.Mem x := by
  unfold cellMem
  exact @decide_eq_true_iff _ (Classical.propDecidable _)

/-- A controller that sends the system to the other region. -/
def swapper : Machine Nat Synth.Elem where
  graph := {
    edgeTypes := Mach.typesOf [("loc", [.int 0, .int 1])]
    nodes := [(0, []), (1, [])]
    initial := [0]
    edges := [(0, 1, [("loc", .int 1)]), (1, 0, [("loc", .int 0)])] }
  inputs := []
  outputs := [("loc", [.int 0, .int 1])]

theorem hop_nominal : Nominal hopSys lineTools.toPc where
  offset i := by
    show (lineSys.K).get i 0 = 0
    rcases i with _ | i <;> simp [lineSys, thinSys, Mat.ofRows]
  zero _ := line_zero

theorem hop_one : InHull (linePc.extreme hopSys.W) fun _ => -1/10 := by
  refine ⟨fun i => if i = 1 then 1 else 0, fun _ _ => by dsimp only; split <;> norm_num, ?_, fun j hj => ?_⟩
  · show ∑ i ∈ range 2, _ = _
    norm_num [sum_range_succ]
  · have hj : j < 1 := hj
    obtain rfl : j = 0 := by omega
    show _ = ∑ i ∈ range 2, _
    norm_num [linePc, Mat.ofRows, sum_range_succ, hopSys, lineSys, thinSys]

/-- The simulation goes from the first region to the second, and back. -/
theorem swap_simulated (x : Nat → Rat) (h : (iv 0 1).Mem x) :
    ∃ L, simLoop lineTools swapper hopSys tourAbs [.int 0, .int 1] cellMem [[], []] 0 0 x = .ok L ∧ L.length = 2 := by
  have hmem : ∀ i : Nat, i < 2 → ∀ c, tourAbs.regions[i]? = some c → ∀ y, c.Mem y ↔ (i : Rat) ≤ y 0 ∧ y 0 ≤ i + 1 := by
    intro i hi c hc y
    rw [(tour_regions hi).1] at hc
    cases hc
    rw [← iv_mem]
    simp [Cell.Mem, Cell.polys]
  obtain ⟨⟨u, R', r'⟩, hu⟩ := tour_input x (i := 0) (j := 1) (by omega) (by omega) (by simpa using h)
  obtain ⟨h1, _, h3⟩ := simPeriod_iff cellMem_iff (m := swapper) (names := [.int 0, .int 1]) (by decide) rfl
    tourAbs_setting rfl hop_nominal (ins := []) (nd := 0) (nd' := 1) (out := [("loc", .int 1)]) (v := .int 1)
    (by rfl) rfl rfl hu
  obtain ⟨xs, hxs, hlen, hpts⟩ := h3 (by
    intro i c hi hc hm
    obtain rfl : i = 0 := by omega
    have hle := ((hmem 0 (by omega) c hc _).1 hm).2
    obtain ⟨_, cs, ce, stay, _, hce, _, hall⟩ := getInput_reaches lineTools x 1 hopSys tourAbs 0 1 none none none .one 5
      true tourAbs_setting rfl u R' r' hu
    have hge := ((hmem 1 (by omega) ce hce _).1 (hall (fun _ _ => -1/10) fun _ k _ => hop_one).2.1).1
    have hnext : ∀ x u d : Nat → Rat, hopSys.next x u d 0 = x 0 + u 0 + d 0 := line_next
    simp only [tourAbs, Lti.traj, hnext] at hle hge
    norm_num at hle hge
    linarith)
  obtain ⟨c, hc, hm⟩ := h1
  have hlast : xs.getLast?.getD x = hopSys.traj x u (fun _ _ => 0) 2 := by
    rw [List.getLast?_eq_getElem?, hlen, show tourAbs.N - 1 = 1 from rfl, hpts 1 (by decide)]
    rfl
  have hy : (iv 1 2).Mem (xs.getLast?.getD x) := by
    rw [hlast, iv_mem]
    have := (hmem 1 (by omega) c hc _).1 hm
    norm_num at this
    exact this
  obtain ⟨⟨u2, R2, r2⟩, hu2⟩ := tour_input (xs.getLast?.getD x) (i := 1) (j := 0) (by omega) (by omega) (by
    norm_num
    exact hy)
  obtain ⟨_, _, h3'⟩ := simPeriod_iff cellMem_iff (m := swapper) (names := [.int 0, .int 1]) (by decide) rfl
    tourAbs_setting rfl hop_nominal (ins := []) (nd := 1) (nd' := 0) (out := [("loc", .int 0)]) (v := .int 0)
    (by rfl) rfl rfl hu2
  obtain ⟨xs2, hxs2, _, _⟩ := h3' (fun i c hi => by omega)
  refine ⟨[(xs, [("loc", .int 1)]), (xs2, [("loc", .int 0)])], ?_, rfl⟩
  simp only [simLoop]
  rw [hxs, ok_bind]
  dsimp only
  rw [hxs2]
  rfl

/-- The hypotheses of `simLoop_spec` are met. -/
example (x : Nat → Rat) (h : (iv 0 1).Mem x) : ∃ (pts : Nat → Nat → Rat), pts 0 = x ∧ (iv 0 1).Mem (pts 2) ∧
    ∃ xs out, Interval lineTools swapper hopSys tourAbs [.int 0, .int 1] [] 1 1 (pts 1) 0 0 (pts 2) xs out := by
  obtain ⟨L, hL, _⟩ := swap_simulated x h
  obtain ⟨_, nds, parts, pts, e1, e2, e3, hk⟩ := simLoop_spec (by decide) tourAbs_setting rfl hop_nominal _ _ _ _ _ hL
  have step : ∀ {k nd nd' : Nat} {o : Attr Synth.Elem} {p : Nat} {v : Synth.Elem}, k < 2 → nds k = nd →
      reaction swapper nd [] = .ok (nd', o) → Dict.get? o "loc" = some v →
      indexOf [.int 0, .int 1] v = .ok p → nds (k + 1) = nd' ∧ parts (k + 1) = p := by
    intro k nd nd' o p v hk2 hnd hr ho hp
    obtain ⟨xs, out, _, hint⟩ := hk k [] (by interval_cases k <;> rfl)
    have := hint.reacts
    rw [hnd, hr] at this
    cases this
    refine ⟨rfl, ?_⟩
    obtain ⟨w, hw1, hw2⟩ := hint.named
    rw [ho] at hw1
    cases hw1
    have := indexOf_nodup (by decide) hw2
    rw [hp] at this
    cases this
    rfl
  obtain ⟨a1, b1⟩ := step (k := 0) (by omega) e1 (by rfl) rfl rfl
  obtain ⟨a2, b2⟩ := step (k := 1) (by omega) a1 (by rfl) rfl rfl
  obtain ⟨xs, out, _, hint⟩ := hk 1 [] rfl
  rw [a1, b1, a2, b2] at hint
  refine ⟨pts, e3, ?_, xs, out, hint⟩
  obtain ⟨c, hc, P, hP, hm⟩ := hint.region
  cases hc
  simp only [Cell.polys, List.cons_ne_nil, if_false, List.mem_singleton] at hP
  subst hP
  exact hm

/-! ## With a constant term -/

/-- `x(t + 1) = x(t) + u(t) + 3`. -/
def shiftSys : Lti Rat := { unitSys with K := .ofRows 1 [[3]] }

/-- One region, from 0 to 1; horizon 1. -/
def shiftAbs : PwaAbs Rat :=
  { regions := [⟨[], iv 0 1⟩], ts := some [(0, 0)], origRegions := [], orig := none, N := 1, conservative := true,
    closedLoop := false }

/-- A controller that keeps the system in the region. -/
def keeper : Machine Nat Synth.Elem where
  graph := {
    edgeTypes := Mach.typesOf [("loc", [.int 0])]
    nodes := [(0, [])]
    initial := [0]
    edges := [(0, 0, [("loc", .int 0)])] }
  inputs := []
  outputs := [("loc", [.int 0])]

theorem shift_undisturbed : ¬ shiftSys.Disturbed := unitSys_undisturbed

theorem shiftAbs_setting : Setting lineTools shiftSys shiftAbs 1 none where
  shaped := ⟨rfl, by decide, rfl, rfl, ⟨rfl, rfl⟩, Or.inl rfl⟩
  dist := fun h => absurd h shift_undisturbed
  horizon := Nat.one_pos
  inputs := by decide
  xn := rfl
  r := by simp
  regions := by
    intro c hc P hP
    refine ⟨?_, Or.inl rfl⟩
    simp only [shiftAbs, List.mem_singleton] at hc
    subst hc
    simp [Cell.polys] at hP
    subst hP
    rfl
  origRegions := by simp [shiftAbs]
  qhull := fun l => ⟨rfl, Or.inl rfl⟩
  lp := lineTools_lp
  qp := lineTools_qp

theorem shift_next (x u d : Nat → Rat) : shiftSys.next x u d 0 = x 0 + u 0 + 3 := by
  simp [Lti.next, shiftSys, unitSys, Mat.ofRows]

/-- **C114, disagreement.** The simulation ignores the constant term of the system: the inputs that `get_input` returns
lead to the region, but the simulated point is in no region, and `TypeError` is raised. -/
theorem simulate_offset_counterexample (x : Nat → Rat) (h : 0 ≤ x 0 ∧ x 0 ≤ 1) :
    (∃ u R' r', getInput lineTools x 1 shiftSys shiftAbs 0 0 none none none .one 5 true = .ok (u, R', r') ∧
      (iv 0 1).Mem (shiftSys.traj x u (fun _ _ => 0) 1)) ∧
    simLoop lineTools keeper shiftSys shiftAbs [.int 0] cellMem [[]] 0 0 x = .error .typeError := by
  have hu : ∃ res, getInput lineTools x 1 shiftSys shiftAbs 0 0 none none none .one 5 true = .ok res := by
    refine getInput_complete lineTools x 1 shiftSys shiftAbs 0 0 none none none .one 5 true shiftAbs_setting ?_
      (Or.inl rfl) rfl ⟨⟨rfl, rfl⟩, ⟨rfl, rfl⟩, fun t ht => ?_⟩ _ _ rfl rfl (Or.inr rfl) (iv 0 1) rfl (iv 0 1)
      (by simp [Cell.polys]) (fun _ _ => -3) ?_
    · refine ⟨10, fun x u h j hj => ?_⟩
      have hj : j < 1 := hj
      obtain rfl : j = 0 := by omega
      exact abs_le.2 ((unit_inputOk x u).1 h)
    · cases ht
      simp
    · intro d _
      refine ⟨fun k h0 hk => ?_, ?_, fun k hk => (unit_inputOk _ _).2 (by norm_num)⟩
      · have : k < 1 := hk
        omega
      · rw [iv_mem]
        show 0 ≤ shiftSys.next x _ _ 0 ∧ shiftSys.next x _ _ 0 ≤ 1
        rw [shift_next]
        constructor <;> linarith [h.1, h.2]
  obtain ⟨⟨u, R', r'⟩, hu⟩ := hu
  obtain ⟨_, cs, ce, stay, _, hce, _, hall⟩ := getInput_reaches lineTools x 1 shiftSys shiftAbs 0 0 none none none .one 5
    true shiftAbs_setting rfl u R' r' hu
  have hm := (hall (fun _ _ => 0) fun hd => absurd hd shift_undisturbed).2.1
  cases hce
  obtain ⟨P, hP, hm⟩ := hm
  simp only [Cell.polys, if_true, List.mem_singleton] at hP
  subst hP
  refine ⟨⟨u, R', r', hu, hm⟩, ?_⟩
  have h2 := (iv_mem _ _ _).1 hm
  have e : shiftSys.traj x u (fun _ _ => 0) 1 0 = x 0 + u 0 0 + 3 := shift_next _ _ _
  change _ ≤ shiftSys.traj x u (fun _ _ => 0) 1 0 ∧ shiftSys.traj x u (fun _ _ => 0) 1 0 ≤ _ at h2
  rw [e] at h2
  have hr : reaction keeper 0 [] = .ok (0, [("loc", Synth.Elem.int 0)]) := by rfl
  have hi : indexOf [.int 0] (.int 0) = .ok 0 := rfl
  have hf : findDiscreteState cellMem ((simStates shiftSys u x 0 1).getLast?.getD x) shiftAbs.regions = none := by
    rw [(findDiscreteState_spec cellMem _ shiftAbs.regions).2]
    intro c hc
    rw [← Bool.not_eq_true, cellMem_iff]
    simp only [shiftAbs, List.mem_singleton] at hc
    subst hc
    rintro ⟨P, hP, hm⟩
    simp only [Cell.polys, if_true, List.mem_singleton] at hP
    subst hP
    have h3 := (iv_mem _ _ _).1 hm
    have e2 : (simStates shiftSys u x 0 1).getLast?.getD x 0 = x 0 + u 0 0 := by
      simp [simStates, simNext, shiftSys, unitSys, Mat.ofRows]
    rw [e2] at h3
    linarith [h2.2, h3.1]
  simp only [simLoop]
  unfold simPeriod
  rw [hr, ok_bind]
  dsimp only
  simp only [show Dict.get? [("loc", Synth.Elem.int 0)] "loc" = some (Synth.Elem.int 0) from rfl]
  rw [hi, ok_bind, show shiftSys.A.cols = 1 from rfl, hu, ok_bind]
  dsimp only
  rw [show shiftAbs.N = 1 from rfl, hf]
  rfl

end Abs

end Tulip
