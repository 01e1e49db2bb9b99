import Verif.Abstract.ClosedLoopProps
import Verif.Abstract.GetInputEx
import Verif.Synth.SynthesizeExamples

/-!
# A closed loop that meets the hypotheses of C113

The states are numbers, `x(t + 1) = x(t) + u(t) + d(t)`, with inputs from -4 to 4 and disturbances from -1/10 to 1/10.
The regions are unions of the intervals `[z, z + 1]`. The system has to visit `home` (from 0 to 1) and `lot` (from 1
to 2) again and again.
-/

namespace Tulip

namespace Abs

open Mach

/-! ## The abstraction -/

/-- Unions of intervals `[z, z + 1]`; finite sets are negligible. -/
def unitCells : Geom (List Int) (Nat → Rat) where
  den a := {x | ∃ z ∈ a, (z : Rat) ≤ x 0 ∧ x 0 ≤ z + 1}
  null A := ∃ F : List Rat, ∀ x ∈ A, x 0 ∈ F
  inter a b := a.filter (· ∈ b)
  diff a b := a.filter (· ∉ b)
  fulldim a := !a.isEmpty

theorem unit_meet {z w : Int} {y : Rat} (hz : (z : Rat) ≤ y ∧ y ≤ z + 1) (hw : (w : Rat) ≤ y ∧ y ≤ w + 1)
    (h : z ≠ w) : y = z ∨ y = z + 1 := by
  rcases lt_or_gt_of_ne h with h | h
  · have : (z : Rat) + 1 ≤ w := by exact_mod_cast h
    right; linarith [hz.2, hw.1]
  · have : (w : Rat) + 1 ≤ z := by exact_mod_cast h
    left; linarith [hz.1, hw.2]

/-- The ends of intervals. -/
def ends (a : List Int) : List Rat := a.map (fun z : Int => (z : Rat)) ++ a.map (fun z : Int => (z : Rat) + 1)

theorem mem_ends {a : List Int} {z : Int} (hz : z ∈ a) {y : Rat} (h : y = z ∨ y = z + 1) : y ∈ ends a := by
  rw [ends, List.mem_append, List.mem_map, List.mem_map]
  rcases h with h | h
  · exact .inl ⟨z, hz, h.symm⟩
  · exact .inr ⟨z, hz, h.symm⟩

theorem unitCells_lawful : unitCells.Lawful where
  null_empty := ⟨[], fun x hx => hx.elim⟩
  null_mono h := fun ⟨F, hF⟩ => ⟨F, fun x hx => hF x (h hx)⟩
  null_union := fun ⟨F, hF⟩ ⟨F', hF'⟩ => ⟨F ++ F', fun x hx => by
    rw [List.mem_append]
    exact hx.imp (hF x) (hF' x)⟩
  inter_sub a b x := by
    rintro ⟨z, hz, hx⟩
    obtain ⟨h1, h2⟩ := List.mem_filter.1 hz
    exact ⟨⟨z, h1, hx⟩, z, by simpa using h2, hx⟩
  inter_null a b := by
    refine ⟨ends a, fun x hx => ?_⟩
    obtain ⟨⟨⟨z, hz, h1⟩, w, hw, h2⟩, h3⟩ := hx
    refine mem_ends hz (unit_meet h1 h2 ?_)
    rintro rfl
    exact h3 ⟨z, List.mem_filter.2 ⟨hz, by simpa using hw⟩, h1⟩
  diff_sub a b x := by
    rintro ⟨z, hz, hx⟩
    exact ⟨z, (List.mem_filter.1 hz).1, hx⟩
  diff_null a b := by
    refine ⟨ends a, fun x hx => ?_⟩
    obtain ⟨⟨z, hz, h1⟩, w, hw, h2⟩ := hx
    obtain ⟨h3, h4⟩ := List.mem_filter.1 hz
    refine mem_ends h3 (unit_meet h1 h2 ?_)
    rintro rfl
    simp [hw] at h4
  diff_cover a b := by
    refine ⟨[], fun x hx => ?_⟩
    obtain ⟨⟨⟨z, hz, h1⟩, h2⟩, h3⟩ := hx
    by_cases hb : z ∈ b
    · exact (h2 ⟨z, hb, h1⟩).elim
    · exact (h3 ⟨z, List.mem_filter.2 ⟨hz, by simpa using hb⟩, h1⟩).elim
  thin a h := by
    have : a = [] := by simpa [unitCells] using h
    subst this
    exact ⟨[], fun x ⟨z, hz, _⟩ => by cases hz⟩

/-- The states from where two steps lead through `stay` to `T`, whatever the disturbances. -/
def hopReach (_ : Nat) (stay T : Set (Nat → Rat)) : Set (Nat → Rat) :=
  {x | x ∈ stay ∧ ∃ u : Rat, |u| ≤ 4 ∧ ∀ d : Rat, |d| ≤ 1/10 → (fun _ => x 0 + u + d) ∈ stay ∧
    ∃ u' : Rat, |u'| ≤ 4 ∧ ∀ d' : Rat, |d'| ≤ 1/10 → (fun _ => x 0 + u + d + u' + d') ∈ T}

/-- The operations. -/
def hopOps : DiscOps (List Int) ℚ where
  solve _ p q t := .ok (p.filter fun z => decide (z ∈ t.getD p) && q.any fun w => decide (z - w ≤ 2 ∧ w - z ≤ 2))
  inter := unitCells.inter
  diff := unitCells.diff
  vol a := a.length
  rad a := a.length
  separate a := if a.isEmpty then [] else [a]
  adjacent a b := a.any fun x => b.any fun y => decide (x = y ∨ x = y + 1 ∨ y = x + 1)
  eqv a b := a == b
  rd _ := 0
  minVol := 1 / 2
  absTol := 1 / 2
  conservative := false
  removeTrans := false
  pwa := false
  transLength := 1

theorem hopOps_sound : hopOps.Sound unitCells hopReach where
  solve sys p q t s h := by
    simp only [hopOps, Except.ok.injEq] at h
    subst h
    rintro x ⟨z, hz, h1, h2⟩
    simp only [List.mem_filter, Bool.and_eq_true, decide_eq_true_eq, List.any_eq_true] at hz
    obtain ⟨_, hzt, w, hw, h3, h4⟩ := hz
    have h3 : (z : Rat) - w ≤ 2 := by exact_mod_cast h3
    have h4 : (w : Rat) - z ≤ 2 := by exact_mod_cast h4
    refine ⟨⟨z, hzt, h1, h2⟩, z + 1/2 - x 0, abs_le.2 ⟨by linarith, by linarith⟩, fun d hd => ?_⟩
    obtain ⟨a, b⟩ := abs_le.1 hd
    refine ⟨⟨z, hzt, by linarith, by linarith⟩, w - z, abs_le.2 ⟨by linarith, by linarith⟩, fun d' hd' => ?_⟩
    obtain ⟨a', b'⟩ := abs_le.1 hd'
    exact ⟨w, hw, by linarith, by linarith⟩
  mono sys s s' T h x hx := by
    obtain ⟨h1, u, h2, h3⟩ := hx
    exact ⟨h h1, u, h2, fun d hd => ⟨h (h3 d hd).1, (h3 d hd).2⟩⟩
  inter a b := unitCells_lawful.inter_sub a b
  inter_cover a b := unitCells_lawful.inter_null a b
  diff a b := unitCells_lawful.diff_sub a b
  diff_disjoint a b := unitCells_lawful.diff_null a b
  diff_cover a b := unitCells_lawful.diff_cover a b
  small a h := by
    have := List.eq_nil_of_length_eq_zero (length_lt_half h)
    subst this
    exact unitCells_lawful.thin [] rfl
  separate_sub a p hp := by
    simp only [hopOps] at hp
    split at hp
    · cases hp
    · cases List.mem_singleton.1 hp
      exact le_refl _
  separate_cover a := by
    refine ⟨[], fun x ⟨h1, h2⟩ => (h2 ?_).elim⟩
    simp only [hopOps]
    split
    · rename_i h
      have : a = [] := List.isEmpty_iff.1 h
      subst this
      obtain ⟨z, hz, _⟩ := h1
      cases hz
    · exact ⟨a, by simp, h1⟩
  separate_disjoint a := by
    simp only [hopOps]
    split <;> simp

def tourPart : List (Region (List Int)) := [⟨[0], ["home"]⟩, ⟨[1], ["lot"]⟩]

def tourProps : Dict String (List Int) := [("home", [0]), ("lot", [1])]

theorem tourPart_preserving : Preserving unitCells [0, 1] tourProps tourPart where
  inside r hr := by
    simp only [tourPart, List.mem_cons, List.not_mem_nil, or_false] at hr
    rcases hr with rfl | rfl <;> rintro x ⟨z, hz, hx⟩ <;>
      exact ⟨z, by simp only [List.mem_singleton] at hz; simp [hz], hx⟩
  cover := by
    refine ⟨[], fun x ⟨⟨z, hz, hx⟩, h⟩ => (h ?_).elim⟩
    simp only [List.mem_cons, List.not_mem_nil, or_false] at hz
    rcases hz with rfl | rfl
    · exact ⟨⟨[0], ["home"]⟩, by simp [tourPart], 0, by simp, hx⟩
    · exact ⟨⟨[1], ["lot"]⟩, by simp [tourPart], 1, by simp, hx⟩
  disjoint := by
    simp only [tourPart, List.pairwise_cons, List.mem_singleton, forall_eq, List.not_mem_nil, false_imp_iff,
      implies_true, List.Pairwise.nil, and_true]
    exact unitCells_lawful.diff_null [0] [1]
  holds r hr p hp := by
    simp only [tourPart, List.mem_cons, List.not_mem_nil, or_false] at hr
    rcases hr with rfl | rfl <;> (cases List.mem_singleton.1 hp)
    · exact ⟨[0], rfl, le_refl _⟩
    · exact ⟨[1], rfl, le_refl _⟩
  fails r hr p q hq hp := by
    simp only [tourPart, List.mem_cons, List.not_mem_nil, or_false] at hr
    have hm := Synth.get?_mem hq
    simp only [tourProps, List.mem_cons, Prod.mk.injEq, List.not_mem_nil, or_false] at hm
    rcases hr with rfl | rfl <;> rcases hm with ⟨rfl, rfl⟩ | ⟨rfl, rfl⟩
    · simp at hp
    · exact unitCells_lawful.diff_null [0] [1]
    · exact unitCells_lawful.diff_null [1] [0]
    · simp at hp

/-- What `discretize` returns. -/
def tourState : DState (List Int) :=
  match discretizeBi hopOps tourPart stripAdj [] 40 with
  | some (.ok S) => S
  | _ => ⟨[], [], [], fun _ _ => false, fun _ _ => false, fun _ _ => false⟩

theorem tour_disc : discretizeBi hopOps tourPart stripAdj [] 40 = some (.ok tourState) := by
  have h : (match discretizeBi hopOps tourPart stripAdj [] 40 with | some (.ok _) => true | _ => false) = true := by
    decide +kernel
  unfold tourState
  split at h
  · rename_i S hS
    rw [hS]
  · cases h

theorem tour_sol : tourState.sol.map (fun r => (r.poly, r.props)) = [([0], ["home"]), ([1], ["lot"])] ∧
    tourState.orig = [0, 1] ∧ ∀ i < 2, ∀ j < 2, tourState.trans j i = true := by
  decide +kernel

theorem tour_sol_eq : tourState.sol = tourPart := by
  have h := tour_sol.1
  have e : tourPart = ([([0], ["home"]), ([1], ["lot"])] : List (List Int × List String)).map fun p => ⟨p.1, p.2⟩ := rfl
  rw [e, ← h, List.map_map]
  exact (List.map_id _).symm

/-! ## The transition system and the machine -/

/-- The transition system, as `synthesize` reads it. -/
def tourFts : Synth.FTS where
  states := [.int 0, .int 1]
  initial := [.int 0]
  aps := ["home", "lot"]
  ap := fun e => if e = .int 0 then some ["home"] else if e = .int 1 then some ["lot"] else none
  edges := [⟨.int 0, .int 0, [], []⟩, ⟨.int 0, .int 1, [], []⟩, ⟨.int 1, .int 0, [], []⟩, ⟨.int 1, .int 1, [], []⟩]
  actions := []
  sysMust := .xor
  envMust := .xor
  owner := .sys

def tourArg : Synth.TsArg := { fts := tourFts }

/-- The specification: the system visits both places again and again. -/
def tourSpec : GRSpec := ⟨[], [], [], [], [], [], [], [c!"home", c!"lot"], true, true, Synth.allAll, []⟩

/-- The strategy that a solver returns. -/
def tourStrategy : Synth.Strategy Nat where
  nodes := [(0, [("loc", .int 0), ("home", .int 1), ("lot", .int 0)]),
    (1, [("loc", .int 1), ("home", .int 0), ("lot", .int 1)])]
  edges := [(0, 1), (1, 0)]
  initialNodes := some [0]

def tourTools : Synth.Tools Nat where
  solvers := ⟨fun _ => .ok none, fun _ => .ok none, fun _ => .ok (some tourStrategy), none⟩
  isInit := fun _ _ => .ok false
  sinit := 9
  order := id
  orderStates := id

theorem tour_good : tourFts.Good false false "loc" where
  states := Synth.names_ok (names := []) (by simp [tourFts]) (by simp)
  statesNodup := by decide
  var := fun _ => Synth.isName_of_check (by decide +kernel)
  aps := by
    simp only [tourFts, List.mem_cons, List.not_mem_nil, or_false, forall_eq_or_imp, forall_eq]
    exact ⟨Synth.isName_of_check (by decide +kernel), Synth.isName_of_check (by decide +kernel)⟩
  types := by simp [tourFts]
  typesWf := by unfold Dict.Wf; simp [tourFts, Dict.keys]
  noActions := by
    simp only [tourFts, List.mem_cons, List.not_mem_nil, or_false, forall_eq_or_imp, forall_eq]
    exact ⟨by decide, by decide, by decide, by decide⟩

/-- The specification that the solver gets. -/
def tourFull : GRSpec :=
  { tourSpec with
    sysVars := [("home", .boolean), ("lot", .boolean), ("loc", .range 0 1)]
    envInit := [c!"(loc = 0)", c!"!((loc = 0)) || (home && !lot)", c!"!((loc = 1)) || (lot && !home)"]
    sysSafety := [c!"(loc = 0) -> (((X(loc = 0))) || ((X(loc = 1))))", c!"(loc = 1) -> (((X(loc = 0))) || ((X(loc = 1))))",
      c!"X((loc = 0) -> (home && !lot))", c!"X((loc = 1) -> (lot && !home))"]
    formula := tourSpec.toCanon }

theorem tour_full : Synth.specPlusSys id tourSpec none (some tourArg) false false = .ok tourFull :=
  Synth.ok_of_toOption (by decide +kernel)

theorem tour_vars : Synth.VarsOk tourFull.envVars tourFull.sysVars :=
  ⟨by unfold Dict.Wf; decide, by unfold Dict.Wf; decide, fun k hk => by cases hk⟩

theorem tour_args : Synth.ArgsOk none (some tourArg) where
  sys := by
    rintro t h
    cases h
    exact tour_good
  env := by rintro t h; cases h

/-- The labels along the play. -/
def tourLabel (t : Nat) : Attr Synth.Elem :=
  [("loc", .int ((t % 2 : Nat) : Int)), ("home", .int (((t + 1) % 2 : Nat) : Int)), ("lot", .int ((t % 2 : Nat) : Int))]

theorem tour_shows {d : Attr Synth.Elem} {v : Valuation} {t : Nat} (hd : ∀ k y, Dict.get? (tourLabel t) k = some y →
    Dict.get? d k = some y) (h : Synth.Shows (Dict.update tourFull.envVars tourFull.sysVars) d v) :
    v "loc" = .int ((t % 2 : Nat) : Int) ∧ v "home" = .bool (decide (t % 2 = 0)) ∧ v "lot" = .bool (decide (t % 2 = 1)) := by
  refine ⟨h "loc" _ (hd "loc" _ rfl), (h "home" _ (hd "home" _ rfl)).trans ?_, (h "lot" _ (hd "lot" _ rfl)).trans ?_⟩
  · show Val.bool _ = _
    congr 1
    rw [decide_eq_decide]
    omega
  · show Val.bool _ = _
    congr 1
    rw [decide_eq_decide]
    omega

/-- A trace where the variables have these values. -/
structure IsTour (σ : Trace) : Prop where
  loc : ∀ t, σ t "loc" = .int ((t % 2 : Nat) : Int)
  home : ∀ t, σ t "home" = .bool (decide (t % 2 = 0))
  lot : ∀ t, σ t "lot" = .bool (decide (t % 2 = 1))

theorem IsTour.sel {σ : Trace} (h : IsTour σ) (t : Nat) (x : Synth.Elem) :
    Synth.Selected false "loc" σ t x ↔ x = .int ((t % 2 : Nat) : Int) := by
  simp only [Synth.Selected, Bool.false_eq_true, if_false, h.loc]
  cases x with
  | int n => simp [Synth.Elem.val, eq_comm]
  | str s => simp [Synth.Elem.val]

theorem IsTour.apsAt {σ : Trace} (h : IsTour σ) (t : Nat) :
    Synth.ApsAt tourFts (.int ((t % 2 : Nat) : Int)) σ t := by
  intro p hp
  simp only [tourFts, List.mem_cons, List.not_mem_nil, or_false] at hp
  have h2 : t % 2 = 0 ∨ t % 2 = 1 := by omega
  rcases hp with rfl | rfl
  · rw [h.home]
    rcases h2 with h2 | h2 <;> simp [h2, tourFts]
  · rw [h.lot]
    rcases h2 with h2 | h2 <;> simp [h2, tourFts]

theorem IsTour.starts {σ : Trace} (h : IsTour σ) : Synth.SysStarts tourFts "loc" false σ :=
  ⟨(by intro p hp; cases hp), fun _ => ⟨.int 0, by simp [tourFts], (h.sel 0 _).2 rfl⟩, by
    intro s _ hs
    rw [(h.sel 0 s).1 hs]
    exact h.apsAt 0⟩

theorem IsTour.runs {σ : Trace} (h : IsTour σ) : Synth.SysRuns tourFts "loc" false σ := by
  refine ⟨⟨fun i => .int ((i % 2 : Nat) : Int), ⟨fun i => ⟨?_, (h.sel i _).2 rfl, fun x _ hx => (h.sel i x).1 hx⟩,
    fun i => ?_, fun i => h.apsAt i⟩, fun _ => by decide⟩, fun i p hp => by cases hp⟩
  · have : i % 2 = 0 ∨ i % 2 = 1 := by omega
    rcases this with h | h <;> simp [h, tourFts]
  · have : i % 2 = 0 ∧ (i + 1) % 2 = 1 ∨ i % 2 = 1 ∧ (i + 1) % 2 = 0 := by omega
    rcases this with ⟨h, h'⟩ | ⟨h, h'⟩
    · exact ⟨⟨.int 0, .int 1, [], []⟩, by simp [tourFts], by simp [h], by simp [h'], fun k v hk => by cases hk⟩
    · exact ⟨⟨.int 1, .int 0, [], []⟩, by simp [tourFts], by simp [h], by simp [h'], fun k v hk => by cases hk⟩

theorem tour_wins : Synth.Wins tourStrategy (fun _ => .ok false) tourFull := by
  intro v σ h0 hstep hlab _
  have hv : ∀ t, v t = t % 2 := by
    intro t
    induction t with
    | zero => simpa [Synth.IsInitial, tourStrategy] using h0
    | succ t ih =>
      have := hstep t
      simp only [tourStrategy, List.mem_cons, Prod.mk.injEq, List.not_mem_nil, or_false] at this
      omega
  have hσ : ∀ t, σ t "loc" = .int ((t % 2 : Nat) : Int) ∧ σ t "home" = .bool (decide (t % 2 = 0)) ∧
      σ t "lot" = .bool (decide (t % 2 = 1)) := by
    intro t
    obtain ⟨d, ⟨st, h1, h2⟩, h3⟩ := hlab t
    have h4 : ∀ k y, Dict.get? (tourLabel t) k = some y → Dict.get? st k = some y := by
      rw [hv] at h1
      simp only [tourStrategy, List.mem_cons, Prod.mk.injEq, List.not_mem_nil, or_false] at h1
      intro k y hk
      rcases h1 with ⟨h1, rfl⟩ | ⟨h1, rfl⟩
      · have h' : (t + 1) % 2 = 1 := by omega
        rw [tourLabel, h1, h'] at hk
        exact hk
      · have h' : (t + 1) % 2 = 0 := by omega
        rw [tourLabel, h1, h'] at hk
        exact hk
    refine tour_shows (t := t) (d := d) (fun k y hk => ?_) h3
    have h5 := h4 k y hk
    have hm := Synth.get?_mem hk
    simp only [tourLabel, List.mem_cons, Prod.mk.injEq, List.not_mem_nil, or_false] at hm
    refine (h2 k y).2 ⟨y, h5, ?_⟩
    rcases hm with ⟨rfl, rfl⟩ | ⟨rfl, rfl⟩ | ⟨rfl, rfl⟩ <;> rfl
  have ht : IsTour σ := ⟨fun t => (hσ t).1, fun t => (hσ t).2.1, fun t => (hσ t).2.2⟩
  refine ((Synth.specPlusSys_meaning (fun _ _ => Iff.rfl) tour_args tour_full σ).2.2.1 ?_ ?_).2 ⟨⟨?_, ?_, ?_⟩, ?_, ?_⟩
  · rintro t _ h; cases h
  · refine fun _ => ⟨?_, fun t h => by cases h⟩
    rintro t h
    cases h
    exact ht.starts
  · intro c hc; cases hc
  · intro c hc; cases hc
  · intro c hc i
    simp only [tourSpec, List.mem_cons, List.not_mem_nil, or_false] at hc
    rcases hc with rfl | rfl
    · refine ⟨2 * i, by omega, (Tulip.holds_iff (by decide +kernel : parse c!"home" = some (.var "home"))).2 ?_⟩
      simp [ht.home]
    · refine ⟨2 * i + 1, by omega, (Tulip.holds_iff (by decide +kernel : parse c!"lot" = some (.var "lot"))).2 ?_⟩
      have h2 : (2 * i + 1) % 2 = 1 := by omega
      simp [ht.lot, h2]
  · rintro t h
    cases h
    exact ht.runs
  · rintro t h; cases h

theorem tour_correct (f : GRSpec) (hf : Synth.specPlusSys tourTools.order tourSpec none (some tourArg) false false = .ok f) :
    f = tourFull ∧ Synth.Solver.Correct tourTools.isInit (fun _ => .ok (some tourStrategy)) f := by
  obtain rfl : f = tourFull := by
    rw [show Synth.specPlusSys tourTools.order tourSpec none (some tourArg) false false = .ok tourFull from tour_full] at hf
    cases hf
    rfl
  refine ⟨rfl, ?_⟩
  intro A hA
  cases hA
  refine ⟨⟨by unfold Dict.Wf; decide, ?_, by decide, by decide, ?_⟩, tour_wins⟩
  · intro u st hm
    simp only [tourStrategy, List.mem_cons, Prod.mk.injEq, List.not_mem_nil, or_false] at hm
    rcases hm with ⟨_, rfl⟩ | ⟨_, rfl⟩ <;> (unfold Dict.Wf; decide)
  · intro u st k n l hm hk hg
    have := Synth.get?_mem hk
    simp [tourFull, tourSpec, Dict.update, Dict.set] at this

/-- `synthesize` returns a machine, which has an infinite run. -/
theorem tour_machine : ∃ m, Synth.synthesize tourTools tourSpec none (some tourArg) false false true "omega" = .ok (some m) ∧
    Synth.MachRun m (fun t => if t = 0 then 9 else (t + 1) % 2) tourLabel := by
  refine ⟨_, rfl, ?_, ?_⟩
  · decide +kernel
  · intro t
    have : ∀ e ∈ [(9, 0, tourLabel 0), (0, 1, tourLabel 1), (1, 0, tourLabel 0)],
        e ∈ ((Synth.synthesize tourTools tourSpec none (some tourArg) false false true "omega").toOption.join.map
          (·.graph.edges)).getD [] := by decide +kernel
    refine this _ ?_
    have hl : ∀ t, tourLabel t = tourLabel (t % 2) := fun t => by
      have h1 : (t % 2 + 1) % 2 = (t + 1) % 2 := by omega
      simp [tourLabel, h1]
    rcases t with _ | t
    · simp
    · rw [hl (t + 1)]
      have h : t % 2 = 0 ∨ t % 2 = 1 := by omega
      rcases h with h | h
      · have h1 : (t + 1) % 2 = 1 := by omega
        have h2 : (t + 1 + 1) % 2 = 0 := by omega
        have h3 : (t + 1 + 1 + 1) % 2 = 1 := by omega
        simp only [h1, h2, h3]
        simp
      · have h1 : (t + 1) % 2 = 0 := by omega
        have h2 : (t + 1 + 1) % 2 = 1 := by omega
        have h3 : (t + 1 + 1 + 1) % 2 = 0 := by omega
        simp only [h1, h2, h3]
        simp

/-- The transition system that `synthesize` reads is the one that `discretize` returns. -/
theorem tour_reads : ∃ g, discTs tourState tourProps.keys = (g, none) ∧ Reads tourFts g tourProps.keys := by
  obtain ⟨g, hg, hts⟩ := discTs_spec tourState tourProps.keys (by
    rw [tour_sol_eq]
    decide)
  rw [tour_sol_eq] at hts
  have hn : ∀ i : Nat, g.hasNode i = true ↔ i < 2 := fun i =>
    (hts.states i).trans ⟨fun ⟨j, hj, he⟩ => by rw [he]; exact hj, fun h => ⟨i, h, rfl⟩⟩
  refine ⟨g, hg, fun e => ?_, ?_, ?_, fun p => Iff.rfl⟩
  · constructor
    · intro he
      simp only [tourFts, List.mem_cons, List.not_mem_nil, or_false] at he
      rcases he with rfl | rfl
      · exact ⟨0, (hn 0).2 (by omega), rfl⟩
      · exact ⟨1, (hn 1).2 (by omega), rfl⟩
    · rintro ⟨i, hi, rfl⟩
      have hi := (hn i).1 hi
      interval_cases i <;> simp [tourFts]
  · intro e he
    have hedge : ∀ i < 2, ∀ j < 2, ∃ a, (i, j, a) ∈ g.edges := fun i hi j hj =>
      (hts.transitions i j).2 ⟨i, j, hi, hj, rfl, rfl, tour_sol.2.2 i hi j hj⟩
    simp only [tourFts, List.mem_cons, List.not_mem_nil, or_false] at he
    rcases he with rfl | rfl | rfl | rfl
    · obtain ⟨a, ha⟩ := hedge 0 (by omega) 0 (by omega); exact ⟨0, 0, a, ha, rfl, rfl⟩
    · obtain ⟨a, ha⟩ := hedge 0 (by omega) 1 (by omega); exact ⟨0, 1, a, ha, rfl, rfl⟩
    · obtain ⟨a, ha⟩ := hedge 1 (by omega) 0 (by omega); exact ⟨1, 0, a, ha, rfl, rfl⟩
    · obtain ⟨a, ha⟩ := hedge 1 (by omega) 1 (by omega); exact ⟨1, 1, a, ha, rfl, rfl⟩
  · intro i a ha
    have hi : i < 2 := (hn i).1 (by
      simp only [LGraph.hasNode, LGraph.has_eq, ha]
      rfl)
    interval_cases i
    · obtain ⟨b, hb, h⟩ := hts.label 0 _ rfl
      rw [show g.nodes.get? (id 0) = some a from ha] at hb
      cases hb
      exact h.symm
    · obtain ⟨b, hb, h⟩ := hts.label 1 _ rfl
      rw [show g.nodes.get? (id 1) = some a from ha] at hb
      cases hb
      exact h.symm

/-! ## The inputs -/

/-- The system. -/
def hopSys : Lti Rat := { lineSys with U := sym 4 }

theorem hop_inputOk (x u : Nat → Rat) : hopSys.InputOk x u ↔ -4 ≤ u 0 ∧ u 0 ≤ 4 := by
  have : hopSys.InputOk x u ↔ (iv (-4) 4).Mem u := by
    show (sym 4).Mem u ↔ _
    refine forall_congr' fun r => forall_congr' fun hr => ?_
    have hr : r < 2 := hr
    interval_cases r <;> simp [sym, iv]
  rw [this, iv_mem]

/-- The abstraction, as `get_input` reads it; the horizon is 2. -/
def tourAbs : PwaAbs Rat :=
  { regions := [⟨[iv 0 1], sym 1⟩, ⟨[iv 1 2], sym 1⟩], ts := some [(0, 0), (0, 1), (1, 0), (1, 1)],
    origRegions := [⟨[iv 0 1], sym 1⟩, ⟨[iv 1 2], sym 1⟩], orig := some [0, 1], N := 2, conservative := false,
    closedLoop := false }

theorem tourAbs_setting : Setting lineTools hopSys tourAbs 1 none where
  shaped := ⟨rfl, by decide, rfl, rfl, ⟨rfl, rfl⟩, Or.inl rfl⟩
  dist := lineSys_dist
  horizon := by decide
  inputs := by decide
  xn := rfl
  r := by simp
  regions := by
    intro c hc P hP
    refine ⟨?_, Or.inl rfl⟩
    simp only [tourAbs, List.mem_cons, List.not_mem_nil, or_false] at hc
    rcases hc with rfl | rfl <;> simp [Cell.polys] at hP <;> subst hP <;> rfl
  origRegions := by
    intro c hc P hP
    refine ⟨?_, Or.inl rfl⟩
    simp only [tourAbs, List.mem_cons, List.not_mem_nil, or_false] at hc
    rcases hc with rfl | rfl <;> simp [Cell.polys] at hP <;> subst hP <;> rfl
  qhull := fun l => ⟨rfl, Or.inl rfl⟩
  lp := lineTools_lp
  qp := lineTools_qp

theorem hopSys_bounded : hopSys.Bounded := by
  refine ⟨4, fun x u h j hj => ?_⟩
  have hj : j < 1 := hj
  obtain rfl : j = 0 := by omega
  rw [hop_inputOk] at h
  exact abs_le.2 h

theorem tour_regions {i : Nat} (hi : i < 2) : tourAbs.regions[i]? = some ⟨[iv i (i + 1)], sym 1⟩ ∧
    tourAbs.origRegions[i]? = some ⟨[iv i (i + 1)], sym 1⟩ ∧ stayPoly lineTools tourAbs i ⟨[iv i (i + 1)], sym 1⟩ =
      .ok (iv i (i + 1)) := by
  interval_cases i
  · refine ⟨?_, ?_, ?_⟩ <;> norm_num [tourAbs, stayPoly]
  · refine ⟨?_, ?_, ?_⟩ <;> norm_num [tourAbs, stayPoly]

/-- Inputs exist, from each state of a region to the other region. -/
theorem hop_leads (x0 : Nat → Rat) {i j : Nat} (hi : i < 2) (hj : j < 2) (h : (iv i (i + 1)).Mem x0) :
    hopSys.Leads lineTools.toPc 2 x0 (fun k _ => if k = 0 then i + 1/2 - x0 0 else (j : Rat) - i) (iv i (i + 1))
      (iv j (j + 1)) := by
  intro d hd
  obtain ⟨h1, h2⟩ := (iv_mem _ _ _).1 h
  have hd' : ∀ k < 2, -1/10 ≤ d k 0 ∧ d k 0 ≤ 1/10 := fun k hk => line_hull _ (hd lineSys_disturbed k hk)
  obtain ⟨a0, b0⟩ := hd' 0 (by omega)
  obtain ⟨a1, b1⟩ := hd' 1 (by omega)
  have hi' : (i : Rat) ≤ 1 := by exact_mod_cast Nat.lt_succ_iff.1 hi
  have hj' : (j : Rat) ≤ 1 := by exact_mod_cast Nat.lt_succ_iff.1 hj
  have hi0 : (0 : Rat) ≤ i := by exact_mod_cast Nat.zero_le i
  have hj0 : (0 : Rat) ≤ j := by exact_mod_cast Nat.zero_le j
  have hnext : ∀ x u d : Nat → Rat, hopSys.next x u d 0 = x 0 + u 0 + d 0 := line_next
  refine ⟨fun k h0 hk => ?_, ?_, fun k hk => ?_⟩
  · obtain rfl : k = 1 := by omega
    rw [iv_mem]
    simp only [Lti.traj, hnext, if_true]
    constructor <;> linarith
  · rw [iv_mem]
    simp only [Lti.traj, hnext, if_true, Nat.one_ne_zero, if_false]
    constructor <;> linarith
  · rw [hop_inputOk]
    interval_cases k
    · simp only [if_true]
      constructor <;> linarith
    · simp only [Nat.one_ne_zero, if_false]
      constructor <;> linarith

/-- `get_input` returns inputs from each state of a region to each region. -/
theorem tour_input (x0 : Nat → Rat) {i j : Nat} (hi : i < 2) (hj : j < 2) (h : (iv i (i + 1)).Mem x0) :
    ∃ res, getInput lineTools x0 1 hopSys tourAbs i j none none none .one 5 true = .ok res :=
  getInput_complete lineTools x0 1 hopSys tourAbs i j none none none .one 5 true tourAbs_setting hopSys_bounded
    (Or.inl rfl) rfl ⟨⟨rfl, rfl⟩, ⟨rfl, rfl⟩, by
      intro t ht
      cases ht
      interval_cases i <;> interval_cases j <;> simp⟩ _ _ (tour_regions hi).1 (tour_regions hj).1
    (Or.inl (by simp [effWeight])) _ (tour_regions hi).2.2 (iv j (j + 1)) (by simp [Cell.polys]) _ (hop_leads x0 hi hj h)

open Classical in
/-- The inputs that `get_input` returns. -/
noncomputable def tourIn (x0 : Nat → Rat) (i j : Nat) : Nat → Nat → Rat :=
  if h : ∃ res, getInput lineTools x0 1 hopSys tourAbs i j none none none .one 5 true = .ok res then h.choose.1
  else fun _ _ => 0

/-- The state at the end of each period. -/
noncomputable def tourAt (x0 : Nat → Rat) (w : Nat → Nat → Nat → Rat) : Nat → Nat → Rat
  | 0 => x0
  | t + 1 => hopSys.traj (tourAt x0 w t) (tourIn (tourAt x0 w t) (t % 2) ((t + 1) % 2)) (w t) 2

theorem tourIn_ok {x0 : Nat → Rat} {i j : Nat} (hi : i < 2) (hj : j < 2) (h : (iv i (i + 1)).Mem x0) :
    ∃ R' r', getInput lineTools x0 1 hopSys tourAbs i j none none none .one 5 true = .ok (tourIn x0 i j, R', r') := by
  have hex := tour_input x0 hi hj h
  unfold tourIn
  rw [dif_pos hex]
  exact ⟨hex.choose.2.1, hex.choose.2.2, hex.choose_spec⟩

theorem tour_at (x0 : Nat → Rat) (h0 : (iv 0 1).Mem x0) (w : Nat → Nat → Nat → Rat)
    (hw : ∀ t, hopSys.Possible lineTools.toPc 2 (w t)) (t : Nat) :
    (iv ((t % 2 : Nat) : Rat) ((t % 2 : Nat) + 1)).Mem (tourAt x0 w t) := by
  induction t with
  | zero => simpa [tourAt] using h0
  | succ t ih =>
    have hi : t % 2 < 2 := by omega
    have hj : (t + 1) % 2 < 2 := by omega
    obtain ⟨R', r', h⟩ := tourIn_ok hi hj ih
    obtain ⟨_, cs, ce, stay, _, hce, _, hall⟩ := getInput_reaches lineTools _ 1 hopSys tourAbs _ _ none none none .one 5
      true tourAbs_setting rfl _ R' r' h
    rw [(tour_regions hj).1] at hce
    cases hce
    obtain ⟨P, hP, hx⟩ := (hall (w t) (hw t)).2.1
    simp only [Cell.polys, List.cons_ne_nil, if_false, List.mem_singleton] at hP
    subst hP
    exact hx

/-- The closed loop runs, from each state of the first region, whatever the disturbances. -/
theorem tour_loop (x0 : Nat → Rat) (h0 : (iv 0 1).Mem x0) (w : Nat → Nat → Nat → Rat)
    (hw : ∀ t, hopSys.Possible lineTools.toPc 2 (w t)) :
    ClosedLoop lineTools hopSys tourAbs "loc" tourLabel (· % 2) (tourAt x0 w)
      (fun t => tourIn (tourAt x0 w t) (t % 2) ((t + 1) % 2)) w where
  named t := rfl
  start := ⟨_, (tour_regions (by omega)).1, _, by simp [Cell.polys], tour_at x0 h0 w hw 0⟩
  input t := by
    obtain ⟨R', r', h⟩ := tourIn_ok (i := t % 2) (j := (t + 1) % 2) (by omega) (by omega) (tour_at x0 h0 w hw t)
    exact ⟨_, _, _, _, _, _, R', r', tourAbs_setting, h⟩
  possible := hw
  next t := rfl

theorem tour_offers : Offers unitCells tourPart tourPart id hopOps.conservative tourState tourAbs where
  regions := by
    rw [tour_sol_eq]
    refine .cons (fun x => ?_) (.cons (fun x => ?_) .nil) <;>
      simp [Cell.Mem, Cell.polys, iv_mem, unitCells]
    norm_num
  origRegions := by
    refine .cons (fun x => ?_) (.cons (fun x => ?_) .nil) <;>
      simp [Cell.Mem, Cell.polys, iv_mem, unitCells]
    norm_num
  orig := by rw [tour_sol.2.1]; rfl
  pieces h c hc := ⟨c, hc, rfl⟩
  conservative := rfl

/-- **The hypotheses of C113 are met**, and the conclusion says that both places are visited again and again, whatever
the disturbances. -/
example (x0 : Nat → Rat) (h0 : 0 ≤ x0 0 ∧ x0 0 ≤ 1) (w : Nat → Nat → Nat → Rat)
    (hw : ∀ t, hopSys.Possible lineTools.toPc 2 (w t)) (σ : Trace)
    (hσ : ∀ t, Synth.Shows (Dict.update tourFull.envVars tourFull.sysVars) (tourLabel t) (σ t)) :
    tourSpec.Guarantee σ ∧ (∀ t, ∃ t' ≥ t, σ t' "lot" = .bool true) ∧
      ∀ t, σ t "lot" = .bool true → 1 ≤ tourAt x0 w t 0 ∧ tourAt x0 w t 0 ≤ 2 := by
  obtain ⟨g, hg, hreads⟩ := tour_reads
  obtain ⟨m, hm, hrun⟩ := tour_machine
  have ht : IsTour σ := ⟨fun t => (tour_shows (t := t) (fun _ _ h => h) (hσ t)).1,
    fun t => (tour_shows (t := t) (fun _ _ h => h) (hσ t)).2.1, fun t => (tour_shows (t := t) (fun _ _ h => h) (hσ t)).2.2⟩
  obtain ⟨f, hf, hall⟩ := closedLoop_correct unitCells_lawful hopOps_sound tourPart_preserving tourPart_preserving
    (fun h => nomatch h) tour_disc hg (T := tourTools) (fun _ _ => Iff.rfl) (fun l => List.Perm.refl l)
    (fun _ _ _ _ => rfl) (solver := "omega") (solve := fun _ => .ok (some tourStrategy)) rfl
    (fun f hf => (tour_correct f hf).2) tour_args (fun f hf => by rw [(tour_correct f hf).1]; exact tour_vars) hreads hm
    (C := lineTools) (s := hopSys) tour_offers rfl
  obtain rfl := (tour_correct f hf).1
  have hallow : Synth.SysAllows tourFts "loc" σ := by
    refine fun i => ⟨fun p hp => (nomatch hp), fun s _ _ ⟨e, he, _, p, hk, _⟩ => ?_⟩
    simp only [tourFts, List.mem_cons, List.not_mem_nil, or_false] at he
    rcases he with rfl | rfl | rfl | rfl <;> cases hk
  have hass : Synth.Assumes tourSpec none (some tourArg) false false σ := by
    refine ⟨⟨?_, ?_, ?_⟩, ?_, ?_, fun _ => ⟨?_, ?_⟩⟩
    · intro c hc; cases hc
    · intro c hc; cases hc
    · intro c hc; cases hc
    · rintro t h; cases h; exact hallow
    · rintro t h; cases h
    · rintro t h; cases h; exact ht.starts
    · rintro t h; cases h
  obtain ⟨h1, _, h3⟩ := hall _ _ σ _ _ _ w hrun hσ (fun h => nomatch h) hass
    (tour_loop x0 ((iv_mem _ _ _).2 h0) w hw)
  refine ⟨h1, fun t => ⟨2 * t + 1, by omega, ?_⟩, fun t hlot => ?_⟩
  · rw [ht.lot]
    have h2 : (2 * t + 1) % 2 = 1 := by omega
    simp [h2]
  · obtain ⟨q, hq, z, hz, hx⟩ := h3.holds t "lot" (by decide) hlot
    have : q = [1] := by
      have : tourProps.get? "lot" = some [1] := rfl
      rw [hq] at this
      exact Option.some.inj this
    subst this
    cases List.mem_singleton.1 hz
    norm_num at hx
    exact hx

end Abs

end Tulip
