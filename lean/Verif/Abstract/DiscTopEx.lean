import Verif.Abstract.DiscTopProps
import Verif.Abstract.ClosedLoopEx

/-!
# Examples for `Verif.Abstract.DiscTopProps`
-/

namespace Tulip

namespace Abs

/-! ## The strip of integers, with two subsystems -/

/-- A region is divided at 2. -/
def stripPieces (a : List Int) : List (List Int) :=
  [a.filter fun x => decide (x < 2), a.filter fun x => decide (2 ≤ x)].filter fun l => !l.isEmpty

def stripEnv : DiscEnv (List Int) Int ℚ where
  G := strip
  le a b := a.all fun x => decide (x ∈ b)
  pieces := stripPieces
  findAdj _ := stripAdj
  O := stripOps
  F p q sys _ _ _ t _ := stripOps.solve sys p q t
  removeTrans := false

def stripGiven : Partition (List Int) := ⟨[0, 1, 2, 3, 4, 5], stripPart, [("a", [0, 1, 2, 3]), ("b", [4, 5])]⟩

def stripSys : ContSys (List Int) := ⟨[0, 1, 2, 3, 4, 5], some [[0, 1, 2], [3, 4, 5]]⟩

theorem stripEnv_le (a b : List Int) : stripEnv.le a b = true ↔ strip.den a ⊆ strip.den b := by
  simp only [stripEnv, strip, List.all_eq_true, decide_eq_true_eq]
  exact Iff.rfl

theorem stripEnv_sound : stripEnv.Sound fun _ _ _ => stripReach :=
  ⟨⟨stripOps_sound.inter, stripOps_sound.inter_cover, stripOps_sound.diff, stripOps_sound.diff_disjoint,
    stripOps_sound.diff_cover, stripOps_sound.small, stripOps_sound.separate_sub, stripOps_sound.separate_cover,
    stripOps_sound.separate_disjoint⟩,
    fun p q sys _ _ _ t _ => stripOps_sound.solve sys p q t, fun _ _ _ => stripOps_sound.mono⟩

theorem stripPieces_convex : Convexifies strip stripPieces where
  sub r p hp x hx := by
    simp only [stripPieces, List.mem_filter, List.mem_cons, List.not_mem_nil, or_false] at hp
    rcases hp.1 with rfl | rfl
    · exact (List.mem_filter.1 hx).1
    · exact (List.mem_filter.1 hx).1
  cover r := by
    simp only [strip]
    ext x
    simp only [Set.mem_sdiff, Set.mem_ofPred_eq, Set.mem_empty_iff_false, iff_false, not_and, not_not]
    intro hx
    by_cases h : x < 2
    · have hm : x ∈ r.filter fun x => decide (x < 2) := List.mem_filter.2 ⟨hx, by simpa using h⟩
      exact ⟨_, List.mem_filter.2 ⟨by simp, by simpa using List.ne_nil_of_mem hm⟩, hm⟩
    · have hm : x ∈ r.filter fun x => decide (2 ≤ x) := List.mem_filter.2 ⟨hx, by simpa using h⟩
      exact ⟨_, List.mem_filter.2 ⟨by simp, by simpa using List.ne_nil_of_mem hm⟩, hm⟩
  disjoint r := by
    refine List.Pairwise.filter _ ?_
    simp only [List.pairwise_cons, List.mem_singleton, forall_eq, List.not_mem_nil, false_implies, implies_true,
      List.Pairwise.nil, and_true]
    simp only [strip]
    ext x
    simp only [Set.mem_inter_iff, Set.mem_ofPred_eq, List.mem_filter, decide_eq_true_eq, Set.mem_empty_iff_false, iff_false]
    rintro ⟨⟨_, h1⟩, _, h2⟩
    omega

theorem stripSys_covers : stripSys.Covers strip := by
  intro subs hs
  cases hs
  constructor
  · simp only [strip, stripSys]
    ext x
    simp
    omega
  · simp only [strip]
    simp
    ext x
    simp
    omega

/-- What is seen of an abstraction. -/
structure Seen where
  regions : List (List Int)
  orig : List Nat
  pwa : List Nat
  sys : List Nat
  trans : List (Nat × Nat)
deriving DecidableEq, Repr

def seen (r : Option (Except PyErr (AbsPwa (List Int)))) : Option Seen :=
  match r with
  | some (.ok A) => some ⟨A.ppp.regions.map (·.poly), A.ppp2origMap, A.ppp2pwaMap, A.ppp2sysMap.getD [],
      A.ts.edges.map fun e => (e.1, e.2.1)⟩
  | _ => none

theorem strip_seen : seen (discretize stripEnv stripSys stripGiven stripAdj {} "bi" 40) =
    some ⟨[[1], [2], [3], [4, 5], [0]], [0, 0, 0, 1, 0], [0, 1, 2, 3, 0], [0, 0, 1, 1, 0],
      [(0, 0), (0, 1), (1, 1), (1, 2), (2, 2), (2, 3), (3, 3), (4, 0), (4, 4)]⟩ := by
  decide +kernel

theorem ok_of_seen {r : Option (Except PyErr (AbsPwa (List Int)))} {z} (h : seen r = some z) : ∃ A, r = some (.ok A) := by
  unfold seen at h
  split at h
  · exact ⟨_, rfl⟩
  · cases h

theorem stripGiven_preserving : Preserving strip stripGiven.domain stripGiven.propRegions stripGiven.regions :=
  stripPart_preserving

/-- **The hypotheses of C115 are met**: `discretize` divides the first region, in which two subsystems are defined. -/
example : ∃ A, discretize stripEnv stripSys stripGiven stripAdj {} "bi" 40 = some (.ok A) ∧
    Mapped stripEnv stripSys stripGiven A ∧ ∃ rs, A.verifyTransitions stripEnv.le stripEnv.F = .ok rs := by
  obtain ⟨A, hA⟩ := ok_of_seen strip_seen
  have hle := fun a b => (stripEnv_le a b).2
  refine ⟨A, hA, ((discretize_spec (E := stripEnv) strip_lawful hle stripPieces_convex stripSys_covers
    stripEnv_sound stripGiven_preserving hA).2.2.2.2.2 rfl).1,
    verifyTransitions_returns (E := stripEnv) strip_lawful hle stripPieces_convex stripSys_covers rfl
      stripEnv_sound stripGiven_preserving hA fun p q k t => ⟨_, rfl⟩⟩

example := discretize_returns (E := stripEnv) strip_lawful (fun a b => (stripEnv_le a b).2) stripPieces_convex
  stripSys_covers (prm := {}) rfl stripEnv_sound stripGiven_preserving stripAdj 40

/-- With the dual-simulation algorithm the regions overlap. -/
theorem strip_dual_seen : seen (discretize stripEnv ⟨[0, 1, 2, 3, 4, 5], none⟩ stripGiven stripAdj {} "dual" 60) =
    some ⟨[[0, 1], [2, 3], [4, 5], [1], [3]], [0, 0, 1, 0, 0], [0, 1, 2, 0, 1], [],
      [(0, 0), (0, 3), (1, 1), (1, 4), (2, 2), (3, 0), (3, 1), (3, 3), (4, 1), (4, 2), (4, 4)]⟩ := by
  decide +kernel

example : ∃ A, discretize stripEnv ⟨[0, 1, 2, 3, 4, 5], none⟩ stripGiven stripAdj {} "dual" 60 = some (.ok A) ∧
    Mapped stripEnv ⟨[0, 1, 2, 3, 4, 5], none⟩ stripGiven A := by
  obtain ⟨A, hA⟩ := ok_of_seen strip_dual_seen
  exact ⟨A, hA, (discretize_dual_spec (E := stripEnv) strip_lawful (fun a b => (stripEnv_le a b).2) stripPieces_convex rfl
    rfl stripEnv_sound stripOps_dual stripGiven_preserving hA).2.1⟩

/-- **Disagreement**: `verify_transitions` raises `IndexError` for a conservative abstraction, and `ppp2orig` too. -/
theorem verifyTransitions_conservative_counterexample :
    ∃ A, discretize stripEnv stripSys stripGiven stripAdj { conservative := true } "bi" 40 = some (.ok A) ∧
      1 < A.ppp.regions.length ∧ A.ppp2orig 1 = .error .indexError ∧
      ∃ e, A.verifyTransitions stripEnv.le stripEnv.F = .error e := by
  have hs : (match discretize stripEnv stripSys stripGiven stripAdj { conservative := true } "bi" 40 with
    | some (.ok A) => decide (1 < A.ppp.regions.length) && A.ts.edges.any fun e => decide (0 < e.1)
    | _ => false) = true := by decide +kernel
  split at hs
  · rename_i A hA
    rw [Bool.and_eq_true, decide_eq_true_eq, List.any_eq_true] at hs
    obtain ⟨h1, e, he, h2⟩ := hs
    have := discretize_conservative rfl hA
    exact ⟨A, hA, h1, (this.1 1 (by omega)).1, this.2 _ _ ⟨e, he, by simpa using h2⟩⟩
  · cases hs

/-- `verify_transitions` finds the transitions of the example correct. -/
example : ∃ A rs, discretize stripEnv stripSys stripGiven stripAdj {} "bi" 40 = some (.ok A) ∧
    A.verifyTransitions stripEnv.le stripEnv.F = .ok rs ∧ rs.length = A.ts.edges.length ∧ rs.length = 9 := by
  have hs : (match discretize stripEnv stripSys stripGiven stripAdj {} "bi" 40 with
    | some (.ok A) => (match A.verifyTransitions stripEnv.le stripEnv.F with
      | .ok rs => decide (rs.length = 9) && rs.all (·.2.2)
      | _ => false)
    | _ => false) = true := by decide +kernel
  split at hs
  · rename_i A hA
    split at hs
    · rename_i rs hrs
      rw [Bool.and_eq_true, decide_eq_true_eq] at hs
      exact ⟨A, rs, hA, hrs, (verifyTransitions_sound (G := strip) (fun a b => (stripEnv_le a b).1)
        (fun p q sys t s h => stripOps_sound.solve sys p q t s h) hrs).1, hs.1⟩
    · cases hs
  · cases hs

/-! ## The closed loop -/

def tourEnv : DiscEnv (List Int) (Nat → Rat) ℚ where
  G := unitCells
  le a b := a.all fun x => decide (x ∈ b)
  pieces a := if a.isEmpty then [] else [a]
  findAdj _ := stripAdj
  O := hopOps
  F p q sys _ _ _ t _ := hopOps.solve sys p q t
  removeTrans := false

theorem tourEnv_le (a b : List Int) (h : unitCells.den a ⊆ unitCells.den b) : tourEnv.le a b = true := by
  simp only [tourEnv, List.all_eq_true, decide_eq_true_eq]
  intro z hz
  obtain ⟨w, hw, h1, h2⟩ := h (show (fun _ => (z : Rat) + 1/2) ∈ unitCells.den a from ⟨z, hz, by norm_num, by norm_num⟩)
  have h1 : (w : Rat) < z + 1 := by linarith
  have h2 : (z : Rat) < w + 1 := by linarith
  have h1 : w < z + 1 := by exact_mod_cast h1
  have h2 : z < w + 1 := by exact_mod_cast h2
  obtain rfl : w = z := by omega
  exact hw

def tourSys : ContSys (List Int) := ⟨[0, 1], none⟩

def tourPrm : DiscParams := { N := 2, closedLoop := false }

def tourGiven : Partition (List Int) := ⟨[0, 1], tourPart, tourProps⟩

theorem tourEnv_sound : tourEnv.Sound fun _ _ _ => hopReach :=
  ⟨⟨hopOps_sound.inter, hopOps_sound.inter_cover, hopOps_sound.diff, hopOps_sound.diff_disjoint,
    hopOps_sound.diff_cover, hopOps_sound.small, hopOps_sound.separate_sub, hopOps_sound.separate_cover,
    hopOps_sound.separate_disjoint⟩,
    fun p q sys _ _ _ t _ => hopOps_sound.solve sys p q t, fun _ _ _ => hopOps_sound.mono⟩

theorem tourEnv_convex : Convexifies unitCells tourEnv.pieces :=
  ⟨hopOps_sound.separate_sub, hopOps_sound.separate_cover, hopOps_sound.separate_disjoint⟩

theorem tour_discretize : ∃ A, discretize tourEnv tourSys tourGiven stripAdj tourPrm "bi" 40 = some (.ok A) ∧
    A.ppp.regions = tourPart ∧ A.ppp2origMap = [0, 1] ∧ discTs tourState tourProps.keys = (A.ts, none) := by
  have hprep : tourEnv.prepare tourSys tourPrm tourGiven stripAdj = .ok ⟨tourGiven, stripAdj, [], [0, 1]⟩ := rfl
  have hS : discretizeBi (tourEnv.ops tourSys tourPrm) tourPart stripAdj [] 40 = some (.ok tourState) := tour_disc
  obtain ⟨A, hA, hr⟩ := (discretize_returns (E := tourEnv) unitCells_lawful tourEnv_le tourEnv_convex
    (by intro s h; cases h) rfl tourEnv_sound (given := tourGiven) tourPart_preserving stripAdj 40).2 _ _ hprep hS
  obtain ⟨p, S, hp, hS', hfin⟩ := discretize_bi_ok hA
  rw [hprep] at hp
  cases hp
  obtain rfl : tourState = S := by
    have h : some (Except.ok tourState) = some (Except.ok S) := hS.symm.trans hS'
    cases h
    rfl
  obtain ⟨g, po, hg, hpo, rfl⟩ := finish_ok hfin
  refine ⟨_, hA, tour_sol_eq, ?_, hg⟩
  rw [tour_sol.2.1] at hpo
  cases hpo
  rfl

/-- **The hypotheses of C113 are met**, from `discretize` on. -/
example (x0 : Nat → Rat) (h0 : 0 ≤ x0 0 ∧ x0 0 ≤ 1) (w : Nat → Nat → Nat → Rat)
    (hw : ∀ t, hopSys.Possible lineTools.toPc 2 (w t)) (σ : Trace)
    (hσ : ∀ t, Synth.Shows (Dict.update tourFull.envVars tourFull.sysVars) (tourLabel t) (σ t)) :
    tourSpec.Guarantee σ := by
  obtain ⟨A, hA, hr, ho, hts⟩ := tour_discretize
  obtain ⟨g, hg, hreads⟩ := tour_reads
  obtain rfl : g = A.ts := by rw [hts] at hg; cases hg; rfl
  obtain ⟨_, _, _, horig, hprm, _⟩ := discretize_spec (E := tourEnv) unitCells_lawful tourEnv_le tourEnv_convex
    (by intro s h; cases h) tourEnv_sound (given := tourGiven) tourPart_preserving hA
  have hgives : Gives unitCells A tourAbs := by
    refine ⟨?_, ?_, ?_, ?_, ?_, ?_⟩
    · rw [hr, ← tour_sol_eq]; exact tour_offers.regions
    · rw [horig]; exact tour_offers.origRegions
    · rw [ho]; rfl
    · rw [hprm]; rfl
    · rw [hprm]; rfl
    · rw [hprm]; rfl
  obtain ⟨m, hm, hrun⟩ := tour_machine
  have ht : IsTour σ := ⟨fun t => (tour_shows (t := t) (fun _ _ h => h) (hσ t)).1,
    fun t => (tour_shows (t := t) (fun _ _ h => h) (hσ t)).2.1, fun t => (tour_shows (t := t) (fun _ _ h => h) (hσ t)).2.2⟩
  obtain ⟨f, hf, hall⟩ := closedLoop_discretize (E := tourEnv) unitCells_lawful tourEnv_le tourEnv_convex
    (by intro s h; cases h) tourEnv_sound (given := tourGiven) tourPart_preserving hA rfl
    (T := tourTools) (fun _ _ => Iff.rfl) (fun l => List.Perm.refl l)
    (fun _ _ _ _ => rfl) (solver := "omega") (solve := fun _ => .ok (some tourStrategy)) rfl
    (fun f hf => (tour_correct f hf).2) tour_args (fun f hf => by rw [(tour_correct f hf).1]; exact tour_vars) hreads hm
    (C := lineTools) (s := hopSys) hgives
  obtain rfl := (tour_correct f hf).1
  have hallow : Synth.SysAllows tourFts "loc" σ := by
    refine fun i => ⟨fun p hp => (nomatch hp), fun s _ _ ⟨e, he, _, p, hk, _⟩ => ?_⟩
    simp only [tourFts, List.mem_cons, List.not_mem_nil, or_false] at he
    rcases he with rfl | rfl | rfl | rfl <;> cases hk
  have hass : Synth.Assumes tourSpec none (some tourArg) false false σ := by
    refine ⟨⟨?_, ?_, ?_⟩, ?_, ?_, fun _ => ⟨?_, ?_⟩⟩
    · intro c hc; cases hc
    · intro c hc; cases hc
    · intro c hc; cases hc
    · rintro t h; cases h; exact hallow
    · rintro t h; cases h
    · rintro t h; cases h; exact ht.starts
    · rintro t h; cases h
  exact (hall _ _ σ _ _ _ w hrun hσ (fun h => nomatch h) hass (tour_loop x0 ((iv_mem _ _ _).2 h0) w hw)).1

end Abs

end Tulip
