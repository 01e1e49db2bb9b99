import Verif.Abstract.DiscReachProps
import Verif.Abstract.DiscTopEx

/-!
# Examples for `Verif.Abstract.DiscReachProps`
-/

namespace Tulip

namespace Abs

/-- The number line: a polytope is an interval `[z, z + 1]`. -/
def hopSolver : Solver (List Int) where
  parts a := if a.length ≤ 1 then [] else a.map fun z => [z]
  sorted a := if a.length ≤ 1 then [] else a.map fun z => [z]
  region l := if l.all fun a => decide (a.length = 1) then l.flatten else []
  union a b := a ++ b
  reduce a := a
  fulldim a := !a.isEmpty
  empty := []
  emptyRegion := []
  poly p1 p2 _ N stay :=
    match p1, p2 with
    | [z], [w] => if (N = 1 ∨ N = 2 ∧ stay = [z]) ∧ z - w ≤ 2 ∧ w - z ≤ 2 then [z] else []
    | _, _ => []
  le a b := a.all fun x => decide (x ∈ b)

theorem den_single (z : Int) : unitCells.den [z] = {x | (iv z (z + 1)).Mem x} := by
  ext x
  simp only [unitCells, List.mem_singleton, exists_eq_left, Set.mem_ofPred_eq, iv_mem]

theorem hopSys_shaped : hopSys.Shaped := ⟨rfl, by decide, rfl, rfl, ⟨rfl, rfl⟩, Or.inl rfl⟩

theorem hop_states (z w : Int) (N : Nat) (c : HP Rat) (hc : c.A.cols = 1) (hN : N = 1 ∨ N = 2 ∧ c = iv z (z + 1))
    (h1 : z - w ≤ 2) (h2 : w - z ≤ 2) (x : Nat → Rat) (hx : (iv z (z + 1)).Mem x) :
    x ∈ polyStates linePc hopSys N (iv z (z + 1)) c (iv w (w + 1)) := by
  have hnext : ∀ x u d : Nat → Rat, hopSys.next x u d 0 = x 0 + u 0 + d 0 := line_next
  have h1 : (z : Rat) - w ≤ 2 := by exact_mod_cast h1
  have h2 : (w : Rat) - z ≤ 2 := by exact_mod_cast h2
  obtain ⟨L, M, hLM, _, hspec⟩ := createLM3_spec linePc hopSys hopSys_shaped lineSys_dist N (by omega) (iv z (z + 1)) c
    (iv w (w + 1)) rfl hc rfl (Or.inl rfl)
  obtain ⟨a, b⟩ := (iv_mem _ _ _).1 hx
  rcases hN with rfl | ⟨rfl, rfl⟩
  · refine ⟨L, M, fun _ _ => w + 1/2 - x 0, hLM, (hspec _ _).2 ⟨hx, fun d hd => ⟨fun k h0 h1 => by omega, ?_, fun k hk => ?_⟩⟩⟩
    · obtain ⟨a0, b0⟩ := line_hull _ (hd lineSys_disturbed 0 (by omega))
      rw [iv_mem]
      simp only [Lti.traj, hnext]
      constructor <;> linarith
    · rw [hop_inputOk]
      constructor <;> linarith
  · refine ⟨L, M, fun k _ => if k = 0 then z + 1/2 - x 0 else w - z, hLM, (hspec _ _).2 ⟨hx, fun d hd => ⟨fun k h0 h1 => ?_, ?_, fun k hk => ?_⟩⟩⟩
    · obtain ⟨a0, b0⟩ := line_hull _ (hd lineSys_disturbed 0 (by omega))
      obtain rfl : k = 1 := by omega
      rw [iv_mem]
      simp only [Lti.traj, hnext, if_true]
      constructor <;> linarith
    · obtain ⟨a0, b0⟩ := line_hull _ (hd lineSys_disturbed 0 (by omega))
      obtain ⟨a1, b1⟩ := line_hull _ (hd lineSys_disturbed 1 (by omega))
      rw [iv_mem]
      simp only [Lti.traj, hnext, if_true, Nat.one_ne_zero, if_false]
      constructor <;> linarith
    · rw [hop_inputOk]
      interval_cases k
      · simp only [if_true]
        constructor <;> linarith
      · simp only [Nat.one_ne_zero, if_false]
        constructor <;> linarith

theorem hopSolver_linear : hopSolver.Linear unitCells.den linePc fun _ => hopSys where
  parts_sub p q hq x hx := by
    simp only [hopSolver] at hq
    split at hq
    · cases hq
    · obtain ⟨z, hz, rfl⟩ := List.mem_map.1 hq
      obtain ⟨w, hw, hx⟩ := hx
      cases List.mem_singleton.1 hw
      exact ⟨_, hz, hx⟩
  sorted_perm p := List.Perm.refl _
  region_parts l q hq := by
    simp only [hopSolver] at hq
    split at hq
    · rename_i h
      rw [List.all_eq_true] at h
      split at hq
      · cases hq
      · obtain ⟨z, hz, rfl⟩ := List.mem_map.1 hq
        obtain ⟨a, ha, hz⟩ := List.mem_flatten.1 hz
        have hl := h a ha
        rw [decide_eq_true_eq] at hl
        obtain ⟨y, rfl⟩ := List.length_eq_one_iff.1 hl
        cases List.mem_singleton.1 hz
        exact ha
    · simp at hq
  region_sub l x hx := by
    simp only [hopSolver] at hx
    split at hx
    · obtain ⟨z, hz, hx⟩ := hx
      obtain ⟨a, ha, hz⟩ := List.mem_flatten.1 hz
      exact ⟨a, ha, z, hz, hx⟩
    · obtain ⟨z, hz, _⟩ := hx
      cases hz
  union_sub a b x := by
    rintro ⟨z, hz, hx⟩
    rcases List.mem_append.1 hz with hz | hz
    · exact Or.inl ⟨z, hz, hx⟩
    · exact Or.inr ⟨z, hz, hx⟩
  reduce_sub a := le_refl _
  empty := by ext x; simp [hopSolver, unitCells]
  emptyRegion := by ext x; simp [hopSolver, unitCells]
  le a b h x := by
    rintro ⟨z, hz, hx⟩
    simp only [hopSolver, List.all_eq_true, decide_eq_true_eq] at h
    exact ⟨z, h z hz, hx⟩
  poly p1 p2 sys N stay x hx := by
    simp only [hopSolver] at hx
    split at hx
    · rename_i z w
      split at hx
      · rename_i h
        have hx' := hx
        rw [den_single] at hx'
        refine ⟨iv z (z + 1), iv w (w + 1), iv z (z + 1), den_single z, den_single w, ?_, rfl, rfl, rfl, Or.inl rfl,
          hop_states z w N _ rfl ?_ h.2.1 h.2.2 x hx'⟩
        · rcases h.1 with h | ⟨_, rfl⟩
          · exact Or.inl h
          · exact Or.inr (den_single z)
        · rcases h.1 with h | ⟨h, _⟩
          · exact Or.inl h
          · exact Or.inr ⟨h, rfl⟩
      · obtain ⟨z, hz, _⟩ := hx
        cases hz
    · obtain ⟨z, hz, _⟩ := hx
      cases hz

def reachEnv : DiscEnv (List Int) (Nat → Rat) ℚ :=
  { tourEnv with F := fun p q sys N cl all t m => solveFeasible hopSolver p q sys N cl all t m }

theorem reachEnv_sets : reachEnv.SetsOk := 
  ⟨hopOps_sound.inter, hopOps_sound.inter_cover, hopOps_sound.diff, hopOps_sound.diff_disjoint, hopOps_sound.diff_cover,
    hopOps_sound.small, hopOps_sound.separate_sub, hopOps_sound.separate_cover, hopOps_sound.separate_disjoint⟩

/-- What is seen of the transitions and regions. -/
def seenTrans {Q : Type} (r : Option (Except PyErr (AbsPwa Q))) : Option (List (Nat × Nat) × List Q) :=
  match r with
  | some (.ok A) => some (A.ts.edges.map fun e => (e.1, e.2.1), A.ppp.regions.map (·.poly))
  | _ => none

/-- The inputs depend on the states or not; the horizon is 2. -/
theorem reach_seen (cl : Bool) :
    seenTrans (discretize reachEnv tourSys tourGiven stripAdj { N := 2, closedLoop := cl } "bi" 40) =
      some ([(0, 0), (0, 1), (1, 0), (1, 1)], [[0], [1]]) := by
  cases cl <;> decide +kernel

/-- **The hypotheses of C124 are met**: the state goes back and forth between the two intervals, whatever the disturbances, but
for finitely many points. -/
example (cl : Bool) : ∃ F : Nat → List Rat, ∃ g : Nat → (Nat → Rat) → Nat → Rat, ∀ x w : Nat → Nat → Rat,
    (∀ t, InHull (linePc.extreme hopSys.W) (w t)) → (∀ t, x (t + 1) = hopSys.next (x t) (g t (x t)) (w t)) →
    (0 ≤ x 0 0 ∧ x 0 0 ≤ 1) → ∀ n, (∀ m < n, x (m * 2) 0 ∉ F m) → ((n % 2 : Nat) : Rat) ≤ x (n * 2) 0 ∧ x (n * 2) 0 ≤ (n % 2 : Nat) + 1 := by
  obtain ⟨A, hA, hts, hreg⟩ : ∃ A, discretize reachEnv tourSys tourGiven stripAdj { N := 2, closedLoop := cl } "bi" 40 =
      some (.ok A) ∧ (A.ts.edges.map fun e => (e.1, e.2.1)) = [(0, 0), (0, 1), (1, 0), (1, 1)] ∧
      A.ppp.regions.map (·.poly) = [[0], [1]] := by
    have h := reach_seen cl
    unfold seenTrans at h
    split at h
    · rename_i A hA
      simp only [Option.some.injEq, Prod.mk.injEq] at h
      exact ⟨A, hA, h.1, h.2⟩
    · cases h
  have hpath : ∀ n, ∃ a, (n % 2, (n + 1) % 2, a) ∈ A.ts.edges := by
    intro n
    have : (n % 2, (n + 1) % 2) ∈ A.ts.edges.map fun e => (e.1, e.2.1) := by
      rw [hts]
      rcases Nat.mod_two_eq_zero_or_one n with h | h
      · rw [h, show (n + 1) % 2 = 1 by omega]; simp
      · rw [h, show (n + 1) % 2 = 0 by omega]; simp
    obtain ⟨⟨i, j, a⟩, he, h⟩ := List.mem_map.1 this
    cases h
    exact ⟨a, he⟩
  obtain ⟨r, c, k, hr, exc, hexc, g, hg⟩ := discretize_paths (E := reachEnv) unitCells_lawful tourEnv_le tourEnv_convex
    reachEnv_sets (by intro s h; cases h) hopSolver_linear (fun _ => hopSys_shaped) (fun _ => lineSys_dist)
    (fun _ _ _ _ _ _ _ _ => rfl) rfl rfl (by show 0 < 2; omega) (given := tourGiven) tourPart_preserving hA (· % 2) hpath
  have hden : ∀ n x, x ∈ unitCells.den (r n).poly ↔ ((n % 2 : Nat) : Rat) ≤ x 0 ∧ x 0 ≤ (n % 2 : Nat) + 1 := by
    intro n x
    have h1 := congrArg (fun l => l[n % 2]?) hreg
    simp only [List.getElem?_map, (hr n).1, Option.map_some] at h1
    rcases Nat.mod_two_eq_zero_or_one n with h | h
    · rw [h] at h1 ⊢
      simp only [List.getElem?_cons_zero, Option.some.injEq] at h1
      rw [h1, den_single]
      simp [iv_mem]
    · rw [h] at h1 ⊢
      simp only [List.getElem?_cons_succ, List.getElem?_cons_zero, Option.some.injEq] at h1
      rw [h1, den_single]
      simp [iv_mem]
  choose F hF using hexc
  refine ⟨F, g, fun x w hw hx h0 n hn => ?_⟩
  have := (hg x w (fun t _ => hw t) hx ((hden 0 _).2 (by simpa using h0)) n fun m hm he => hn m hm (hF m _ he)).1
  exact (hden n _).1 this

end Abs

end Tulip
