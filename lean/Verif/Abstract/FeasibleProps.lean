import Verif.Abstract.Feasible
import Mathlib.Data.Set.Lattice
import Mathlib.Data.Set.Insert

/-!
# Reachability: theorems about `tulip/abstract/feasible.py`
-/

namespace Tulip

namespace Abs

variable {P X U W : Type}

/-! ## Specification -/

/-- A system in discrete time with an input and a disturbance. -/
structure Dyn (X U W : Type) where
  /-- The inputs allowed in a state. -/
  input : X → Set U
  /-- The possible disturbances. -/
  dist : Set W
  next : X → U → W → X

/-- The controller can force the next state to be in `T`. -/
def Dyn.Pre (D : Dyn X U W) (T : Set X) : Set X :=
  {x | ∃ u ∈ D.input x, ∀ w ∈ D.dist, D.next x u w ∈ T}

/-- The controller, which observes the state, can reach `T` in exactly `n` steps; all states before
are in `stay`. -/
def Dyn.Exactly (D : Dyn X U W) (stay T : Set X) : Nat → Set X
  | 0 => T
  | n + 1 => {x | x ∈ stay ∧ ∃ u ∈ D.input x, ∀ w ∈ D.dist, D.next x u w ∈ D.Exactly stay T n}

/-- The controller can reach `T` in at most `n` steps; all states before are in `stay`. -/
def Dyn.Within (D : Dyn X U W) (stay T : Set X) : Nat → Set X
  | 0 => T
  | n + 1 => {x | x ∈ T ∨ x ∈ stay ∧ ∃ u ∈ D.input x, ∀ w ∈ D.dist, D.next x u w ∈ D.Within stay T n}

/-- Inputs chosen in advance lead to `T`, for all disturbances, in as many steps as there are inputs,
through states of `stay`; each input is allowed in the state where it is applied. -/
def Dyn.Open (D : Dyn X U W) (stay T : Set X) : List U → Set X
  | [] => T
  | u :: us => {x | x ∈ stay ∧ u ∈ D.input x ∧ ∀ w ∈ D.dist, D.next x u w ∈ D.Open stay T us}

/-- What is assumed of `polytope` and of `poly_to_poly`: they return no point that they should not. -/
structure Solver.Sound (S : Solver P) (den : P → Set X) (D : Nat → Dyn X U W) : Prop where
  parts_sub : ∀ p, ∀ q ∈ S.parts p, den q ⊆ den p
  sorted_perm : ∀ p, (S.sorted p).Perm (S.parts p)
  region_parts : ∀ l, ∀ q ∈ S.parts (S.region l), q ∈ l
  region_sub : ∀ l, den (S.region l) ⊆ {x | ∃ q ∈ l, x ∈ den q}
  union_sub : ∀ a b, den (S.union a b) ⊆ den a ∪ den b
  reduce_sub : ∀ a, den (S.reduce a) ⊆ den a
  empty : den S.empty = ∅
  emptyRegion : den S.emptyRegion = ∅
  /-- The states of `p1` from where inputs chosen in advance lead to `p2` in `N + 1` steps, through
  states of `stay`. -/
  poly : ∀ p1 p2 sys N stay x, x ∈ den (S.poly p1 p2 sys (N + 1) stay) → x ∈ den p1 ∧
    ∃ u us, us.length = N ∧ u ∈ (D sys).input x ∧
      ∀ w ∈ (D sys).dist, (D sys).next x u w ∈ (D sys).Open (den stay) (den p2) us
  le : ∀ a b, S.le a b = true → den a ⊆ den b

variable {S : Solver P} {den : P → Set X} {D : Nat → Dyn X U W}

theorem Dyn.exactly_mono (D : Dyn X U W) {s s' T T' : Set X} (hs : s ⊆ s') (hT : T ⊆ T') (n : Nat) :
    D.Exactly s T n ⊆ D.Exactly s' T' n := by
  induction n with
  | zero => exact hT
  | succ n ih =>
    rintro x ⟨hx, u, hu, h⟩
    exact ⟨hs hx, u, hu, fun w hw => ih (h w hw)⟩

theorem Dyn.within_mono (D : Dyn X U W) {s s' T T' : Set X} (hs : s ⊆ s') (hT : T ⊆ T') (n : Nat) :
    D.Within s T n ⊆ D.Within s' T' n := by
  induction n with
  | zero => exact hT
  | succ n ih =>
    rintro x (hx | ⟨hx, u, hu, h⟩)
    · exact Or.inl (hT hx)
    · exact Or.inr ⟨hs hx, u, hu, fun w hw => ih (h w hw)⟩

theorem Dyn.open_mono (D : Dyn X U W) {s s' T T' : Set X} (hs : s ⊆ s') (hT : T ⊆ T') (us : List U) :
    D.Open s T us ⊆ D.Open s' T' us := by
  induction us with
  | nil => exact hT
  | cons u us ih =>
    rintro x ⟨hx, hu, h⟩
    exact ⟨hs hx, hu, fun w hw => ih (h w hw)⟩

/-- Inputs chosen in advance are a special case of a controller that observes the state. -/
theorem Dyn.open_exactly (D : Dyn X U W) {s T : Set X} (us : List U) :
    D.Open s T us ⊆ D.Exactly s T us.length := by
  induction us with
  | nil => exact le_refl _
  | cons u us ih =>
    rintro x ⟨hx, hu, h⟩
    exact ⟨hx, u, hu, fun w hw => ih (h w hw)⟩

theorem Dyn.exactly_within (D : Dyn X U W) {s T : Set X} (n : Nat) :
    D.Exactly s T n ⊆ D.Within s T n := by
  induction n with
  | zero => exact le_refl _
  | succ n ih =>
    rintro x ⟨hx, u, hu, h⟩
    exact Or.inr ⟨hx, u, hu, fun w hw => ih (h w hw)⟩

theorem volumes_sub (h : S.Sound den D) (p : P) (m : Nat) :
    den (volumesForReachability S p m) ⊆ den p ∧
    ∀ q ∈ polys S (volumesForReachability S p m), den q ⊆ den p := by
  have hp : ∀ r, den r ⊆ den p → (∀ q ∈ S.parts r, den q ⊆ den p) →
      ∀ q ∈ polys S r, den q ⊆ den p := by
    intro r hr hq q hq'
    unfold polys at hq'
    split at hq'
    · cases List.mem_singleton.1 hq'
      exact hr
    · exact hq q hq'
  unfold volumesForReachability
  split
  · exact ⟨le_refl _, hp p (le_refl _) (h.parts_sub p)⟩
  · have hm : ∀ q ∈ (S.sorted p).take m, den q ⊆ den p := fun q hq =>
      h.parts_sub p q ((h.sorted_perm p).mem_iff.1 (List.mem_of_mem_take hq))
    have hs : den (S.region ((S.sorted p).take m)) ⊆ den p := by
      intro x hx
      obtain ⟨q, hq, hx⟩ := h.region_sub _ hx
      exact hm q hq hx
    exact ⟨hs, hp _ hs fun q hq => hm q (h.region_parts _ q hq)⟩

/-- The open-loop solver: from each point returned, inputs chosen in advance lead to `p2`. -/
theorem solveOpenLoop_sound (h : S.Sound den D) (p1 p2 : P) (sys N : Nat) (trans : Option P) (m : Nat)
    (x : X) (hx : x ∈ den (solveOpenLoop S p1 p2 sys (N + 1) trans m)) :
    x ∈ den p1 ∧ ∃ u us, us.length = N ∧ u ∈ (D sys).input x ∧ ∀ w ∈ (D sys).dist,
      (D sys).next x u w ∈ (D sys).Open (den (trans.getD p1)) (den p2) us := by
  unfold solveOpenLoop at hx
  have key : ∀ (l : List (P × P)) (s : P),
      (∀ ab ∈ l, den ab.1 ⊆ den p1 ∧ den ab.2 ⊆ den p2) →
      x ∈ den (l.foldl (fun s0 ab => S.union s0 (polyToPoly S ab.1 ab.2 sys (N + 1) trans)) s) →
      x ∈ den s ∨ ∃ ab ∈ l, x ∈ den (polyToPoly S ab.1 ab.2 sys (N + 1) trans) := by
    intro l
    induction l with
    | nil => exact fun s _ h => Or.inl h
    | cons ab l ih =>
      intro s hl hx
      rcases ih _ (fun ab h => hl ab (by simp [h])) hx with hx | ⟨cd, hcd, hx⟩
      · rcases h.union_sub _ _ hx with hx | hx
        · exact Or.inl hx
        · exact Or.inr ⟨ab, by simp, hx⟩
      · exact Or.inr ⟨cd, by simp [hcd], hx⟩
  have hsub : ∀ ab ∈ (polys S (volumesForReachability S p1 m)).flatMap fun a =>
      (polys S (volumesForReachability S p2 m)).map fun b => (a, b),
      den ab.1 ⊆ den p1 ∧ den ab.2 ⊆ den p2 := by
    intro ab hab
    simp only [List.mem_flatMap, List.mem_map] at hab
    obtain ⟨a, ha, b, hb, rfl⟩ := hab
    exact ⟨(volumes_sub h p1 m).2 a ha, (volumes_sub h p2 m).2 b hb⟩
  rcases key _ _ hsub hx with hx | ⟨ab, hab, hx⟩
  · rw [h.empty] at hx; cases hx
  · obtain ⟨h1, u, us, h2, h3, h4⟩ := h.poly _ _ _ _ _ _ hx
    refine ⟨(hsub ab hab).1 h1, u, us, h2, h3, fun w hw => ?_⟩
    refine (D sys).open_mono ?_ (hsub ab hab).2 us (h4 w hw)
    cases trans with
    | none => exact (hsub ab hab).1
    | some t => exact le_refl _

theorem solveOne_sound (h : S.Sound den D) (p1 p2 : P) (sys : Nat) (trans : Option P) (m : Nat)
    (x : X) (hx : x ∈ den (solveOpenLoop S p1 p2 sys 1 trans m)) :
    x ∈ den p1 ∧ x ∈ (D sys).Pre (den p2) := by
  obtain ⟨h1, u, us, h2, h3, h4⟩ := solveOpenLoop_sound h p1 p2 sys 0 trans m x hx
  cases List.eq_nil_of_length_eq_zero h2
  exact ⟨h1, u, h3, h4⟩

/-- **C61**. The closed-loop solver with a fixed horizon: the points returned are in `P1`, and the
controller can reach `P2` in exactly `N` steps, through states of the transition set (`P1` by
default). -/
theorem solveFixed_sound (h : S.Sound den D) (p1 p2 : P) (sys N : Nat) (trans : Option P) :
    (N = 0 → solveFixed S p1 p2 sys N trans = .error .assertion) ∧
    (0 < N → ∃ s, solveFixed S p1 p2 sys N trans = .ok s ∧
      den s ⊆ {x | x ∈ den p1 ∧
        x ∈ (D sys).Pre ((D sys).Exactly (den (trans.getD p1)) (den p2) (N - 1))}) := by
  have key : ∀ n k q, den q ⊆ (D sys).Exactly (den (trans.getD p1)) (den p2) k →
      den (fixedLoop S p1 (trans.getD p1) sys trans (n + 1) q) ⊆ {x | x ∈ den p1 ∧
        x ∈ (D sys).Pre ((D sys).Exactly (den (trans.getD p1)) (den p2) (k + n))} := by
    intro n
    induction n with
    | zero =>
      intro k q hq x hx
      unfold fixedLoop at hx
      simp only [Nat.zero_add, if_true] at hx
      split at hx
      · unfold fixedLoop at hx
        obtain ⟨h1, u, hu, hw⟩ := solveOne_sound h _ _ _ _ _ x (h.reduce_sub _ hx)
        exact ⟨h1, u, hu, fun w hw' => hq (hw w hw')⟩
      · rw [h.empty] at hx; cases hx
    | succ n ih =>
      intro k q hq x hx
      unfold fixedLoop at hx
      simp only [if_neg (show ¬ (n + 1 + 1 = 1) by omega)] at hx
      split at hx
      · have := ih (k + 1) _ ?_ hx
        · rwa [show k + 1 + n = k + (n + 1) by omega] at this
        · intro y hy
          obtain ⟨h1, u, hu, hw⟩ := solveOne_sound h _ _ _ _ _ y (h.reduce_sub _ hy)
          exact ⟨h1, u, hu, fun w hw' => hq (hw w hw')⟩
      · rw [h.empty] at hx; cases hx
  constructor
  · intro hN
    unfold solveFixed
    rw [if_pos hN]
  · intro hN
    refine ⟨_, by unfold solveFixed; rw [if_neg (by omega)], ?_⟩
    obtain ⟨n, rfl⟩ : ∃ n, N = n + 1 := ⟨N - 1, by omega⟩
    simpa using key n 0 p2 (le_refl _)

/-- **C61**. The variant for reachability within `N` steps: the points returned are in `P1`, and the
controller can reach `P2` in `1..N` steps, through states of the transition set. -/
theorem attractor_sound (h : S.Sound den D) (p1 p2 : P) (sys N : Nat) (trans : Option P) :
    (N = 0 → attractor S p1 p2 sys N trans = .error .assertion) ∧
    (0 < N → ∃ s, attractor S p1 p2 sys N trans = .ok s ∧
      den s ⊆ {x | x ∈ den p1 ∧
        x ∈ (D sys).Pre ((D sys).Within (den (trans.getD p1)) (den p2) (N - 1))}) := by
  have key : ∀ n k q r, den q ⊆ (D sys).Within (den (trans.getD p1)) (den p2) k →
      den (attractorLoop S p1 (trans.getD p1) sys trans (n + 1) q r) ⊆ {x | x ∈ den p1 ∧
        x ∈ (D sys).Pre ((D sys).Within (den (trans.getD p1)) (den p2) (k + n))} := by
    intro n
    induction n with
    | zero =>
      intro k q r hq x hx
      unfold attractorLoop at hx
      simp only [Nat.zero_add, if_true] at hx
      split at hx
      · unfold attractorLoop at hx
        obtain ⟨h1, u, hu, hw⟩ := solveOne_sound h _ _ _ _ _ x hx
        exact ⟨h1, u, hu, fun w hw' => hq (hw w hw')⟩
      · rw [h.empty] at hx; cases hx
    | succ n ih =>
      intro k q r hq x hx
      unfold attractorLoop at hx
      simp only [if_neg (show ¬ (n + 1 + 1 = 1) by omega)] at hx
      split at hx
      · have := ih (k + 1) _ _ ?_ hx
        · rwa [show k + 1 + n = k + (n + 1) by omega] at this
        · intro y hy
          rcases h.union_sub _ _ (h.reduce_sub _ hy) with hy | hy
          · have : ∀ k, (D sys).Within (den (trans.getD p1)) (den p2) k ⊆
                (D sys).Within (den (trans.getD p1)) (den p2) (k + 1) := by
              intro k
              induction k with
              | zero => exact fun z hz => Or.inl hz
              | succ k ih =>
                rintro z (hz | ⟨hz, u, hu, hw⟩)
                · exact Or.inl hz
                · exact Or.inr ⟨hz, u, hu, fun w hw' => ih (hw w hw')⟩
            exact this k (hq hy)
          · obtain ⟨h1, u, hu, hw⟩ := solveOne_sound h _ _ _ _ _ y hy
            exact Or.inr ⟨h1, u, hu, fun w hw' => hq (hw w hw')⟩
      · rw [h.empty] at hx; cases hx
  constructor
  · intro hN
    unfold attractor
    rw [if_pos hN]
  · intro hN
    refine ⟨_, by unfold attractor; rw [if_neg (by omega)], ?_⟩
    obtain ⟨n, rfl⟩ : ∃ n, N = n + 1 := ⟨N - 1, by omega⟩
    simpa using key n 0 p2 _ (le_refl _)

/-- **C61**. `is_feasible`: if it returns `True`, then from each point of `from_region` the controller
can reach `to_region` in exactly `N` steps (within `1..N` steps, for `use_all_horizon`), through states
of the transition set. -/
theorem isFeasible_sound (h : S.Sound den D) {p1 p2 : P} {sys N : Nat} {closedLoop useAll : Bool}
    {trans : Option P} (hN : 0 < N)
    (hf : isFeasible S p1 p2 sys N closedLoop useAll trans = .ok true) :
    ∀ x ∈ den p1, x ∈ (D sys).Pre
      (if useAll then (D sys).Within (den (trans.getD p1)) (den p2) (N - 1)
       else (D sys).Exactly (den (trans.getD p1)) (den p2) (N - 1)) := by
  intro x hx
  unfold isFeasible solveFeasible at hf
  cases closedLoop with
  | true =>
    cases useAll with
    | true =>
      obtain ⟨s, hs, hsub⟩ := (attractor_sound h p1 p2 sys N trans).2 hN
      simp only [if_true, hs, Except.map, Except.ok.injEq] at hf
      exact (hsub (h.le _ _ hf hx)).2
    | false =>
      obtain ⟨s, hs, hsub⟩ := (solveFixed_sound h p1 p2 sys N trans).2 hN
      simp only [if_true, Bool.false_eq_true, if_false, hs, Except.map, Except.ok.injEq] at hf
      exact (hsub (h.le _ _ hf hx)).2
  | false =>
    cases useAll with
    | true => simp [Except.map] at hf
    | false =>
      simp only [Bool.false_eq_true, if_false, Except.map, Except.ok.injEq] at hf
      obtain ⟨n, rfl⟩ : ∃ n, N = n + 1 := ⟨N - 1, by omega⟩
      obtain ⟨_, u, us, h2, h3, h4⟩ := solveOpenLoop_sound h p1 p2 sys n trans _ x (h.le _ _ hf hx)
      refine ⟨u, h3, fun w hw => ?_⟩
      have := (D sys).open_exactly us (h4 w hw)
      rwa [h2] at this

/-- A region of at most `m` polytopes is used as a whole; of a larger one, `m` of its polytopes are used. -/
theorem volumes_spec (hs : ∀ p, (S.sorted p).Perm (S.parts p)) (p : P) (m : Nat) :
    ((S.parts p).length ≤ m → volumesForReachability S p m = p) ∧
    (m < (S.parts p).length → ∃ l, volumesForReachability S p m = S.region l ∧ l.length = m ∧
      ∃ rest, (l ++ rest).Perm (S.parts p)) := by
  unfold volumesForReachability
  refine ⟨fun h => if_pos h, fun h => ?_⟩
  refine ⟨_, if_neg (by omega), ?_, (S.sorted p).drop m, by rw [List.take_append_drop]; exact hs p⟩
  rw [List.length_take, (hs p).length_eq]
  omega

/-- With an exact union, the open-loop solver returns for regions of at most `m` polytopes exactly the points that
the solver for polytopes returns for some pair of them. -/
theorem solveOpenLoop_exact (hu : ∀ a b, den (S.union a b) = den a ∪ den b) (he : den S.empty = ∅) (p1 p2 : P)
    (sys N : Nat) (trans : Option P) (m : Nat) (h1 : (S.parts p1).length ≤ m) (h2 : (S.parts p2).length ≤ m) :
    den (solveOpenLoop S p1 p2 sys N trans m) =
      {x | ∃ a ∈ polys S p1, ∃ b ∈ polys S p2, x ∈ den (S.poly a b sys N (trans.getD a))} := by
  have hv : ∀ p, (S.parts p).length ≤ m → volumesForReachability S p m = p := fun p h => if_pos h
  have key : ∀ (l : List (P × P)) (s : P), den (l.foldl (fun s0 ab => S.union s0 (polyToPoly S ab.1 ab.2 sys N trans)) s) =
      den s ∪ {x | ∃ ab ∈ l, x ∈ den (polyToPoly S ab.1 ab.2 sys N trans)} := by
    intro l
    induction l with
    | nil => intro s; simp
    | cons ab l ih =>
      intro s
      rw [List.foldl_cons, ih, hu]
      ext x
      simp only [Set.mem_union, Set.mem_ofPred_eq, List.mem_cons, exists_eq_or_imp, or_assoc]
  unfold solveOpenLoop
  simp only [hv p1 h1, hv p2 h2]
  rw [key, he, Set.empty_union]
  ext x
  simp only [Set.mem_ofPred_eq, List.mem_flatMap, List.mem_map, polyToPoly]
  constructor
  · rintro ⟨ab, ⟨a, ha, b, hb, rfl⟩, hx⟩
    exact ⟨a, ha, b, hb, hx⟩
  · rintro ⟨a, ha, b, hb, hx⟩
    exact ⟨(a, b), ⟨a, ha, b, hb, rfl⟩, hx⟩

/-! ## An exact solver

For convex polytopes (one part each), with exact operations, the closed-loop solver with a fixed horizon
is exact. -/

/-- Exact operations on sets that are polytopes. -/
structure Solver.Exact (S : Solver P) (den : P → Set X) (D : Nat → Dyn X U W) : Prop where
  parts : ∀ p, S.parts p = []
  union_empty : ∀ a, den (S.union S.empty a) = den a
  reduce : ∀ a, den (S.reduce a) = den a
  empty : den S.empty = ∅
  thin : ∀ a, S.fulldim a = false → den a = ∅
  poly : ∀ p1 p2 sys stay, den (S.poly p1 p2 sys 1 stay) = {x | x ∈ den p1 ∧ x ∈ (D sys).Pre (den p2)}

theorem solveOne_exact (h : S.Exact den D) (p1 p2 : P) (sys : Nat) (trans : Option P) :
    den (solveOpenLoop S p1 p2 sys 1 trans) = {x | x ∈ den p1 ∧ x ∈ (D sys).Pre (den p2)} := by
  have hv : ∀ p, volumesForReachability S p 5 = p := by
    intro p
    unfold volumesForReachability
    rw [if_pos (by rw [h.parts]; simp)]
  have hp : ∀ p, polys S p = [p] := by
    intro p
    unfold polys
    rw [if_pos (by rw [h.parts]; rfl)]
  unfold solveOpenLoop
  simp only [hv, hp, List.flatMap_cons, List.flatMap_nil, List.map_cons, List.map_nil,
    List.append_nil, List.foldl_cons, List.foldl_nil]
  rw [h.union_empty, polyToPoly, h.poly]

/-- If each state of a disturbed system has a successor, a set that no point can reach cannot be reached
later either; for such systems the solver with fixed horizon is exact. -/
theorem solveFixed_exact (h : S.Exact den D) (hw : ∀ sys, ∃ w, w ∈ (D sys).dist) (p1 p2 : P)
    (sys N : Nat) (trans : Option P) (hN : 0 < N) :
    ∃ s, solveFixed S p1 p2 sys N trans = .ok s ∧
      den s = {x | x ∈ den p1 ∧
        x ∈ (D sys).Pre ((D sys).Exactly (den (trans.getD p1)) (den p2) (N - 1))} := by
  obtain ⟨w0, hw0⟩ := hw sys
  have hempty : ∀ k n T, (D sys).Exactly (den (trans.getD p1)) T k = ∅ →
      (D sys).Exactly (den (trans.getD p1)) T (k + n) = ∅ := by
    intro k n T hk
    induction n with
    | zero => exact hk
    | succ n ih =>
      rw [← Nat.add_assoc]
      refine Set.eq_empty_iff_forall_notMem.2 ?_
      rintro x ⟨_, u, _, hu⟩
      have := hu w0 hw0
      rw [ih] at this
      exact this
  have key : ∀ n k q, den q = (D sys).Exactly (den (trans.getD p1)) (den p2) k →
      den (fixedLoop S p1 (trans.getD p1) sys trans (n + 1) q) = {x | x ∈ den p1 ∧
        x ∈ (D sys).Pre ((D sys).Exactly (den (trans.getD p1)) (den p2) (k + n))} := by
    intro n
    induction n with
    | zero =>
      intro k q hq
      unfold fixedLoop
      simp only [Nat.zero_add, if_true]
      split
      · unfold fixedLoop
        rw [h.reduce, solveOne_exact h, hq]
        rfl
      · rename_i hf
        have := h.thin _ (by simpa using hf)
        rw [h.reduce, solveOne_exact h, hq] at this
        rw [h.empty]
        exact this.symm
    | succ n ih =>
      intro k q hq
      unfold fixedLoop
      simp only [if_neg (show ¬ (n + 1 + 1 = 1) by omega)]
      have hstep : den (S.reduce (solveOpenLoop S (trans.getD p1) q sys 1 trans)) =
          (D sys).Exactly (den (trans.getD p1)) (den p2) (k + 1) := by
        rw [h.reduce, solveOne_exact h, hq]
        rfl
      split
      · rw [ih (k + 1) _ hstep, show k + 1 + n = k + (n + 1) by omega]
      · rename_i hf
        rw [h.thin _ (by simpa using hf)] at hstep
        rw [h.empty]
        have := hempty (k + 1) n _ hstep.symm
        rw [show k + 1 + n = k + (n + 1) by omega] at this
        rw [this]
        symm
        refine Set.eq_empty_iff_forall_notMem.2 ?_
        rintro x ⟨_, u, _, hu⟩
        exact hu w0 hw0
  refine ⟨_, by unfold solveFixed; rw [if_neg (by omega)], ?_⟩
  obtain ⟨n, rfl⟩ : ∃ n, N = n + 1 := ⟨N - 1, by omega⟩
  simpa using key n 0 p2 rfl

/-! ## Example

A point of a line moves by `-1`, `0` or `1`, without disturbance. -/

def walk : Dyn Int Int Unit where
  input _ := {u | u = -1 ∨ u = 0 ∨ u = 1}
  dist := Set.univ
  next x u _ := x + u

/-- Finite sets of integers. -/
def walkSolver : Solver (List Int) where
  parts _ := []
  sorted _ := []
  region l := l.flatten
  union a b := a ++ b
  reduce a := a
  fulldim a := !a.isEmpty
  empty := []
  emptyRegion := []
  poly p1 p2 _ N stay := match N with
    | 1 => p1.filter fun x => x - 1 ∈ p2 ∨ x ∈ p2 ∨ x + 1 ∈ p2
    | _ => if stay.isEmpty then [] else []
  le a b := a.all (· ∈ b)

theorem walkSolver_sound : walkSolver.Sound (fun l => {x | x ∈ l}) (fun _ => walk) where
  parts_sub p q hq := by cases hq
  sorted_perm p := List.Perm.refl _
  region_parts l q hq := by cases hq
  region_sub l x hx := by
    simp only [walkSolver, Set.mem_ofPred_eq, List.mem_flatten] at hx
    exact hx
  union_sub a b x hx := by simpa [walkSolver] using hx
  reduce_sub a := le_refl _
  empty := by simp [walkSolver]
  emptyRegion := by simp [walkSolver]
  poly p1 p2 sys N stay x hx := by
    cases N with
    | succ n => simp [walkSolver] at hx
    | zero =>
      simp only [walkSolver, Nat.zero_add, Set.mem_ofPred_eq, List.mem_filter, decide_eq_true_eq] at hx
      refine ⟨hx.1, ?_⟩
      rcases hx.2 with h | h | h
      · exact ⟨-1, [], rfl, Or.inl rfl, fun _ _ => h⟩
      · exact ⟨0, [], rfl, Or.inr (Or.inl rfl), fun _ _ => by simpa [walk, Dyn.Open] using h⟩
      · exact ⟨1, [], rfl, Or.inr (Or.inr rfl), fun _ _ => h⟩
  le a b h x hx := by
    simp only [walkSolver, List.all_eq_true, decide_eq_true_eq] at h
    exact h x hx

theorem walkSolver_exact : walkSolver.Exact (fun l => {x | x ∈ l}) (fun _ => walk) where
  parts p := rfl
  union_empty a := rfl
  reduce a := rfl
  empty := by simp [walkSolver]
  thin a h := by
    have : a = [] := by simpa [walkSolver] using h
    simp [this]
  poly p1 p2 sys stay := by
    ext x
    simp only [walkSolver, Set.mem_ofPred_eq, List.mem_filter, decide_eq_true_eq, Dyn.Pre, walk,
      Set.mem_univ, true_implies]
    refine and_congr_right fun _ => ?_
    constructor
    · rintro (h | h | h)
      · exact ⟨-1, Or.inl rfl, fun _ => h⟩
      · exact ⟨0, Or.inr (Or.inl rfl), fun _ => by simpa using h⟩
      · exact ⟨1, Or.inr (Or.inr rfl), fun _ => h⟩
    · rintro ⟨u, rfl | rfl | rfl, h⟩
      · exact Or.inl (h ())
      · exact Or.inr (Or.inl (by simpa using h ()))
      · exact Or.inr (Or.inr (h ()))

example : (solveFixed walkSolver [0, 1, 2, 3, 4, 5] [6, 7] 0 3 none).toOption = some [3, 4, 5] := by
  decide +kernel

example : (solveFixed walkSolver [0, 1, 2] [6, 7] 0 3 (some [4, 5])).toOption = some [] := by
  decide +kernel

example : (attractor walkSolver [0, 1, 2, 3, 4, 5] [6, 7] 0 3 none).toOption = some [3, 4, 5] := by
  decide +kernel

example : (isFeasible walkSolver [4, 5] [6, 7] 0 3 true false none).toOption = some true := by
  decide +kernel

/-- `_solve_closed_loop_bounded_horizon` returns points outside of `P1`, if a larger transition set is
given: it adds the sets of the intermediate steps. -/
theorem solveBounded_counterexample :
    5 ∈ solveBounded walkSolver [3, 4] [6, 7] 0 3 (some [3, 4, 5]) ∧ (5 : Int) ∉ [(3 : Int), 4] := by
  decide +kernel

/-- Without a transition set, `_solve_closed_loop_bounded_horizon` returns points of `P1` from where the
controller can reach `P2` in exactly `k` steps, for some `k` in `1..N`. -/
theorem solveBounded_sound (h : S.Sound den D) (p1 p2 : P) (sys N : Nat) :
    den (solveBounded S p1 p2 sys N none) ⊆ {x | x ∈ den p1 ∧
      ∃ k < N, x ∈ (D sys).Pre ((D sys).Exactly (den p1) (den p2) k)} := by
  have key : ∀ n k q s, den q ⊆ (D sys).Exactly (den p1) (den p2) k →
      den (boundedLoop S p1 p1 sys none n q s) ⊆ den s ∪ {x | x ∈ den p1 ∧
        ∃ j < n, x ∈ (D sys).Pre ((D sys).Exactly (den p1) (den p2) (k + j))} := by
    intro n
    induction n with
    | zero => intro k q s _ x hx; exact Or.inl hx
    | succ n ih =>
      intro k q s hq x hx
      have hstep : ∀ y ∈ den (S.reduce (solveOpenLoop S p1 q sys 1 none)), y ∈ den p1 ∧
          y ∈ (D sys).Pre ((D sys).Exactly (den p1) (den p2) k) := by
        intro y hy
        obtain ⟨h1, u, hu, hw⟩ := solveOne_sound h _ _ _ _ _ y (h.reduce_sub _ hy)
        exact ⟨h1, u, hu, fun w hw' => hq (hw w hw')⟩
      have hs : ∀ y ∈ den (S.reduce (S.union s (S.reduce (solveOpenLoop S p1 q sys 1 none)))),
          y ∈ den s ∨ y ∈ den p1 ∧ ∃ j < n + 1, y ∈ (D sys).Pre
            ((D sys).Exactly (den p1) (den p2) (k + j)) := by
        intro y hy
        rcases h.union_sub _ _ (h.reduce_sub _ hy) with hy | hy
        · exact Or.inl hy
        · exact Or.inr ⟨(hstep y hy).1, 0, by omega, (hstep y hy).2⟩
      unfold boundedLoop at hx
      simp only [ite_self] at hx
      split at hx
      · rcases ih (k + 1) _ _ (fun y hy => hstep y hy) hx with hx | ⟨h1, j, hj, h2⟩
        · exact hs x hx
        · exact Or.inr ⟨h1, j + 1, by omega, by rwa [show k + 1 + j = k + (j + 1) by omega] at h2⟩
      · exact hs x hx
  intro x hx
  simp only [solveBounded] at hx
  split at hx
  · rcases key N 0 p2 _ (le_refl _) (h.reduce_sub _ hx) with hx | hx
    · rw [h.emptyRegion] at hx; cases hx
    · simpa using hx
  · rw [h.empty] at hx; cases hx

/-- **C61.** With `closed_loop` `solve_feasible` returns for each horizon but zero, which is an `AssertionError`; otherwise it
returns unless `use_all_horizon` is given, which is a `ValueError`. `is_feasible` returns in the same cases. -/
theorem solveFeasible_returns (S : Solver P) (p1 p2 : P) (sys N : Nat) (useAll : Bool) (trans : Option P) (m : Nat) :
    ((∃ s, solveFeasible S p1 p2 sys N true useAll trans m = .ok s) ↔ N ≠ 0) ∧
    solveFeasible S p1 p2 sys 0 true useAll trans m = .error .assertion ∧
    (∃ s, solveFeasible S p1 p2 sys N false false trans m = .ok s) ∧
    solveFeasible S p1 p2 sys N false true trans m = .error .valueError ∧
    ∀ closedLoop, ((∃ b, isFeasible S p1 p2 sys N closedLoop useAll trans = .ok b) ↔
      ∃ s, solveFeasible S p1 p2 sys N closedLoop useAll trans = .ok s) := by
  refine ⟨?_, ?_, ⟨_, rfl⟩, rfl, ?_⟩
  · cases useAll <;> by_cases h : N = 0 <;> simp [solveFeasible, attractor, solveFixed, h]
  · cases useAll <;> simp [solveFeasible, attractor, solveFixed]
  · intro c
    unfold isFeasible
    cases solveFeasible S p1 p2 sys N c useAll trans <;> simp [Except.map]

end Abs

end Tulip
