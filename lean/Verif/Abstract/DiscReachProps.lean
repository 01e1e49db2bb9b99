import Verif.Abstract.DiscTopProps
import Verif.Abstract.CreateLMProps

/-!
# From `createLM` to the abstraction: what the transitions of `discretize` mean for the matrices of the system
-/

namespace Tulip

namespace Abs

set_option linter.unusedSectionVars false

variable {P X K U W : Type} [Field K] [LinearOrder K]

/-! ## Specification -/

/-- The states from where the system can be driven to `T` in `N` steps, through states of `stay`, whatever the disturbances. With
`closed_loop`, the inputs depend on the states, and with `use_all_horizon` too `1..N` steps are enough; without, the inputs are
chosen in advance. -/
def Dyn.Driven (D : Dyn X U W) (N : Nat) (closedLoop useAll : Bool) (stay T : Set X) : Set X :=
  if closedLoop then
    if useAll then D.Pre (D.Within stay T (N - 1)) else D.Pre (D.Exactly stay T (N - 1))
  else {x | ∃ u us, us.length = N - 1 ∧ u ∈ D.input x ∧ ∀ w ∈ D.dist, D.next x u w ∈ D.Open stay T us}

/-- What is assumed of the package `polytope` in `feasible.py`: the operations return no point that they should not, and
`poly_to_poly` returns for polytopes `a`, `b`, `c` no point outside the projection on the states of the polytope that
`createLM` describes. For regions of several polytopes it returns nothing: it raises an exception. -/
structure Solver.Linear {R : Type} [Field R] [LinearOrder R] [IsStrictOrderedRing R] (S : Solver P)
    (den : P → Set (Nat → R)) (pc : Pc R) (sub : Nat → Lti R) : Prop where
  parts_sub : ∀ p, ∀ q ∈ S.parts p, den q ⊆ den p
  sorted_perm : ∀ p, (S.sorted p).Perm (S.parts p)
  region_parts : ∀ l, ∀ q ∈ S.parts (S.region l), q ∈ l
  region_sub : ∀ l, den (S.region l) ⊆ {x | ∃ q ∈ l, x ∈ den q}
  union_sub : ∀ a b, den (S.union a b) ⊆ den a ∪ den b
  reduce_sub : ∀ a, den (S.reduce a) ⊆ den a
  empty : den S.empty = ∅
  emptyRegion : den S.emptyRegion = ∅
  le : ∀ a b, S.le a b = true → den a ⊆ den b
  poly : ∀ p1 p2 sys N stay x, x ∈ den (S.poly p1 p2 sys N stay) → ∃ a b c : HP R,
    den p1 = {x | a.Mem x} ∧ den p2 = {x | b.Mem x} ∧ (N = 1 ∨ den stay = {x | c.Mem x}) ∧
    a.A.cols = (sub sys).A.cols ∧ b.A.cols = (sub sys).A.cols ∧ c.A.cols = (sub sys).A.cols ∧
    ((sub sys).U.A.cols = (sub sys).B.cols ∨ a.Pointed ∧ c.Pointed ∧ b.Pointed) ∧
    x ∈ polyStates pc (sub sys) N a c b

/-! ## Proofs -/

theorem Solver.Linear.sound {R : Type} [Field R] [LinearOrder R] [IsStrictOrderedRing R] {S : Solver P}
    {den : P → Set (Nat → R)} {pc : Pc R} {sub : Nat → Lti R} (h : S.Linear den pc sub) (hs : ∀ k, (sub k).Shaped)
    (hW : ∀ k, (sub k).GoodDist pc) : S.Sound den fun k => (sub k).dyn pc where
  parts_sub := h.parts_sub
  sorted_perm := h.sorted_perm
  region_parts := h.region_parts
  region_sub := h.region_sub
  union_sub := h.union_sub
  reduce_sub := h.reduce_sub
  empty := h.empty
  emptyRegion := h.emptyRegion
  le := h.le
  poly p1 p2 sys N stay x hx := by
    obtain ⟨a, b, c, h1, h2, h3, ha, hb, hc, hU, hx⟩ := h.poly _ _ _ _ _ _ hx
    obtain ⟨hm, u, us, hl, hu, hall⟩ := polyStates_sound pc (sub sys) (hs sys) (hW sys) N a c b ha hc hb hU x hx
    refine ⟨by rw [h1]; exact hm, u, us, hl, hu, fun w hw => ?_⟩
    rw [h2]
    rcases h3 with h3 | h3
    · obtain rfl : us = [] := List.eq_nil_of_length_eq_zero (by omega)
      exact hall w hw
    · rw [h3]
      exact hall w hw

theorem solveFeasible_driven {S : Solver P} {den : P → Set X} {D : Nat → Dyn X U W} (h : S.Sound den D) {p1 p2 s : P}
    {sys N m : Nat} {closedLoop useAll : Bool} {trans : Option P} (hN : 0 < N)
    (hf : solveFeasible S p1 p2 sys N closedLoop useAll trans m = .ok s) :
    den s ⊆ (D sys).Driven N closedLoop useAll (den (trans.getD p1)) (den p2) := by
  intro x hx
  cases closedLoop with
  | true =>
    have := solveFeasible_reach h hN hf hx
    unfold dynReach at this
    unfold Dyn.Driven
    cases useAll <;> simpa using this
  | false =>
    unfold solveFeasible at hf
    cases useAll with
    | true => simp at hf
    | false =>
      simp only [Bool.false_eq_true, if_false, Except.ok.injEq] at hf
      subst hf
      obtain ⟨n, rfl⟩ : ∃ n, N = n + 1 := ⟨N - 1, by omega⟩
      exact (solveOpenLoop_sound h p1 p2 sys n trans m x hx).2

theorem Dyn.driven_mono (D : Dyn X U W) (N : Nat) (closedLoop useAll : Bool) {s s' : Set X} (T : Set X) (hs : s ⊆ s') :
    D.Driven N closedLoop useAll s T ⊆ D.Driven N closedLoop useAll s' T := by
  unfold Dyn.Driven
  cases closedLoop with
  | true =>
    cases useAll with
    | true =>
      rintro x ⟨u, hu, h⟩
      exact ⟨u, hu, fun w hw => D.within_mono hs (le_refl _) _ (h w hw)⟩
    | false =>
      rintro x ⟨u, hu, h⟩
      exact ⟨u, hu, fun w hw => D.exactly_mono hs (le_refl _) _ (h w hw)⟩
  | false =>
    rintro x ⟨u, us, hl, hu, h⟩
    exact ⟨u, us, hl, hu, fun w hw => D.open_mono hs (le_refl _) _ (h w hw)⟩

/-- Inputs chosen in advance are a special case of inputs that depend on the states. -/
theorem Dyn.driven_exactly (D : Dyn X U W) (N : Nat) (closedLoop : Bool) (stay T : Set X) :
    D.Driven N closedLoop false stay T ⊆ D.Pre (D.Exactly stay T (N - 1)) := by
  unfold Dyn.Driven
  cases closedLoop with
  | true => exact le_refl _
  | false =>
    rintro x ⟨u, us, hl, hu, h⟩
    refine ⟨u, hu, fun w hw => ?_⟩
    have := D.open_exactly us (h w hw)
    rwa [hl] at this

theorem DiscEnv.SetsOk.sound {E : DiscEnv P X K} (hE : E.SetsOk) {S : Solver P} {D : Nat → Dyn X U W}
    (hS : S.Sound E.G.den D) (hF : ∀ p q sys N cl all t m, E.F p q sys N cl all t m = solveFeasible S p q sys N cl all t m) :
    E.Sound fun N cl all sys stay T => {x | 0 < N → x ∈ (D sys).Driven N cl all stay T} :=
  ⟨hE, fun p q sys N cl all t m s h x hx hN => solveFeasible_driven hS hN ((hF ..).symm.trans h) hx,
    fun N cl all sys s s' T h x hx hN => (D sys).driven_mono N cl all T h (hx hN)⟩

/-- **C124.** The transitions of the abstraction that `discretize` returns with the bisimulation algorithm, for `solve_feasible`
and linear systems with bounded disturbances: from almost each state of the source region, the equations of the active
subsystem lead to the target region in `N` steps, whatever the disturbances, for suitable allowed inputs, through states of
the set that `ppp2trans` returns. -/
theorem discretize_lti {R : Type} [Field R] [LinearOrder R] [IsStrictOrderedRing R] {E : DiscEnv P (Nat → R) K}
    (hG : E.G.Lawful) (hle : ∀ a b, E.G.den a ⊆ E.G.den b → E.le a b = true) (hc : Convexifies E.G E.pieces)
    (hE : E.SetsOk) {sys : ContSys P} (hsys : sys.Covers E.G) {S : Solver P} {pc : Pc R} {sub : Nat → Lti R}
    (hS : S.Linear E.G.den pc sub) (hs : ∀ k, (sub k).Shaped) (hW : ∀ k, (sub k).GoodDist pc)
    (hF : ∀ p q sys N cl all t m, E.F p q sys N cl all t m = solveFeasible S p q sys N cl all t m)
    {prm : DiscParams} (hcons : prm.conservative = false) (hN : 0 < prm.N) {given : Partition P}
    (hg : Preserving E.G given.domain given.propRegions given.regions) {adj : Nat → Nat → Bool} {fuel : Nat}
    {A : AbsPwa P} (h : discretize E sys given adj prm "bi" fuel = some (.ok A)) :
    ∀ i j a, (i, j, a) ∈ A.ts.edges → ∃ (ri rj c : Region P) (k : Nat), A.ppp.regions[i]? = some ri ∧
      A.ppp.regions[j]? = some rj ∧ A.ppp2trans i = .ok (c, k) ∧
      E.G.null (E.G.den ri.poly \
        ((sub k).dyn pc).Driven prm.N prm.closedLoop prm.useAllHorizon (E.G.den c.poly) (E.G.den rj.poly)) := by
  intro i j a he
  obtain ⟨_, _, _, _, _, hmap⟩ := discretize_spec hG hle hc hsys (hE.sound (hS.sound hs hW) hF) hg h
  obtain ⟨ri, rj, c, k, h1, h2, h3, h4⟩ := (hmap hcons).2 i j a he
  refine ⟨ri, rj, c, k, h1, h2, h3, hG.null_mono ?_ h4⟩
  rintro x ⟨hx, hn⟩
  exact ⟨hx, fun h => hn (h hN)⟩

/-! ## Paths -/

/-- A path of sets, each of which can be reached from almost each state of the one before in exactly `N` steps, can be followed by
inputs that depend on the time and the state. -/
theorem follow_path [Inhabited U] {null : Set X → Prop} (D : Nat → Dyn X U W) {N : Nat} (hN : 0 < N) (reg stay : Nat → Set X)
    (h : ∀ n, null (reg n \ (D n).Pre ((D n).Exactly (stay n) (reg (n + 1)) (N - 1)))) :
    ∃ exc : Nat → Set X, (∀ n, null (exc n)) ∧ ∃ g : Nat → X → U, ∀ (x : Nat → X) (w : Nat → W),
      (∀ t, w t ∈ (D (t / N)).dist) → (∀ t, x (t + 1) = (D (t / N)).next (x t) (g t (x t)) (w t)) → x 0 ∈ reg 0 →
      ∀ n, (∀ m < n, x (m * N) ∉ exc m) → x (n * N) ∈ reg n ∧
        ∀ m < n, ∀ r < N, g (m * N + r) (x (m * N + r)) ∈ (D m).input (x (m * N + r)) ∧
          (0 < r → x (m * N + r) ∈ stay m) := by
  classical
  refine ⟨_, h, fun t x => if hu : ∃ u ∈ (D (t / N)).input x, ∀ w ∈ (D (t / N)).dist,
    (D (t / N)).next x u w ∈ (D (t / N)).Exactly (stay (t / N)) (reg (t / N + 1)) (N - 1 - t % N) then hu.choose
    else default, ?_⟩
  intro x w hw hx h0
  have hdiv : ∀ m r, r < N → (m * N + r) / N = m := by
    intro m r hr
    rw [Nat.mul_comm, Nat.mul_add_div hN, Nat.div_eq_of_lt hr, Nat.add_zero]
  have hmod : ∀ m r, r < N → (m * N + r) % N = r := by
    intro m r hr
    rw [Nat.mul_comm, Nat.mul_add_mod, Nat.mod_eq_of_lt hr]
  -- a step
  have hstep : ∀ m r, r < N → (∃ u ∈ (D m).input (x (m * N + r)), ∀ w ∈ (D m).dist,
      (D m).next (x (m * N + r)) u w ∈ (D m).Exactly (stay m) (reg (m + 1)) (N - 1 - r)) →
      (if hu : ∃ u ∈ (D ((m * N + r) / N)).input (x (m * N + r)), ∀ w ∈ (D ((m * N + r) / N)).dist,
        (D ((m * N + r) / N)).next (x (m * N + r)) u w ∈ (D ((m * N + r) / N)).Exactly (stay ((m * N + r) / N))
          (reg ((m * N + r) / N + 1)) (N - 1 - (m * N + r) % N) then hu.choose else default) ∈
        (D m).input (x (m * N + r)) ∧
      x (m * N + (r + 1)) ∈ (D m).Exactly (stay m) (reg (m + 1)) (N - 1 - r) := by
    intro m r hr hu
    have hxs := hx (m * N + r)
    have hws := hw (m * N + r)
    rw [hdiv m r hr] at hws
    simp only [hdiv m r hr, hmod m r hr] at hxs ⊢
    rw [dif_pos hu] at hxs ⊢
    refine ⟨hu.choose_spec.1, ?_⟩
    rw [← Nat.add_assoc, hxs]
    exact hu.choose_spec.2 _ hws
  -- the steps from a region to the next one
  have hblock : ∀ m, x (m * N) ∈ reg m → x (m * N) ∉ reg m \ (D m).Pre ((D m).Exactly (stay m) (reg (m + 1)) (N - 1)) →
      ∀ r ≤ N, 0 < r → x (m * N + r) ∈ (D m).Exactly (stay m) (reg (m + 1)) (N - r) := by
    intro m hm hn r
    induction r with
    | zero => intro _ h; omega
    | succ r ih =>
      intro hr _
      rw [show N - (r + 1) = N - 1 - r by omega]
      refine (hstep m r (by omega) ?_).2
      rcases Nat.eq_zero_or_pos r with rfl | hr0
      · have : x (m * N) ∈ (D m).Pre ((D m).Exactly (stay m) (reg (m + 1)) (N - 1)) := by
          by_contra hc
          exact hn ⟨hm, hc⟩
        exact this
      · have := ih (by omega) hr0
        rw [show N - r = N - 1 - r + 1 by omega] at this
        exact this.2
  intro n
  induction n with
  | zero => intro _; exact ⟨by simpa using h0, fun m hm => by omega⟩
  | succ n ih =>
    intro hexc
    obtain ⟨h1, h2⟩ := ih fun m hm => hexc m (by omega)
    have hb := hblock n h1 (hexc n (by omega))
    refine ⟨?_, fun m hm r hr => ?_⟩
    · have := hb N (le_refl _) hN
      rw [Nat.sub_self] at this
      rw [Nat.succ_mul]
      exact this
    · by_cases hmn : m = n
      · subst hmn
        rcases Nat.eq_zero_or_pos r with rfl | hr0
        · refine ⟨(hstep m 0 hr ?_).1, fun h => by omega⟩
          have : x (m * N) ∈ (D m).Pre ((D m).Exactly (stay m) (reg (m + 1)) (N - 1)) := by
            by_contra hc
            exact hexc m (by omega) ⟨h1, hc⟩
          exact this
        · have := hb r (by omega) hr0
          rw [show N - r = N - 1 - r + 1 by omega] at this
          exact ⟨(hstep m r hr this.2).1, fun _ => this.1⟩
      · exact h2 m (by omega) r hr

/-- **C124.** Every infinite path of the abstraction that `discretize` returns with the bisimulation algorithm (without
`use_all_horizon`, and if not conservative) can be followed by the linear system: there are inputs that depend on the time and
the state, such that whatever the disturbances, from each state of the first region, the state is in the `n`-th region of
the path after `n N` steps, as long as it has avoided some negligible sets. The inputs are allowed, and the states in between
are in the sets that `ppp2trans` returns. -/
theorem discretize_paths {R : Type} [Field R] [LinearOrder R] [IsStrictOrderedRing R] {E : DiscEnv P (Nat → R) K}
    (hG : E.G.Lawful) (hle : ∀ a b, E.G.den a ⊆ E.G.den b → E.le a b = true) (hc : Convexifies E.G E.pieces)
    (hE : E.SetsOk) {sys : ContSys P} (hsys : sys.Covers E.G) {S : Solver P} {pc : Pc R} {sub : Nat → Lti R}
    (hS : S.Linear E.G.den pc sub) (hs : ∀ k, (sub k).Shaped) (hW : ∀ k, (sub k).GoodDist pc)
    (hF : ∀ p q sys N cl all t m, E.F p q sys N cl all t m = solveFeasible S p q sys N cl all t m)
    {prm : DiscParams} (hcons : prm.conservative = false) (hall : prm.useAllHorizon = false) (hN : 0 < prm.N)
    {given : Partition P} (hg : Preserving E.G given.domain given.propRegions given.regions) {adj : Nat → Nat → Bool}
    {fuel : Nat} {A : AbsPwa P} (h : discretize E sys given adj prm "bi" fuel = some (.ok A))
    (π : Nat → Nat) (hπ : ∀ n, ∃ a, (π n, π (n + 1), a) ∈ A.ts.edges) :
    ∃ (r c : Nat → Region P) (k : Nat → Nat), (∀ n, A.ppp.regions[π n]? = some (r n) ∧ A.ppp2trans (π n) = .ok (c n, k n)) ∧
    ∃ exc : Nat → Set (Nat → R), (∀ n, E.G.null (exc n)) ∧ ∃ g : Nat → (Nat → R) → Nat → R,
      ∀ x w : Nat → Nat → R, (∀ t, (sub (k (t / prm.N))).Disturbed → InHull (pc.extreme (sub (k (t / prm.N))).W) (w t)) →
      (∀ t, x (t + 1) = (sub (k (t / prm.N))).next (x t) (g t (x t)) (w t)) → x 0 ∈ E.G.den (r 0).poly →
      ∀ n, (∀ m < n, x (m * prm.N) ∉ exc m) → x (n * prm.N) ∈ E.G.den (r n).poly ∧
        ∀ m < n, ∀ i < prm.N, (sub (k m)).InputOk (x (m * prm.N + i)) (g (m * prm.N + i) (x (m * prm.N + i))) ∧
          (0 < i → x (m * prm.N + i) ∈ E.G.den (c m).poly) := by
  have hlti := discretize_lti hG hle hc hE hsys hS hs hW hF hcons hN hg h
  choose a ha using hπ
  choose r r' c k h1 h2 h3 h4 using fun n => hlti _ _ _ (ha n)
  refine ⟨r, c, k, fun n => ⟨h1 n, h3 n⟩, ?_⟩
  have hr : ∀ n, r' n = r (n + 1) := fun n => Option.some.inj ((h2 n).symm.trans (h1 (n + 1)))
  haveI : Inhabited (Nat → R) := ⟨fun _ => 0⟩
  refine follow_path (fun n => (sub (k n)).dyn pc) hN (fun n => E.G.den (r n).poly) (fun n => E.G.den (c n).poly) fun n => ?_
  have := h4 n
  rw [hr n, hall] at this
  refine hG.null_mono ?_ this
  rintro x ⟨hx, hn⟩
  exact ⟨hx, fun hd => hn (Dyn.driven_exactly _ _ _ _ _ hd)⟩

end Abs

end Tulip
