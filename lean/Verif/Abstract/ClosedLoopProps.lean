import Verif.Abstract.GetInputMain
import Verif.Abstract.TsProps
import Verif.Synth.SynthesizeProps

/-!
# The closed loop: abstraction, synthesis, and control inputs

The workflow of `examples/continuous.py`: `discretize` computes a transition system, `synthesize` a machine for it, and
while the machine runs, `get_input` computes the inputs that lead to the region that is the machine's next output
(`tulip/abstract/plot.py:391-422`). The theorems combine those on each of the steps.
-/

namespace Tulip

namespace Abs

open Synth (TsArg FTS MachRun Shows Assumes Guarantees InSomeState ArgsOk VarsOk InitDepends)
open Mach (Machine)

set_option linter.unusedSectionVars false

variable {R : Type} [Field R] [LinearOrder R] [IsStrictOrderedRing R]
variable {P : Type}

/-! ## Specification -/

/-- The abstraction `ab` that is given to `get_input` is the one that `discretize` returns for the partition `given`:
its regions are the cells of `S`, its original regions are those of `given`, and `p2o` maps the regions of the partition
that was refined (`part`, which is `given`, or pieces of its regions) to those of `given`. -/
structure Offers (G : Geom P (Nat → R)) (given part : List (Region P)) (p2o : Nat → Nat) (conservative : Bool)
    (S : DState P) (ab : PwaAbs R) : Prop where
  regions : List.Forall₂ (fun (c : Cell R) (r : Region P) => ∀ x, c.Mem x ↔ x ∈ G.den r.poly) ab.regions S.sol
  origRegions : List.Forall₂ (fun (c : Cell R) (r : Region P) => ∀ x, c.Mem x ↔ x ∈ G.den r.poly) ab.origRegions given
  orig : ab.orig = some (S.orig.map p2o)
  pieces : ∀ (h : Nat) (c : Region P), part[h]? = some c → ∃ c0 : Region P, given[p2o h]? = some c0 ∧
    c.props = c0.props
  conservative : ab.conservative = conservative

/-- The transition system `F` that is given to `synthesize` is the one that `discretize` returns: the states are the
indices of the regions. -/
structure Reads (F : FTS) (g : LGraph Nat (List String)) (aps : List String) : Prop where
  states : ∀ e, e ∈ F.states ↔ ∃ i : Nat, g.hasNode i = true ∧ e = .int i
  edges : ∀ e ∈ F.edges, ∃ (i j : Nat) (a : Attr (List String)), (i, j, a) ∈ g.edges ∧ e.src = .int i ∧ e.dst = .int j
  ap : ∀ (i : Nat) a, g.nodes.get? i = some a → F.ap (.int i) = a.get? "ap"
  aps : ∀ p, p ∈ F.aps ↔ p ∈ aps

/-- A run of the closed loop, in periods of `N` steps. The labels of the transitions of the machine are `d`. Its output
`var` at the end of period `t` is `loc t`; the state at the end of this period is `x t`. In period `t + 1`, the inputs `u t` that
`get_input` returns, for some weights and norm, are applied to the system, with possible disturbances `w t`. -/
structure ClosedLoop (T : Tools R) (s : Lti R) (ab : PwaAbs R) (var : String) (d : Nat → Attr Synth.Elem)
    (loc : Nat → Nat) (x : Nat → Nat → R) (u w : Nat → Nat → Nat → R) : Prop where
  named : ∀ t, (d t).get? var = some (.int (loc t))
  start : ∃ c, ab.regions[loc 0]? = some c ∧ c.Mem (x 0)
  input : ∀ t, ∃ Rm r Q ord wt sn R' r', Setting T s ab s.A.cols r ∧
    getInput T (x t) s.A.cols s ab (loc t) (loc (t + 1)) Rm r Q ord wt sn = .ok (u t, R', r')
  possible : ∀ t, s.Possible T.toPc ab.N (w t)
  next : ∀ t, x (t + 1) = s.traj (x t) (u t) (w t) ab.N

/-- What holds of the continuous system, in a run of the closed loop where `σ` has the values of the variables: the state at
the end of each period is in the region that the machine names; a proposition that is true in `σ` holds of this state,
and one that is not true fails in the region of this state, up to a negligible set; the inputs are allowed; and if no two
polytopes make up a region, or the original regions are known and the abstraction is not conservative, then the propositions
that were true at the end of a period remain true in the next period until its end. -/
structure Realizes (G : Geom P (Nat → R)) (props : Dict String P) (s : Lti R) (ab : PwaAbs R) (cells : List (Region P))
    (σ : Trace) (loc : Nat → Nat) (x : Nat → Nat → R) (u w : Nat → Nat → Nat → R) : Prop where
  region : ∀ t, ∃ c r, ab.regions[loc t]? = some c ∧ cells[loc t]? = some r ∧ c.Mem (x t) ∧ x t ∈ G.den r.poly
  holds : ∀ t p, p ∈ props.keys → σ t p = .bool true → ∃ q, props.get? p = some q ∧ x t ∈ G.den q
  fails : ∀ t p q, props.get? p = some q → σ t p ≠ .bool true →
    ∃ r, cells[loc t]? = some r ∧ G.null (G.den r.poly ∩ G.den q)
  inputs : ∀ t, ∀ k < ab.N, s.InputOk (s.traj (x t) (u t) (w t) k) (u t k)
  between : (ab.conservative = false ∨ ∀ c ∈ ab.regions, c.parts.length ≤ 1) →
    ∀ t p, p ∈ props.keys → σ t p = .bool true → ∀ k < ab.N,
      ∃ q, props.get? p = some q ∧ s.traj (x t) (u t) (w t) k ∈ G.den q

/-! ## Proofs -/

theorem forall₂_getElem {α β : Type} {Q : α → β → Prop} {l : List α} {m : List β} (h : List.Forall₂ Q l m) {i : Nat}
    {a : α} (ha : l[i]? = some a) : ∃ b, m[i]? = some b ∧ Q a b := by
  induction h generalizing i with
  | nil => simp at ha
  | cons hq _ ih =>
    cases i with
    | zero => simp only [List.getElem?_cons_zero, Option.some.injEq] at ha ⊢; subst ha; exact ⟨_, rfl, hq⟩
    | succ i => simpa using ih (by simpa using ha)

/-- In a run of the closed loop, the state at the end of each period is in the region that is named. -/
theorem ClosedLoop.region {T : Tools R} {s : Lti R} {ab : PwaAbs R} {var : String} {d : Nat → Attr Synth.Elem}
    {loc : Nat → Nat} {x : Nat → Nat → R} {u w : Nat → Nat → Nat → R} (h : ClosedLoop T s ab var d loc x u w)
    (hopen : ab.closedLoop = false) (t : Nat) : ∃ c, ab.regions[loc t]? = some c ∧ c.Mem (x t) := by
  cases t with
  | zero => exact h.start
  | succ t =>
    obtain ⟨Rm, r, Q, ord, wt, sn, R', r', hset, hin⟩ := h.input t
    obtain ⟨_, cs, ce, stay, _, hce, _, hall⟩ := getInput_reaches T (x t) _ s ab (loc t) (loc (t + 1)) Rm r Q ord wt sn
      hset hopen (u t) R' r' hin
    refine ⟨ce, hce, ?_⟩
    rw [h.next t]
    exact (hall (w t) (h.possible t)).2.1

/-- **C113.** The closed loop. Let `discretize` refine a partition that preserves the propositions, and return an
abstraction; let `synthesize` return a machine for its transition system; and let a run of the machine drive the
continuous system, by the inputs that `get_input` computes in each period (with `closed_loop=False`). If the
assumptions of the specification hold of the values of the variables, then its guarantees hold of them; the machine moves
along transitions of the abstraction; and the values of the variables are those of the continuous system, whatever the
disturbances (`Realizes`). -/
theorem closedLoop_correct {ν : Type} [DecidableEq ν] {K : Type} [Field K] [LinearOrder K]
    -- `discretize`
    {O : DiscOps P K} {G : Geom P (Nat → R)} (hG : G.Lawful)
    {Reach : Nat → Set (Nat → R) → Set (Nat → R) → Set (Nat → R)} (hO : O.Sound G Reach) {domain : P}
    {props : Dict String P} {given part : List (Region P)} {adj : Nat → Nat → Bool} {subs0 : List Nat}
    (hgiven : Preserving G domain props given) (hp : Preserving G domain props part)
    (hs : O.pwa = true → subs0.length = part.length)
    {fuel : Nat} {S : DState P} (hdisc : discretizeBi O part adj subs0 fuel = some (.ok S))
    {g : LGraph Nat (List String)} (hg : discTs S props.keys = (g, none))
    -- `synthesize`
    {T : Synth.Tools ν} (horder : ∀ l x, x ∈ T.order l ↔ x ∈ l) (hostates : ∀ l, (T.orderStates l).Perm l)
    (hinit : InitDepends T.isInit) {spec : GRSpec} {env : Option TsArg} {ts : TsArg}
    {ignoreEnv ignoreSys rm : Bool} {solver : String} {solve : Synth.Solve ν}
    (hpick : T.solvers.pick solver = .ok solve)
    (hsolve : ∀ f, Synth.specPlusSys T.order spec env (some ts) ignoreEnv ignoreSys = .ok f →
      Synth.Solver.Correct T.isInit solve f)
    (ha : ArgsOk env (some ts))
    (hv : ∀ f, Synth.specPlusSys T.order spec env (some ts) ignoreEnv ignoreSys = .ok f → VarsOk f.envVars f.sysVars)
    (hreads : Reads ts.fts g props.keys)
    {m : Machine ν Synth.Elem} (hsyn : Synth.synthesize T spec env (some ts) ignoreEnv ignoreSys rm solver = .ok (some m))
    -- the closed loop
    {C : Tools R} {s : Lti R} {ab : PwaAbs R} {p2o : Nat → Nat} (hab : Offers G given part p2o O.conservative S ab)
    (hopen : ab.closedLoop = false) :
    ∃ f, Synth.specPlusSys T.order spec env (some ts) ignoreEnv ignoreSys = .ok f ∧
      ∀ n d σ loc x u w, MachRun m n d → (∀ t, Shows (Dict.update f.envVars f.sysVars) (d t) (σ t)) →
        InSomeState ts.fts ts.sysVar ignoreSys σ → Assumes spec env (some ts) ignoreEnv ignoreSys σ →
        ClosedLoop C s ab ts.sysVar d loc x u w →
        spec.Guarantee σ ∧ (∀ t, ∃ a, (loc t, loc (t + 1), a) ∈ g.edges) ∧ Realizes G props s ab S.sol σ loc x u w := by
  obtain ⟨f, hf, _, _, _, hrun⟩ := Synth.synthesize_correct horder hostates hinit hpick hsolve ha hv hsyn
  refine ⟨f, hf, fun n d σ loc x u w hn hshow hsome hass hloop => ?_⟩
  obtain ⟨hguar, hsys, _⟩ := hrun n d σ hn hshow (fun t ht => by cases ht; exact hsome) hass
  obtain ⟨⟨r, hr, _⟩, _⟩ := hsys ts rfl
  obtain ⟨home, hlen, hpres, horig, _, hcell, _⟩ := discretizeBi_sound hG hO hp hs hdisc
  have hkeys : ∀ r ∈ S.sol, ∀ p ∈ r.props, p ∈ props.keys := by
    intro r hr p hp'
    obtain ⟨q, hq, _⟩ := hpres.holds r hr p hp'
    exact (Dict.mem_keys_iff _ _).2 (by rw [hq]; simp)
  obtain ⟨g', hg', hts⟩ := discTs_spec S props.keys hkeys
  rw [hg] at hg'
  obtain rfl : g = g' := by cases hg'; rfl
  -- the states of the execution are those that are named
  have hloc : ∀ t, r t = .int (loc t) := by
    intro t
    obtain ⟨h1, h2, _⟩ := hr.state t
    obtain ⟨i, _, hi⟩ := (hreads.states _).1 h1
    have h3 := hshow t _ _ (hloop.named t)
    rw [hi] at h2 ⊢
    have h4 : σ t ts.sysVar = .int i := h2
    rw [h4] at h3
    unfold Synth.valueIn at h3
    split at h3
    · cases h3
    · simpa [Synth.Elem.val] using h3
  have hstep : ∀ t, ∃ a, (loc t, loc (t + 1), a) ∈ g.edges := by
    intro t
    obtain ⟨e, he, h1, h2, _⟩ := hr.step t
    obtain ⟨i, j, a, hm, h3, h4⟩ := hreads.edges e he
    rw [h3, hloc] at h1
    rw [h4, hloc] at h2
    have hi : i = loc t := by simpa using h1
    have hj : j = loc (t + 1) := by simpa using h2
    subst hi
    subst hj
    exact ⟨a, hm⟩
  have hreg : ∀ t, ∃ c r, ab.regions[loc t]? = some c ∧ S.sol[loc t]? = some r ∧ c.Mem (x t) ∧ x t ∈ G.den r.poly := by
    intro t
    obtain ⟨c, hc, hx⟩ := hloop.region hopen t
    obtain ⟨r, hr, hiff⟩ := forall₂_getElem hab.regions hc
    exact ⟨c, r, hc, hr, hx, (hiff _).1 hx⟩
  -- the propositions of the region
  have haps : ∀ t p (r : Region P), S.sol[loc t]? = some r → p ∈ props.keys → (σ t p = .bool true ↔ p ∈ r.props) := by
    intro t p r' hr' hp'
    have h1 := hr.aps t p ((hreads.aps p).2 hp')
    obtain ⟨a, ha1, ha2⟩ := hts.label (loc t) r' hr'
    rw [hloc, hreads.ap (loc t) a ha1, ha2] at h1
    simpa using h1
  refine ⟨hguar, hstep, hreg, ?_, ?_, ?_, ?_⟩
  · intro t p hp' hσ
    obtain ⟨c, r', _, hr', _, hx⟩ := hreg t
    obtain ⟨q, hq, hsub⟩ := hpres.holds r' (List.mem_of_getElem? hr') p ((haps t p r' hr' hp').1 hσ)
    exact ⟨q, hq, hsub hx⟩
  · intro t p q hq hσ
    obtain ⟨c, r', _, hr', _, hx⟩ := hreg t
    have hp' : p ∈ props.keys := (Dict.mem_keys_iff _ _).2 (by rw [hq]; simp)
    exact ⟨r', hr', hpres.fails r' (List.mem_of_getElem? hr') p q hq fun h => hσ ((haps t p r' hr' hp').2 h)⟩
  · intro t k hk
    obtain ⟨Rm, r1, Q, ord, wt, sn, R', r2, hset, hin⟩ := hloop.input t
    obtain ⟨_, cs, ce, stay, _, _, _, hall⟩ := getInput_reaches C (x t) _ s ab (loc t) (loc (t + 1)) Rm r1 Q ord wt sn
      hset hopen (u t) R' r2 hin
    exact (hall (w t) (hloop.possible t)).2.2 k hk
  · intro hcase t p hp' hσ k hk
    obtain ⟨c, r', hc, hr', _, hx⟩ := hreg t
    have hpr := (haps t p r' hr' hp').1 hσ
    obtain ⟨q, hq, hsub⟩ := hpres.holds r' (List.mem_of_getElem? hr') p hpr
    refine ⟨q, hq, ?_⟩
    rcases Nat.eq_zero_or_pos k with rfl | hk0
    · exact hsub hx
    obtain ⟨Rm, r1, Q, ord, wt, sn, R', r2, hset, hin⟩ := hloop.input t
    obtain ⟨_, cs, ce, stay, hcs, _, hstay, hall⟩ := getInput_reaches C (x t) _ s ab (loc t) (loc (t + 1)) Rm r1 Q ord wt
      sn hset hopen (u t) R' r2 hin
    have hmem := (hall (w t) (hloop.possible t)).1 k hk0 hk
    rw [hc] at hcs
    cases hcs
    rcases hstay with ⟨orig, i, c0, hcons, ho, hi, hc0, hiff⟩ | ⟨hcons, hparts⟩
    · -- the original region
      rw [hab.orig] at ho
      cases ho
      rw [List.getElem?_map, Option.map_eq_some_iff] at hi
      obtain ⟨h, hh, rfl⟩ := hi
      obtain ⟨o, ho, hoiff⟩ := forall₂_getElem hab.origRegions hc0
      rw [horig (by rw [← hab.conservative]; exact hcons)] at hh
      obtain ⟨c1, hc1, hprops, _⟩ := hcell _ r' h hr' hh
      obtain ⟨o', ho', hprops'⟩ := hab.pieces h c1 hc1
      rw [ho] at ho'
      cases ho'
      obtain ⟨q', hq', hsub'⟩ := hgiven.holds o (List.mem_of_getElem? ho) p (by rw [← hprops', ← hprops]; exact hpr)
      rw [hq] at hq'
      cases hq'
      exact hsub' ((hoiff _).1 ((hiff _).1 hmem))
    · -- the region
      have hc' : ∀ c ∈ ab.regions, c.parts.length ≤ 1 := by
        rcases hcase with h | h
        · rcases hcons with h' | h'
          · rw [h] at h'; cases h'
          · rw [hab.orig] at h'; cases h'
        · exact h
      have hle := hc' c (List.mem_of_getElem? hc)
      rcases hparts with ⟨_, hiff⟩ | ⟨h2, _⟩
      · obtain ⟨r'', hr'', hiff'⟩ := forall₂_getElem hab.regions hc
        rw [hr'] at hr''
        cases hr''
        exact hsub ((hiff' _).1 ((hiff _).1 hmem))
      · omega

end Abs

end Tulip
