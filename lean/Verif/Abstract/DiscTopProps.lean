import Verif.Abstract.DiscTop
import Verif.Abstract.ClosedLoopProps

/-!
# Properties of `discretize` and of the maps of an abstraction
-/

namespace Tulip

namespace Abs

set_option linter.unusedSectionVars false

variable {P X K : Type} [Field K] [LinearOrder K]

/-! ## Specification -/

/-- What is assumed of `pc.union(r, r, check_convex=True)`: polytopes inside `r`, that cover it and do not overlap, up to
negligible sets. -/
structure Convexifies (G : Geom P X) (pieces : P → List P) : Prop where
  sub : ∀ r, ∀ p ∈ pieces r, G.den p ⊆ G.den r
  cover : ∀ r, G.null (G.den r \ {x | ∃ p ∈ pieces r, x ∈ G.den p})
  disjoint : ∀ r, (pieces r).Pairwise fun p q => G.null (G.den p ∩ G.den q)

/-- The system is defined on its domain: the domains of the subsystems cover it, and do not overlap. -/
def ContSys.Covers (G : Geom P X) (sys : ContSys P) : Prop :=
  ∀ subs, sys.subs = some subs → G.null (G.den sys.domain \ {x | ∃ c ∈ subs, x ∈ G.den c}) ∧
    subs.Pairwise fun c d => G.null (G.den c ∩ G.den d)

/-- The maps of an abstraction of the system `sys` and the partition `given`, for non-conservative planning. -/
structure Mapped (E : DiscEnv P X K) (sys : ContSys P) (given : Partition P) (A : AbsPwa P) : Prop where
  /-- The states are the indices of the regions. -/
  states : ∀ s, A.ts.hasNode s = true ↔ s < A.ppp.regions.length
  /-- `ts2ppp` returns the region of a state; it raises `ValueError` for what is no state. -/
  ts2ppp : ∀ (s : Nat) (r : Region P), A.ppp.regions[s]? = some r → A.ts2ppp s = .ok (s, r)
  ts2ppp_none : ∀ s : Nat, A.ts.hasNode s = false → A.ts2ppp s = .error .valueError
  /-- `ppp2orig` returns a region of the given partition, which contains the region and has its label. -/
  ppp2orig : ∀ (i : Nat) (r : Region P), A.ppp.regions[i]? = some r → ∃ j r0, A.ppp2orig i = .ok (j, r0) ∧
    given.regions[j]? = some r0 ∧ r.props = r0.props ∧ E.G.den r.poly ⊆ E.G.den r0.poly
  /-- `ppp2pwa` returns a region of the partition `pwa_ppp`, which contains the region, has its label, and is one convex
  piece of a region where one subsystem is defined. -/
  ppp2pwa : ∀ (i : Nat) (r : Region P), A.ppp.regions[i]? = some r → ∃ j c, A.ppp2pwa i = .ok (j, c) ∧
    A.pwaPpp.regions[j]? = some c ∧ r.props = c.props ∧ E.G.den r.poly ⊆ E.G.den c.poly ∧ ∃ r0, c.poly ∈ E.pieces r0
  /-- `ppp2sys` returns the subsystem that is defined in the region. -/
  ppp2sys : ∀ (i : Nat) (r : Region P), A.ppp.regions[i]? = some r → ∃ k, A.ppp2sys i = .ok k ∧
    (sys.subs = none → k = 0) ∧
    ∀ subs, sys.subs = some subs → ∃ d, subs[k]? = some d ∧ E.G.den r.poly ⊆ E.G.den d

/-- What is assumed of the functions of the package `polytope` that the algorithms call. -/
structure DiscEnv.SetsOk (E : DiscEnv P X K) : Prop where
  inter : ∀ a b, E.G.den (E.O.inter a b) ⊆ E.G.den a ∩ E.G.den b
  inter_cover : ∀ a b, E.G.null ((E.G.den a ∩ E.G.den b) \ E.G.den (E.O.inter a b))
  diff : ∀ a b, E.G.den (E.O.diff a b) ⊆ E.G.den a
  diff_disjoint : ∀ a b, E.G.null (E.G.den (E.O.diff a b) ∩ E.G.den b)
  diff_cover : ∀ a b, E.G.null ((E.G.den a \ E.G.den b) \ E.G.den (E.O.diff a b))
  small : ∀ a, E.O.vol a < E.O.absTol → E.G.null (E.G.den a)
  separate_sub : ∀ a, ∀ p ∈ E.O.separate a, E.G.den p ⊆ E.G.den a
  separate_cover : ∀ a, E.G.null (E.G.den a \ {x | ∃ p ∈ E.O.separate a, x ∈ E.G.den p})
  separate_disjoint : ∀ a, (E.O.separate a).Pairwise fun p q => E.G.null (E.G.den p ∩ E.G.den q)

/-- What is assumed of the functions of the package `polytope` and of `solve_feasible`. `Reach N closedLoop useAll sys stay T`
is the set of states from where subsystem `sys` can be driven to `T` through states of `stay`, in the way that
`solve_feasible` stands for with the horizon `N` and the options `closedLoop` and `useAll`. -/
structure DiscEnv.Sound (E : DiscEnv P X K) (Reach : Nat → Bool → Bool → Nat → Set X → Set X → Set X) : Prop
    extends E.SetsOk where
  solve : ∀ p q sys N closedLoop useAll t m s, E.F p q sys N closedLoop useAll t m = .ok s →
    E.G.den s ⊆ Reach N closedLoop useAll sys (E.G.den (t.getD p)) (E.G.den q)
  mono : ∀ N closedLoop useAll sys s s' T, s ⊆ s' → Reach N closedLoop useAll sys s T ⊆ Reach N closedLoop useAll sys s' T

/-! ## Lemmas -/

theorem DiscEnv.Sound.ops {E : DiscEnv P X K} {Reach : Nat → Bool → Bool → Nat → Set X → Set X → Set X} (h : E.Sound Reach)
    (sys : ContSys P) (prm : DiscParams) :
    (E.ops sys prm).Sound E.G (Reach prm.N prm.closedLoop prm.useAllHorizon) where
  solve k p q t s hs := h.solve p q k _ _ _ t _ s hs
  mono := h.mono _ _ _
  inter := h.inter
  inter_cover := h.inter_cover
  diff := h.diff
  diff_disjoint := h.diff_disjoint
  diff_cover := h.diff_cover
  small := h.small
  separate_sub := h.separate_sub
  separate_cover := h.separate_cover
  separate_disjoint := h.separate_disjoint

theorem pick_ok {l : List Nat} : ∀ {idx r : List Nat}, pick l idx = .ok r →
    List.Forall₂ (fun i a => l[i]? = some a) idx r
  | [], r, h => by cases h; exact .nil
  | i :: idx, r, h => by
    unfold pick at h
    obtain ⟨a, ha, h⟩ := bindE_ok h
    obtain ⟨r', hr, h⟩ := bindE_ok h
    cases h
    exact .cons (getIdx_ok ha) (pick_ok hr)

theorem getIdx_some {α : Type} {l : List α} {i : Nat} {a : α} (h : l[i]? = some a) : getIdx l i = .ok a := by
  unfold getIdx; rw [h]

theorem pick_total {l : List Nat} : ∀ {idx : List Nat}, (∀ i ∈ idx, i < l.length) → ∃ r, pick l idx = .ok r
  | [], _ => ⟨[], rfl⟩
  | i :: idx, h => by
    obtain ⟨r, hr⟩ := pick_total (l := l) (idx := idx) fun j hj => h j (List.mem_cons_of_mem _ hj)
    refine ⟨l[i]'(h i (by simp)) :: r, ?_⟩
    unfold pick
    rw [getIdx_some (List.getElem?_eq_getElem (h i (by simp))), hr]
    rfl

theorem forall₂_getElem_left {α β : Type} {Q : α → β → Prop} {l : List α} {m : List β} (h : List.Forall₂ Q l m) {i : Nat}
    {b : β} (hb : m[i]? = some b) : ∃ a, l[i]? = some a ∧ Q a b :=
  forall₂_getElem (Q := fun b a => Q a b) (List.Forall₂.flip h) hb

theorem convexPieces_get {pieces : P → List P} {regions : List (Region P)} {x : Region P × Nat}
    (h : x ∈ convexPieces pieces regions) :
    ∃ r, regions[x.2]? = some r ∧ x.1.poly ∈ pieces r.poly ∧ x.1.props = r.props := by
  unfold convexPieces at h
  obtain ⟨⟨r, j⟩, hr, hx⟩ := List.mem_flatMap.1 h
  obtain ⟨p, hp, rfl⟩ := List.mem_map.1 hx
  exact ⟨r, List.mem_zipIdx_iff_getElem?.1 hr, hp, rfl⟩

/-- **C115.** `part2convex` refines a proposition-preserving partition to one whose regions are convex pieces of its regions,
and `new2old` maps each new region to the one it is from. -/
theorem part2convex_spec {G : Geom P X} (hG : G.Lawful) {pieces : P → List P} (hc : Convexifies G pieces)
    {ppp : Partition P} (hp : Preserving G ppp.domain ppp.propRegions ppp.regions) :
    (part2convex pieces ppp).1.domain = ppp.domain ∧ (part2convex pieces ppp).1.propRegions = ppp.propRegions ∧
    Preserving G ppp.domain ppp.propRegions (part2convex pieces ppp).1.regions ∧
    (part2convex pieces ppp).2.length = (part2convex pieces ppp).1.regions.length ∧
    ∀ (k : Nat) (c : Region P), (part2convex pieces ppp).1.regions[k]? = some c → ∃ j r,
      (part2convex pieces ppp).2[k]? = some j ∧ ppp.regions[j]? = some r ∧ c.poly ∈ pieces r.poly ∧
      c.props = r.props ∧ G.den c.poly ⊆ G.den r.poly := by
  have hmem : ∀ c ∈ (part2convex pieces ppp).1.regions, ∃ r ∈ ppp.regions, c.poly ∈ pieces r.poly ∧ c.props = r.props ∧
      G.den c.poly ⊆ G.den r.poly := by
    intro c hcm
    simp only [part2convex, List.mem_map] at hcm
    obtain ⟨x, hx, rfl⟩ := hcm
    obtain ⟨r, h1, h2, h3⟩ := convexPieces_get hx
    exact ⟨r, List.mem_of_getElem? h1, h2, h3, hc.sub _ _ h2⟩
  refine ⟨rfl, rfl, ⟨?_, ?_, ?_, ?_, ?_⟩, by simp [part2convex], ?_⟩
  · intro c hcm
    obtain ⟨r, hr, _, _, h⟩ := hmem c hcm
    exact h.trans (hp.inside r hr)
  · refine hG.null_of_sub (C := {x | ∃ r ∈ ppp.regions, x ∈ G.den r.poly \ {x | ∃ p ∈ pieces r.poly, x ∈ G.den p}}) ?_
      hp.cover (hG.null_iUnion _ _ fun r _ => hc.cover r.poly)
    rintro x ⟨hx, hn⟩
    by_cases h1 : ∃ r ∈ ppp.regions, x ∈ G.den r.poly
    · obtain ⟨r, hr, hxr⟩ := h1
      refine Or.inr ⟨r, hr, hxr, ?_⟩
      rintro ⟨p, hpp, hxp⟩
      refine hn ⟨⟨p, r.props⟩, ?_, hxp⟩
      obtain ⟨j, hj⟩ := List.getElem?_of_mem hr
      simp only [part2convex, List.mem_map]
      refine ⟨(⟨p, r.props⟩, j), ?_, rfl⟩
      unfold convexPieces
      exact List.mem_flatMap.2 ⟨(r, j), List.mem_zipIdx_iff_getElem?.2 hj, List.mem_map.2 ⟨p, hpp, rfl⟩⟩
    · exact Or.inl ⟨hx, h1⟩
  · simp only [part2convex, convexPieces, List.pairwise_map]
    rw [List.pairwise_flatMap]
    constructor
    · intro r _
      rw [List.pairwise_map]
      exact hc.disjoint r.1.poly
    · have h1 : (ppp.regions.zipIdx.map (·.1)).Pairwise fun r s => G.null (G.den r.poly ∩ G.den s.poly) := by
        rw [List.zipIdx_map_fst]; exact hp.disjoint
      rw [List.pairwise_map] at h1
      refine h1.imp fun {r s} hrs x hx y hy => ?_
      obtain ⟨p, hpp, rfl⟩ := List.mem_map.1 hx
      obtain ⟨q, hq, rfl⟩ := List.mem_map.1 hy
      exact hG.null_mono (Set.inter_subset_inter (hc.sub _ _ hpp) (hc.sub _ _ hq)) hrs
  · intro c hcm p hpp
    obtain ⟨r, hr, _, h2, h3⟩ := hmem c hcm
    obtain ⟨q, h4, h5⟩ := hp.holds r hr p (by rw [← h2]; exact hpp)
    exact ⟨q, h4, h3.trans h5⟩
  · intro c hcm p q hq hpp
    obtain ⟨r, hr, _, h2, h3⟩ := hmem c hcm
    exact hG.null_mono (Set.inter_subset_inter_left _ h3) (hp.fails r hr p q hq (by rw [← h2]; exact hpp))
  · intro k c hk
    simp only [part2convex, List.getElem?_map, Option.map_eq_some_iff] at hk
    obtain ⟨x, hx, rfl⟩ := hk
    obtain ⟨r, h1, h2, h3⟩ := convexPieces_get (List.mem_of_getElem? hx)
    refine ⟨x.2, r, ?_, h1, h2, h3, hc.sub _ _ h2⟩
    simp only [part2convex, List.getElem?_map, hx]
    rfl

/-- What holds of the partition that is refined. -/
structure PrepOk (G : Geom P X) (sys : ContSys P) (given : Partition P) (p : Prepared P) : Prop where
  domain : p.part.domain = given.domain
  props : p.part.propRegions = given.propRegions
  preserving : Preserving G given.domain given.propRegions p.part.regions
  len : p.part2orig.length = p.part.regions.length
  subsLen : sys.subs.isSome = true → p.subs.length = p.part.regions.length
  map : ∀ (k : Nat) (c : Region P), p.part.regions[k]? = some c → ∃ j r, p.part2orig[k]? = some j ∧
    given.regions[j]? = some r ∧ c.props = r.props ∧ G.den c.poly ⊆ G.den r.poly
  sub : ∀ ds, sys.subs = some ds → ∀ (k : Nat) (c : Region P), p.part.regions[k]? = some c → ∃ i d,
    p.subs[k]? = some i ∧ ds[i]? = some d ∧ G.den c.poly ⊆ G.den d

theorem preparePwa_spec {G : Geom P X} (hG : G.Lawful) {le : P → P → Bool}
    (hle : ∀ a b, G.den a ⊆ G.den b → le a b = true) {adjacent : P → P → Bool} {sys : ContSys P} (hsys : sys.Covers G)
    {given : Partition P} (hg : Preserving G given.domain given.propRegions given.regions) {adj : Nat → Nat → Bool}
    {p : Prepared P} (h : preparePwa G le adjacent sys given adj = .ok p) : PrepOk G sys given p := by
  unfold preparePwa at h
  split at h
  · rename_i hs
    cases h
    refine ⟨rfl, rfl, hg, by simp, by simp [hs], ?_, by simp [hs]⟩
    intro k c hk
    have hlt : k < given.regions.length := (List.getElem?_eq_some_iff.1 hk).1
    exact ⟨k, c, by simp [hlt], hk, rfl, le_refl _⟩
  · rename_i subs hs
    obtain ⟨h1, h2⟩ := pwaPartition_spec hG hle (sysDom := sys.domain) (subs := subs) hg (hsys subs hs).1 (hsys subs hs).2
    obtain ⟨⟨new, subsys, parents⟩, hr, h⟩ := bindE_ok h
    cases hd : G.fulldim (G.diff given.domain sys.domain) with
    | true => rw [h1 hd] at hr; cases hr
    | false =>
      obtain ⟨new', subsys', parents', hr', e1, e2, e3, e4, e5, e6⟩ := h2 hd
      rw [hr] at hr'
      cases hr'
      cases h
      refine ⟨e1, e2, e3, e5, fun _ => e4, ?_, ?_⟩
      · intro k c hk
        have hlt : k < new.regions.length := (List.getElem?_eq_some_iff.1 hk).1
        obtain ⟨r, d, h1, _, h3, h4, _⟩ := e6 k c (subsys[k]'(by omega)) (parents[k]'(by omega)) hk
          (List.getElem?_eq_getElem _) (List.getElem?_eq_getElem _)
        exact ⟨_, r, List.getElem?_eq_getElem _, h1, h3, h4⟩
      · intro ds hds k c hk
        rw [hs] at hds
        cases hds
        have hlt : k < new.regions.length := (List.getElem?_eq_some_iff.1 hk).1
        obtain ⟨r, d, _, h2, _, _, h5⟩ := e6 k c (subsys[k]'(by omega)) (parents[k]'(by omega)) hk
          (List.getElem?_eq_getElem _) (List.getElem?_eq_getElem _)
        exact ⟨_, d, List.getElem?_eq_getElem _, h2, h5⟩

theorem prepareConvex_spec {G : Geom P X} (hG : G.Lawful) {pieces : P → List P} (hc : Convexifies G pieces)
    {findAdj : List (Region P) → Nat → Nat → Bool} {conservative : Bool} {sys : ContSys P} {given : Partition P}
    {p p' : Prepared P} (hp : PrepOk G sys given p)
    (h : prepareConvex pieces findAdj sys.subs.isSome conservative p = .ok p') :
    PrepOk G sys given p' ∧ (conservative = false → ∀ c ∈ p'.part.regions, ∃ r0, c.poly ∈ pieces r0) := by
  unfold prepareConvex at h
  split at h
  · rename_i hcons
    cases h
    exact ⟨hp, by simp [hcons]⟩
  · dsimp only at h
    obtain ⟨po, hpo, h⟩ := bindE_ok h
    obtain ⟨sb, hsb, h⟩ := bindE_ok h
    cases h
    obtain ⟨e1, e2, e3, e4, e5⟩ := part2convex_spec hG hc (ppp := p.part) (by rw [hp.domain, hp.props]; exact hp.preserving)
    have hpo' := pick_ok hpo
    refine ⟨⟨e1.trans hp.domain, e2.trans hp.props, ?_, ?_, ?_, ?_, ?_⟩, ?_⟩
    · rw [← hp.domain, ← hp.props]; exact e3
    · rw [← hpo'.length_eq]; exact e4
    · intro hs
      rw [if_pos hs] at hsb
      rw [← (pick_ok hsb).length_eq]; exact e4
    · intro k c hk
      obtain ⟨j, r, h1, h2, _, h3, h4⟩ := e5 k c hk
      obtain ⟨a, h5, h6⟩ := forall₂_getElem hpo' h1
      obtain ⟨j', r', h7, h8, h9, h10⟩ := hp.map j r h2
      rw [h6] at h7
      cases h7
      exact ⟨a, r', h5, h8, h3.trans h9, h4.trans h10⟩
    · intro ds hds k c hk
      rw [if_pos (by simp [hds])] at hsb
      obtain ⟨j, r, h1, h2, _, h3, h4⟩ := e5 k c hk
      obtain ⟨a, h5, h6⟩ := forall₂_getElem (pick_ok hsb) h1
      obtain ⟨i, d, h7, h8, h9⟩ := hp.sub ds hds j r h2
      rw [h6] at h7
      cases h7
      exact ⟨a, d, h5, h8, h4.trans h9⟩
    · intro _ c hcm
      obtain ⟨k, hk⟩ := List.getElem?_of_mem hcm
      obtain ⟨j, r, _, _, h3, _⟩ := e5 k c hk
      exact ⟨_, h3⟩

theorem prepare_spec {E : DiscEnv P X K} (hG : E.G.Lawful) (hle : ∀ a b, E.G.den a ⊆ E.G.den b → E.le a b = true)
    (hc : Convexifies E.G E.pieces) {sys : ContSys P} (hsys : sys.Covers E.G) {prm : DiscParams} {given : Partition P}
    (hg : Preserving E.G given.domain given.propRegions given.regions) {adj : Nat → Nat → Bool} {p : Prepared P}
    (h : E.prepare sys prm given adj = .ok p) :
    PrepOk E.G sys given p ∧ (prm.conservative = false → ∀ c ∈ p.part.regions, ∃ r0, c.poly ∈ E.pieces r0) := by
  unfold DiscEnv.prepare at h
  obtain ⟨p0, h0, h⟩ := bindE_ok h
  exact prepareConvex_spec hG hc (preparePwa_spec hG hle hsys hg h0) h

theorem finish_ok {le : P → P → Bool} {sys : ContSys P} {given : Partition P} {p : Prepared P} {prm : DiscParams}
    {S : DState P} {A : AbsPwa P} (h : finish le sys given p prm S = .ok A) :
    ∃ g po, discTs S p.part.propRegions.keys = (g, none) ∧ pick p.part2orig S.orig = .ok po ∧
      A = { ppp := ⟨p.part.domain, S.sol, p.part.propRegions⟩, ts := g, ppp2ts := List.range S.sol.length, pwa := sys.subs,
            pwaPpp := p.part, ppp2pwaMap := S.orig, ppp2sysMap := if sys.subs.isSome then some S.subs else none,
            origPpp := given, ppp2origMap := po, params := prm } := by
  unfold finish at h
  obtain ⟨new, h1, h⟩ := bindE_ok h
  obtain ⟨ts, h2, h⟩ := bindE_ok h
  obtain ⟨po, h3, h⟩ := bindE_ok h
  cases h
  unfold Partition.make at h1
  split at h1
  · cases h1
  split at h1
  · cases h1
  cases h1
  generalize hd : discTs S p.part.propRegions.keys = d at h2
  obtain ⟨g, e⟩ := d
  cases e with
  | some e => cases h2
  | none => cases h2; exact ⟨_, po, rfl, h3, rfl⟩

theorem findIdx_range (n s : Nat) (h : s < n) : (List.range n).findIdx? (· == s) = some s := by
  rw [List.findIdx?_eq_some_iff_getElem]
  refine ⟨by simpa using h, by simp, ?_⟩
  intro j hj
  simp
  omega

theorem findIdx_range_none (n s : Nat) (h : ¬ s < n) : (List.range n).findIdx? (· == s) = none := by
  rw [List.findIdx?_eq_none_iff]
  intro x hx
  simp at hx ⊢
  omega

/-- The parts of a run of `discretize` with the bisimulation algorithm. -/
theorem discretize_bi_ok {E : DiscEnv P X K} {sys : ContSys P} {given : Partition P} {adj : Nat → Nat → Bool}
    {prm : DiscParams} {fuel : Nat} {A : AbsPwa P} (h : discretize E sys given adj prm "bi" fuel = some (.ok A)) :
    ∃ p S, E.prepare sys prm given adj = .ok p ∧
      discretizeBi (E.ops sys prm) p.part.regions p.adj p.subs fuel = some (.ok S) ∧
      finish E.le sys given p prm S = .ok A := by
  unfold discretize at h
  rw [show algorithmOf (P := P) (K := K) "bi" = .ok discretizeBi from rfl] at h
  dsimp only at h
  split at h
  · cases h
  rename_i p hp
  split at h
  · cases h
  · cases h
  rename_i S hS
  cases h' : finish E.le sys given p prm S with
  | error e => rw [h'] at h; cases h
  | ok A' => rw [h'] at h; cases h; exact ⟨p, S, hp, hS, h'⟩

theorem discretize_dual_ok {E : DiscEnv P X K} {sys : ContSys P} {given : Partition P} {adj : Nat → Nat → Bool}
    {prm : DiscParams} {fuel : Nat} {A : AbsPwa P} (h : discretize E sys given adj prm "dual" fuel = some (.ok A)) :
    ∃ p S, E.prepare sys prm given adj = .ok p ∧
      discretizeDual (E.ops sys prm) p.part.regions p.adj p.subs fuel = some (.ok S) ∧
      finish E.le sys given p prm S = .ok A := by
  unfold discretize at h
  rw [show algorithmOf (P := P) (K := K) "dual" = .ok discretizeDual from rfl] at h
  dsimp only at h
  split at h
  · cases h
  rename_i p hp
  split at h
  · cases h
  · cases h
  rename_i S hS
  cases h' : finish E.le sys given p prm S with
  | error e => rw [h'] at h; cases h
  | ok A' => rw [h'] at h; cases h; exact ⟨p, S, hp, hS, h'⟩

/-- The maps, for any of the two algorithms. -/
theorem mapped_of {E : DiscEnv P X K} {sys : ContSys P} {given : Partition P} {prm : DiscParams} {p : Prepared P}
    {S : DState P} {A : AbsPwa P} (hprep : PrepOk E.G sys given p)
    (hpieces : ∀ c ∈ p.part.regions, ∃ r0, c.poly ∈ E.pieces r0) (hfin : finish E.le sys given p prm S = .ok A)
    (hlen : S.orig.length = S.sol.length)
    (hcell : ∀ (i : Nat) (r : Region P) (h : Nat), S.sol[i]? = some r → S.orig[i]? = some h → ∃ c : Region P,
      p.part.regions[h]? = some c ∧ r.props = c.props ∧ E.G.den r.poly ⊆ E.G.den c.poly)
    (hsubs : ∀ subs, sys.subs = some subs → ∀ (i h : Nat), S.orig[i]? = some h → S.subs[i]? = p.subs[h]?)
    (hkeys : ∀ r ∈ S.sol, ∀ q ∈ r.props, q ∈ p.part.propRegions.keys) :
    Mapped E sys given A := by
  obtain ⟨g, po, hg, hpo, rfl⟩ := finish_ok hfin
  obtain ⟨g', hg', hts⟩ := discTs_spec S p.part.propRegions.keys hkeys
  rw [hg] at hg'
  obtain rfl : g = g' := by cases hg'; rfl
  have hst : ∀ s, g.hasNode s = true ↔ s < S.sol.length := by
    intro s
    rw [hts.states]
    exact ⟨fun ⟨i, hi, he⟩ => by rw [he]; exact hi, fun hs => ⟨s, hs, rfl⟩⟩
  have hor : ∀ (i : Nat) (r : Region P), S.sol[i]? = some r → ∃ h c, S.orig[i]? = some h ∧ p.part.regions[h]? = some c ∧
      r.props = c.props ∧ E.G.den r.poly ⊆ E.G.den c.poly := by
    intro i r hr
    have hlt : i < S.sol.length := (List.getElem?_eq_some_iff.1 hr).1
    have ho : S.orig[i]? = some (S.orig[i]'(by omega)) := List.getElem?_eq_getElem _
    obtain ⟨c, h1, h2, h3⟩ := hcell i r _ hr ho
    exact ⟨_, c, ho, h1, h2, h3⟩
  refine ⟨hst, ?_, ?_, ?_, ?_, ?_⟩
  · intro s r hr
    have hr' : S.sol[s]? = some r := hr
    unfold AbsPwa.ts2ppp
    simp only [findIdx_range _ _ (List.getElem?_eq_some_iff.1 hr').1, ok_bind, getIdx_some hr']
  · intro s hs
    unfold AbsPwa.ts2ppp
    have : ¬ s < S.sol.length := by rw [← hst]; simp at hs ⊢; exact hs
    simp only [findIdx_range_none _ _ this]
    rfl
  · intro i r hr
    obtain ⟨h, c, h1, h2, h3, h4⟩ := hor i r hr
    obtain ⟨a, h5, h6⟩ := forall₂_getElem (pick_ok hpo) h1
    obtain ⟨j, r0, h7, h8, h9, h10⟩ := hprep.map h c h2
    rw [h6] at h7
    cases h7
    refine ⟨a, r0, ?_, h8, h3.trans h9, h4.trans h10⟩
    unfold AbsPwa.ppp2orig
    simp only [getIdx_some h5, ok_bind, getIdx_some h8]
  · intro i r hr
    obtain ⟨h, c, h1, h2, h3, h4⟩ := hor i r hr
    refine ⟨h, c, ?_, h2, h3, h4, hpieces c (List.mem_of_getElem? h2)⟩
    unfold AbsPwa.ppp2pwa
    simp only [getIdx_some h1, ok_bind, getIdx_some h2]
  · intro i r hr
    obtain ⟨h, c, h1, h2, h3, h4⟩ := hor i r hr
    unfold AbsPwa.ppp2sys
    dsimp only
    cases hs : sys.subs with
    | none =>
      refine ⟨0, rfl, fun _ => rfl, fun _ h => by cases h⟩
    | some ds =>
      obtain ⟨k, d, h5, h6, h7⟩ := hprep.sub ds hs h c h2
      refine ⟨k, ?_, fun h => (by cases h), ?_⟩
      · simp only [Option.isSome_some, if_true]
        rw [getIdx_some (l := S.subs) (by rw [hsubs ds hs i h h1]; exact h5)]
        simp only [ok_bind, getIdx_some h6]
        rfl
      · intro ds' hds'
        cases hds'
        exact ⟨d, h6, h4.trans h7⟩

theorem ops_pwa (E : DiscEnv P X K) (sys : ContSys P) (prm : DiscParams) : (E.ops sys prm).pwa = sys.subs.isSome := rfl
theorem ops_conservative (E : DiscEnv P X K) (sys : ContSys P) (prm : DiscParams) :
    (E.ops sys prm).conservative = prm.conservative := rfl

/-- **C115.** For a partition that preserves propositions and a system that is defined on its domain, the abstraction that
`discretize` returns with the bisimulation algorithm is a partition of the same domain that preserves the same
propositions, and keeps the given partition and the parameters. If not conservative, its maps lead from each region to the
region of the given partition, to the convex piece, and to the subsystem around it; and for each transition, from almost
each state of the source region, the active subsystem can be driven to the target region in the way `Reach` that
`solve_feasible` stands for with these parameters, while the state is in the set that `ppp2trans` returns. -/
theorem discretize_spec {E : DiscEnv P X K} (hG : E.G.Lawful) (hle : ∀ a b, E.G.den a ⊆ E.G.den b → E.le a b = true)
    (hc : Convexifies E.G E.pieces) {sys : ContSys P} (hsys : sys.Covers E.G) {prm : DiscParams}
    {Reach : Nat → Bool → Bool → Nat → Set X → Set X → Set X} (hE : E.Sound Reach) {given : Partition P}
    (hg : Preserving E.G given.domain given.propRegions given.regions) {adj : Nat → Nat → Bool} {fuel : Nat}
    {A : AbsPwa P} (h : discretize E sys given adj prm "bi" fuel = some (.ok A)) :
    A.ppp.domain = given.domain ∧ A.ppp.propRegions = given.propRegions ∧
    Preserving E.G given.domain given.propRegions A.ppp.regions ∧ A.origPpp = given ∧ A.params = prm ∧
    (prm.conservative = false → Mapped E sys given A ∧
      ∀ i j a, (i, j, a) ∈ A.ts.edges → ∃ (ri rj c : Region P) (k : Nat), A.ppp.regions[i]? = some ri ∧
        A.ppp.regions[j]? = some rj ∧ A.ppp2trans i = .ok (c, k) ∧
        E.G.null (E.G.den ri.poly \ Reach prm.N prm.closedLoop prm.useAllHorizon k (E.G.den c.poly) (E.G.den rj.poly))) := by
  obtain ⟨p, S, hp, hS, hfin⟩ := discretize_bi_ok h
  obtain ⟨hprep, hpieces⟩ := prepare_spec hG hle hc hsys hg hp
  obtain ⟨home, hlen, hpres, horig, hsubs, hcell, htrans⟩ := discretizeBi_sound hG (hE.ops sys prm) hprep.preserving
    (by rw [ops_pwa]; exact hprep.subsLen) hS
  have hkeys : ∀ r ∈ S.sol, ∀ q ∈ r.props, q ∈ p.part.propRegions.keys := by
    intro r hr q hq
    obtain ⟨t, ht, _⟩ := hpres.holds r hr q hq
    rw [hprep.props]
    exact (Dict.mem_keys_iff _ _).2 (by rw [ht]; simp)
  obtain ⟨g, po, hgt, hpo, hA⟩ := finish_ok hfin
  have hA1 : A.ppp = ⟨p.part.domain, S.sol, p.part.propRegions⟩ := by rw [hA]
  refine ⟨by rw [hA1]; exact hprep.domain, by rw [hA1]; exact hprep.props, by rw [hA1]; exact hpres, by rw [hA],
    by rw [hA], ?_⟩
  intro hcons
  have ho : S.orig = home := horig (by rw [ops_conservative]; exact hcons)
  have hM : Mapped E sys given A := mapped_of hprep (hpieces hcons) hfin (by rw [ho, hlen]) (by rw [ho]; exact hcell)
    (by rw [ho]; intro subs hs; exact hsubs (by rw [ops_pwa, hs]; rfl)) hkeys
  refine ⟨hM, ?_⟩
  intro i j a ha
  obtain ⟨g', hg', hts⟩ := discTs_spec S p.part.propRegions.keys hkeys
  rw [hgt] at hg'
  obtain rfl : g = g' := by cases hg'; rfl
  have hAt : A.ts = g := by rw [hA]
  rw [hAt] at ha
  obtain ⟨i', j', _, _, rfl, rfl, hij⟩ := (hts.transitions i j).1 ⟨a, ha⟩
  obtain ⟨ri, rj, hm, c, k, h1, h2, h3, h4, h5, h6⟩ := htrans j i hij
  refine ⟨ri, rj, c, k, by rw [hA1]; exact h1, by rw [hA1]; exact h2, ?_, h6⟩
  unfold AbsPwa.ppp2trans AbsPwa.ppp2pwa
  obtain ⟨k', hk', hk0, hk1⟩ := hM.ppp2sys i ri (by rw [hA1]; exact h1)
  have e1 : A.ppp2pwaMap[i]? = some hm := by rw [hA]; simp only [ho]; exact h3
  have e2 : A.pwaPpp.regions[hm]? = some c := by rw [hA]; exact h4
  simp only [getIdx_some e1, getIdx_some e2, ok_bind, hk']
  have hkk : k' = k := by
    cases hs : sys.subs with
    | none =>
      rw [ops_pwa, hs] at h5
      rw [hk0 hs]
      simpa using h5.symm
    | some ds =>
      rw [ops_pwa, hs] at h5
      simp only [Option.isSome_some, if_true] at h5
      have e3 : A.ppp2sysMap = some S.subs := by rw [hA, hs]; rfl
      have e4 : S.subs[i]? = some k := by
        rw [hsubs (by rw [ops_pwa, hs]; rfl) i hm h3]; exact h5
      unfold AbsPwa.ppp2sys at hk'
      rw [e3] at hk'
      simp only [getIdx_some e4, ok_bind] at hk'
      split at hk'
      · cases hk'
      · rename_i subs _
        generalize getIdx subs k = z at hk'
        cases z with
        | error e => cases hk'
        | ok z => cases hk'; rfl
  rw [hkk]

/-- **C115.** `discretize` raises `ValueError` for an unknown `simu_type`; otherwise, if its preparation succeeds and the
loop ends, it returns an abstraction (for the bisimulation algorithm, if not conservative). -/
theorem discretize_returns {E : DiscEnv P X K} (hG : E.G.Lawful) (hle : ∀ a b, E.G.den a ⊆ E.G.den b → E.le a b = true)
    (hc : Convexifies E.G E.pieces) {sys : ContSys P} (hsys : sys.Covers E.G) {prm : DiscParams}
    (hcons : prm.conservative = false)
    {Reach : Nat → Bool → Bool → Nat → Set X → Set X → Set X} (hE : E.Sound Reach) {given : Partition P}
    (hg : Preserving E.G given.domain given.propRegions given.regions) (adj : Nat → Nat → Bool) (fuel : Nat) :
    (∀ simuType, simuType ≠ "bi" → simuType ≠ "dual" →
      discretize E sys given adj prm simuType fuel = some (.error .valueError)) ∧
    ∀ p S, E.prepare sys prm given adj = .ok p →
      discretizeBi (E.ops sys prm) p.part.regions p.adj p.subs fuel = some (.ok S) →
      ∃ A, discretize E sys given adj prm "bi" fuel = some (.ok A) ∧ A.ppp.regions = S.sol := by
  constructor
  · intro simuType h1 h2
    unfold discretize algorithmOf
    rw [if_neg h1, if_neg h2]
  · intro p S hp hS
    obtain ⟨hprep, _⟩ := prepare_spec hG hle hc hsys hg hp
    obtain ⟨home, hlen, hpres, horig, _, hcell, _⟩ := discretizeBi_sound hG (hE.ops sys prm) hprep.preserving
      (by rw [ops_pwa]; exact hprep.subsLen) hS
    have ho : S.orig = home := horig (by rw [ops_conservative]; exact hcons)
    have hkeys : ∀ r ∈ S.sol, ∀ q ∈ r.props, q ∈ p.part.propRegions.keys := by
      intro r hr q hq
      obtain ⟨t, ht, _⟩ := hpres.holds r hr q hq
      rw [hprep.props]
      exact (Dict.mem_keys_iff _ _).2 (by rw [ht]; simp)
    obtain ⟨g, hgt, _⟩ := discTs_spec S p.part.propRegions.keys hkeys
    obtain ⟨po, hpo⟩ := pick_total (l := p.part2orig) (idx := S.orig) (by
      intro h hh
      rw [ho] at hh
      obtain ⟨i, hi⟩ := List.getElem?_of_mem hh
      have hlt : i < S.sol.length := by rw [← hlen]; exact (List.getElem?_eq_some_iff.1 hi).1
      obtain ⟨c, h1, _⟩ := hcell i _ h (List.getElem?_eq_getElem hlt) hi
      rw [hprep.len]
      exact (List.getElem?_eq_some_iff.1 h1).1)
    have hmake : Partition.make E.le p.part.domain S.sol p.part.propRegions =
        .ok ⟨p.part.domain, S.sol, p.part.propRegions⟩ := by
      unfold Partition.make
      rw [if_neg, if_neg]
      · simp only [List.any_eq_true, not_exists, not_and, Bool.not_eq_true', Bool.not_eq_false]
        intro r hr q hq
        obtain ⟨t, ht, _⟩ := hpres.holds r hr q hq
        rw [hprep.props]
        exact (Dict.has_iff _ _).2 ⟨t, ht⟩
      · simp only [List.any_eq_true, not_exists, not_and, Bool.not_eq_true', Bool.not_eq_false]
        intro r hr
        rw [hprep.domain]
        exact hle _ _ (hpres.inside r hr)
    have hfin : ∃ A, finish E.le sys given p prm S = .ok A ∧ A.ppp.regions = S.sol := by
      unfold finish
      rw [hmake, hgt, hpo]
      exact ⟨_, rfl, rfl⟩
    obtain ⟨A, hA, hAr⟩ := hfin
    refine ⟨A, ?_, hAr⟩
    unfold discretize
    rw [show algorithmOf (P := P) (K := K) "bi" = .ok discretizeBi from rfl]
    dsimp only
    rw [hp]
    dsimp only
    rw [hS]
    dsimp only
    rw [hA]

/-- **C115.** The preparation succeeds if the domain of the system covers that of the partition (up to regions that are
not full dimensional), and raises an exception otherwise. -/
theorem prepare_returns {E : DiscEnv P X K} (hG : E.G.Lawful) (hle : ∀ a b, E.G.den a ⊆ E.G.den b → E.le a b = true)
    (hc : Convexifies E.G E.pieces) {sys : ContSys P} (hsys : sys.Covers E.G) (prm : DiscParams) {given : Partition P}
    (hg : Preserving E.G given.domain given.propRegions given.regions) (adj : Nat → Nat → Bool) :
    ((sys.subs.isSome = true → E.G.fulldim (E.G.diff given.domain sys.domain) = false) →
      ∃ p, E.prepare sys prm given adj = .ok p) ∧
    (sys.subs.isSome = true → E.G.fulldim (E.G.diff given.domain sys.domain) = true →
      E.prepare sys prm given adj = .error .exception) := by
  constructor
  · intro hdom
    obtain ⟨p0, h0⟩ : ∃ p0, preparePwa E.G E.le E.O.adjacent sys given adj = .ok p0 := by
      unfold preparePwa
      cases hs : sys.subs with
      | none => exact ⟨_, rfl⟩
      | some subs =>
        obtain ⟨new, subsys, parents, hr, _⟩ := (pwaPartition_spec hG hle (sysDom := sys.domain) (subs := subs) hg
          (hsys subs hs).1 (hsys subs hs).2).2 (hdom (by simp [hs]))
        simp only
        rw [hr]
        exact ⟨_, rfl⟩
    have hp := preparePwa_spec hG hle hsys hg h0
    unfold DiscEnv.prepare
    rw [h0, ok_bind]
    unfold prepareConvex
    split
    · exact ⟨_, rfl⟩
    · obtain ⟨_, _, _, e4, e5⟩ := part2convex_spec hG hc (ppp := p0.part)
        (by rw [hp.domain, hp.props]; exact hp.preserving)
      have hlt : ∀ j ∈ (part2convex E.pieces p0.part).2, j < p0.part.regions.length := by
        intro j hj
        obtain ⟨k, hk⟩ := List.getElem?_of_mem hj
        have hk' : k < (part2convex E.pieces p0.part).1.regions.length := by
          rw [← e4]; exact (List.getElem?_eq_some_iff.1 hk).1
        obtain ⟨j', r, h1, h2, _⟩ := e5 k _ (List.getElem?_eq_getElem hk')
        rw [hk] at h1
        cases h1
        exact (List.getElem?_eq_some_iff.1 h2).1
      obtain ⟨po, hpo⟩ := pick_total (l := p0.part2orig) (idx := (part2convex E.pieces p0.part).2)
        (by rw [hp.len]; exact hlt)
      simp only
      rw [hpo, ok_bind]
      split
      · rename_i hs
        obtain ⟨sb, hsb⟩ := pick_total (l := p0.subs) (idx := (part2convex E.pieces p0.part).2)
          (by rw [hp.subsLen hs]; exact hlt)
        rw [hsb]
        exact ⟨_, rfl⟩
      · exact ⟨_, rfl⟩
  · intro hs hfull
    obtain ⟨subs, hsub⟩ := Option.isSome_iff_exists.1 hs
    unfold DiscEnv.prepare preparePwa
    rw [hsub]
    simp only
    rw [(pwaPartition_spec hG hle (sysDom := sys.domain) (subs := subs) hg (hsys subs hsub).1 (hsys subs hsub).2).1 hfull]
    rfl

/-! ## The dual-simulation algorithm -/

/-- **C115.** For an LTI system and if not conservative, the abstraction that `discretize` returns with the dual-simulation
algorithm has correct maps too. The convex pieces of the given regions are the first of its regions, and for each transition,
from almost each state of the source region, the system can be driven to the target region, while the state is in some
convex piece of a given region, around the source region. -/
theorem discretize_dual_spec {E : DiscEnv P X K} (hG : E.G.Lawful)
    (hle : ∀ a b, E.G.den a ⊆ E.G.den b → E.le a b = true)
    (hc : Convexifies E.G E.pieces) {sys : ContSys P} (hsys : sys.subs = none) {prm : DiscParams}
    (hcons : prm.conservative = false)
    {Reach : Nat → Bool → Bool → Nat → Set X → Set X → Set X} (hE : E.Sound Reach) (hD : E.O.DualSound E.G)
    {given : Partition P}
    (hg : Preserving E.G given.domain given.propRegions given.regions) {adj : Nat → Nat → Bool} {fuel : Nat}
    {A : AbsPwa P} (h : discretize E sys given adj prm "dual" fuel = some (.ok A)) :
    A.pwaPpp.regions <+: A.ppp.regions ∧ Mapped E sys given A ∧ A.origPpp = given ∧ A.params = prm ∧
      ∀ i j a, (i, j, a) ∈ A.ts.edges → ∃ ri rj : Region P, A.ppp.regions[i]? = some ri ∧
        A.ppp.regions[j]? = some rj ∧ ∃ c ∈ A.pwaPpp.regions, E.G.den ri.poly ⊆ E.G.den c.poly ∧
        E.G.null (E.G.den ri.poly \ Reach prm.N prm.closedLoop prm.useAllHorizon 0 (E.G.den c.poly) (E.G.den rj.poly)) := by
  have hcov : sys.Covers E.G := by intro subs hs; rw [hsys] at hs; cases hs
  obtain ⟨p, S, hp, hS, hfin⟩ := discretize_dual_ok h
  obtain ⟨hprep, hpieces⟩ := prepare_spec hG hle hc hcov hg hp
  have hpwa : (E.ops sys prm).pwa = false := by rw [ops_pwa, hsys]; rfl
  obtain ⟨home, hI⟩ := discretizeDual_inv hG (hE.ops sys prm) (O := E.ops sys prm) ⟨hD.same_volume, hD.eqv⟩ (by simp [hpwa]) hS
  have hcell := hI.cell
  have hkeys : ∀ r ∈ S.sol, ∀ q ∈ r.props, q ∈ p.part.propRegions.keys := by
    intro r hr q hq
    obtain ⟨i, hi⟩ := List.getElem?_of_mem hr
    have hlt : i < home.length := by rw [hI.len]; exact (List.getElem?_eq_some_iff.1 hi).1
    obtain ⟨c, h1, h2, _⟩ := hcell i r _ hi (List.getElem?_eq_getElem hlt)
    obtain ⟨t, ht, _⟩ := hprep.preserving.holds c (List.mem_of_getElem? h1) q (by rw [← h2]; exact hq)
    rw [hprep.props]
    exact (Dict.mem_keys_iff _ _).2 (by rw [ht]; simp)
  obtain ⟨g, po, hgt, hpo, hA⟩ := finish_ok hfin
  have hA1 : A.ppp = ⟨p.part.domain, S.sol, p.part.propRegions⟩ := by rw [hA]
  have hA2 : A.pwaPpp = p.part := by rw [hA]
  have ho : S.orig = home := hI.orig (by rw [ops_conservative]; exact hcons)
  refine ⟨by rw [hA1, hA2]; exact hI.given, mapped_of hprep (hpieces hcons) hfin (by rw [ho, hI.len])
    (by rw [ho]; exact hcell) (by intro subs hs; rw [hsys] at hs; cases hs) hkeys, by rw [hA], by rw [hA], ?_⟩
  intro i j a ha
  obtain ⟨g', hg', hts⟩ := discTs_spec S p.part.propRegions.keys hkeys
  rw [hgt] at hg'
  obtain rfl : g = g' := by cases hg'; rfl
  have hAt : A.ts = g := by rw [hA]
  rw [hAt] at ha
  obtain ⟨i', j', _, _, rfl, rfl, hij⟩ := (hts.transitions i j).1 ⟨a, ha⟩
  obtain ⟨ri, rj, hm, c, k, h1, h2, h3, h4, h5, h6⟩ := hI.trans j i hij
  rw [hpwa] at h5
  obtain rfl : k = 0 := by simpa using h5
  exact ⟨ri, rj, by rw [hA1]; exact h1, by rw [hA1]; exact h2, c, by rw [hA2]; exact List.mem_of_getElem? h3, h4, h6⟩

/-! ## `verify_transitions` -/

theorem verifyLoop_ok {le : P → P → Bool} {F : Feasible P} {A : AbsPwa P} :
    ∀ {es : List (Nat × Nat × Attr (List String))} {rs : List (Nat × Nat × Bool)}, A.verifyLoop le F es = .ok rs →
      List.Forall₂ (fun e r => A.verifyOne le F e.1 e.2.1 = .ok r) es rs
  | [], rs, h => by cases h; exact .nil
  | e :: es, rs, h => by
    unfold AbsPwa.verifyLoop at h
    obtain ⟨r, hr, h⟩ := bindE_ok h
    obtain ⟨rs', hrs, h⟩ := bindE_ok h
    cases h
    exact .cons hr (verifyLoop_ok hrs)

theorem verifyLoop_total {le : P → P → Bool} {F : Feasible P} {A : AbsPwa P} :
    ∀ {es : List (Nat × Nat × Attr (List String))}, (∀ e ∈ es, ∃ r, A.verifyOne le F e.1 e.2.1 = .ok r) →
      ∃ rs, A.verifyLoop le F es = .ok rs
  | [], _ => ⟨[], rfl⟩
  | e :: es, h => by
    obtain ⟨r, hr⟩ := h e (by simp)
    obtain ⟨rs, hrs⟩ := verifyLoop_total (es := es) fun e' he => h e' (List.mem_cons_of_mem _ he)
    refine ⟨r :: rs, ?_⟩
    unfold AbsPwa.verifyLoop
    rw [hr, ok_bind, hrs, ok_bind]

/-- **C115.** `verify_transitions` judges each transition once, in order; if it calls a transition correct, then from each
state of the source region the active subsystem can be driven to the target region, in the way `Reach` that
`solve_feasible` stands for with the horizon of the abstraction, while the state is in the set that `ppp2trans` returns. -/
theorem verifyTransitions_sound {G : Geom P X} {le : P → P → Bool} (hle : ∀ a b, le a b = true → G.den a ⊆ G.den b)
    {F : Feasible P} {Reach : Nat → Set X → Set X → Set X} {A : AbsPwa P}
    (hF : ∀ p q sys t s, F p q sys A.params.N true A.params.useAllHorizon t 5 = .ok s →
      G.den s ⊆ Reach sys (G.den (t.getD p)) (G.den q))
    {rs : List (Nat × Nat × Bool)} (h : A.verifyTransitions le F = .ok rs) :
    rs.length = A.ts.edges.length ∧
    ∀ (n u v : Nat) a, A.ts.edges[n]? = some (u, v, a) → ∃ i j ri rj c k b, rs[n]? = some (i, j, b) ∧
      A.ts2ppp u = .ok (i, ri) ∧ A.ts2ppp v = .ok (j, rj) ∧ A.ppp2trans i = .ok (c, k) ∧
      (b = true → G.den ri.poly ⊆ Reach k (G.den c.poly) (G.den rj.poly)) := by
  have hall := verifyLoop_ok h
  refine ⟨hall.length_eq.symm, ?_⟩
  intro n u v a hn
  obtain ⟨r, hr, h1⟩ := forall₂_getElem hall hn
  unfold AbsPwa.verifyOne at h1
  obtain ⟨⟨i, ri⟩, e1, h1⟩ := bindE_ok h1
  obtain ⟨⟨j, rj⟩, e2, h1⟩ := bindE_ok h1
  obtain ⟨⟨c, k⟩, e3, h1⟩ := bindE_ok h1
  obtain ⟨s0, e4, h1⟩ := bindE_ok h1
  cases h1
  refine ⟨i, j, ri, rj, c, k, _, hr, e1, e2, e3, ?_⟩
  intro hb
  exact (hle _ _ hb).trans (hF _ _ _ _ _ e4)

/-- **C115.** `verify_transitions` does not raise for the abstraction that `discretize` returns, if not conservative and if
`solve_feasible` does not raise. -/
theorem verifyTransitions_returns {E : DiscEnv P X K} (hG : E.G.Lawful)
    (hle : ∀ a b, E.G.den a ⊆ E.G.den b → E.le a b = true)
    (hc : Convexifies E.G E.pieces) {sys : ContSys P} (hsys : sys.Covers E.G) {prm : DiscParams}
    (hcons : prm.conservative = false)
    {Reach : Nat → Bool → Bool → Nat → Set X → Set X → Set X} (hE : E.Sound Reach) {given : Partition P}
    (hg : Preserving E.G given.domain given.propRegions given.regions) {adj : Nat → Nat → Bool} {fuel : Nat}
    {A : AbsPwa P} (h : discretize E sys given adj prm "bi" fuel = some (.ok A))
    {le : P → P → Bool} {F : Feasible P}
    (hF : ∀ p q k t, ∃ s, F p q k prm.N true prm.useAllHorizon (some t) 5 = .ok s) :
    ∃ rs, A.verifyTransitions le F = .ok rs := by
  obtain ⟨_, _, _, _, hprm, hmap⟩ := discretize_spec hG hle hc hsys hE hg h
  obtain ⟨hM, htr⟩ := hmap hcons
  refine verifyLoop_total ?_
  rintro ⟨u, v, a⟩ he
  obtain ⟨ri, rj, c, k, h1, h2, h3, _⟩ := htr u v a he
  obtain ⟨s, hs⟩ := hF ri.poly rj.poly k c.poly
  refine ⟨(u, v, le ri.poly s), ?_⟩
  unfold AbsPwa.verifyOne
  simp only [hM.ts2ppp u ri h1, hM.ts2ppp v rj h2, ok_bind, h3, hprm, hs]

/-! ## Disagreement: the maps of a conservative abstraction -/

theorem biStep_orig {O : DiscOps P K} (hcons : O.conservative = true) {origList : List P} {S S' : DState P} {j i : Nat}
    (h : biStep O origList S j i = .ok S') : S'.orig = S.orig := by
  unfold biStep at h
  obtain ⟨si, _, h⟩ := bindE_ok h
  obtain ⟨sj, _, h⟩ := bindE_ok h
  obtain ⟨sys, _, h⟩ := bindE_ok h
  obtain ⟨ts, _, h⟩ := bindE_ok h
  obtain ⟨s0, _, h⟩ := bindE_ok h
  dsimp only at h
  split at h
  · unfold divide at h
    split at h
    · cases h
    · dsimp only at h
      rw [if_pos hcons] at h
      obtain ⟨o, ho, h⟩ := bindE_ok h
      obtain ⟨s, hs, h⟩ := bindE_ok h
      cases ho
      cases h
      rfl
  · cases h
    rfl

theorem dualStep_orig {O : DiscOps P K} (hcons : O.conservative = true) {origList : List P} {S S' : DState P} {j i : Nat}
    (h : dualStep O origList S j i = .ok S') : S'.orig = S.orig := by
  unfold dualStep at h
  obtain ⟨si, _, h⟩ := bindE_ok h
  obtain ⟨sj, _, h⟩ := bindE_ok h
  obtain ⟨sys, _, h⟩ := bindE_ok h
  obtain ⟨ts, _, h⟩ := bindE_ok h
  obtain ⟨s0, _, h⟩ := bindE_ok h
  dsimp only at h
  split at h
  · split at h
    · cases h
      rfl
    · unfold dualAdd at h
      split at h
      · cases h
      · dsimp only at h
        rw [if_pos hcons] at h
        obtain ⟨o, ho, h⟩ := bindE_ok h
        cases ho
        split at h
        · cases h
        · cases h
          rfl
  · cases h
    rfl

/-- If conservative, the lists of an abstraction that map regions have one element. -/
theorem discretize_conservative_maps {E : DiscEnv P X K} {sys : ContSys P} {given : Partition P} {adj : Nat → Nat → Bool}
    {prm : DiscParams} (hcons : prm.conservative = true) {simuType : String} {fuel : Nat} {A : AbsPwa P}
    (h : discretize E sys given adj prm simuType fuel = some (.ok A)) :
    A.ppp2pwaMap.length = 1 ∧ A.ppp2origMap.length = 1 ∧ A.ppp2ts = List.range A.ppp.regions.length := by
  have key : ∃ p S, S.orig = [0] ∧ finish E.le sys given p prm S = .ok A := by
    by_cases hb : simuType = "bi"
    · subst hb
      obtain ⟨p, S, hp, hS, hfin⟩ := discretize_bi_ok h
      refine ⟨p, S, ?_, hfin⟩
      unfold discretizeBi at hS
      exact (discLoop_inv (Q := fun S => S.orig = [0])
        (fun S S' j i hQ _ hst => (biStep_orig (by rw [ops_conservative]; exact hcons) hst).trans hQ) fuel _ _
        (by simp [discInit, ops_conservative, hcons]) hS).1
    · by_cases hd : simuType = "dual"
      · subst hd
        obtain ⟨p, S, hp, hS, hfin⟩ := discretize_dual_ok h
        refine ⟨p, S, ?_, hfin⟩
        unfold discretizeDual at hS
        exact (discLoop_inv (Q := fun S => S.orig = [0])
          (fun S S' j i hQ _ hst => (dualStep_orig (by rw [ops_conservative]; exact hcons) hst).trans hQ) fuel _ _
          (by simp [discInit, ops_conservative, hcons]) hS).1
      · unfold discretize algorithmOf at h
        rw [if_neg hb, if_neg hd] at h
        cases h
  obtain ⟨p, S, ho, hfin⟩ := key
  obtain ⟨g, po, _, hpo, rfl⟩ := finish_ok hfin
  exact ⟨by simp [ho], by rw [← (pick_ok hpo).length_eq, ho]; rfl, rfl⟩

/-- **C115.** The maps of a conservative abstraction are only defined for the first region: `ppp2orig`, `ppp2pwa` and
`ppp2trans` raise `IndexError` for the others, and so `verify_transitions` raises if a transition leaves another region. -/
theorem discretize_conservative {E : DiscEnv P X K} {sys : ContSys P} {given : Partition P} {adj : Nat → Nat → Bool}
    {prm : DiscParams} (hcons : prm.conservative = true) {simuType : String} {fuel : Nat} {A : AbsPwa P}
    (h : discretize E sys given adj prm simuType fuel = some (.ok A)) :
    (∀ i, 0 < i → A.ppp2orig i = .error .indexError ∧ A.ppp2pwa i = .error .indexError ∧
      A.ppp2trans i = .error .indexError) ∧
    ∀ (le : P → P → Bool) (F : Feasible P), (∃ e ∈ A.ts.edges, 0 < e.1) → ∃ e, A.verifyTransitions le F = .error e := by
  obtain ⟨h1, h2, h3⟩ := discretize_conservative_maps hcons h
  have hone : ∀ (l : List Nat) (i : Nat), l.length = 1 → 0 < i → getIdx l i = .error .indexError := by
    intro l i hl hi
    unfold getIdx
    rw [List.getElem?_eq_none (by omega)]
  have hpwa : ∀ i, 0 < i → A.ppp2pwa i = .error .indexError := by
    intro i hi
    unfold AbsPwa.ppp2pwa
    rw [hone _ _ h1 hi]
    rfl
  have htr : ∀ i, 0 < i → A.ppp2trans i = .error .indexError := by
    intro i hi
    unfold AbsPwa.ppp2trans
    rw [hpwa i hi]
    rfl
  refine ⟨fun i hi => ⟨?_, hpwa i hi, htr i hi⟩, ?_⟩
  · unfold AbsPwa.ppp2orig
    rw [hone _ _ h2 hi]
    rfl
  · rintro le F ⟨e, he, hpos⟩
    cases hv : A.verifyTransitions le F with
    | error e => exact ⟨e, rfl⟩
    | ok rs =>
      exfalso
      obtain ⟨n, hn⟩ := List.getElem?_of_mem he
      obtain ⟨r, hr, h4⟩ := forall₂_getElem (verifyLoop_ok hv) hn
      unfold AbsPwa.verifyOne at h4
      obtain ⟨⟨i, ri⟩, e1, h4⟩ := bindE_ok h4
      obtain ⟨⟨j, rj⟩, e2, h4⟩ := bindE_ok h4
      obtain ⟨⟨c, k⟩, e3, h4⟩ := bindE_ok h4
      have hi : i = e.1 := by
        unfold AbsPwa.ts2ppp at e1
        rw [h3] at e1
        by_cases hlt : e.1 < A.ppp.regions.length
        · rw [findIdx_range _ _ hlt] at e1
          simp only [ok_bind] at e1
          obtain ⟨r', _, e1⟩ := bindE_ok e1
          cases e1
          rfl
        · rw [findIdx_range_none _ _ hlt] at e1
          cases e1
      rw [htr i (by omega)] at e3
      cases e3

/-! ## The closed loop -/

section

open Synth (TsArg FTS MachRun Shows Assumes Guarantees InSomeState ArgsOk VarsOk InitDepends)
open Mach (Machine)

variable {R : Type} [Field R] [LinearOrder R] [IsStrictOrderedRing R]

theorem pick_map {l idx r : List Nat} (h : pick l idx = .ok r) : r = idx.map fun h => (l[h]?).getD 0 := by
  have := pick_ok h
  clear h
  induction this with
  | nil => rfl
  | cons h1 _ ih => rw [List.map_cons, ← ih, h1]; rfl

/-- The abstraction `ab` that is given to `get_input` is `A`. -/
structure Gives (G : Geom P (Nat → R)) (A : AbsPwa P) (ab : PwaAbs R) : Prop where
  regions : List.Forall₂ (fun (c : Cell R) (r : Region P) => ∀ x, c.Mem x ↔ x ∈ G.den r.poly) ab.regions A.ppp.regions
  origRegions : List.Forall₂ (fun (c : Cell R) (r : Region P) => ∀ x, c.Mem x ↔ x ∈ G.den r.poly) ab.origRegions
    A.origPpp.regions
  orig : ab.orig = some A.ppp2origMap
  N : ab.N = A.params.N
  conservative : ab.conservative = A.params.conservative
  closedLoop : ab.closedLoop = A.params.closedLoop

/-- **C113, C115.** The closed loop, from `discretize` to `get_input`: `discretize` is given a partition that preserves the
propositions and an LTI or PWA system, with `closed_loop=False`; `synthesize` is given the transition system of the
abstraction; and a run of the machine drives the system by the inputs that `get_input` computes. If the assumptions of the
specification hold of the values of the variables, then its guarantees hold of them; the machine moves along transitions of
the abstraction; and the values of the variables are those of the continuous system, whatever the disturbances. -/
theorem closedLoop_discretize {ν : Type} [DecidableEq ν]
    -- `discretize`
    {E : DiscEnv P (Nat → R) K} (hG : E.G.Lawful) (hle : ∀ a b, E.G.den a ⊆ E.G.den b → E.le a b = true)
    (hc : Convexifies E.G E.pieces) {sys : ContSys P} (hsys : sys.Covers E.G) {prm : DiscParams}
    {Reach : Nat → Bool → Bool → Nat → Set (Nat → R) → Set (Nat → R) → Set (Nat → R)} (hE : E.Sound Reach)
    {given : Partition P} (hg : Preserving E.G given.domain given.propRegions given.regions) {adj : Nat → Nat → Bool}
    {fuel : Nat} {A : AbsPwa P} (hdisc : discretize E sys given adj prm "bi" fuel = some (.ok A))
    (hopen : prm.closedLoop = false)
    -- `synthesize`
    {T : Synth.Tools ν} (horder : ∀ l x, x ∈ T.order l ↔ x ∈ l) (hostates : ∀ l, (T.orderStates l).Perm l)
    (hinit : InitDepends T.isInit) {spec : GRSpec} {env : Option TsArg} {ts : TsArg}
    {ignoreEnv ignoreSys rm : Bool} {solver : String} {solve : Synth.Solve ν}
    (hpick : T.solvers.pick solver = .ok solve)
    (hsolve : ∀ f, Synth.specPlusSys T.order spec env (some ts) ignoreEnv ignoreSys = .ok f →
      Synth.Solver.Correct T.isInit solve f)
    (ha : ArgsOk env (some ts))
    (hv : ∀ f, Synth.specPlusSys T.order spec env (some ts) ignoreEnv ignoreSys = .ok f → VarsOk f.envVars f.sysVars)
    (hreads : Reads ts.fts A.ts given.propRegions.keys)
    {m : Machine ν Synth.Elem} (hsyn : Synth.synthesize T spec env (some ts) ignoreEnv ignoreSys rm solver = .ok (some m))
    -- the closed loop
    {C : Tools R} {s : Lti R} {ab : PwaAbs R} (hab : Gives E.G A ab) :
    ∃ f, Synth.specPlusSys T.order spec env (some ts) ignoreEnv ignoreSys = .ok f ∧
      ∀ n d σ loc x u w, MachRun m n d → (∀ t, Shows (Dict.update f.envVars f.sysVars) (d t) (σ t)) →
        InSomeState ts.fts ts.sysVar ignoreSys σ → Assumes spec env (some ts) ignoreEnv ignoreSys σ →
        ClosedLoop C s ab ts.sysVar d loc x u w →
        spec.Guarantee σ ∧ (∀ t, ∃ a, (loc t, loc (t + 1), a) ∈ A.ts.edges) ∧
          Realizes E.G given.propRegions s ab A.ppp.regions σ loc x u w := by
  obtain ⟨p, S, hp, hS, hfin⟩ := discretize_bi_ok hdisc
  obtain ⟨hprep, _⟩ := prepare_spec hG hle hc hsys hg hp
  obtain ⟨g, po, hgt, hpo, hA⟩ := finish_ok hfin
  have hA1 : A.ppp = ⟨p.part.domain, S.sol, p.part.propRegions⟩ := by rw [hA]
  have hA2 : A.ts = g := by rw [hA]
  have hA3 : A.origPpp = given := by rw [hA]
  have hA4 : A.ppp2origMap = po := by rw [hA]
  have hA5 : A.params = prm := by rw [hA]
  have hpo' : po = S.orig.map fun h => (p.part2orig[h]?).getD 0 := pick_map hpo
  have hoff : Offers E.G given.regions p.part.regions (fun h => (p.part2orig[h]?).getD 0)
      (E.ops sys prm).conservative S ab := by
    refine ⟨?_, ?_, ?_, ?_, ?_⟩
    · have := hab.regions; rw [hA1] at this; exact this
    · have := hab.origRegions; rw [hA3] at this; exact this
    · rw [hab.orig, hA4, hpo']
    · intro h c hh
      obtain ⟨j, r, h1, h2, h3, _⟩ := hprep.map h c hh
      refine ⟨r, ?_, h3⟩
      rw [h1]
      exact h2
    · rw [hab.conservative, hA5]; rfl
  have hcl : ab.closedLoop = false := by rw [hab.closedLoop, hA5]; exact hopen
  rw [hprep.props] at hgt
  rw [hA2] at hreads
  obtain ⟨f, hf, hrun⟩ := closedLoop_correct hG (hE.ops sys prm) hg hprep.preserving (by rw [ops_pwa]; exact hprep.subsLen) hS hgt horder
    hostates hinit hpick hsolve ha hv hreads hsyn (C := C) (s := s) hoff hcl
  refine ⟨f, hf, ?_⟩
  rw [hA2, hA1]
  exact hrun

end

end Abs

end Tulip
