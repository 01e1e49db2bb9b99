import Verif.Abstract.DiscretizeTermProps
import Mathlib.Data.Rat.Defs
import Mathlib.Algebra.Order.Field.Rat
import Mathlib.Algebra.Order.Archimedean.Basic

/-!
# Discretization: the dual-simulation algorithm, and examples
-/

namespace Tulip

namespace Abs

set_option linter.unusedSectionVars false

variable {P X K : Type} [Field K] [LinearOrder K]

/-- Further assumptions, on the functions that only the dual-simulation algorithm uses. -/
structure DiscOps.DualSound (O : DiscOps P K) (G : Geom P X) : Prop where
  /-- Equal volumes. -/
  same_volume : ∀ a b, O.vol a - O.vol (O.inter a b) < O.absTol → G.null (G.den a \ G.den b)
  eqv : ∀ a b, O.eqv a b = true → G.den a = G.den b

/-- The invariant of the dual algorithm: the cells overlap, the given cells are kept. -/
structure DualInv (O : DiscOps P K) (G : Geom P X) (Reach : Nat → Set X → Set X → Set X)
    (part : List (Region P)) (subs0 : List Nat) (S : DState P) (home : List Nat) : Prop where
  len : home.length = S.sol.length
  given : part <+: S.sol
  orig : O.conservative = false → S.orig = home
  subs : O.pwa = true → S.subs = subs0
  first : ∀ i h : Nat, i < part.length → home[i]? = some h → h = i
  cell : ∀ (i : Nat) (r : Region P) (h : Nat), S.sol[i]? = some r → home[i]? = some h →
    ∃ c : Region P, part[h]? = some c ∧ r.props = c.props ∧ G.den r.poly ⊆ G.den c.poly
  trans : ∀ j i : Nat, S.trans j i = true → ∃ (ri rj : Region P) (h : Nat) (c : Region P) (sys : Nat),
    S.sol[i]? = some ri ∧ S.sol[j]? = some rj ∧ part[h]? = some c ∧ G.den ri.poly ⊆ G.den c.poly ∧
    (if O.pwa then subs0[h]? = some sys else sys = 0) ∧
    G.null (G.den ri.poly \ Reach sys (G.den c.poly) (G.den rj.poly))

theorem dualStep_sound {O : DiscOps P K} {G : Geom P X} (hG : G.Lawful)
    {Reach : Nat → Set X → Set X → Set X} (hO : O.Sound G Reach) (hD : O.DualSound G)
    {part : List (Region P)} {subs0 : List Nat} (hsl : O.pwa = true → subs0.length = part.length)
    {S S' : DState P} {home : List Nat}
    (hI : DualInv O G Reach part subs0 S home) {j i : Nat}
    (h : dualStep O (part.map (·.poly)) S j i = .ok S') :
    ∃ home', DualInv O G Reach part subs0 S' home' ∧ home <+: home' := by
  unfold dualStep at h
  obtain ⟨si, h1', h⟩ := bindE_ok h
  obtain ⟨sj, h2', h⟩ := bindE_ok h
  obtain ⟨sys, h3, h⟩ := bindE_ok h
  obtain ⟨ts, h4, h⟩ := bindE_ok h
  obtain ⟨s0, h5, h⟩ := bindE_ok h
  have h1 : S.sol[i]? = some si := getIdx_ok h1'
  have h2 : S.sol[j]? = some sj := getIdx_ok h2'
  clear h1' h2'
  have hi := (List.getElem?_eq_some_iff.1 h1).1
  have hj := (List.getElem?_eq_some_iff.1 h2).1
  obtain ⟨hm, hhm⟩ : ∃ hm, home[i]? = some hm := ⟨_, List.getElem?_eq_getElem (hI.len ▸ hi)⟩
  obtain ⟨c, hc, hcp, hcs⟩ := hI.cell i si hm h1 hhm
  have hsys : if O.pwa then subs0[hm]? = some sys else sys = 0 := by
    unfold sysOf at h3
    cases hp : O.pwa with
    | false =>
      rw [hp] at h3
      simp only [Bool.false_eq_true, if_false, Except.ok.injEq] at h3 ⊢
      exact h3.symm
    | true =>
      rw [hp] at h3
      simp only [if_true] at h3 ⊢
      have h3 := getIdx_ok h3
      simp only [hI.subs hp] at h3
      have := (List.getElem?_eq_some_iff.1 h3).1
      rw [hI.first i hm (by rw [← hsl hp]; exact this) hhm]
      exact h3
  have hts : G.den (ts.getD si.poly) ⊆ G.den c.poly := by
    unfold transSet at h4
    cases hcons : O.conservative with
    | true =>
      rw [hcons] at h4
      cases h4
      exact hcs
    | false =>
      rw [hcons] at h4
      simp only [Bool.false_eq_true, if_false] at h4
      obtain ⟨o, ho, h4⟩ := bindE_ok h4
      obtain ⟨d, hd, h4⟩ := bindE_ok h4
      cases h4
      have ho := getIdx_ok ho
      simp only [hI.orig hcons, hhm, Option.some.injEq] at ho
      subst ho
      have hd := getIdx_ok hd
      rw [List.getElem?_map, hc] at hd
      cases hd
      exact le_refl _
  have hs0 : G.den s0 ⊆ Reach sys (G.den c.poly) (G.den sj.poly) :=
    (hO.solve _ _ _ _ _ h5).trans (hO.mono _ _ _ _ hts)
  simp only at h
  split at h
  · split at h
    · -- there is such a cell
      cases h
      refine ⟨home, ⟨hI.len, hI.given, hI.orig, hI.subs, hI.first, hI.cell, ?_⟩, List.prefix_refl _⟩
      intro a b hab
      simp only [Bool.or_eq_true, Bool.and_eq_true, beq_iff_eq] at hab
      rcases hab with ⟨rfl, hab⟩ | hab
      · split at hab
        · rename_i r hb
          have he := hD.eqv _ _ hab
          have hsub : G.den r.poly ⊆ G.den si.poly ∩ G.den s0 := by rw [he]; exact hO.inter _ _
          refine ⟨r, sj, hm, c, sys, hb, h2, hc, fun x hx => hcs (hsub hx).1, hsys, ?_⟩
          refine hG.null_mono ?_ hG.null_empty
          rintro x ⟨hx, hn⟩
          exact absurd (hs0 (hsub hx).2) hn
        · cases hab
      · exact hI.trans a b hab
    · -- a new cell
      unfold dualAdd at h
      split at h
      · cases h
      · rename_i p ps hsep
        obtain ⟨orig, ho, h⟩ := bindE_ok h
        split at h
        · cases h
        · cases h
          simp only at ho
          have hp : G.den p ⊆ G.den si.poly ∩ G.den s0 :=
            fun x hx => hO.inter _ _ (hO.separate_sub _ p (by rw [hsep]; simp) hx)
          refine ⟨home ++ [hm], ⟨by simp [hI.len], hI.given.trans (List.prefix_append _ _), ?_, hI.subs,
            ?_, ?_, ?_⟩, List.prefix_append _ _⟩
          · intro hcons
            rw [if_neg (by simp [hcons])] at ho
            unfold extendAt at ho
            simp only [List.isEmpty_cons, Bool.false_eq_true, if_false] at ho
            obtain ⟨o, ho', rfl⟩ := mapE_ok ho
            have ho' := getIdx_ok ho'
            simp only [hI.orig hcons, hhm, Option.some.injEq] at ho' ⊢
            subst ho'
            simp
          · intro k h' hk hh
            rw [List.getElem?_append_left (by
              rw [hI.len]; exact lt_of_lt_of_le hk hI.given.length_le)] at hh
            exact hI.first k h' hk hh
          · intro k r h' hr hh
            rcases lt_or_ge k S.sol.length with hk | hk
            · rw [List.getElem?_append_left hk] at hr
              rw [List.getElem?_append_left (by rw [hI.len]; exact hk)] at hh
              exact hI.cell k r h' hr hh
            · rw [List.getElem?_append_right hk] at hr
              rw [List.getElem?_append_right (by rw [hI.len]; exact hk)] at hh
              cases List.mem_singleton.1 (List.mem_of_getElem? hr)
              cases List.mem_singleton.1 (List.mem_of_getElem? hh)
              exact ⟨c, hc, hcp, fun x hx => hcs (hp hx).1⟩
          · intro a b hab
            have hold : ∀ (k : Nat) (r : Region P), S.sol[k]? = some r → (S.sol ++ [⟨p, si.props⟩])[k]? = some r := by
              intro k r hk
              rw [List.getElem?_append_left (List.getElem?_eq_some_iff.1 hk).1, hk]
            have hnew : (S.sol ++ [(⟨p, si.props⟩ : Region P)])[S.sol.length]? = some ⟨p, si.props⟩ := by
              simp
            simp only at hab
            split at hab
            · rename_i hx
              obtain ⟨rfl, rfl, _⟩ := hx
              refine ⟨⟨p, si.props⟩, sj, hm, c, sys, hnew, hold _ _ h2, hc,
                fun x hx => hcs (hp hx).1, hsys, ?_⟩
              refine hG.null_mono ?_ hG.null_empty
              rintro x ⟨hx, hn⟩
              exact absurd (hs0 (hp hx).2) hn
            · split at hab
              · rename_i hb
                subst hb
                rw [Bool.and_eq_true] at hab
                have hab := hab.1
                split at hab
                · cases hab
                · obtain ⟨rb, ra, h', c', sys', g1, g2, g3, g4, g5, g6⟩ := hI.trans a i hab
                  rw [h1] at g1
                  cases g1
                  exact ⟨⟨p, si.props⟩, ra, h', c', sys', hnew, hold _ _ g2, g3,
                    fun x hx => g4 (hp hx).1, g5,
                    hG.null_mono (Set.sdiff_subset_sdiff_left fun x hx => (hp hx).1) g6⟩
              · split at hab
                · cases hab
                · obtain ⟨rb, ra, h', c', sys', g1, g2, g⟩ := hI.trans a b hab
                  exact ⟨rb, ra, h', c', sys', hold _ _ g1, hold _ _ g2, g⟩
  · cases h
    refine ⟨home, ⟨hI.len, hI.given, hI.orig, hI.subs, hI.first, hI.cell, ?_⟩, List.prefix_refl _⟩
    intro a b hab
    simp only at hab
    split at hab
    · rename_i hx
      obtain ⟨rfl, rfl⟩ := hx
      refine ⟨si, sj, hm, c, sys, h1, h2, hc, hcs, hsys, ?_⟩
      exact hG.null_mono (Set.sdiff_subset_sdiff_right hs0) (hD.same_volume _ _ (by simpa using hab))
    · exact hI.trans a b hab

/-- The invariant holds of the result. -/
theorem discretizeDual_inv {O : DiscOps P K} {G : Geom P X} (hG : G.Lawful)
    {Reach : Nat → Set X → Set X → Set X} (hO : O.Sound G Reach) (hD : O.DualSound G)
    {part : List (Region P)} {adj : Nat → Nat → Bool} {subs0 : List Nat}
    (hs : O.pwa = true → subs0.length = part.length)
    {fuel : Nat} {S : DState P} (h : discretizeDual O part adj subs0 fuel = some (.ok S)) :
    ∃ home, DualInv O G Reach part subs0 S home := by
  have h0 : DualInv O G Reach part subs0 (discInit O part adj subs0) (List.range part.length) := by
    have hr : ∀ i k : Nat, (List.range part.length)[i]? = some k → k = i := by
      intro i k hk
      rw [List.getElem?_range (by have := (List.getElem?_eq_some_iff.1 hk).1; simpa using this)] at hk
      cases hk; rfl
    refine ⟨by simp [discInit], List.prefix_refl _, ?_, ?_, fun i k _ hk => hr i k hk, ?_, ?_⟩
    · intro h; simp [discInit, h]
    · intro h; simp [discInit, h]
    · intro i r k hr' hk
      cases hr i k hk
      exact ⟨r, hr', rfl, le_refl _⟩
    · intro j i h; simp [discInit] at h
  unfold discretizeDual at h
  have hstep : ∀ (S S' : DState P) (j i : Nat), (∃ home, DualInv O G Reach part subs0 S home) →
      firstPair S.sol.length S.ij = some (j, i) → dualStep O (part.map (·.poly)) S j i = .ok S' →
      ∃ home, DualInv O G Reach part subs0 S' home := by
    rintro S S' j i ⟨home, hI⟩ _ hst
    obtain ⟨home', hI', _⟩ := dualStep_sound hG hO hD hs hI hst
    exact ⟨home', hI'⟩
  exact (discLoop_inv hstep fuel _ S ⟨_, h0⟩ h).1

/-- **C70**. The cells computed by the dual-simulation algorithm: the given cells come first, each cell
is inside a given cell and has its label, and for each transition from `i` to `j` the controller can
reach the cell `j` from each state of the cell `i`, up to a negligible set, through states of a given
cell that contains the cell `i`, with the subsystem that is active there. -/
theorem discretizeDual_sound {O : DiscOps P K} {G : Geom P X} (hG : G.Lawful)
    {Reach : Nat → Set X → Set X → Set X} (hO : O.Sound G Reach) (hD : O.DualSound G)
    {part : List (Region P)} {adj : Nat → Nat → Bool} {subs0 : List Nat}
    (hs : O.pwa = true → subs0.length = part.length)
    {fuel : Nat} {S : DState P} (h : discretizeDual O part adj subs0 fuel = some (.ok S)) :
    part <+: S.sol ∧
    (∀ r ∈ S.sol, ∃ c ∈ part, r.props = c.props ∧ G.den r.poly ⊆ G.den c.poly) ∧
    ∀ j i : Nat, S.trans j i = true → ∃ (ri rj : Region P) (h : Nat) (c : Region P) (sys : Nat),
      S.sol[i]? = some ri ∧ S.sol[j]? = some rj ∧ part[h]? = some c ∧ G.den ri.poly ⊆ G.den c.poly ∧
      (if O.pwa then subs0[h]? = some sys else sys = 0) ∧
      G.null (G.den ri.poly \ Reach sys (G.den c.poly) (G.den rj.poly)) := by
  obtain ⟨home, hI⟩ := discretizeDual_inv hG hO hD hs h
  refine ⟨hI.given, ?_, hI.trans⟩
  intro r hr
  obtain ⟨i, hi, rfl⟩ := List.mem_iff_getElem.1 hr
  have hi' : i < home.length := by rw [hI.len]; exact hi
  obtain ⟨c, hc, h1, h2⟩ := hI.cell i S.sol[i] home[i] (List.getElem?_eq_getElem hi)
    (List.getElem?_eq_getElem hi')
  exact ⟨c, List.mem_of_getElem? hc, h1, h2⟩

/-! ## Example

The states are integers, and sets are lists of integers. A state `x` becomes `x + 1`, or stays. -/

/-- Finite sets of integers. -/
def strip : Geom (List Int) Int where
  den a := {x | x ∈ a}
  null A := A = ∅
  inter a b := a.filter (· ∈ b)
  diff a b := a.filter (· ∉ b)
  fulldim a := !a.isEmpty

theorem strip_lawful : strip.Lawful where
  null_empty := rfl
  null_mono h hB := Set.subset_empty_iff.1 (by rw [← hB]; exact h)
  null_union hA hB := by simp only [strip] at *; rw [hA, hB]; simp
  inter_sub a b x hx := by simpa [strip] using hx
  inter_null a b := by simp only [strip]; ext x; simp
  diff_sub a b x hx := (by simp only [strip, Set.mem_ofPred_eq, List.mem_filter] at hx; exact hx.1)
  diff_null a b := by
    simp only [strip]; ext x; simp
  diff_cover a b := by simp only [strip]; ext x; simp
  thin a h := by
    have : a = [] := by simpa [strip] using h
    simp [strip, this]

def stripReach (_ : Nat) (stay T : Set Int) : Set Int := {x | x ∈ stay ∧ (x ∈ T ∨ x + 1 ∈ T)}

/-- The operations. -/
def stripOps : DiscOps (List Int) ℚ where
  solve _ p q t := .ok (p.filter fun x => decide (x ∈ t.getD p) && (decide (x ∈ q) || decide (x + 1 ∈ q)))
  inter := strip.inter
  diff := strip.diff
  vol a := a.length
  rad a := a.length
  separate a := if a.isEmpty then [] else [a]
  adjacent a b := a.any fun x => b.any fun y => decide (x = y ∨ x = y + 1 ∨ y = x + 1)
  eqv a b := a == b
  rd _ := 0
  minVol := 1 / 2
  absTol := 1 / 2
  conservative := false
  removeTrans := false
  pwa := false
  transLength := 1

theorem length_lt_half {n : Nat} (h : (n : ℚ) < 1 / 2) : n = 0 := by
  by_contra hn
  have : (1 : ℚ) ≤ n := by exact_mod_cast Nat.one_le_iff_ne_zero.2 hn
  linarith

theorem stripOps_sound : stripOps.Sound strip stripReach where
  solve sys p q t s h := by
    simp only [stripOps, Except.ok.injEq] at h
    subst h
    intro x hx
    simp only [strip, Set.mem_ofPred_eq, List.mem_filter, Bool.and_eq_true, decide_eq_true_eq,
      Bool.or_eq_true] at hx
    exact ⟨hx.2.1, hx.2.2⟩
  mono sys s s' T h x hx := ⟨h hx.1, hx.2⟩
  inter a b := strip_lawful.inter_sub a b
  inter_cover a b := strip_lawful.inter_null a b
  diff a b := strip_lawful.diff_sub a b
  diff_disjoint a b := strip_lawful.diff_null a b
  diff_cover a b := strip_lawful.diff_cover a b
  small a h := by
    have := List.eq_nil_of_length_eq_zero (length_lt_half h)
    simp [strip, this]
  separate_sub a p hp := by
    simp only [stripOps] at hp
    split at hp
    · cases hp
    · cases List.mem_singleton.1 hp
      exact le_refl _
  separate_cover a := by
    simp only [stripOps, strip]
    split
    · rename_i h
      have : a = [] := List.isEmpty_iff.1 h
      simp [this]
    · simp
  separate_disjoint a := by
    simp only [stripOps]
    split <;> simp

theorem stripOps_dual : stripOps.DualSound strip where
  same_volume a b h := by
    simp only [stripOps, strip] at h ⊢
    have h1 : ((a.filter (· ∈ b)).length : ℚ) ≤ a.length := by
      exact_mod_cast List.length_filter_le _ _
    have h2 : a.length = (a.filter (· ∈ b)).length := by
      have hle := List.length_filter_le (fun x => decide (x ∈ b)) a
      have : ((a.length - (a.filter (· ∈ b)).length : Nat) : ℚ) < 1 / 2 := by
        rw [Nat.cast_sub hle]; exact h
      have := length_lt_half this
      omega
    have h3 := List.length_filter_eq_length_iff.1 h2.symm
    ext x
    simp only [Set.mem_sdiff, Set.mem_ofPred_eq, Set.mem_empty_iff_false, iff_false, not_and, not_not]
    exact fun hx => by simpa using h3 x hx
  eqv a b h := by
    have : a = b := by simpa [stripOps] using h
    rw [this]

theorem stripOps_touch : stripOps.Touch where
  symm p q h := by
    simp only [stripOps, List.any_eq_true, decide_eq_true_eq] at h ⊢
    obtain ⟨x, hx, y, hy, h⟩ := h
    exact ⟨y, hy, x, hx, by omega⟩
  mono a b p q hp h := by
    have hsub : ∀ x ∈ p, x ∈ a := by
      intro x hx
      rcases hp with hp | hp <;> simp only [stripOps] at hp <;> split at hp
      · cases hp
      · cases List.mem_singleton.1 hp
        exact (List.mem_filter.1 hx).1
      · cases hp
      · cases List.mem_singleton.1 hp
        exact (List.mem_filter.1 hx).1
    simp only [stripOps, List.any_eq_true, decide_eq_true_eq] at h ⊢
    obtain ⟨x, hx, y, hy, h⟩ := h
    exact ⟨x, hsub x hx, y, hy, h⟩

theorem stripOps_volume : stripOps.Volume where
  nonneg a := by simp [stripOps]
  split a b := by
    simp only [stripOps, strip]
    have : (a.filter (· ∈ b)).length + (a.filter (· ∉ b)).length = a.length := by
      have := List.length_eq_length_filter_add (l := a) (fun x => decide (x ∈ b))
      simp only [decide_not]
      omega
    exact_mod_cast this.le
  separate a := by
    simp only [stripOps]
    split
    · simp
    · simp

/-- Two cells, `0..3` and `4..5`. -/
def stripPart : List (Region (List Int)) := [⟨[0, 1, 2, 3], ["a"]⟩, ⟨[4, 5], ["b"]⟩]

def stripAdj (_ _ : Nat) : Bool := true

/-- The cells, and the transitions from each. -/
def tableOf (r : Option (Except PyErr (DState (List Int)))) : Option (List (List Int × List Nat)) :=
  match r with
  | some (.ok S) => some ((List.range S.sol.length).map fun i =>
      (((S.sol[i]?).map (·.poly)).getD [], (List.range S.sol.length).filter fun j => S.trans j i))
  | _ => none

example : tableOf (discretizeBi stripOps stripPart stripAdj [] 40) =
    some [([3], [0, 1]), ([4, 5], [1]), ([2], [0, 2]), ([1], [2, 3]), ([0], [3, 4])] := by
  decide +kernel

example : tableOf (discretizeDual stripOps stripPart stripAdj [] 40) =
    some [([0, 1, 2, 3], [0, 4]), ([4, 5], [1]), ([3], [0, 1, 2, 3, 4]), ([2, 3], [0, 2, 3, 4]),
      ([1, 2, 3], [0, 3, 4])] := by
  decide +kernel

/-- The two cells are a partition that preserves two propositions. -/
theorem stripPart_preserving :
    Preserving strip [0, 1, 2, 3, 4, 5] [("a", [0, 1, 2, 3]), ("b", [4, 5])] stripPart where
  inside r hr := by
    simp only [stripPart, List.mem_cons, List.not_mem_nil, or_false] at hr
    rcases hr with rfl | rfl <;> intro x hx <;> simp [strip] at hx ⊢ <;> omega
  cover := by
    simp only [strip, stripPart]
    ext x
    simp
    omega
  disjoint := by
    simp only [stripPart, strip]
    simp
    ext x
    simp
    omega
  holds r hr p hp := by
    simp only [stripPart, List.mem_cons, List.not_mem_nil, or_false] at hr
    rcases hr with rfl | rfl <;> (cases List.mem_singleton.1 hp)
    · exact ⟨[0, 1, 2, 3], rfl, le_refl _⟩
    · exact ⟨[4, 5], rfl, le_refl _⟩
  fails r hr p q hq hp := by
    simp only [stripPart, List.mem_cons, List.not_mem_nil, or_false] at hr
    rw [Dict.get?_cons, Dict.get?_cons] at hq
    have hd : strip.null (strip.den [0, 1, 2, 3] ∩ strip.den [4, 5]) := by
      simp only [strip]
      ext x
      simp
      omega
    split at hq
    · rename_i ha
      cases hq
      rcases hr with rfl | rfl
      · exact absurd (by simp [← ha]) hp
      · rw [Set.inter_comm]; exact hd
    · split at hq
      · rename_i hb
        cases hq
        rcases hr with rfl | rfl
        · exact hd
        · exact absurd (by simp [← hb]) hp
      · cases hq

/-- The exception of a run. -/
def raised (r : Option (Except PyErr (DState (List Int)))) : Option PyErr :=
  match r with
  | some (.error e) => some e
  | _ => none

/-! ## Disagreements of the dual-simulation algorithm -/

/-- With a piecewise affine system, `_discretize_dual` raises `IndexError` for each pair whose source is
a new cell: `subsys_list` is not extended. -/
theorem discretizeDual_pwa_counterexample :
    raised (discretizeDual { stripOps with pwa := true } stripPart stripAdj [0, 0] 40) =
      some .indexError := by
  decide +kernel

/-- With `remove_trans`, `_discretize_dual` raises `IndexError` when a new cell does not touch a
neighbour of the divided cell: it writes in the row of the new cell before adding it. -/
theorem discretizeDual_remove_counterexample :
    raised (discretizeDual
      { stripOps with conservative := true, removeTrans := true,
                      solve := fun _ p _ _ => .ok (p.take 1) } stripPart stripAdj [] 40) =
      some .indexError := by
  decide +kernel

/-- The pieces of a set: a new piece begins at each gap. -/
def runs : List Int → List (List Int)
  | [] => []
  | x :: l => match runs l with
    | (y :: m) :: r => if y = x + 1 then (x :: y :: m) :: r else [x] :: (y :: m) :: r
    | r => [x] :: r

/-- A cell from which only the two ends can be kept inside, `pc.separate` computing the pieces. -/
def gapOps : DiscOps (List Int) ℚ :=
  { stripOps with
    solve := fun _ p _ _ => .ok (p.filter fun x => x != 1)
    separate := runs
    conservative := true }

/-- The dual-simulation algorithm does not end: if the intersection is not connected then its first piece
is added as a new cell again and again, because no cell is equal to the whole intersection. -/
theorem discretizeDual_diverges_counterexample (fuel : Nat) :
    discretizeDual gapOps [⟨[0, 1, 2], []⟩] stripAdj [] fuel = none := by
  have key : ∀ (fuel : Nat) (S : DState (List Int)), S.sol[0]? = some ⟨[0, 1, 2], []⟩ →
      (∀ r ∈ S.sol, r.poly ≠ [0, 2]) → S.trans 0 0 = false → S.adj 0 0 = true → S.ij 0 0 = true →
      discLoop (dualStep gapOps [[0, 1, 2]]) fuel S = none := by
    intro fuel
    induction fuel with
    | zero =>
      intro S h1 h2 h3 h4 h5
      have hf : firstPair S.sol.length S.ij = some (0, 0) := by
        obtain ⟨n, hn⟩ : ∃ n, S.sol.length = n + 1 := by
          cases hs : S.sol with
          | nil => rw [hs] at h1; cases h1
          | cons a l => exact ⟨l.length, rfl⟩
        unfold firstPair
        rw [hn, List.range_succ_eq_map]
        simp [h5]
      unfold discLoop
      rw [hf]
    | succ fuel ih =>
      intro S h1 h2 h3 h4 h5
      have hf : firstPair S.sol.length S.ij = some (0, 0) := by
        obtain ⟨n, hn⟩ : ∃ n, S.sol.length = n + 1 := by
          cases hs : S.sol with
          | nil => rw [hs] at h1; cases h1
          | cons a l => exact ⟨l.length, rfl⟩
        unfold firstPair
        rw [hn, List.range_succ_eq_map]
        simp [h5]
      have hn0 : S.sol.length ≠ 0 := by
        intro h
        rw [List.length_eq_zero_iff] at h
        rw [h] at h1; cases h1
      have hany : S.sol.any (fun c => gapOps.eqv c.poly [0, 2]) = false := by
        rw [List.any_eq_false]
        intro r hr
        simpa [gapOps, stripOps] using h2 r hr
      obtain ⟨S', hS', e1, e2, e3, e4⟩ : ∃ S', dualStep gapOps [[0, 1, 2]] S 0 0 = .ok S' ∧
          S'.sol = S.sol ++ [⟨[0], []⟩] ∧ S'.trans 0 0 = false ∧ S'.adj 0 0 = true ∧
          S'.ij 0 0 = true := by
        have hstep : dualStep gapOps [[0, 1, 2]] S 0 0 = dualAdd gapOps
            { S with ij := fun a b => if a = 0 ∧ b = 0 then false else S.ij a b } 0 0
            ⟨[0, 1, 2], []⟩ [0, 2] := by
          unfold dualStep
          have hg : getIdx S.sol 0 = .ok ⟨[0, 1, 2], []⟩ := by unfold getIdx; rw [h1]
          simp only [hg, ok_bind]
          have hs : ∀ S, sysOf gapOps S 0 = .ok 0 := fun _ => rfl
          have ht : ∀ S, transSet gapOps [[0, 1, 2]] S 0 = .ok none := fun _ => rfl
          have hv : gapOps.solve 0 [0, 1, 2] [0, 1, 2] none = .ok [0, 2] := rfl
          have hx : gapOps.inter [0, 1, 2] [0, 2] = [0, 2] := by decide
          simp only [hs, ht, hv, ok_bind, hx]
          rw [if_pos (by decide +kernel), hany]
          rfl
        rw [hstep]
        unfold dualAdd
        have hsep : gapOps.separate [0, 2] = [[0], [2]] := by decide
        simp only [hsep]
        refine ⟨_, rfl, rfl, ?_⟩
        have hz : ¬ (0 = S.sol.length) := fun h => hn0 h.symm
        simp [symAdjChange, reachableWithin, gapOps, stripOps, hz, h3, h4]
      unfold discLoop
      rw [hf]
      simp only [hS']
      refine ih S' ?_ ?_ e2 e3 e4
      · rw [e1, List.getElem?_append_left (by omega), h1]
      · rw [e1]
        intro r hr
        rcases List.mem_append.1 hr with hr | hr
        · exact h2 r hr
        · cases List.mem_singleton.1 hr
          simp
  exact key fuel _ rfl (by simp [discInit]) rfl rfl rfl

end Abs

end Tulip
