import Verif.Abstract.DiscretizeDualProps

/-!
# Discretization: the loop returns and does not raise (C60)
-/

namespace Tulip

namespace Abs

set_option linter.unusedSectionVars false

variable {P X K : Type} [Field K] [LinearOrder K]

/-- The lists of the loop have one entry per cell, and the original cells exist. -/
structure Sized (O : DiscOps P K) (n : Nat) (S : DState P) : Prop where
  subs : O.pwa = true → S.subs.length = S.sol.length
  orig : O.conservative = false → S.orig.length = S.sol.length ∧ ∀ o ∈ S.orig, o < n

theorem getIdx_lt {α : Type} {l : List α} {i : Nat} (h : i < l.length) : getIdx l i = .ok l[i] := by
  unfold getIdx
  rw [List.getElem?_eq_getElem h]

theorem extendAt_returns {l : List Nat} {i : Nat} (h : i < l.length) (new : List P) :
    ∃ l', extendAt l i new = .ok l' ∧ l'.length = l.length + new.length ∧ ∀ o ∈ l', o ∈ l := by
  unfold extendAt
  split
  · rename_i he
    rw [List.isEmpty_iff] at he
    exact ⟨l, rfl, by simp [he], fun _ h => h⟩
  · rw [getIdx_lt h]
    refine ⟨_, rfl, by simp, fun o ho => ?_⟩
    rw [List.mem_append, List.mem_map] at ho
    rcases ho with ho | ⟨_, _, rfl⟩
    · exact ho
    · exact List.getElem_mem h

theorem divide_returns {O : DiscOps P K} {n : Nat} {S : DState P} (hS : Sized O n S) {j i : Nat} (hi : i < S.sol.length)
    {si : Region P} {isect : P} (hsep : O.separate isect ≠ []) (diff : P) :
    ∃ S', divide O S j i si isect diff = .ok S' ∧ Sized O n S' := by
  unfold divide
  cases hp : O.separate isect with
  | nil => exact absurd hp hsep
  | cons p ps =>
    obtain ⟨orig, ho, ho'⟩ : ∃ l, (if O.conservative then .ok S.orig else extendAt S.orig i (O.separate diff ++ ps)) =
        (.ok l : Except PyErr _) ∧ (O.conservative = false →
          l.length = S.sol.length + (O.separate diff ++ ps).length ∧ ∀ o ∈ l, o < n) := by
      by_cases hc : O.conservative = true
      · rw [if_pos hc]
        exact ⟨_, rfl, fun h => by rw [hc] at h; cases h⟩
      · rw [if_neg hc]
        have hc' : O.conservative = false := by simpa using hc
        obtain ⟨h1, h2⟩ := hS.orig hc'
        obtain ⟨l, hl, hl1, hl2⟩ := extendAt_returns (h1 ▸ hi) (O.separate diff ++ ps)
        exact ⟨l, hl, fun _ => ⟨by rw [hl1, h1], fun o ho => h2 o (hl2 o ho)⟩⟩
    obtain ⟨subs, hs, hs'⟩ : ∃ l, (if O.pwa then extendAt S.subs i (O.separate diff ++ ps) else .ok S.subs) =
        (.ok l : Except PyErr _) ∧ (O.pwa = true → l.length = S.sol.length + (O.separate diff ++ ps).length) := by
      by_cases hc : O.pwa = true
      · rw [if_pos hc]
        obtain ⟨l, hl, hl1, _⟩ := extendAt_returns ((hS.subs hc).symm ▸ hi) (O.separate diff ++ ps)
        exact ⟨l, hl, fun _ => by rw [hl1, hS.subs hc]⟩
      · rw [if_neg hc]
        exact ⟨_, rfl, fun h => absurd h hc⟩
    simp only [ho, hs, bind, Except.bind]
    refine ⟨_, rfl, fun h => ?_, fun h => ?_⟩
    · simp [hs' h]
    · exact ⟨by simp [(ho' h).1], (ho' h).2⟩

theorem biStep_returns {O : DiscOps P K} (hsolve : ∀ sys p q t, ∃ s, O.solve sys p q t = .ok s)
    (hsep : ∀ a, O.minVol < O.vol a → O.separate a ≠ []) {part : List P} {S : DState P} (hS : Sized O part.length S)
    {j i : Nat} (hj : j < S.sol.length) (hi : i < S.sol.length) :
    ∃ S', biStep O part S j i = .ok S' ∧ Sized O part.length S' := by
  obtain ⟨sys, hsys⟩ : ∃ sys, sysOf O { S with ij := fun a b => if a = j ∧ b = i then false else S.ij a b } i = .ok sys := by
    unfold sysOf
    by_cases hc : O.pwa = true
    · rw [if_pos hc]
      exact ⟨_, getIdx_lt (by rw [hS.subs hc]; exact hi)⟩
    · rw [if_neg hc]
      exact ⟨_, rfl⟩
  obtain ⟨ts, hts⟩ : ∃ ts, transSet O part { S with ij := fun a b => if a = j ∧ b = i then false else S.ij a b } i = .ok ts := by
    unfold transSet
    by_cases hc : O.conservative = true
    · rw [if_pos hc]
      exact ⟨_, rfl⟩
    · rw [if_neg hc]
      obtain ⟨h1, h2⟩ := hS.orig (by simpa using hc)
      simp only [getIdx_lt (h1.symm ▸ hi), getIdx_lt (h2 _ (List.getElem_mem (h1.symm ▸ hi))), bind, Except.bind]
      exact ⟨_, rfl⟩
  obtain ⟨s0, hs0⟩ := hsolve sys S.sol[i].poly S.sol[j].poly ts
  unfold biStep
  simp only [getIdx_lt hi, getIdx_lt hj, hsys, hts, hs0, bind, Except.bind]
  split
  · rename_i h
    exact divide_returns (S := { S with ij := fun a b => if a = j ∧ b = i then false else S.ij a b })
      ⟨hS.subs, hS.orig⟩ hi (hsep _ h.1) _
  · exact ⟨_, rfl, hS.subs, hS.orig⟩

theorem firstPair_lt {n : Nat} {ij : Nat → Nat → Bool} {j i : Nat} (h : firstPair n ij = some (j, i)) : j < n ∧ i < n := by
  have := List.mem_of_find?_eq_some h
  simp only [List.mem_flatMap, List.mem_map, List.mem_range, Prod.mk.injEq] at this
  obtain ⟨a, ha, b, hb, rfl, rfl⟩ := this
  exact ⟨ha, hb⟩

/-- **C60.** `_discretize_bi` does not raise, if the solver does not, if the cells that it divides have a piece, and if
each cell of a piecewise affine system has a subsystem. -/
theorem discretizeBi_noRaise {O : DiscOps P K} (hsolve : ∀ sys p q t, ∃ s, O.solve sys p q t = .ok s)
    (hsep : ∀ a, O.minVol < O.vol a → O.separate a ≠ []) {part : List (Region P)} {adj : Nat → Nat → Bool}
    {subs0 : List Nat} (hs : O.pwa = true → subs0.length = part.length) (fuel : Nat) (e : PyErr) :
    discretizeBi O part adj subs0 fuel ≠ some (.error e) := by
  have key : ∀ (fuel : Nat) (S : DState P), Sized O (part.map (·.poly)).length S →
      discLoop (biStep O (part.map (·.poly))) fuel S ≠ some (.error e) := by
    intro fuel
    induction fuel with
    | zero =>
      intro S _ h
      unfold discLoop at h
      split at h <;> simp at h
    | succ fuel ih =>
      intro S hS h
      unfold discLoop at h
      split at h
      · simp at h
      · rename_i j i hf
        obtain ⟨hj, hi⟩ := firstPair_lt hf
        obtain ⟨S', h1, h2⟩ := biStep_returns hsolve hsep hS hj hi
        rw [h1] at h
        exact ih S' h2 h
  refine key fuel _ ⟨fun hp => ?_, fun hc => ?_⟩
  · simp only [discInit, hp, if_true]
    exact hs hp
  · simp [discInit, hc]

/-- **C60.** So with a positive minimum volume `_discretize_bi` returns. -/
theorem discretizeBi_returns [IsStrictOrderedRing K] [Archimedean K] {O : DiscOps P K} (hV : O.Volume)
    (hm : 0 < O.minVol) (hsolve : ∀ sys p q t, ∃ s, O.solve sys p q t = .ok s)
    (hsep : ∀ a, O.minVol < O.vol a → O.separate a ≠ []) (part : List (Region P)) (adj : Nat → Nat → Bool)
    {subs0 : List Nat} (hs : O.pwa = true → subs0.length = part.length) :
    ∃ fuel S, discretizeBi O part adj subs0 fuel = some (.ok S) := by
  obtain ⟨fuel, r, h⟩ := discretizeBi_terminates hV hm part adj subs0
  cases r with
  | error e => exact absurd h (discretizeBi_noRaise hsolve hsep hs fuel e)
  | ok S => exact ⟨fuel, S, h⟩

/-- Non-vacuity: the strip of cells. -/
example : ∃ fuel S, discretizeBi stripOps stripPart stripAdj [] fuel = some (.ok S) :=
  discretizeBi_returns stripOps_volume (by norm_num [stripOps]) (fun _ _ _ _ => ⟨_, rfl⟩)
    (fun a h => by
      cases a with
      | nil => norm_num [stripOps] at h
      | cons x l => simp [stripOps]) _ _ (fun h => nomatch h)

end Abs

end Tulip
