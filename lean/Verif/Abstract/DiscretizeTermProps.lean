import Verif.Abstract.DiscretizeProps
import Mathlib.Algebra.Order.BigOperators.Group.List
import Mathlib.Data.Rat.Floor

/-!
# Discretization: no transition is missing, and the loop ends
-/

namespace Tulip

namespace Abs

set_option linter.unusedSectionVars false

variable {P X K : Type} [Field K] [LinearOrder K]

/-! ## Walks in the adjacency matrix -/

/-- There is a walk of `k + 1` steps. -/
def Walk (n : Nat) (adj : Nat → Nat → Bool) : Nat → Nat → Nat → Prop
  | 0, a, b => adj a b = true
  | k + 1, a, b => ∃ c < n, Walk n adj k a c ∧ adj c b = true

theorem powerLoop_walk (n : Nat) (adj : Nat → Nat → Bool) (k l : Nat) (m : Nat → Nat → Bool)
    (hm : ∀ a b, m a b = true ↔ Walk n adj l a b) (a b : Nat) :
    powerLoop n adj k m a b = true ↔ Walk n adj (l + k) a b := by
  induction k generalizing l m with
  | zero => exact hm a b
  | succ k ih =>
    unfold powerLoop
    rw [ih (l + 1) (boolDot n m adj), Nat.add_assoc, Nat.add_comm 1 k]
    intro a b
    unfold boolDot Walk
    rw [List.any_eq_true]
    constructor
    · rintro ⟨c, hc, h⟩
      rw [Bool.and_eq_true] at h
      exact ⟨c, List.mem_range.1 hc, (hm a c).1 h.1, h.2⟩
    · rintro ⟨c, hc, h1, h2⟩
      exact ⟨c, List.mem_range.2 hc, by rw [Bool.and_eq_true]; exact ⟨(hm a c).2 h1, h2⟩⟩

/-- `reachable_within` computes the pairs joined by a walk of `trans_length` steps. -/
theorem reachableWithin_walk (n L : Nat) (adj : Nat → Nat → Bool) (a b : Nat) :
    reachableWithin n L adj adj a b = true ↔ Walk n adj (L - 1) a b := by
  unfold reachableWithin
  split
  · rw [show L - 1 = 0 by omega]; rfl
  · rw [powerLoop_walk n adj (L - 1) 0 adj (fun _ _ => Iff.rfl), Nat.zero_add]

theorem Walk.map {n m : Nat} {adj adj' : Nat → Nat → Bool} (f : Nat → Nat) (hf : ∀ a < m, f a < n)
    (h : ∀ a b, a < m → b < m → adj' a b = true → adj (f a) (f b) = true) (k a b : Nat) (ha : a < m)
    (hb : b < m) (hw : Walk m adj' k a b) : Walk n adj k (f a) (f b) := by
  induction k generalizing b with
  | zero => exact h a b ha hb hw
  | succ k ih =>
    obtain ⟨c, hc, h1, h2⟩ := hw
    exact ⟨f c, hf c hc, ih c hc h1, h c b hc hb h2⟩

/-- With loops at all states, adjacent states are joined by walks of each length. -/
theorem Walk.of_adj {n : Nat} {adj : Nat → Nat → Bool} (hr : ∀ a < n, adj a a = true) (k a b : Nat)
    (hb : b < n) (h : adj a b = true) : Walk n adj k a b := by
  induction k with
  | zero => exact h
  | succ k ih => exact ⟨b, hb, ih, hr b hb⟩

/-! ## No transition is missing -/

/-- A further assumption on `is_adjacent`: it is symmetric, and a region whose piece touches a set
touches it too. -/
structure DiscOps.Touch (O : DiscOps P K) : Prop where
  symm : ∀ p q, O.adjacent p q = true → O.adjacent q p = true
  mono : ∀ a b p q, p ∈ O.separate (O.inter a b) ∨ p ∈ O.separate (O.diff a b) →
    O.adjacent p q = true → O.adjacent a q = true

/-- The solver has been called for the pair of the current cells `i` and `j`; the target cannot be
reached from all of `i`, and the part from where it can be reached, or the rest, is too small for the
cell to be divided. -/
def Blocked (O : DiscOps P K) (origList : List P) (S : DState P) (j i : Nat) : Prop :=
  ∃ (si sj : Region P) (sys : Nat) (ts : Option P) (s0 : P), S.sol[i]? = some si ∧
    S.sol[j]? = some sj ∧ sysOf O S i = .ok sys ∧ transSet O origList S i = .ok ts ∧
    O.solve sys si.poly sj.poly ts = .ok s0 ∧ ¬ O.vol (O.diff si.poly s0) < O.absTol ∧
    ¬ (O.minVol < O.vol (O.inter si.poly s0) ∧ O.rd sys < O.rad (O.inter si.poly s0) ∧
      O.minVol < O.vol (O.diff si.poly s0) ∧ O.rd sys < O.rad (O.diff si.poly s0))

/-- The invariant. -/
structure CInv (O : DiscOps P K) (origList : List P) (S : DState P) : Prop where
  refl : ∀ a < S.sol.length, S.adj a a = true
  symm : ∀ a b, a < S.sol.length → b < S.sol.length → S.adj a b = true → S.adj b a = true
  touch : ∀ a b, nearCells O S.sol a b = true → S.adj a b = true
  done : ∀ a b, a < S.sol.length → b < S.sol.length →
    reachableWithin S.sol.length O.transLength S.adj S.adj a b = true →
    S.trans a b = true ∨ S.ij a b = true ∨ Blocked O origList S a b

theorem nearCells_lt {O : DiscOps P K} {sol : List (Region P)} {a b : Nat}
    (h : nearCells O sol a b = true) : ∃ p q, sol[a]? = some p ∧ sol[b]? = some q ∧
      O.adjacent p.poly q.poly = true := by
  unfold nearCells at h
  cases ha : sol[a]? with
  | none => rw [ha] at h; cases h
  | some p =>
    cases hb : sol[b]? with
    | none => rw [ha, hb] at h; cases h
    | some q => rw [ha, hb] at h; exact ⟨p, q, rfl, rfl, h⟩

theorem nearCells_of {O : DiscOps P K} {sol : List (Region P)} {a b : Nat} {p q : Region P}
    (ha : sol[a]? = some p) (hb : sol[b]? = some q) (h : O.adjacent p.poly q.poly = true) :
    nearCells O sol a b = true := by
  unfold nearCells; rw [ha, hb]; exact h

theorem splitIJ_eq {O : DiscOps P K} {n m i : Nat} {adj trans ij : Nat → Nat → Bool} (a b : Nat) :
    splitIJ O n m i adj trans ij a b =
      if a = i ∨ b = i ∨ n ≤ a ∧ a < m ∨ n ≤ b ∧ b < m then
        reachableWithin m O.transLength adj adj a b && !trans a b else ij a b := by
  have key : ∀ (l : List Nat) (g : Nat → Nat → Bool) (adjK : Nat → Nat → Bool),
      l.foldl (fun ij r => symAdjChange ij adjK trans r) g a b =
        if a ∈ l ∨ b ∈ l then adjK a b && !trans a b else g a b := by
    intro l
    induction l with
    | nil => intro g adjK; simp
    | cons r l ih =>
      intro g adjK
      rw [List.foldl_cons, ih]
      by_cases h : a ∈ l ∨ b ∈ l
      · rw [if_pos h, if_pos (by simp only [List.mem_cons]; tauto)]
      · rw [if_neg h]
        unfold symAdjChange
        by_cases h' : a = r ∨ b = r
        · rw [if_pos h', if_pos (by simp only [List.mem_cons]; tauto)]
        · rw [if_neg h', if_neg (by simp only [List.mem_cons]; tauto)]
  unfold splitIJ
  rw [key]
  simp only [List.mem_reverse, List.mem_range'_1]
  unfold symAdjChange
  by_cases h : (n ≤ a ∧ a < n + (m - n)) ∨ n ≤ b ∧ b < n + (m - n)
  · rw [if_pos h, if_pos (by omega)]
  · rw [if_neg h]
    by_cases h' : a = i ∨ b = i
    · rw [if_pos h', if_pos (by omega)]
    · rw [if_neg h', if_neg (by omega)]

theorem splitAdj_symm {O : DiscOps P K} {sol : List (Region P)} {adj : Nat → Nat → Bool} {n i a b : Nat}
    (hs : a < n → b < n → adj a b = true → adj b a = true)
    (h : splitAdj O sol adj n i a b = true) : splitAdj O sol adj n i b a = true := by
  unfold splitAdj at h ⊢
  simp only at h ⊢
  by_cases h1 : a = b ∧ (a = i ∨ n ≤ a)
  · rw [if_pos (by omega)]
  · rw [if_neg h1] at h
    rw [if_neg (by omega)]
    by_cases h2 : a = i ∧ n ≤ b ∨ b = i ∧ n ≤ a
    · rw [if_pos (by omega)]
    · rw [if_neg h2] at h
      rw [if_neg (by omega)]
      by_cases h3 : n ≤ a ∧ n ≤ b
      · rw [if_pos h3] at h
        rw [if_pos (by omega)]
        rwa [Bool.or_comm]
      · rw [if_neg h3] at h
        rw [if_neg (by omega)]
        by_cases h4 : a = i ∨ n ≤ a
        · rw [if_pos h4] at h
          rw [if_neg (by omega), if_pos h4]
          exact h
        · rw [if_neg h4] at h
          by_cases h5 : b = i ∨ n ≤ b
          · rw [if_pos h5] at h ⊢
            exact h
          · rw [if_neg h5] at h ⊢
            rw [if_neg h4]
            exact hs (by omega) (by omega) h

/-- An edge of the new adjacency matrix lies over an edge of the old one. -/
theorem splitAdj_old {O : DiscOps P K} {sol : List (Region P)} {adj : Nat → Nat → Bool} {n i a b : Nat}
    (hi : adj i i = true) (hs : ∀ a < n, adj i a = true → adj a i = true)
    (h : splitAdj O sol adj n i a b = true) :
    adj (if a < n then a else i) (if b < n then b else i) = true := by
  unfold splitAdj at h
  simp only at h
  by_cases h1 : a = b ∧ (a = i ∨ n ≤ a)
  · obtain ⟨rfl, h1⟩ := h1
    split
    · rcases h1 with rfl | h1
      · exact hi
      · omega
    · exact hi
  · rw [if_neg h1] at h
    by_cases h2 : a = i ∧ n ≤ b ∨ b = i ∧ n ≤ a
    · rcases h2 with ⟨rfl, h2⟩ | ⟨rfl, h2⟩
      · rw [if_neg (show ¬ b < n by omega), ite_self]; exact hi
      · rw [if_neg (show ¬ a < n by omega), ite_self]; exact hi
    · rw [if_neg h2] at h
      by_cases h3 : n ≤ a ∧ n ≤ b
      · rw [if_neg (show ¬ a < n by omega), if_neg (show ¬ b < n by omega)]; exact hi
      · rw [if_neg h3] at h
        by_cases h4 : a = i ∨ n ≤ a
        · rw [if_pos h4, Bool.and_eq_true] at h
          have : (if a < n then a else i) = i := by split <;> omega
          rw [this, if_pos (show b < n by omega)]
          exact h.1
        · rw [if_neg h4] at h
          rw [if_pos (show a < n by omega)]
          by_cases h5 : b = i ∨ n ≤ b
          · rw [if_pos h5, Bool.and_eq_true] at h
            have : (if b < n then b else i) = i := by split <;> omega
            rw [this]
            exact hs a (by omega) h.1
          · rw [if_neg h5] at h
            rw [if_pos (show b < n by omega)]
            exact h

theorem splitTrans_old {O : DiscOps P K} {sol : List (Region P)} {adj trans : Nat → Nat → Bool}
    {n i j a b : Nat} (ha : a < n) (hb : b < n) (hai : a ≠ i) (hbi : b ≠ i) :
    splitTrans O sol adj trans n i j a b = trans a b := by
  unfold splitTrans
  simp only
  have h1 : (a == i || decide (n ≤ a)) = false := by simp; omega
  have h2 : (b == i || decide (n ≤ b)) = false := by simp; omega
  rw [h1, h2]
  simp only [Bool.false_and, Bool.or_self, Bool.and_false, Bool.false_eq_true, if_false]
  rw [if_neg (by omega), if_neg (by omega)]

theorem extendAt_prefix {l l' : List Nat} {i : Nat} {new : List P} (h : extendAt l i new = .ok l') :
    ∀ (k x : Nat), getIdx l k = .ok x → getIdx l' k = .ok x := by
  intro k x hk
  unfold extendAt at h
  split at h
  · cases h; exact hk
  · obtain ⟨o, _, rfl⟩ := mapE_ok h
    have := getIdx_ok hk
    unfold getIdx
    rw [List.getElem?_append_left (List.getElem?_eq_some_iff.1 this).1, this]

theorem biStep_complete {O : DiscOps P K} (hT : O.Touch) {origList : List P} {S S' : DState P}
    (hI : CInv O origList S) {j i : Nat} (h : biStep O origList S j i = .ok S') :
    CInv O origList S' := by
  obtain ⟨si, sj, sys, ts, s0, h1, h2, h3, h4, h5, h⟩ := biStep_inv h
  have hi := (List.getElem?_eq_some_iff.1 h1).1
  have hj := (List.getElem?_eq_some_iff.1 h2).1
  rcases h with ⟨_, h⟩ | ⟨hn, rfl⟩
  · have hsys : ∀ k x, sysOf O S k = .ok x → sysOf O S' k = .ok x := by
      intro k x hk
      unfold divide at h
      split at h
      · cases h
      · obtain ⟨orig, _, h⟩ := bindE_ok h
        obtain ⟨subs, hs, h⟩ := bindE_ok h
        cases h
        unfold sysOf at hk ⊢
        split at hk
        · rename_i hp
          rw [if_pos hp] at hs ⊢
          exact extendAt_prefix hs k x hk
        · rename_i hp
          rw [if_neg hp]
          exact hk
    have hts : ∀ k x, transSet O origList S k = .ok x → transSet O origList S' k = .ok x := by
      intro k x hk
      unfold divide at h
      split at h
      · cases h
      · obtain ⟨orig, ho, h⟩ := bindE_ok h
        obtain ⟨subs, hs, h⟩ := bindE_ok h
        cases h
        unfold transSet at hk ⊢
        split at hk
        · rename_i hp
          rw [if_pos hp]
          exact hk
        · rename_i hp
          rw [if_neg hp] at ho ⊢
          obtain ⟨o, ho1, hk⟩ := bindE_ok hk
          simp only [extendAt_prefix ho k o ho1, ok_bind]
          exact hk
    obtain ⟨p, ps, hsep, hsol, _, _, _, _, htr, hadj, hij⟩ := divide_inv h
    simp only at hsol htr hadj hij
    set new := O.separate (O.diff si.poly s0) ++ ps with hnew
    have hm : S'.sol.length = S.sol.length + new.length := by rw [hsol]; simp
    have hpiece : ∀ q ∈ p :: new, q ∈ O.separate (O.inter si.poly s0) ∨
        q ∈ O.separate (O.diff si.poly s0) := by
      intro q hq
      rw [hsep]
      simp only [hnew, List.mem_cons, List.mem_append] at hq ⊢
      rcases hq with hq | hq | hq
      · exact Or.inl (Or.inl hq)
      · exact Or.inr hq
      · exact Or.inl (Or.inr hq)
    have hold : ∀ k, k < S.sol.length → k ≠ i → S'.sol[k]? = S.sol[k]? := by
      intro k hk hki
      rw [hsol, List.getElem?_append_left (by simpa using hk), List.getElem?_set_ne (Ne.symm hki)]
    have hcell : ∀ k r, (k = i ∨ S.sol.length ≤ k) → S'.sol[k]? = some r → r.poly ∈ p :: new := by
      intro k r hk hr
      rw [hsol] at hr
      rcases hk with rfl | hk
      · rw [List.getElem?_append_left (by simpa using hi), List.getElem?_set_self hi] at hr
        cases hr
        exact List.mem_cons_self
      · rw [List.getElem?_append_right (by simpa using hk), List.getElem?_map,
          Option.map_eq_some_iff] at hr
        obtain ⟨q, hq, rfl⟩ := hr
        exact List.mem_cons_of_mem _ (List.mem_of_getElem? hq)
    have hrefl : ∀ a < S'.sol.length, S'.adj a a = true := by
      intro a ha
      rw [hadj]
      unfold splitAdj
      simp only
      by_cases h6 : a = i ∨ S.sol.length ≤ a
      · rw [if_pos (by simpa using h6)]
      · rw [if_neg (by omega), if_neg (by omega), if_neg (by omega), if_neg h6, if_neg h6]
        exact hI.refl a (by omega)
    refine ⟨hrefl, ?_, ?_, ?_⟩
    · intro a b ha hb hab
      rw [hadj] at hab ⊢
      exact splitAdj_symm (hI.symm a b) hab
    · intro a b hab
      obtain ⟨ra, rb, ha, hb, hadj'⟩ := nearCells_lt hab
      have hlift : ∀ (k : Nat) (r : Region P), (k = i ∨ S.sol.length ≤ k) → S'.sol[k]? = some r →
          ∀ q, O.adjacent r.poly q = true → O.adjacent si.poly q = true :=
        fun k r hk hr q hq => hT.mono _ _ _ _ (hpiece _ (hcell k r hk hr)) hq
      rw [hadj]
      unfold splitAdj
      simp only
      by_cases h6 : a = b ∧ (a = i ∨ S.sol.length ≤ a)
      · rw [if_pos h6]
      · rw [if_neg h6]
        by_cases h7 : a = i ∧ S.sol.length ≤ b ∨ b = i ∧ S.sol.length ≤ a
        · rw [if_pos h7]
        · rw [if_neg h7]
          by_cases h8 : S.sol.length ≤ a ∧ S.sol.length ≤ b
          · rw [if_pos h8, hab, Bool.true_or]
          · rw [if_neg h8]
            by_cases h9 : a = i ∨ S.sol.length ≤ a
            · rw [if_pos h9, hab, Bool.and_true]
              rw [hold b (by omega) (by omega)] at hb
              exact hI.touch i b (nearCells_of h1 hb (hlift a ra h9 ha _ hadj'))
            · rw [if_neg h9]
              rw [hold a (by omega) (by omega)] at ha
              by_cases h10 : b = i ∨ S.sol.length ≤ b
              · rw [if_pos h10, Bool.and_eq_true]
                have hsy := hT.symm _ _ hadj'
                refine ⟨hI.touch i a (nearCells_of h1 ha (hlift b rb h10 hb _ hsy)), ?_⟩
                exact nearCells_of hb (by rw [hold a (by omega) (by omega)]; exact ha) hsy
              · rw [if_neg h10]
                rw [hold b (by omega) (by omega)] at hb
                exact hI.touch a b (nearCells_of ha hb hadj')
    · intro a b ha hb hab
      rw [hij, splitIJ_eq]
      by_cases h6 : a = i ∨ b = i ∨ S.sol.length ≤ a ∧ a < S'.sol.length ∨
          S.sol.length ≤ b ∧ b < S'.sol.length
      · rw [if_pos h6, hab]
        cases S'.trans a b <;> simp
      · rw [if_neg h6]
        have hal : a < S.sol.length := by omega
        have hbl : b < S.sol.length := by omega
        have hai : a ≠ i := by omega
        have hbi : b ≠ i := by omega
        have hw := (reachableWithin_walk _ _ _ _ _).1 hab
        have hw' := Walk.map (n := S.sol.length) (adj := S.adj)
          (fun k => if k < S.sol.length then k else i) (fun k _ => by split <;> omega)
          (fun x y _ _ hxy => by
            rw [hadj] at hxy
            exact splitAdj_old (hI.refl i hi) (fun k hk hik => hI.symm i k hi hk hik) hxy)
          _ a b ha hb hw
        simp only [if_pos hal, if_pos hbl] at hw'
        have hcond : ¬ (a = j ∧ b = i) := by omega
        rcases hI.done a b hal hbl ((reachableWithin_walk _ _ _ _ _).2 hw') with hx | hx | hx
        · refine Or.inl ?_
          rw [htr, splitTrans_old hal hbl hai hbi]
          exact hx
        · refine Or.inr (Or.inl ?_)
          rw [if_neg hcond]
          exact hx
        · obtain ⟨xi, xj, xs, xt, x0, g1, g2, g3, g4, g5⟩ := hx
          exact Or.inr (Or.inr ⟨xi, xj, xs, xt, x0, by rw [hold b hbl hbi]; exact g1,
            by rw [hold a hal hai]; exact g2, hsys b xs g3, hts b xt g4, g5⟩)
  · refine ⟨hI.refl, hI.symm, hI.touch, ?_⟩
    intro a b ha hb hab
    by_cases hx : a = j ∧ b = i
    · obtain ⟨rfl, rfl⟩ := hx
      simp only [and_self, if_true]
      by_cases hv : O.vol (O.diff si.poly s0) < O.absTol
      · exact Or.inl (by simpa using hv)
      · exact Or.inr (Or.inr ⟨si, sj, sys, ts, s0, h1, h2, h3, h4, h5, hv, hn⟩)
    · simp only [if_neg hx]
      rcases hI.done a b ha hb hab with hy | hy | hy
      · exact Or.inl hy
      · exact Or.inr (Or.inl hy)
      · exact Or.inr (Or.inr hy)

theorem firstPair_none {n : Nat} {ij : Nat → Nat → Bool} (h : firstPair n ij = none) {a b : Nat}
    (ha : a < n) (hb : b < n) : ij a b = false := by
  unfold firstPair at h
  rw [List.find?_eq_none] at h
  have := h (a, b) (by
    simp only [List.mem_flatMap, List.mem_map, List.mem_range]
    exact ⟨a, ha, b, hb, rfl⟩)
  simpa using this

/-- **C60**, no transition is missing: when the loop ends, for each pair of cells that touch, and more
generally for each pair that is joined by `trans_length` steps in the adjacency matrix of the cells,
either there is a transition, or the solver finds, for the final cells, that the target cannot be reached
from all of the source, and that the source cannot be divided. -/
theorem discretizeBi_complete {O : DiscOps P K} (hT : O.Touch) {part : List (Region P)}
    {adj : Nat → Nat → Bool} {subs0 : List Nat} (hr : ∀ a < part.length, adj a a = true)
    (hs : ∀ a b, a < part.length → b < part.length → adj a b = true → adj b a = true)
    (ht : ∀ (a b : Nat) (p q : Region P), part[a]? = some p → part[b]? = some q →
      O.adjacent p.poly q.poly = true → adj a b = true)
    {fuel : Nat} {S : DState P} (h : discretizeBi O part adj subs0 fuel = some (.ok S)) :
    (∀ (a b : Nat) (p q : Region P), S.sol[a]? = some p → S.sol[b]? = some q →
      (a = b ∨ O.adjacent p.poly q.poly = true) → S.adj a b = true) ∧
    (∀ a b, a < S.sol.length → b < S.sol.length → S.adj a b = true →
      S.trans a b = true ∨ Blocked O (part.map (·.poly)) S a b) ∧
    (∀ a b, a < S.sol.length → b < S.sol.length → Walk S.sol.length S.adj (O.transLength - 1) a b →
      S.trans a b = true ∨ Blocked O (part.map (·.poly)) S a b) := by
  have h0 : CInv O (part.map (·.poly)) (discInit O part adj subs0) := by
    refine ⟨hr, hs, ?_, ?_⟩
    · intro a b hab
      obtain ⟨p, q, h1, h2, h3⟩ := nearCells_lt hab
      exact ht a b p q h1 h2 h3
    · intro a b ha hb hab
      exact Or.inr (Or.inl hab)
  unfold discretizeBi at h
  have hstep : ∀ (S S' : DState P) (j i : Nat), CInv O (part.map (·.poly)) S →
      firstPair S.sol.length S.ij = some (j, i) → biStep O (part.map (·.poly)) S j i = .ok S' →
      CInv O (part.map (·.poly)) S' := fun S S' j i hI _ hst => biStep_complete hT hI hst
  obtain ⟨hI, hf⟩ := discLoop_inv hstep fuel _ S h0 h
  have hwalk : ∀ a b, a < S.sol.length → b < S.sol.length →
      Walk S.sol.length S.adj (O.transLength - 1) a b →
      S.trans a b = true ∨ Blocked O (part.map (·.poly)) S a b := by
    intro a b ha hb hw
    rcases hI.done a b ha hb ((reachableWithin_walk _ _ _ _ _).2 hw) with hx | hx | hx
    · exact Or.inl hx
    · rw [firstPair_none hf ha hb] at hx; cases hx
    · exact Or.inr hx
  refine ⟨?_, ?_, hwalk⟩
  · intro a b p q hp hq hpq
    rcases hpq with rfl | hpq
    · exact hI.refl a (List.getElem?_eq_some_iff.1 hp).1
    · exact hI.touch a b (nearCells_of hp hq hpq)
  · intro a b ha hb hab
    exact hwalk a b ha hb (Walk.of_adj hI.refl _ a b hb hab)

/-! ## The loop ends -/

/-- What is assumed of `volume` (computed exactly). -/
structure DiscOps.Volume [IsStrictOrderedRing K] (O : DiscOps P K) : Prop where
  nonneg : ∀ a, 0 ≤ O.vol a
  split : ∀ a b, O.vol (O.inter a b) + O.vol (O.diff a b) ≤ O.vol a
  separate : ∀ a, ((O.separate a).map O.vol).sum ≤ O.vol a

section Term

variable [IsStrictOrderedRing K]

/-- The weight of a cell. -/
def weight (m v : K) : K := max 0 (v / m - 1)

theorem weight_nonneg (m v : K) : 0 ≤ weight m v := le_max_left _ _

theorem weight_mono {m : K} (hm : 0 < m) {v w : K} (h : v ≤ w) : weight m v ≤ weight m w :=
  max_le_max (le_refl _) (by have := div_le_div_of_nonneg_right h hm.le; linarith)

theorem weight_add {m : K} (hm : 0 < m) {v w : K} (hv : 0 ≤ v) (hw : 0 ≤ w) :
    weight m v + weight m w ≤ weight m (v + w) := by
  unfold weight
  have h1 : 0 ≤ v / m := div_nonneg hv hm.le
  have h2 : 0 ≤ w / m := div_nonneg hw hm.le
  rw [add_div]
  rcases le_total 0 (v / m - 1) with h | h <;> rcases le_total 0 (w / m - 1) with h' | h' <;>
    rcases le_total 0 (v / m + w / m - 1) with h'' | h'' <;>
    simp only [max_eq_left, max_eq_right, h, h', h''] <;> linarith

theorem weight_sum {m : K} (hm : 0 < m) (l : List P) (vol : P → K) (hv : ∀ a, 0 ≤ vol a) :
    (l.map fun p => weight m (vol p)).sum ≤ weight m (l.map vol).sum := by
  induction l with
  | nil => simp [weight]
  | cons p l ih =>
    simp only [List.map_cons, List.sum_cons]
    refine le_trans (add_le_add (le_refl _) ih) (weight_add hm (hv p) (List.sum_nonneg ?_))
    intro x hx
    obtain ⟨q, _, rfl⟩ := List.mem_map.1 hx
    exact hv q

/-- The potential of a state of the loop. -/
def potential (O : DiscOps P K) (sol : List (Region P)) : K :=
  (sol.map fun r => weight O.minVol (O.vol r.poly)).sum

theorem potential_nonneg (O : DiscOps P K) (sol : List (Region P)) : 0 ≤ potential O sol :=
  List.sum_nonneg fun x hx => by
    obtain ⟨q, _, rfl⟩ := List.mem_map.1 hx
    exact weight_nonneg _ _

/-- The number of pairs to check. -/
def pairs (S : DState P) : Nat :=
  (((List.range S.sol.length).flatMap fun j => (List.range S.sol.length).map fun i => (j, i)).filter
    fun p => S.ij p.1 p.2).length

/-- A step divides a cell, and the potential falls by 1, or it checks one pair. -/
theorem biStep_decreases {O : DiscOps P K} (hV : O.Volume) (hm : 0 < O.minVol) {origList : List P}
    {S S' : DState P} {j i : Nat} (hf : firstPair S.sol.length S.ij = some (j, i))
    (h : biStep O origList S j i = .ok S') :
    potential O S'.sol + 1 ≤ potential O S.sol ∨
    potential O S'.sol = potential O S.sol ∧ pairs S' < pairs S := by
  obtain ⟨si, sj, sys, ts, s0, h1, h2, h3, h4, h5, h⟩ := biStep_inv h
  rcases h with ⟨hbig, h⟩ | ⟨hn, rfl⟩
  · refine Or.inl ?_
    obtain ⟨p, ps, hsep, hsol, _⟩ := divide_inv h
    simp only at hsol
    set new := O.separate (O.diff si.poly s0) ++ ps with hnew
    have hpot : potential O S'.sol = (((O.separate (O.inter si.poly s0) ++
        O.separate (O.diff si.poly s0)).map fun q => weight O.minVol (O.vol q)).sum) +
        potential O (S.sol.eraseIdx i) := by
      unfold potential
      have hperm := (set_perm' (b := (⟨p, si.props⟩ : Region P)) h1)
      rw [hsol, List.map_append, List.sum_append,
        ((hperm.map fun r => weight O.minVol (O.vol r.poly)).sum_eq)]
      rw [hsep, hnew]
      simp only [List.map_append, List.map_cons, List.sum_cons, List.sum_append, List.map_map,
        Function.comp_def, List.cons_append]
      ring
    have hpot0 : potential O S.sol = weight O.minVol (O.vol si.poly) +
        potential O (S.sol.eraseIdx i) := by
      unfold potential
      rw [(((set_perm h1).map fun r => weight O.minVol (O.vol r.poly)).sum_eq)]
      simp
    rw [hpot, hpot0, List.map_append, List.sum_append]
    have e1 := (weight_sum hm (O.separate (O.inter si.poly s0)) O.vol hV.nonneg).trans
      (weight_mono hm (hV.separate _))
    have e2 := (weight_sum hm (O.separate (O.diff si.poly s0)) O.vol hV.nonneg).trans
      (weight_mono hm (hV.separate _))
    have e3 : weight O.minVol (O.vol (O.inter si.poly s0)) + weight O.minVol (O.vol (O.diff si.poly s0))
        + 1 ≤ weight O.minVol (O.vol si.poly) := by
      have hsplit := hV.split si.poly s0
      have a1 : 1 ≤ O.vol (O.inter si.poly s0) / O.minVol := by
        rw [le_div_iff₀ hm]; linarith [hbig.1]
      have a2 : 1 ≤ O.vol (O.diff si.poly s0) / O.minVol := by
        rw [le_div_iff₀ hm]; linarith [hbig.2.2.1]
      have a3 : O.vol (O.inter si.poly s0) / O.minVol + O.vol (O.diff si.poly s0) / O.minVol ≤
          O.vol si.poly / O.minVol := by
        rw [← add_div]; exact div_le_div_of_nonneg_right hsplit hm.le
      unfold weight
      rw [max_eq_right (by linarith), max_eq_right (by linarith), max_eq_right (by linarith)]
      linarith
    linarith
  · refine Or.inr ⟨rfl, ?_⟩
    unfold firstPair at hf
    have hmem := List.mem_of_find?_eq_some hf
    have htrue := List.find?_some hf
    unfold pairs
    simp only at htrue ⊢
    obtain ⟨l1, l2, hl⟩ := List.append_of_mem hmem
    rw [hl]
    simp only [List.filter_append, List.length_append]
    have hle : ∀ l : List (Nat × Nat), (l.filter fun p =>
        if p.1 = j ∧ p.2 = i then false else S.ij p.1 p.2).length ≤
        (l.filter fun p => S.ij p.1 p.2).length := by
      intro l
      refine List.Sublist.length_le ?_
      refine List.monotone_filter_right l ?_
      intro p hp
      split at hp
      · cases hp
      · exact hp
    have hlt : (((j, i) :: l2).filter fun p =>
        if p.1 = j ∧ p.2 = i then false else S.ij p.1 p.2).length <
        (((j, i) :: l2).filter fun p => S.ij p.1 p.2).length := by
      rw [List.filter_cons_of_neg (by simp), List.filter_cons_of_pos (by simpa using htrue)]
      have := hle l2
      simp only [List.length_cons]
      omega
    have := hle l1
    omega

/-- **C60**, termination: if `min_cell_volume` is positive, the loop ends, with a result or an exception
of a function that it calls. -/
theorem discretizeBi_terminates [Archimedean K] {O : DiscOps P K} (hV : O.Volume)
    (hm : 0 < O.minVol) (part : List (Region P)) (adj : Nat → Nat → Bool) (subs0 : List Nat) :
    ∃ fuel r, discretizeBi O part adj subs0 fuel = some r := by
  have key : ∀ (B c : Nat) (S : DState P), potential O S.sol ≤ B → pairs S ≤ c →
      ∃ fuel r, discLoop (biStep O (part.map (·.poly))) fuel S = some r := by
    intro B
    induction B with
    | zero =>
      intro c
      induction c with
      | zero =>
        intro S hB hc
        cases hf : firstPair S.sol.length S.ij with
        | none => exact ⟨0, .ok S, by unfold discLoop; rw [hf]⟩
        | some ji =>
          obtain ⟨j, i⟩ := ji
          cases hs : biStep O (part.map (·.poly)) S j i with
          | error e => exact ⟨1, .error e, by unfold discLoop; rw [hf]; simp [hs]⟩
          | ok S' =>
            exfalso
            rcases biStep_decreases hV hm hf hs with h | ⟨_, h⟩
            · have := potential_nonneg O S'.sol
              push_cast at hB
              linarith
            · omega
      | succ c ih =>
        intro S hB hc
        cases hf : firstPair S.sol.length S.ij with
        | none => exact ⟨0, .ok S, by unfold discLoop; rw [hf]⟩
        | some ji =>
          obtain ⟨j, i⟩ := ji
          cases hs : biStep O (part.map (·.poly)) S j i with
          | error e => exact ⟨1, .error e, by unfold discLoop; rw [hf]; simp [hs]⟩
          | ok S' =>
            rcases biStep_decreases hV hm hf hs with h | ⟨h, h'⟩
            · exfalso
              have := potential_nonneg O S'.sol
              push_cast at hB
              linarith
            · obtain ⟨fuel, r, hr⟩ := ih S' (h ▸ hB) (by omega)
              exact ⟨fuel + 1, r, by unfold discLoop; rw [hf]; simp [hs, hr]⟩
    | succ B ihB =>
      intro c
      induction c with
      | zero =>
        intro S hB hc
        cases hf : firstPair S.sol.length S.ij with
        | none => exact ⟨0, .ok S, by unfold discLoop; rw [hf]⟩
        | some ji =>
          obtain ⟨j, i⟩ := ji
          cases hs : biStep O (part.map (·.poly)) S j i with
          | error e => exact ⟨1, .error e, by unfold discLoop; rw [hf]; simp [hs]⟩
          | ok S' =>
            rcases biStep_decreases hV hm hf hs with h | ⟨_, h⟩
            · obtain ⟨fuel, r, hr⟩ := ihB (pairs S') S' (by push_cast at hB; linarith) (le_refl _)
              exact ⟨fuel + 1, r, by unfold discLoop; rw [hf]; simp [hs, hr]⟩
            · omega
      | succ c ih =>
        intro S hB hc
        cases hf : firstPair S.sol.length S.ij with
        | none => exact ⟨0, .ok S, by unfold discLoop; rw [hf]⟩
        | some ji =>
          obtain ⟨j, i⟩ := ji
          cases hs : biStep O (part.map (·.poly)) S j i with
          | error e => exact ⟨1, .error e, by unfold discLoop; rw [hf]; simp [hs]⟩
          | ok S' =>
            rcases biStep_decreases hV hm hf hs with h | ⟨h, h'⟩
            · obtain ⟨fuel, r, hr⟩ := ihB (pairs S') S' (by push_cast at hB; linarith) (le_refl _)
              exact ⟨fuel + 1, r, by unfold discLoop; rw [hf]; simp [hs, hr]⟩
            · obtain ⟨fuel, r, hr⟩ := ih S' (h ▸ hB) (by omega)
              exact ⟨fuel + 1, r, by unfold discLoop; rw [hf]; simp [hs, hr]⟩
  obtain ⟨B, hB⟩ := exists_nat_ge (potential O (discInit O part adj subs0).sol)
  exact key B _ _ hB (le_refl _)

end Term

end Abs

end Tulip
