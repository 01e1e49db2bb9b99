import Verif.Abstract.Grid
import Verif.Abstract.Prop2partProps
import Mathlib.Data.Rat.Floor
import Mathlib.Algebra.Order.Archimedean.Basic
import Mathlib.Tactic.Linarith
import Mathlib.Tactic.Ring
import Mathlib.Tactic.NormNum

/-!
# Grids: theorems about `tulip/abstract/prop2partition.py:504-704`
-/

namespace Tulip

namespace Abs

set_option linter.unusedSectionVars false

variable {K : Type} [Field K] [LinearOrder K]

/-! ## `compute_interval` -/

/-- The steps of the loop. -/
inductive Cuts (high size tol : K) : K → List (K × K) → Prop
  | last {i : K} (h : high ≤ i + size + tol) : Cuts high size tol i [(i, high)]
  | step {i : K} {l : List (K × K)} (h : i + size + tol < high) (hl : Cuts high size tol (i + size) l) :
      Cuts high size tol i ((i, i + size) :: l)

theorem intervalLoop_cuts (high size tol : K) (fuel : Nat) :
    ∀ (i : K) (acc l : List (K × K)), intervalLoop high size tol fuel i acc = some l →
      ∃ m, l = acc ++ m ∧ Cuts high size tol i m := by
  induction fuel with
  | zero => intro i acc l h; cases h
  | succ n ih =>
    intro i acc l h
    unfold intervalLoop at h
    split at h
    · rename_i hc
      cases h
      exact ⟨_, rfl, .last hc⟩
    · rename_i hc
      obtain ⟨m, rfl, hm⟩ := ih _ _ _ h
      exact ⟨(i, i + size) :: m, by simp, .step (not_le.1 hc) hm⟩

theorem computeInterval_cuts {high size tol low : K} {fuel : Nat} {l : List (K × K)}
    (h : computeInterval fuel low high size tol = some l) : Cuts high size tol low l := by
  obtain ⟨m, rfl, hm⟩ := intervalLoop_cuts _ _ _ _ _ _ _ h
  simpa using hm

variable [IsStrictOrderedRing K]

theorem intervalLoop_halts (high size tol : K) (n : Nat) :
    ∀ (i : K) (acc : List (K × K)), high ≤ i + (n + 1) * size + tol →
      ∃ l, intervalLoop high size tol (n + 1) i acc = some l := by
  induction n with
  | zero =>
    intro i acc h
    refine ⟨acc ++ [(i, high)], ?_⟩
    unfold intervalLoop
    rw [if_pos]
    simpa using h
  | succ n ih =>
    intro i acc h
    unfold intervalLoop
    split
    · exact ⟨_, rfl⟩
    · refine ih _ _ ?_
      push_cast at h
      linarith

theorem intervalLoop_mono (high size tol : K) (n m : Nat) (i : K) (acc l : List (K × K))
    (h : intervalLoop high size tol n i acc = some l) (hm : n ≤ m) :
    intervalLoop high size tol m i acc = some l := by
  induction n generalizing m i acc with
  | zero => cases h
  | succ n ih =>
    cases m with
    | zero => omega
    | succ m =>
      unfold intervalLoop at h ⊢
      split
      · rw [if_pos (by assumption)] at h
        exact h
      · rw [if_neg (by assumption)] at h
        exact ih m _ _ h (by omega)

/-- What `compute_interval` returns: intervals that follow each other from `low` to `high`, of the
given size except the last one. -/
structure Tiling (low high size tol : K) (l : List (K × K)) : Prop where
  first : ∃ b, l.head? = some (low, b)
  last : ∃ a, l.getLast? = some (a, high)
  adjacent : l.IsChain fun p q => p.2 = q.1
  exactSize : ∀ p ∈ l.dropLast, p.2 = p.1 + size
  lastSize : ∀ p, l.getLast? = some p → p.2 ≤ p.1 + size + tol
  lastBig : 1 < l.length → ∀ p, l.getLast? = some p → p.1 + tol < p.2

theorem Cuts.ne_nil {high size tol i : K} {l : List (K × K)} (h : Cuts high size tol i l) : l ≠ [] := by
  cases h <;> simp

theorem Cuts.tiling {high size tol i : K} {l : List (K × K)} (h : Cuts high size tol i l) :
    Tiling i high size tol l := by
  induction h with
  | last h =>
    exact ⟨⟨_, rfl⟩, ⟨_, rfl⟩, by simp, by simp, by simpa using h, by simp⟩
  | @step i l h hl ih =>
    have hne := hl.ne_nil
    obtain ⟨p, l', rfl⟩ := List.exists_cons_of_ne_nil hne
    refine ⟨⟨_, rfl⟩, ?_, ?_, ?_, ?_, ?_⟩
    · rw [List.getLast?_cons_cons]; exact ih.last
    · obtain ⟨b, hb⟩ := ih.first
      cases Option.some.inj hb
      exact List.isChain_cons_cons.2 ⟨rfl, ih.adjacent⟩
    · intro q hq
      rw [List.dropLast_cons_cons] at hq
      rcases List.mem_cons.1 hq with rfl | hq
      · rfl
      · exact ih.exactSize q hq
    · intro q hq
      rw [List.getLast?_cons_cons] at hq
      exact ih.lastSize q hq
    · intro _ q hq
      rw [List.getLast?_cons_cons] at hq
      cases l' with
      | nil =>
        simp only [List.getLast?_singleton, Option.some.injEq] at hq
        subst hq
        cases hl with
        | last h' => exact h.trans_le' (by simp)
        | step _ h' => exact absurd rfl h'.ne_nil
      | cons q' l' => exact ih.lastBig (by simp) q hq

theorem Cuts.low_le {high size tol i : K} (hs : 0 ≤ size) {l : List (K × K)}
    (h : Cuts high size tol i l) : ∀ p ∈ l, i ≤ p.1 := by
  induction h with
  | last h => simp
  | step h hl ih =>
    intro p hp
    rcases List.mem_cons.1 hp with rfl | hp
    · exact le_refl _
    · linarith [ih p hp]

theorem Cuts.ordered {high size tol i : K} (hs : 0 ≤ size) {l : List (K × K)}
    (h : Cuts high size tol i l) : l.Pairwise fun p q => p.2 ≤ q.1 := by
  induction h with
  | last h => simp
  | step h hl ih => exact List.pairwise_cons.2 ⟨fun q hq => hl.low_le hs q hq, ih⟩

theorem Cuts.cover {high size tol i : K} {l : List (K × K)} (h : Cuts high size tol i l) :
    ∀ x, i ≤ x → x < high → ∃ p ∈ l, p.1 ≤ x ∧ x < p.2 := by
  induction h with
  | @last i h => exact fun x h1 h2 => ⟨(i, high), by simp, h1, h2⟩
  | @step i l h hl ih =>
    intro x h1 h2
    rcases lt_or_ge x (i + size) with h3 | h3
    · exact ⟨(i, i + size), by simp, h1, h3⟩
    · obtain ⟨p, hp, h4⟩ := ih x h3 h2
      exact ⟨p, by simp [hp], h4⟩

/-- **C58**. `compute_interval` terminates for a positive size (in whatever number of iterations it
needs, with the same result); the intervals follow each other from `low` to `high`, all have the given
size except the last one, which is not longer than the size plus the tolerance, and each point of the
range is in exactly one of them. -/
theorem computeInterval_spec [Archimedean K] {low high size tol : K} (hs : 0 < size) :
    ∃ l, (∃ n, ∀ m, n ≤ m → computeInterval m low high size tol = some l) ∧
      Tiling low high size tol l ∧
      ∀ x, low ≤ x → x < high → ∃! p, p ∈ l ∧ p.1 ≤ x ∧ x < p.2 := by
  obtain ⟨n, hn⟩ := Archimedean.arch (high - low - tol) hs
  obtain ⟨l, hl⟩ := intervalLoop_halts high size tol n low []
    (by rw [nsmul_eq_mul] at hn; linarith)
  have hc := computeInterval_cuts (l := l) hl
  refine ⟨l, ⟨n + 1, fun m hm => intervalLoop_mono _ _ _ _ _ _ _ _ hl hm⟩, hc.tiling, ?_⟩
  intro x h1 h2
  obtain ⟨p, hp, h3, h4⟩ := hc.cover x h1 h2
  refine ⟨p, ⟨hp, h3, h4⟩, ?_⟩
  rintro q ⟨hq, h5, h6⟩
  obtain ⟨i, hi, rfl⟩ := List.getElem_of_mem hp
  obtain ⟨j, hj, rfl⟩ := List.getElem_of_mem hq
  have hord := List.pairwise_iff_getElem.1 (hc.ordered hs.le)
  rcases lt_trichotomy i j with h | h | h
  · linarith [hord i j hi hj h]
  · subst h; rfl
  · linarith [hord j i hj hi h]

/-- For a size that is not positive, the loop never ends, unless the range is not longer than the size
plus the tolerance. -/
theorem computeInterval_diverges {low high size tol : K} (hs : size ≤ 0) (h : low + size + tol < high)
    (fuel : Nat) : computeInterval fuel low high size tol = none := by
  suffices ∀ (i : K) (acc : List (K × K)), i ≤ low → intervalLoop high size tol fuel i acc = none from
    this low [] le_rfl
  induction fuel with
  | zero => intro i acc _; rfl
  | succ n ih =>
    intro i acc hi
    unfold intervalLoop
    rw [if_neg (by linarith)]
    exact ih _ _ (by linarith)

example : computeInterval 10 (0 : ℚ) 7 3 (1 / 100) = some [(0, 3), (3, 6), (6, 7)] := by decide +kernel

/-! ## `product_interval` -/

omit [IsStrictOrderedRing K] in
/-- **C58**. `product_interval` returns the combinations of an element of the first list with one of
the second list: all of them, and one for each pair of positions. -/
theorem productInterval_spec (l m : List (List K)) :
    (productInterval l m).length = l.length * m.length ∧
    ∀ i j a b, l[i]? = some a → m[j]? = some b →
      (productInterval l m)[i * m.length + j]? = some (a ++ b) := by
  have hlen : ∀ l : List (List K), (productInterval l m).length = l.length * m.length := by
    intro l
    induction l with
    | nil => simp [productInterval]
    | cons a l ih =>
      have : productInterval (a :: l) m = (m.map fun b => a ++ b) ++ productInterval l m := by
        simp [productInterval]
      rw [this, List.length_append, ih, List.length_map, List.length_cons]
      ring
  refine ⟨hlen l, ?_⟩
  induction l with
  | nil => intro i j a b h; simp at h
  | cons x l ih =>
    intro i j a b ha hb
    have hj : j < m.length := (List.getElem?_eq_some_iff.1 hb).1
    have : productInterval (x :: l) m = (m.map fun b => x ++ b) ++ productInterval l m := by
      simp [productInterval]
    rw [this]
    cases i with
    | zero =>
      cases Option.some.inj ha
      rw [List.getElem?_append_left (by simpa using hj)]
      simp [hb]
    | succ i =>
      rw [List.getElem?_append_right (by simp; nlinarith)]
      rw [← ih i j a b (by simpa using ha) hb]
      congr 1
      simp only [List.length_map]
      have : (i + 1) * m.length = i * m.length + m.length := by ring
      omega

/-! ## The boxes of a grid -/

/-- The boxes of a grid: one interval for each dimension. -/
def boxes : List (List (K × K)) → List (List (K × K))
  | [] => [[]]
  | l :: ls => l.flatMap fun p => (boxes ls).map fun b => p :: b

omit [LinearOrder K] [IsStrictOrderedRing K] [Field K] in
theorem mem_boxes {ls : List (List (K × K))} {b : List (K × K)} :
    b ∈ boxes ls ↔ List.Forall₂ (fun p l => p ∈ l) b ls := by
  induction ls generalizing b with
  | nil => simp [boxes]
  | cons l ls ih =>
    simp only [boxes, List.mem_flatMap, List.mem_map]
    constructor
    · rintro ⟨p, hp, c, hc, rfl⟩
      exact .cons hp (ih.1 hc)
    · intro h
      cases h with
      | cons hp hc => exact ⟨_, hp, _, ih.2 hc, rfl⟩

omit [LinearOrder K] [IsStrictOrderedRing K] in
theorem pairUp_append {a b : List K} (h : 2 ∣ a.length) : pairUp (a ++ b) = pairUp a ++ pairUp b := by
  obtain ⟨n, hn⟩ := h
  induction n generalizing a with
  | zero => simp at hn; subst hn; simp [pairUp]
  | succ n ih =>
    match a, hn with
    | x :: y :: a, hn =>
      simp only [List.cons_append, pairUp]
      rw [ih (by simp at hn; omega)]
    | [x], hn => simp at hn; omega
    | [], hn => simp at hn

omit [LinearOrder K] [IsStrictOrderedRing K] in
theorem foldl_boxes (ls : List (List (K × K))) (re : List (List K)) (h : ∀ a ∈ re, 2 ∣ a.length) :
    (ls.foldl (fun re l => productInterval re (flat l)) re).map pairUp =
      re.flatMap fun a => (boxes ls).map fun b => pairUp a ++ b := by
  induction ls generalizing re with
  | nil =>
    simp only [List.foldl_nil, boxes, List.map_cons, List.append_nil, List.map_nil]
    induction re with
    | nil => rfl
    | cons a re ih =>
      simp only [List.map_cons, List.flatMap_cons, List.singleton_append]
      rw [ih fun b hb => h b (by simp [hb])]
  | cons l ls ih =>
    rw [List.foldl_cons, ih]
    · simp only [productInterval, boxes, flat, List.flatMap_assoc, List.map_flatMap, List.map_map,
        List.flatMap_map]
      apply List.flatMap_congr
      intro a ha
      apply List.flatMap_congr
      intro p hp
      apply List.map_congr_left
      intro b hb
      simp only [Function.comp_apply]
      rw [pairUp_append (h a ha)]
      simp [pairUp]
    · intro a ha
      simp only [productInterval, flat, List.mem_flatMap, List.mem_map] at ha
      obtain ⟨b, hb, c, ⟨p, hp, rfl⟩, rfl⟩ := ha
      rw [List.length_append]
      exact Dvd.dvd.add (h b hb) ⟨1, rfl⟩

omit [LinearOrder K] [IsStrictOrderedRing K] in
/-- The loop of `add_grid` computes the boxes of the grid, for two dimensions or more. -/
theorem gridProduct_boxes (ls : List (List (K × K))) (h : 2 ≤ ls.length) :
    ∃ re, gridProduct ls = .ok re ∧ re.map pairUp = boxes ls := by
  match ls, h with
  | l0 :: l1 :: ls, _ =>
    refine ⟨_, rfl, ?_⟩
    have h2 : ∀ a ∈ flat l0, 2 ∣ a.length := by
      intro a ha
      obtain ⟨p, _, rfl⟩ := List.mem_map.1 ha
      exact ⟨1, rfl⟩
    have := foldl_boxes (l1 :: ls) (flat l0) h2
    rw [List.foldl_cons] at this
    rw [this]
    simp only [boxes, flat, List.flatMap_map]
    simp [pairUp]

omit [Field K] [IsStrictOrderedRing K] in
/-- Two boxes of a grid have intervals that follow each other in some dimension. -/
theorem boxes_pairwise {ls : List (List (K × K))} (h : ∀ l ∈ ls, l.Pairwise fun p q => p.2 ≤ q.1) :
    (boxes ls).Pairwise fun b c => ∃ (j : Nat) (p q : K × K), b[j]? = some p ∧ c[j]? = some q ∧
      p.2 ≤ q.1 := by
  induction ls with
  | nil => simp [boxes]
  | cons l ls ih =>
    unfold boxes
    rw [List.pairwise_flatMap]
    constructor
    · intro p _
      rw [List.pairwise_map]
      refine (ih fun l hl => h l (by simp [hl])).imp ?_
      rintro b c ⟨j, p, q, h1, h2, h3⟩
      exact ⟨j + 1, p, q, by simpa using h1, by simpa using h2, h3⟩
    · refine (h l (by simp)).imp ?_
      intro p q hpq x hx y hy
      obtain ⟨b, _, rfl⟩ := List.mem_map.1 hx
      obtain ⟨c, _, rfl⟩ := List.mem_map.1 hy
      exact ⟨0, p, q, rfl, rfl, hpq⟩

theorem gridLists_spec [Archimedean K] {tol : K} {bb : List (K × K)} {sizes : List K}
    (hl : sizes.length = bb.length) (hs : ∀ s ∈ sizes, 0 < s) :
    ∃ ls, (∃ n, ∀ m, n ≤ m → gridLists m tol bb sizes = some ls) ∧ ls.length = bb.length ∧
      ∀ (j : Nat) (b : K × K) (s : K), bb[j]? = some b → sizes[j]? = some s →
        ∃ l, ls[j]? = some l ∧ Cuts b.2 s tol b.1 l := by
  induction bb generalizing sizes with
  | nil => exact ⟨[], ⟨0, fun m _ => rfl⟩, rfl, by simp⟩
  | cons b bb ih =>
    cases sizes with
    | nil => cases hl
    | cons s sizes =>
      obtain ⟨l, ⟨n, hn⟩, _, _⟩ := computeInterval_spec (low := b.1) (high := b.2) (tol := tol)
        (hs s (by simp))
      obtain ⟨ls, ⟨n', hn'⟩, h1, h2⟩ := ih (sizes := sizes) (by simpa using hl)
        fun s hs' => hs s (by simp [hs'])
      refine ⟨l :: ls, ⟨n + n', fun m hm => ?_⟩, by simp [h1], ?_⟩
      · simp only [gridLists]
        rw [hn m (by omega), hn' m (by omega)]
        rfl
      · intro j c t hc ht
        cases j with
        | zero =>
          cases Option.some.inj hc
          cases Option.some.inj ht
          exact ⟨l, rfl, computeInterval_cuts (hn n le_rfl)⟩
        | succ j => simpa using h2 j c t (by simpa using hc) (by simpa using ht)

variable {P X : Type}

omit [IsStrictOrderedRing K] in
theorem sizeList_length {bb : List (K × K)} {size : Option (SizeArg K)} {num : Option NumArg}
    {l : List K} (h : sizeList bb size num = .ok l) : l.length = bb.length := by
  have hls : ∀ (bb : List (K × K)) (ns : List (Option Int)) (l : List K), ns.length = bb.length →
      listSizes bb ns = .ok l → l.length = bb.length := by
    intro bb
    induction bb with
    | nil => intro ns l hn h; cases ns <;> cases h <;> rfl
    | cons b bb ih =>
      intro ns l hn h
      match ns, hn with
      | none :: ns, hn => cases h
      | some n :: ns, hn =>
        simp only [listSizes, cellSize] at h
        split at h
        · cases h
        · cases hl : listSizes bb ns with
          | error e => rw [hl] at h; cases h
          | ok m =>
            rw [hl] at h
            cases h
            simp [ih ns m (by simpa using hn) hl]
  unfold sizeList at h
  split at h
  · cases h
  · cases h
  · split at h
    · cases h; assumption
    · cases h
  · cases h; simp
  · cases h
  · split at h
    · exact hls _ _ _ (by assumption) h
    · cases h
  · exact hls _ _ _ (by simp) h
  · cases h

/-- **C69**. For a grid with cells of positive size in two dimensions or more, `add_grid` terminates and
refines a proposition-preserving partition: each new region lies in one old region, with the same label,
and in one box of the grid. The boxes are the products of intervals that follow each other in the range
of the domain, of the given size except the last ones. -/
theorem addGrid_spec [Archimedean K] {G : Geom P X} (hG : G.Lawful) {le : P → P → Bool}
    (hle : ∀ a b, G.den a ⊆ G.den b → le a b = true) {coord : X → Nat → K}
    {box : List (K × K) → P} (hbox : ∀ b, G.den (box b) =
      {x | ∀ (j : Nat) (p : K × K), b[j]? = some p → p.1 ≤ coord x j ∧ coord x j ≤ p.2})
    (hplane : ∀ j c, G.null {x | coord x j = c}) {big : P → Bool}
    (hbig : ∀ a, big a = false → G.null (G.den a)) {tol : K} {bb : List (K × K)}
    (hdim : 2 ≤ bb.length) {size : Option (SizeArg K)} {num : Option NumArg} {sizes : List K}
    (hsize : sizeList bb size num = .ok sizes) (hs : ∀ s ∈ sizes, 0 < s) {ppp : Partition P}
    (hp : Preserving G ppp.domain ppp.propRegions ppp.regions)
    (hbb : ∀ x ∈ G.den ppp.domain, ∀ (j : Nat) (b : K × K), bb[j]? = some b →
      b.1 ≤ coord x j ∧ coord x j ≤ b.2) :
    ∃ new pieces, (∃ n, ∀ m, n ≤ m →
        addGrid G le box big m tol bb size num ppp = .ok (some (new, pieces))) ∧
      new.domain = ppp.domain ∧ new.propRegions = ppp.propRegions ∧
      new.regions = pieces.map (·.region) ∧
      Preserving G ppp.domain ppp.propRegions new.regions ∧
      ∃ ls : List (List (K × K)), ls.length = bb.length ∧
        (∀ (j : Nat) (b : K × K) (s : K), bb[j]? = some b → sizes[j]? = some s →
          ∃ l, ls[j]? = some l ∧ Tiling b.1 b.2 s tol l) ∧
        ∀ y ∈ pieces, ∃ r b, ppp.regions[y.parent]? = some r ∧
          List.Forall₂ (fun p l => p ∈ l) b ls ∧ y.region.props = r.props ∧
          G.den y.region.poly ⊆ G.den r.poly ∧
          ∀ x ∈ G.den y.region.poly, ∀ (j : Nat) (p : K × K), b[j]? = some p →
            p.1 ≤ coord x j ∧ coord x j ≤ p.2 := by
  have hlen := sizeList_length hsize
  obtain ⟨ls, ⟨n, hn⟩, h1, h2⟩ := gridLists_spec (tol := tol) hlen hs
  obtain ⟨re, h3, h4⟩ := gridProduct_boxes ls (by omega)
  have hcells : re.map (fun r => box (pairUp r)) = (boxes ls).map box := by
    rw [← h4, List.map_map]
    rfl
  have hls : ∀ l ∈ ls, l.Pairwise fun p q => p.2 ≤ q.1 := by
    intro l hl
    obtain ⟨j, hj⟩ := List.getElem?_of_mem hl
    have hj' := (List.getElem?_eq_some_iff.1 hj).1
    obtain ⟨l', hl', hc⟩ := h2 j (bb[j]'(by omega)) (sizes[j]'(by omega))
      (List.getElem?_eq_getElem (by omega)) (List.getElem?_eq_getElem (by omega))
    rw [hj] at hl'
    cases hl'
    exact hc.ordered (hs _ (List.getElem_mem _)).le
  have hdis : ((boxes ls).map box).Pairwise fun c d => G.null (G.den c ∩ G.den d) := by
    rw [List.pairwise_map]
    refine (boxes_pairwise hls).imp ?_
    rintro b c ⟨j, p, q, hb, hc, hpq⟩
    refine hG.null_mono (B := {x | coord x j = p.2}) ?_ (hplane j p.2)
    rintro x ⟨hx, hx'⟩
    rw [hbox] at hx hx'
    exact le_antisymm (hx j p hb).2 (hpq.trans (hx' j q hc).1)
  -- the boxes cover the domain, except for upper bounds
  have hpt : ∀ x, (∀ (j : Nat) (b : K × K), bb[j]? = some b → b.1 ≤ coord x j ∧ coord x j < b.2) →
      ∃ c ∈ (boxes ls).map box, x ∈ G.den c := by
    intro x hx
    have : ∀ (k : Nat) (ls' : List (List (K × K))), (∀ (j : Nat) l, ls'[j]? = some l → ∃ p ∈ l,
        p.1 ≤ coord x (k + j) ∧ coord x (k + j) ≤ p.2) →
        ∃ b ∈ boxes ls', ∀ (j : Nat) (p : K × K), b[j]? = some p →
          p.1 ≤ coord x (k + j) ∧ coord x (k + j) ≤ p.2 := by
      intro k ls'
      induction ls' generalizing k with
      | nil => intro _; exact ⟨[], by simp [boxes], by simp⟩
      | cons l ls' ih =>
        intro h
        obtain ⟨p, hp, h5⟩ := h 0 l rfl
        obtain ⟨b, hb, h6⟩ := ih (k + 1) fun j m hm => by
          have := h (j + 1) m (by simpa using hm)
          rwa [show k + 1 + j = k + (j + 1) by omega]
        refine ⟨p :: b, ?_, ?_⟩
        · exact mem_boxes.2 (.cons hp (mem_boxes.1 hb))
        · intro j q hq
          cases j with
          | zero => cases Option.some.inj hq; exact h5
          | succ j =>
            have := h6 j q (by simpa using hq)
            rwa [show k + 1 + j = k + (j + 1) by omega] at this
    obtain ⟨b, hb, hbx⟩ := this 0 ls fun j l hl => by
      have hj' := (List.getElem?_eq_some_iff.1 hl).1
      have hb := List.getElem?_eq_getElem (l := bb) (i := j) (by omega)
      obtain ⟨l', hl', hc⟩ := h2 j _ (sizes[j]'(by omega)) hb (List.getElem?_eq_getElem (by omega))
      rw [hl] at hl'
      cases hl'
      obtain ⟨p, hp, h5, h6⟩ := hc.cover (coord x j) (hx j _ hb).1 (hx j _ hb).2
      exact ⟨p, hp, by simpa using h5, by simpa using h6.le⟩
    refine ⟨box b, List.mem_map_of_mem hb, ?_⟩
    rw [hbox]
    simpa using hbx
  have hcov : G.null (G.den ppp.domain \ {x | ∃ c ∈ (boxes ls).map box, x ∈ G.den c}) := by
    refine hG.null_mono ?_ (hG.null_iUnion (bb.zipIdx) (fun b => {x | coord x b.2 = b.1.2})
      fun b _ => hplane _ _)
    rintro x ⟨hx, hnx⟩
    by_contra hc
    refine hnx (hpt x fun j b hj => ?_)
    have := hbb x hx j b hj
    refine ⟨this.1, lt_of_le_of_ne this.2 fun he => hc ⟨(b, j), ?_, he⟩⟩
    exact List.mem_zipIdx_iff_getElem?.2 hj
  obtain ⟨h5, h6⟩ := refine_preserving hG (inter := fun region cell => G.inter cell region)
    (fun a b x hx => (hG.inter_sub _ _ hx).symm)
    (fun a b => by rw [Set.inter_comm]; exact hG.inter_null b a) hbig hp hcov hdis
  refine ⟨⟨ppp.domain, (refine (fun region cell => G.inter cell region) big ((boxes ls).map box)
    ppp.regions).map (·.region), ppp.propRegions⟩, refine (fun region cell => G.inter cell region) big
    ((boxes ls).map box) ppp.regions, ⟨n, fun m hm => ?_⟩, rfl, rfl, rfl, h5, ls, h1, ?_, ?_⟩
  · unfold addGrid
    rw [hsize, ok_bind, hn m hm]
    simp only [h3, ok_bind, hcells, Partition.make]
    rw [if_neg, if_neg]
    · rfl
    · simp only [List.any_eq_true, not_exists, not_and, Bool.not_eq_true', Bool.not_eq_false]
      intro r hr q hq
      obtain ⟨t, ht, _⟩ := h5.holds r hr q hq
      exact (Dict.has_iff _ _).2 ⟨t, ht⟩
    · simp only [List.any_eq_true, not_exists, not_and, Bool.not_eq_true', Bool.not_eq_false]
      intro r hr
      exact hle _ _ (h5.inside r hr)
  · intro j b s hb hs'
    obtain ⟨l, hl, hc⟩ := h2 j b s hb hs'
    exact ⟨l, hl, hc.tiling⟩
  · intro y hy
    obtain ⟨r, c, h7, h8, h9, h10, h11⟩ := h6 y hy
    obtain ⟨b, hb, rfl⟩ := List.mem_map.1 (List.mem_of_getElem? h8)
    refine ⟨r, b, h7, mem_boxes.1 hb, h9, h10, fun x hx => ?_⟩
    have := h11 hx
    rw [hbox] at this
    exact this

/-- In one dimension `add_grid` raises `UnboundLocalError` for every size of cells. -/
theorem addGrid_dim1_counterexample (G : Geom P X) (le : P → P → Bool) (box : List (K × K) → P)
    (big : P → Bool) (tol : K) (b : K × K) (size : K) (ppp : Partition P) (fuel : Nat) :
    addGrid G le box big fuel tol [b] (some (.float size)) none ppp = .ok none ∨
    addGrid G le box big fuel tol [b] (some (.float size)) none ppp = .error .unboundLocal := by
  unfold addGrid
  simp only [sizeList, List.map_cons, List.map_nil, ok_bind, gridLists]
  cases computeInterval fuel b.1 b.2 size tol with
  | none => exact Or.inl rfl
  | some l => exact Or.inr rfl

omit [IsStrictOrderedRing K] in
/-- The sizes of the cells for given numbers of cells: the length of the range divided by the number. -/
theorem sizeList_num {bb : List (K × K)} {n : Int} (hn : n ≠ 0) :
    sizeList bb none (some (.int n)) = .ok (bb.map fun b => (b.2 - b.1) / n) := by
  simp only [sizeList]
  induction bb with
  | nil => rfl
  | cons b bb ih =>
    simp only [List.map_cons, listSizes, cellSize, if_neg hn, ok_bind]
    rw [ih]
    rfl

/-! ### Example

Sets of points with rational coordinates; the negligible sets are those covered by finitely many
hyperplanes. -/

open Classical in
noncomputable def planes : Geom (Set (Nat → ℚ)) (Nat → ℚ) where
  den a := a
  null A := ∃ l : List (Nat × ℚ), ∀ x ∈ A, ∃ p ∈ l, x p.1 = p.2
  inter a b := a ∩ b
  diff a b := a \ b
  fulldim a := ¬ ∃ l : List (Nat × ℚ), ∀ x ∈ a, ∃ p ∈ l, x p.1 = p.2

theorem planes_lawful : planes.Lawful where
  null_empty := ⟨[], by simp⟩
  null_mono := fun h ⟨l, hl⟩ => ⟨l, fun x hx => hl x (h hx)⟩
  null_union := by
    rintro A B ⟨l, hl⟩ ⟨m, hm⟩
    refine ⟨l ++ m, ?_⟩
    rintro x (hx | hx)
    · obtain ⟨p, hp, h⟩ := hl x hx
      exact ⟨p, by simp [hp], h⟩
    · obtain ⟨p, hp, h⟩ := hm x hx
      exact ⟨p, by simp [hp], h⟩
  inter_sub a b := le_refl _
  inter_null a b := ⟨[], fun x hx => absurd hx.1 hx.2⟩
  diff_sub a b := fun x hx => hx.1
  diff_null a b := ⟨[], fun x hx => absurd hx.2 hx.1.2⟩
  diff_cover a b := ⟨[], fun x hx => absurd hx.1 hx.2⟩
  thin a h := by simpa [planes] using h

def rectangle (b : List (ℚ × ℚ)) : Set (Nat → ℚ) :=
  {x | ∀ (j : Nat) (p : ℚ × ℚ), b[j]? = some p → p.1 ≤ x j ∧ x j ≤ p.2}

/-- The hypotheses of `addGrid_spec` are met by the partition of a square with one proposition that
`prop2part` computes, with a grid of cells of size `3`. -/
example : ∃ ppp new pieces n,
    prop2part planes (fun _ _ => true) (rectangle [(0, 7), (0, 7)])
      [("p", rectangle [(0, 2), (0, 9)])] = .ok ppp ∧
    addGrid planes (fun _ _ => true) rectangle planes.fulldim n (1 / 100) [(0, 7), (0, 7)]
      (some (.float 3)) none ppp = .ok (some (new, pieces)) ∧
    Preserving planes (rectangle [(0, 7), (0, 7)]) [("p", rectangle [(0, 2), (0, 9)])] new.regions := by
  obtain ⟨ppp, h1, h2, h3, h4⟩ := prop2part_spec planes_lawful (le := fun _ _ => true) (by simp)
    (rectangle [(0, 7), (0, 7)]) (props := [("p", rectangle [(0, 2), (0, 9)])])
    (by unfold Dict.Wf; simp [Dict.keys])
  obtain ⟨new, pieces, ⟨n, h5⟩, _, _, _, h6, _⟩ := addGrid_spec planes_lawful (le := fun _ _ => true)
    (by simp) (coord := fun x j => x j) (box := rectangle) (fun b => rfl)
    (fun j c => ⟨[(j, c)], fun x hx => ⟨(j, c), by simp, hx⟩⟩) (big := planes.fulldim)
    planes_lawful.thin (tol := 1 / 100) (bb := [(0, 7), (0, 7)]) (by simp)
    (size := some (.float 3)) (num := none) (sizes := [3, 3]) rfl (by simp) (ppp := ppp)
    (by rw [h2, h3]; exact h4.toPreserving) (by rw [h2]; exact fun x hx => hx)
  rw [h2, h3] at h6
  exact ⟨ppp, new, pieces, n, h1, h5 n le_rfl, h6⟩

end Abs

end Tulip
