import Verif.Gridworld.Random
import Verif.Gridworld.ReachProps
import Verif.Gridworld.WorldProps
import Mathlib.Tactic.Linarith
import Mathlib.Data.List.Perm.Subperm

/-!
# Random grid worlds have the cells that were asked for (C107)
-/

namespace Tulip

namespace Gw

/-! ### Specification -/

/-- `randint` returns a number in its range. -/
def DrawOk (draw : Nat → Nat → Nat) : Prop := ∀ t n, 0 < n → draw t n < n

/-- The number of occupied cells of an array. -/
def wallCount (A : Arr) : Nat := ((indices A.rows A.cols).filter fun k => A.cell k.1 k.2 == 1).length

/-- `n` is the integer nearest to `q`, the even one if there are two. -/
def IsRound (q : Rat) (n : Int) : Prop :=
  |q - n| ≤ 1 / 2 ∧ (|q - n| = 1 / 2 → n % 2 = 0)

/-- Any two of some cells are connected by free cells. -/
def Connected (A : Arr) (l : List (Int × Int)) : Prop := ∀ p ∈ l, ∀ q ∈ l, Reach A p q

/-! ### Flat arrays -/

theorem bind_split {α β : Type} {x : Except PyErr α} {f : α → Except PyErr β} {b : β} (h : x >>= f = .ok b) :
    ∃ a, x = .ok a ∧ f a = .ok b := by
  cases x with
  | error e => cases h
  | ok a => exact ⟨a, rfl, h⟩

theorem npRound_spec (q : Rat) : IsRound q (npRound q) := by
  have h1 : (q.floor : Rat) ≤ q := Rat.floor_le q
  have h2 : q < q.floor + 1 := by
    have := Rat.lt_floor_add_one q
    push_cast at this; exact this
  unfold IsRound npRound
  simp only
  split
  · rename_i h
    rw [abs_of_nonneg (by linarith)]
    exact ⟨by linarith, fun h' => by linarith⟩
  · rename_i h
    split
    · rename_i h'
      push_cast
      rw [abs_of_nonpos (by linarith)]
      exact ⟨by linarith, fun h' => by linarith⟩
    · rename_i h'
      have he : q - q.floor = 1 / 2 := by linarith
      split
      · rename_i h0
        rw [he]
        exact ⟨by norm_num, fun _ => h0⟩
      · rename_i h0
        push_cast
        rw [abs_of_nonpos (by linarith)]
        exact ⟨by linarith, fun _ => by omega⟩

theorem indices_flat (rows cols : Nat) : indices rows cols = (List.range (rows * cols)).map (unflat cols) := by
  unfold indices
  induction rows with
  | zero => simp
  | succ r ih =>
    rw [List.range_succ, List.flatMap_append, ih, Nat.succ_mul, List.range_add, List.map_append]
    congr 1
    simp only [List.flatMap_cons, List.flatMap_nil, List.append_nil, List.map_map]
    apply List.map_congr_left
    intro j hj
    rw [List.mem_range] at hj
    simp only [Function.comp, unflat]
    rw [Nat.mul_comm r cols, Nat.mul_add_div (by omega), Nat.mul_add_mod, Nat.div_eq_of_lt hj,
      Nat.mod_eq_of_lt hj, Nat.add_zero]

theorem cell_unflat (rows cols : Nat) (W : Nat → Int) (k : Nat) :
    (reshape rows cols W).cell (unflat cols k).1 (unflat cols k).2 = W k := by
  simp only [reshape, unflat]
  congr 1
  have h := Nat.div_add_mod k cols
  have : ((k / cols : Nat) : Int) * cols + ((k % cols : Nat) : Int) = (k : Int) := by
    rw [← Int.natCast_mul, ← Int.natCast_add]
    congr 1
    rw [Nat.mul_comm]; exact h
  rw [this]; rfl

theorem inside_unflat {rows cols k : Nat} (h : k < rows * cols) :
    0 ≤ (unflat cols k).1 ∧ (unflat cols k).1 < rows ∧ 0 ≤ (unflat cols k).2 ∧ (unflat cols k).2 < cols := by
  have hc : 0 < cols := by
    rcases Nat.eq_zero_or_pos cols with h' | h'
    · subst h'; simp at h
    · exact h'
  simp only [unflat]
  have h1 : k / cols < rows := Nat.div_lt_of_lt_mul (by rw [Nat.mul_comm]; exact h)
  have h2 := Nat.mod_lt k hc
  exact ⟨Int.natCast_nonneg _, Int.ofNat_lt.2 h1, Int.natCast_nonneg _, Int.ofNat_lt.2 h2⟩

theorem unflat_inj {cols : Nat} {k l : Nat} (h : unflat cols k = unflat cols l) : k = l := by
  simp only [unflat, Prod.mk.injEq, Int.natCast_inj] at h
  rw [← Nat.div_add_mod k cols, ← Nat.div_add_mod l cols, h.1, h.2]

/-- The number of occupied cells of the flat array. -/
def ones (n : Nat) (W : Nat → Int) : Nat := ((List.range n).filter fun k => W k == 1).length

theorem wallCount_reshape (rows cols : Nat) (W : Nat → Int) :
    wallCount (reshape rows cols W) = ones (rows * cols) W := by
  unfold wallCount ones
  have : (reshape rows cols W).rows = rows := rfl
  rw [show (reshape rows cols W).rows = rows from rfl, show (reshape rows cols W).cols = cols from rfl,
    indices_flat, List.filter_map, List.length_map]
  congr 2
  funext k
  simp only [Function.comp]
  rw [cell_unflat]

theorem ones_set {n : Nat} {W : Nat → Int} {k : Nat} (hk : k < n) (h0 : W k = 0) :
    ones n (fun i => if i = k then 1 else W i) = ones n W + 1 := by
  unfold ones
  induction n with
  | zero => omega
  | succ n ih =>
    rw [List.range_succ, List.filter_append, List.filter_append, List.length_append, List.length_append]
    by_cases h : k = n
    · subst h
      have : (List.range k).filter (fun i => (if i = k then (1 : Int) else W i) == 1)
          = (List.range k).filter (fun i => W i == 1) := by
        apply List.filter_congr
        intro i hi
        rw [List.mem_range] at hi
        rw [if_neg (by omega)]
      rw [this]
      simp [h0]
    · rw [ih (by omega)]
      have : ¬ n = k := fun h' => h h'.symm
      simp only [List.filter_cons, this, ↓reduceIte, List.filter_nil]
      omega

/-! ### Choices -/

theorem mem_avail {n : Nat} {W : Nat → Int} {taken : List Nat} {k : Nat} :
    k ∈ avail n W taken ↔ k < n ∧ W k = 0 ∧ k ∉ taken := by
  simp only [avail, List.mem_filter, List.mem_range, beq_iff_eq, Bool.not_eq_true', List.contains_eq_mem,
    decide_eq_false_iff_not, and_assoc]

theorem pick_mem {draw : Nat → Nat → Nat} {t : Nat} {l : List Nat} {k : Nat} (h : pick draw t l = .ok k) :
    k ∈ l := by
  unfold pick at h
  split at h
  · cases h
  · split at h
    · rename_i k' hk
      cases h
      exact List.mem_of_getElem? hk
    · cases h

theorem pick_ok {draw : Nat → Nat → Nat} (hd : DrawOk draw) (t : Nat) {l : List Nat} (h : l ≠ []) :
    ∃ k, pick draw t l = .ok k := by
  have hl : 0 < l.length := List.length_pos_iff.2 h
  unfold pick
  rw [if_neg (by omega)]
  have h1 := hd t l.length hl
  rw [List.getElem?_eq_getElem h1]
  exact ⟨_, rfl⟩

theorem pick_nil (draw : Nat → Nat → Nat) (t : Nat) : pick draw t [] = .error .valueError := rfl

/-- The number of cells that are available. -/
theorem length_avail {n : Nat} {W : Nat → Int} {taken : List Nat} (hW : ∀ k, W k = 0 ∨ W k = 1)
    (hn : taken.Nodup) (ht : ∀ k ∈ taken, k < n ∧ W k = 0) :
    (avail n W taken).length + taken.length + ones n W = n := by
  have h1 : ((List.range n).filter fun k => W k == 0).length + ones n W = n := by
    have h := List.length_eq_length_filter_add (l := List.range n) (fun k => W k == 0)
    rw [List.length_range] at h
    have he : (List.range n).filter (fun k => !(W k == 0)) = (List.range n).filter (fun k => W k == 1) := by
      apply List.filter_congr
      intro k _
      rcases hW k with h' | h' <;> rw [h'] <;> rfl
    rw [he] at h
    unfold ones
    omega
  have h2 : (avail n W taken).length + taken.length
      = ((List.range n).filter fun k => W k == 0).length := by
    have h := List.length_eq_length_filter_add (l := (List.range n).filter fun k => W k == 0)
      (fun k => !taken.contains k)
    have he : (((List.range n).filter fun k => W k == 0).filter fun k => !(!taken.contains k)).length
        = taken.length := by
      apply List.Perm.length_eq
      rw [List.perm_ext_iff_of_nodup ((List.nodup_range.filter _).filter _) hn]
      intro k
      simp only [Bool.not_not, List.mem_filter, List.mem_range, beq_iff_eq, List.contains_iff_mem]
      constructor
      · exact fun h => h.2
      · exact fun h => ⟨ht k h, h⟩
    rw [he] at h
    unfold avail
    omega
  omega

/-- What the lists of chosen cells satisfy. -/
structure Chosen (n : Nat) (others l : List Nat) : Prop where
  nodup : (others ++ l).Nodup
  lt : ∀ k ∈ l, k < n

theorem pickMany_spec {draw : Nat → Nat → Nat} {n : Nat} {others : List Nat} (m t : Nat) {acc l : List Nat}
    (hc : Chosen n others acc) (h : pickMany draw n (fun _ => 0) others m t acc = .ok l) :
    Chosen n others l ∧ l.length = acc.length + m := by
  induction m generalizing t acc with
  | zero => cases h; exact ⟨hc, rfl⟩
  | succ m ih =>
    unfold pickMany at h
    obtain ⟨k, hk, h⟩ := bind_split h
    have hm := mem_avail.1 (pick_mem hk)
    have hc' : Chosen n others (acc ++ [k]) := by
      constructor
      · rw [← List.append_assoc]
        rw [List.nodup_append]
        refine ⟨hc.nodup, by simp, ?_⟩
        intro a ha b hb
        rw [List.mem_singleton] at hb
        rintro rfl
        subst hb
        exact hm.2.2 ha
      · intro i hi
        rw [List.mem_append, List.mem_singleton] at hi
        rcases hi with hi | rfl
        · exact hc.lt i hi
        · exact hm.1
    obtain ⟨h1, h2⟩ := ih (t + 1) hc' h
    refine ⟨h1, ?_⟩
    rw [h2, List.length_append, List.length_singleton]; omega

theorem pickMany_total {draw : Nat → Nat → Nat} (hd : DrawOk draw) {n : Nat} {others : List Nat}
    (ho : ∀ k ∈ others, k < n) (m t : Nat)
    {acc : List Nat} (hc : Chosen n others acc) :
    (others.length + acc.length + m ≤ n → ∃ l, pickMany draw n (fun _ => 0) others m t acc = .ok l) ∧
    (n < others.length + acc.length + m → others.length + acc.length ≤ n →
      pickMany draw n (fun _ => 0) others m t acc = .error .valueError) := by
  induction m generalizing t acc with
  | zero => exact ⟨fun _ => ⟨acc, rfl⟩, fun h h' => by omega⟩
  | succ m ih =>
    have hl : (avail n (fun _ => 0) (others ++ acc)).length + (others ++ acc).length = n := by
      have := length_avail (n := n) (W := fun _ => 0) (taken := others ++ acc) (fun _ => Or.inl rfl) hc.nodup
        (by
          intro k hk
          rw [List.mem_append] at hk
          exact ⟨hk.elim (ho k) (hc.lt k), rfl⟩)
      have h0 : ones n (fun _ => 0) = 0 := by simp [ones]
      omega
    rw [List.length_append] at hl
    by_cases hz : avail n (fun _ => 0) (others ++ acc) = []
    · rw [hz, List.length_nil] at hl
      refine ⟨fun h => by omega, fun _ _ => ?_⟩
      unfold pickMany
      rw [hz]
      rfl
    · obtain ⟨k, hk⟩ := pick_ok hd t hz
      have hm := mem_avail.1 (pick_mem hk)
      have hp : 0 < (avail n (fun _ => 0) (others ++ acc)).length := List.length_pos_iff.2 hz
      have hc' : Chosen n others (acc ++ [k]) := by
        constructor
        · rw [← List.append_assoc, List.nodup_append]
          refine ⟨hc.nodup, by simp, ?_⟩
          intro a ha b hb
          rw [List.mem_singleton] at hb
          rintro rfl
          subst hb
          exact hm.2.2 ha
        · intro i hi
          rw [List.mem_append, List.mem_singleton] at hi
          rcases hi with hi | rfl
          · exact hc.lt i hi
          · exact hm.1
      have he : pickMany draw n (fun _ => 0) others (m + 1) t acc
          = pickMany draw n (fun _ => 0) others m (t + 1) (acc ++ [k]) := by
        conv => lhs; unfold pickMany
        rw [hk]; rfl
      have := ih (t + 1) hc'
      rw [he]
      rw [List.length_append, List.length_singleton] at this
      exact ⟨fun h => this.1 (by omega), fun h h' => this.2 (by omega) (by omega)⟩

/-! ### Feasibility -/

theorem denotes_in_shape {A : Arr} {a : Int × Int} (h : 0 ≤ a.1 ∧ a.1 < A.rows ∧ 0 ≤ a.2 ∧ a.2 < A.cols) :
    Denotes A a a := by
  obtain ⟨h1, h2, h3, h4⟩ := h
  exact ⟨h1, h2, h3, h4, Or.inl rfl, Or.inl rfl⟩

/-- The test of the chain: any two consecutive points are connected. -/
theorem chainOk_spec {w : World} {A : Arr} (hw : w.W = some A) {pts : List (Int × Int)}
    (hp : ∀ p ∈ pts, Denotes A p p) (l : List Nat) (hl : ∀ i ∈ l, i < pts.length) :
    ∃ r, chainOk w (A.rows * A.cols + 1) pts l = .ok (some r) ∧
      (r = true ↔ ∀ i ∈ l, Reach A (pts.getD i (0, 0)) (pts.getD ((i + 1) % pts.length) (0, 0))) := by
  induction l with
  | nil => exact ⟨true, rfl, by simp⟩
  | cons i l ih =>
    obtain ⟨r, hr, hr'⟩ := ih fun j hj => hl j (by simp [hj])
    have hi := hl i (by simp)
    have hmem : ∀ j, j < pts.length → pts.getD j (0, 0) ∈ pts := by
      intro j hj
      rw [List.getD_eq_getElem?_getD, List.getElem?_eq_getElem hj]
      exact List.getElem_mem hj
    have h1 := hp _ (hmem i hi)
    have h2 := hp _ (hmem ((i + 1) % pts.length) (Nat.mod_lt _ (by omega)))
    obtain ⟨⟨r', hr1⟩, hr2⟩ := isReachable_spec hw h1 h2
    have hr3 := hr2 _ _ hr1
    unfold chainOk
    rw [hr1, ok_bind]
    cases r' with
    | false =>
      refine ⟨false, rfl, ?_⟩
      simp only [Bool.false_eq_true, false_iff] at hr3 ⊢
      intro h
      exact hr3 (h i (by simp))
    | true =>
      refine ⟨r, hr, ?_⟩
      rw [hr']
      simp only [List.mem_cons, forall_eq_or_imp]
      exact ⟨fun h => ⟨hr3.1 rfl, h⟩, fun h => h.2⟩

/-- A closed chain connects all its points. -/
theorem chain_connected {A : Arr} {pts : List (Int × Int)}
    (h : ∀ i < pts.length, Reach A (pts.getD i (0, 0)) (pts.getD ((i + 1) % pts.length) (0, 0))) :
    Connected A pts := by
  have hg : ∀ p ∈ pts, ∃ i < pts.length, pts.getD i (0, 0) = p := by
    intro p hp
    obtain ⟨i, hi, he⟩ := List.mem_iff_getElem.1 hp
    exact ⟨i, hi, by rw [List.getD_eq_getElem?_getD, List.getElem?_eq_getElem hi]; exact he⟩
  have h0 : ∀ i, i < pts.length → Reach A (pts.getD 0 (0, 0)) (pts.getD i (0, 0)) := by
    intro i
    induction i with
    | zero => exact fun hi => Reach.refl (h 0 hi).free_left
    | succ i ih =>
      intro hi
      have := h i (by omega)
      rw [Nat.mod_eq_of_lt hi] at this
      exact (ih (by omega)).trans this
  intro p hp q hq
  obtain ⟨i, hi, rfl⟩ := hg p hp
  obtain ⟨j, hj, rfl⟩ := hg q hq
  exact (h0 i hi).symm.trans (h0 j hj)

theorem feasibleNow_spec (a : RandomArgs) {inits goals : List Nat} (hi : ∀ k ∈ inits, k < a.rows * a.cols)
    (hg : ∀ k ∈ goals, k < a.rows * a.cols) (W : Nat → Int) :
    ∃ r, feasibleNow a inits goals W = .ok (some r) ∧
      (r = true ↔ Connected (reshape a.rows a.cols W) ((inits ++ goals).map (unflat a.cols))) := by
  have hp : ∀ p ∈ (inits ++ goals).map (unflat a.cols), Denotes (reshape a.rows a.cols W) p p := by
    intro p hp
    obtain ⟨k, hk, rfl⟩ := List.mem_map.1 hp
    rw [List.mem_append] at hk
    exact denotes_in_shape (inside_unflat (hk.elim (hi k) (hg k)))
  obtain ⟨r, hr, hr'⟩ := chainOk_spec
    (w := ⟨some (reshape a.rows a.cols W), [], [], a.pre, (0, 0)⟩) rfl hp
    (List.range ((inits ++ goals).map (unflat a.cols)).length) (fun i hi => List.mem_range.1 hi)
  refine ⟨r, hr, ?_⟩
  rw [hr']
  constructor
  · intro h
    exact chain_connected fun i hi => h i (List.mem_range.2 hi)
  · intro h i hi
    rw [List.mem_range] at hi
    have hmem : ∀ j, j < ((inits ++ goals).map (unflat a.cols)).length →
        ((inits ++ goals).map (unflat a.cols)).getD j (0, 0) ∈ (inits ++ goals).map (unflat a.cols) := by
      intro j hj
      rw [List.getD_eq_getElem?_getD, List.getElem?_eq_getElem hj]
      exact List.getElem_mem hj
    exact h _ (hmem i hi) _ (hmem _ (Nat.mod_lt _ (by omega)))

/-- A cell in a free column is connected to the first cell of a free row. -/
theorem reach_corner_of {A : Arr} {r : Int} (hr : 0 ≤ r ∧ r < A.rows)
    (hrow : ∀ x : Int, 0 ≤ x → x < A.cols → Free A (r, x)) {y x : Int} (hy : 0 ≤ y ∧ y < A.rows)
    (hx : 0 ≤ x ∧ x < A.cols) (hcol : ∀ y : Int, 0 ≤ y → y < A.rows → Free A (y, x)) :
    Reach A (y, x) (r, 0) := by
  have h1 : Reach A (y, x) (0, x) := by
    have := reach_down (B := A) 0 x y.toNat (fun k hk => by
      rw [Int.zero_add]; exact hcol k (by omega) (by omega))
    rw [Int.zero_add, Int.toNat_of_nonneg hy.1] at this
    exact this.symm
  have h2 : Reach A (0, x) (r, x) := by
    have := reach_down (B := A) 0 x r.toNat (fun k hk => by
      rw [Int.zero_add]; exact hcol k (by omega) (by omega))
    rwa [Int.zero_add, Int.toNat_of_nonneg hr.1] at this
  have h3 : Reach A (r, 0) (r, x) := by
    have := reach_right (B := A) r 0 x.toNat (fun k hk => by
      rw [Int.zero_add]; exact hrow k (by omega) (by omega))
    rwa [Int.zero_add, Int.toNat_of_nonneg hx.1] at this
  exact (h1.trans h2).trans h3.symm

theorem connected_empty (a : RandomArgs) {l : List Nat} (hl : ∀ k ∈ l, k < a.rows * a.cols) :
    Connected (reshape a.rows a.cols fun _ => 0) (l.map (unflat a.cols)) := by
  have hall : ∀ y x : Int, 0 ≤ y → y < a.rows → 0 ≤ x → x < a.cols →
      Free (reshape a.rows a.cols fun _ => 0) (y, x) := fun y x h1 h2 h3 h4 => ⟨h1, h2, h3, h4, rfl⟩
  have hc : ∀ p ∈ l.map (unflat a.cols), Reach (reshape a.rows a.cols fun _ => 0) p (0, 0) := by
    intro p hp
    obtain ⟨k, hk, rfl⟩ := List.mem_map.1 hp
    obtain ⟨h1, h2, h3, h4⟩ := inside_unflat (hl k hk)
    exact reach_corner_of (r := 0) ⟨Int.le_refl _, by simp only [reshape]; omega⟩
      (fun x hx hx' => hall 0 x (Int.le_refl _) (by omega) hx hx') ⟨h1, h2⟩ ⟨h3, h4⟩
      (fun y hy hy' => hall y _ hy hy' h3 h4)
  intro p hp q hq
  exact (hc p hp).trans (hc q hq).symm

/-! ### Walls -/

/-- What the loop that adds walls keeps. -/
structure WallInv (a : RandomArgs) (goals inits trolls : List Nat) (W : Nat → Int) (b : Nat) : Prop where
  coded : ∀ k, W k = 0 ∨ W k = 1
  marks : ∀ k ∈ goals ++ inits ++ trolls, W k = 0
  count : ones (a.rows * a.cols) W = b
  conn : a.feasible = true → Connected (reshape a.rows a.cols W) ((inits ++ goals).map (unflat a.cols))

theorem wallLoop_spec {a : RandomArgs} {blocks : Int} {goals inits trolls : List Nat}
    (hi : ∀ k ∈ inits, k < a.rows * a.cols) (hg : ∀ k ∈ goals, k < a.rows * a.cols) (fuel t : Nat) {W W' : Nat → Int}
    {b : Nat} (hinv : WallInv a goals inits trolls W b) (hb : (b : Int) ≤ max 0 blocks)
    (h : wallLoop a blocks goals inits trolls fuel t W b = .ok (.returned W')) :
    WallInv a goals inits trolls W' blocks.toNat := by
  induction fuel generalizing t W b with
  | zero =>
    unfold wallLoop at h
    split at h
    · rename_i h'
      cases h
      have : b = blocks.toNat := by omega
      rw [← this]; exact hinv
    · cases h
  | succ fuel ih =>
    unfold wallLoop at h
    split at h
    · rename_i h'
      cases h
      have : b = blocks.toNat := by omega
      rw [← this]; exact hinv
    · rename_i h'
      rw [not_not] at h'
      simp only at h
      obtain ⟨k, hk, h⟩ := bind_split h
      obtain ⟨hkn, hk0, hkm⟩ := mem_avail.1 (pick_mem hk)
      have hnext : (a.feasible = true → Connected (reshape a.rows a.cols fun i => if i = k then 1 else W i)
          ((inits ++ goals).map (unflat a.cols))) →
          WallInv a goals inits trolls (fun i => if i = k then 1 else W i) (b + 1) := by
        intro hc
        constructor
        · intro i
          by_cases hik : i = k
          · simp [hik]
          · simpa [hik] using hinv.coded i
        · intro i him
          have hik : ¬ i = k := by rintro rfl; exact hkm him
          simp only [hik, ↓reduceIte]
          exact hinv.marks i him
        · rw [ones_set hkn hk0, hinv.count]
        · exact hc
      split at h
      · rename_i hf
        exact ih (t + 1) (hnext fun h' => by simp [h'] at hf) (by omega) h
      · split at h
        · cases h
        · obtain ⟨r, hr, hr'⟩ := feasibleNow_spec a hi hg (fun i => if i = k then 1 else W i)
          rw [hr, ok_bind] at h
          cases r with
          | true => exact ih (t + 1) (hnext fun _ => hr'.1 rfl) (by omega) h
          | false =>
            have he : (fun i => if i = k then 0 else if i = k then 1 else W i) = W := by
              funext i
              by_cases hik : i = k
              · simp [hik, hk0]
              · simp [hik]
            simp only at h
            rw [he] at h
            exact ih (t + 1) hinv hb h

/-- With enough cells, the loop raises no exception. -/
theorem wallLoop_ok {a : RandomArgs} (hd : DrawOk a.draw) {blocks : Int} {goals inits trolls : List Nat}
    (hn : (goals ++ inits ++ trolls).Nodup) (hlt : ∀ k ∈ goals ++ inits ++ trolls, k < a.rows * a.cols)
    (hs : (goals ++ inits ++ trolls).length + blocks.toNat ≤ a.rows * a.cols) (fuel t : Nat) {W : Nat → Int}
    {b : Nat} (hinv : WallInv a goals inits trolls W b) :
    ∃ r, wallLoop a blocks goals inits trolls fuel t W b = .ok r ∧
      (a.feasible = false → blocks.toNat ≤ b + fuel → ∃ W', r = .returned W') := by
  have hi : ∀ k ∈ inits, k < a.rows * a.cols := fun k hk => hlt k (by simp [hk])
  have hg : ∀ k ∈ goals, k < a.rows * a.cols := fun k hk => hlt k (by simp [hk])
  induction fuel generalizing t W b with
  | zero =>
    unfold wallLoop
    split
    · exact ⟨_, rfl, fun _ _ => ⟨W, rfl⟩⟩
    · exact ⟨_, rfl, fun _ _ => by omega⟩
  | succ fuel ih =>
    unfold wallLoop
    split
    · exact ⟨_, rfl, fun _ _ => ⟨W, rfl⟩⟩
    · rename_i h'
      rw [not_not] at h'
      simp only
      have hl := length_avail hinv.coded hn (fun k hk => ⟨hlt k hk, hinv.marks k hk⟩)
      rw [hinv.count] at hl
      have hne : avail (a.rows * a.cols) W (goals ++ inits ++ trolls) ≠ [] := by
        intro h0
        rw [h0, List.length_nil] at hl
        omega
      obtain ⟨k, hk⟩ := pick_ok hd t hne
      obtain ⟨hkn, hk0, hkm⟩ := mem_avail.1 (pick_mem hk)
      rw [hk, ok_bind]
      have hnext : (a.feasible = true → Connected (reshape a.rows a.cols fun i => if i = k then 1 else W i)
          ((inits ++ goals).map (unflat a.cols))) →
          WallInv a goals inits trolls (fun i => if i = k then 1 else W i) (b + 1) := by
        intro hc
        constructor
        · intro i
          by_cases hik : i = k
          · simp [hik]
          · simpa [hik] using hinv.coded i
        · intro i him
          have hik : ¬ i = k := by rintro rfl; exact hkm him
          simp only [hik, ↓reduceIte]
          exact hinv.marks i him
        · rw [ones_set hkn hk0, hinv.count]
        · exact hc
      split
      · rename_i hf
        obtain ⟨r, h1, h2⟩ := ih (t + 1) (hnext fun h' => by simp [h'] at hf)
        exact ⟨r, h1, fun h3 h4 => h2 h3 (by omega)⟩
      · rename_i hf
        have hf' : a.feasible = true := by simpa using hf
        split
        · exact ⟨_, rfl, fun h => by rw [hf'] at h; cases h⟩
        · obtain ⟨r, hr, hr'⟩ := feasibleNow_spec a hi hg (fun i => if i = k then 1 else W i)
          rw [hr, ok_bind]
          cases r with
          | true =>
            obtain ⟨r, h1, h2⟩ := ih (t + 1) (hnext fun _ => hr'.1 rfl)
            exact ⟨r, h1, fun h => by rw [hf'] at h; cases h⟩
          | false =>
            have he : (fun i => if i = k then 0 else if i = k then 1 else W i) = W := by
              funext i
              by_cases hik : i = k
              · simp [hik, hk0]
              · simp [hik]
            simp only
            rw [he]
            obtain ⟨r, h1, h2⟩ := ih (t + 1) hinv
            exact ⟨r, h1, fun h => by rw [hf'] at h; cases h⟩

/-- Without enough cells, the loop that does not test feasibility ends with an exception. -/
theorem wallLoop_error {a : RandomArgs} (hd : DrawOk a.draw) (hf : a.feasible = false) {blocks : Int}
    {goals inits trolls : List Nat}
    (hn : (goals ++ inits ++ trolls).Nodup) (hlt : ∀ k ∈ goals ++ inits ++ trolls, k < a.rows * a.cols)
    (hs : a.rows * a.cols < (goals ++ inits ++ trolls).length + blocks.toNat) (fuel t : Nat) {W : Nat → Int}
    {b : Nat} (hinv : WallInv a goals inits trolls W b) (hfuel : blocks.toNat ≤ b + fuel) :
    wallLoop a blocks goals inits trolls fuel t W b = .error .valueError := by
  induction fuel generalizing t W b with
  | zero =>
    exfalso
    have hl := length_avail hinv.coded hn (fun k hk => ⟨hlt k hk, hinv.marks k hk⟩)
    rw [hinv.count] at hl
    omega
  | succ fuel ih =>
    have hl := length_avail hinv.coded hn (fun k hk => ⟨hlt k hk, hinv.marks k hk⟩)
    rw [hinv.count] at hl
    unfold wallLoop
    rw [if_neg (by omega)]
    simp only
    by_cases hz : avail (a.rows * a.cols) W (goals ++ inits ++ trolls) = []
    · rw [hz]; rfl
    · obtain ⟨k, hk⟩ := pick_ok hd t hz
      obtain ⟨hkn, hk0, hkm⟩ := mem_avail.1 (pick_mem hk)
      rw [hk, ok_bind]
      simp only [hf, Bool.not_false, ↓reduceIte]
      refine ih (t + 1) ?_ (by omega)
      constructor
      · intro i
        by_cases hik : i = k
        · simp [hik]
        · simpa [hik] using hinv.coded i
      · intro i him
        have hik : ¬ i = k := by rintro rfl; exact hkm him
        simp only [hik, ↓reduceIte]
        exact hinv.marks i him
      · rw [ones_set hkn hk0, hinv.count]
      · intro h; rw [hf] at h; cases h

theorem chosen_nil (n : Nat) {others : List Nat} (h : others.Nodup) : Chosen n others [] :=
  ⟨by simpa using h, by simp⟩

/-- **C107.** A world that `random_world` returns has the size, the prefix and the numbers of initial positions,
goals and trolls that were asked for; these are different free cells; the number of occupied cells is the product
of the density and the number of cells, rounded; and if feasibility is to be ensured, then any two of the initial
positions and goals are connected by free cells. -/
theorem randomWorld_spec (a : RandomArgs) (fuel : Nat) (density : Rat) (numInit numGoals numTrolls : Nat)
    {w : World} {trolls : Option (List ((Int × Int) × Int))}
    (h : randomWorld a fuel density numInit numGoals numTrolls = .ok (.returned (w, trolls))) :
    ∃ (A : Arr) (ts : List (Int × Int)) (n : Int),
      w.W = some A ∧ A.rows = a.rows ∧ A.cols = a.cols ∧ w.pre = a.pre ∧ w.offset = (0, 0) ∧
      (∀ k ∈ indices A.rows A.cols, A.cell k.1 k.2 = 0 ∨ A.cell k.1 k.2 = 1) ∧
      IsRound (density * (a.rows * a.cols : Nat)) n ∧ wallCount A = n.toNat ∧
      w.inits.length = numInit ∧ w.goals.length = numGoals ∧ ts.length = numTrolls ∧
      (w.inits ++ w.goals ++ ts).Nodup ∧ (∀ k ∈ w.inits ++ w.goals ++ ts, Free A k) ∧
      trolls = (if numTrolls = 0 then none else some (ts.map fun k => (k, 1))) ∧
      (a.feasible = true → Connected A (w.inits ++ w.goals)) := by
  unfold randomWorld at h
  obtain ⟨goals, hg, h⟩ := bind_split h
  obtain ⟨inits, hi, h⟩ := bind_split h
  obtain ⟨ts, ht, h⟩ := bind_split h
  obtain ⟨r, hr, h⟩ := bind_split h
  obtain ⟨cg, lg⟩ := pickMany_spec _ _ (chosen_nil _ List.nodup_nil) hg
  have ng : goals.Nodup := by simpa using cg.nodup
  obtain ⟨ci, li⟩ := pickMany_spec _ _ (chosen_nil _ ng) hi
  obtain ⟨ct, lt⟩ := pickMany_spec _ _ (chosen_nil _ ci.nodup) ht
  cases r with
  | pending => cases h
  | timedOut => cases h
  | returned W =>
    simp only at h
    have h := (Outcome.returned.inj (Except.ok.inj h))
    obtain ⟨rfl, rfl⟩ := Prod.mk.inj h
    have hinv := wallLoop_spec ci.lt cg.lt _ _
      (W := fun _ => 0) (b := 0) ⟨fun _ => Or.inl rfl, fun _ _ => rfl, by simp [ones],
        fun _ => connected_empty a (by
          intro k hk
          rw [List.mem_append] at hk
          exact hk.elim (ci.lt k) (cg.lt k))⟩ (by omega) hr
    have hperm : (inits ++ goals ++ ts).Perm (goals ++ inits ++ ts) :=
      List.perm_append_comm.append_right ts
    refine ⟨reshape a.rows a.cols W, ts.map (unflat a.cols), npRound (density * (a.rows * a.cols : Nat)), rfl, rfl, rfl,
      rfl, rfl, ?_, npRound_spec _, ?_, ?_, ?_, ?_, ?_, ?_, ?_, ?_⟩
    · intro k hk
      rw [show (reshape a.rows a.cols W).rows = a.rows from rfl,
        show (reshape a.rows a.cols W).cols = a.cols from rfl, indices_flat] at hk
      obtain ⟨i, _, rfl⟩ := List.mem_map.1 hk
      rw [cell_unflat]
      exact hinv.coded i
    · rw [wallCount_reshape, hinv.count]
    · simpa using li
    · simpa using lg
    · simpa using lt
    · simp only
      rw [← List.map_append, ← List.map_append]
      exact (hperm.nodup_iff.2 ct.nodup).map fun _ _ => unflat_inj
    · simp only
      rw [← List.map_append, ← List.map_append]
      intro k hk
      obtain ⟨i, hi', rfl⟩ := List.mem_map.1 hk
      have hi'' := hperm.mem_iff.1 hi'
      have hlt : i < a.rows * a.cols := by
        rw [List.mem_append, List.mem_append] at hi''
        exact hi''.elim (fun h => h.elim (cg.lt i) (ci.lt i)) (ct.lt i)
      obtain ⟨h1, h2, h3, h4⟩ := inside_unflat hlt
      refine ⟨h1, h2, h3, h4, ?_⟩
      rw [cell_unflat]
      exact hinv.marks i hi''
    · by_cases h0 : numTrolls = 0
      · rw [if_neg (by omega), if_pos h0]
      · rw [if_pos (by omega), if_neg h0, List.map_map]; rfl
    · intro hf
      simp only
      rw [← List.map_append]
      exact hinv.conn hf

/-- **C107.** If there are not enough cells for the initial positions, goals and trolls, then `random_world` raises
`ValueError`; if there are enough cells, for the walls too, then it raises no exception, and unless feasibility is
to be ensured it returns a world after as many steps as there are walls, or raises `ValueError` if there are not
enough cells for the walls. -/
theorem randomWorld_total (a : RandomArgs) (hd : DrawOk a.draw) (density : Rat) (numInit numGoals numTrolls : Nat)
    (n : Int) (hn : IsRound (density * (a.rows * a.cols : Nat)) n) :
    (a.rows * a.cols < numInit + numGoals + numTrolls →
      ∀ fuel, randomWorld a fuel density numInit numGoals numTrolls = .error .valueError) ∧
    (numInit + numGoals + numTrolls + n.toNat ≤ a.rows * a.cols →
      (∀ fuel, ∃ r, randomWorld a fuel density numInit numGoals numTrolls = .ok r) ∧
      (a.feasible = false →
        ∃ w, randomWorld a n.toNat density numInit numGoals numTrolls = .ok (.returned w))) ∧
    (a.rows * a.cols < numInit + numGoals + numTrolls + n.toNat → a.feasible = false →
      randomWorld a n.toNat density numInit numGoals numTrolls = .error .valueError) := by
  have hnr : n = npRound (density * (a.rows * a.cols : Nat)) := by
    obtain ⟨h1, h2⟩ := hn
    obtain ⟨h3, h4⟩ := npRound_spec (density * (a.rows * a.cols : Nat))
    generalize npRound (density * (a.rows * a.cols : Nat)) = m at *
    generalize density * (a.rows * a.cols : Nat) = q at *
    rw [abs_le] at h1 h3
    have hle : n ≤ m + 1 := by
      have : (n : Rat) ≤ ((m + 1 : Int) : Rat) := by push_cast; linarith
      exact_mod_cast this
    have hge : m ≤ n + 1 := by
      have : (m : Rat) ≤ ((n + 1 : Int) : Rat) := by push_cast; linarith
      exact_mod_cast this
    rcases (by omega : n = m + 1 ∨ m = n + 1 ∨ n = m) with h | h | h
    · subst h
      push_cast at h1 h2
      have e1 : q - m = 1 / 2 := by linarith
      have e2 : q - (m + 1) = -(1 / 2) := by linarith
      have := h2 (by rw [e2]; norm_num)
      have := h4 (by rw [e1]; norm_num)
      omega
    · subst h
      push_cast at h3 h4
      have e1 : q - n = 1 / 2 := by linarith
      have e2 : q - (n + 1) = -(1 / 2) := by linarith
      have := h4 (by rw [e2]; norm_num)
      have := h2 (by rw [e1]; norm_num)
      omega
    · exact h
  have h0 : WallInv a [] [] [] (fun _ => 0) 0 := ⟨fun _ => Or.inl rfl, fun _ _ => rfl, by simp [ones],
    fun _ => by intro p hp; simp at hp⟩
  -- the choices of marks
  have tg := pickMany_total hd (n := a.rows * a.cols) (others := []) (by simp) numGoals 0 (chosen_nil _ List.nodup_nil)
  have key : (a.rows * a.cols < numInit + numGoals + numTrolls ∧
        ∀ fuel, randomWorld a fuel density numInit numGoals numTrolls = .error .valueError) ∨
      (numInit + numGoals + numTrolls ≤ a.rows * a.cols ∧ ∃ goals inits trolls : List Nat,
        (goals ++ inits ++ trolls).Nodup ∧ (∀ k ∈ goals ++ inits ++ trolls, k < a.rows * a.cols) ∧
        (goals ++ inits ++ trolls).length = numInit + numGoals + numTrolls ∧
        ∀ fuel, randomWorld a fuel density numInit numGoals numTrolls = (do
          let r ← wallLoop a n goals inits trolls fuel (numGoals + numInit + numTrolls) (fun _ => 0) 0
          match r with
          | .pending => .ok .pending
          | .timedOut => .ok .timedOut
          | .returned W =>
            let w : World := ⟨some (reshape a.rows a.cols W), inits.map (unflat a.cols), goals.map (unflat a.cols),
              a.pre, (0, 0)⟩
            .ok (.returned (w, if numTrolls > 0 then some (trolls.map fun k => (unflat a.cols k, 1))
              else none)))) := by
    simp only [List.length_nil, Nat.zero_add, Nat.zero_le, forall_const] at tg
    by_cases c1 : numGoals ≤ a.rows * a.cols
    · obtain ⟨goals, hg⟩ := tg.1 c1
      obtain ⟨cg, lg⟩ := pickMany_spec _ _ (chosen_nil _ List.nodup_nil) hg
      have ng : goals.Nodup := by simpa using cg.nodup
      simp only [List.length_nil, Nat.zero_add] at lg
      have ti := pickMany_total hd cg.lt numInit numGoals (chosen_nil _ ng)
      simp only [List.length_nil, Nat.add_zero, lg] at ti
      by_cases c2 : numGoals + numInit ≤ a.rows * a.cols
      · obtain ⟨inits, hi⟩ := ti.1 c2
        obtain ⟨ci, li⟩ := pickMany_spec _ _ (chosen_nil _ ng) hi
        simp only [List.length_nil, Nat.zero_add] at li
        have hgi : ∀ k ∈ goals ++ inits, k < a.rows * a.cols := by
          intro k hk
          rw [List.mem_append] at hk
          exact hk.elim (cg.lt k) (ci.lt k)
        have tt := pickMany_total hd hgi numTrolls (numGoals + numInit) (chosen_nil _ ci.nodup)
        simp only [List.length_nil, Nat.add_zero, List.length_append, lg, li] at tt
        by_cases c3 : numGoals + numInit + numTrolls ≤ a.rows * a.cols
        · obtain ⟨trolls, ht⟩ := tt.1 c3
          obtain ⟨ct, lt⟩ := pickMany_spec _ _ (chosen_nil _ ci.nodup) ht
          simp only [List.length_nil, Nat.zero_add] at lt
          refine Or.inr ⟨by omega, goals, inits, trolls, ct.nodup, ?_, ?_, ?_⟩
          · intro k hk
            rw [List.mem_append] at hk
            exact hk.elim (hgi k) (ct.lt k)
          · rw [List.length_append, List.length_append, lg, li, lt]; omega
          · intro fuel
            unfold randomWorld
            dsimp only
            rw [hg, ok_bind, hi, ok_bind, ht, ok_bind, ← hnr]
            rfl
        · refine Or.inl ⟨by omega, fun fuel => ?_⟩
          unfold randomWorld
          dsimp only
          rw [hg, ok_bind, hi, ok_bind, tt.2 (by omega) c2]
          rfl
      · refine Or.inl ⟨by omega, fun fuel => ?_⟩
        unfold randomWorld
        dsimp only
        rw [hg, ok_bind, ti.2 (by omega) c1]
        rfl
    · refine Or.inl ⟨by omega, fun fuel => ?_⟩
      unfold randomWorld
      dsimp only
      rw [tg.2 (by omega)]
      rfl
  rcases key with ⟨c, he⟩ | ⟨c, goals, inits, trolls, hnd, hlt, hlen, he⟩
  · exact ⟨fun _ => he, fun h => by omega, fun _ _ => he _⟩
  · have hinv : WallInv a goals inits trolls (fun _ => 0) 0 := by
      refine ⟨fun _ => Or.inl rfl, fun _ _ => rfl, by simp [ones], fun _ => connected_empty a ?_⟩
      intro k hk
      apply hlt k
      rw [List.mem_append] at hk
      simp only [List.mem_append]
      exact hk.elim (fun h => Or.inl (Or.inr h)) (fun h => Or.inl (Or.inl h))
    refine ⟨fun h => by omega, fun hs => ⟨?_, ?_⟩, fun hs hf => ?_⟩
    · intro fuel
      obtain ⟨r, hr, _⟩ := wallLoop_ok hd hnd hlt (blocks := n) (by omega) fuel
        (numGoals + numInit + numTrolls) hinv
      rw [he, hr, ok_bind]
      cases r <;> exact ⟨_, rfl⟩
    · intro hf
      obtain ⟨r, hr, hr'⟩ := wallLoop_ok hd hnd hlt (blocks := n) (by omega) n.toNat
        (numGoals + numInit + numTrolls) hinv
      obtain ⟨W', rfl⟩ := hr' hf (by omega)
      rw [he, hr, ok_bind]
      exact ⟨_, rfl⟩
    · rw [he, wallLoop_error hd hf hnd hlt (by omega) _ _ hinv (by omega)]
      rfl

/-! ### A loop without end -/

/-- Three cells in a row: the goal is the last one, the initial position the first one. -/
def corridorArgs : RandomArgs where
  draw := fun t n => if t = 0 then n - 1 else 0
  late := fun _ => false
  rows := 1
  cols := 3
  pre := c!"Y"
  feasible := true

theorem corridor_draw : DrawOk corridorArgs.draw := by
  intro t n hn
  simp only [corridorArgs]
  split <;> omega

theorem corridor_loop (fuel t : Nat) :
    wallLoop corridorArgs 1 [2] [0] [] fuel t (fun _ => 0) 0 = .ok .pending := by
  induction fuel generalizing t with
  | zero => rfl
  | succ fuel ih =>
    unfold wallLoop
    have hp : pick corridorArgs.draw t (avail (corridorArgs.rows * corridorArgs.cols) (fun _ => 0) ([2] ++ [0] ++ []))
        = .ok 1 := by
      have : avail (corridorArgs.rows * corridorArgs.cols) (fun _ => 0) ([2] ++ [0] ++ []) = [1] := by decide
      rw [this]
      unfold pick corridorArgs
      simp
    have hf : feasibleNow corridorArgs [0] [2] (fun i => if i = 1 then 1 else 0) = .ok (some false) := rfl
    rw [if_neg (by decide)]
    simp only
    rw [hp, ok_bind]
    simp only [corridorArgs, Bool.not_true, Bool.false_eq_true, ↓reduceIte]
    rw [show (⟨fun t n => if t = 0 then n - 1 else 0, fun _ => false, 1, 3, c!"Y", true⟩ : RandomArgs)
      = corridorArgs from rfl, hf, ok_bind]
    simp only
    rw [show (fun i : Nat => if i = 1 then (0 : Int) else if i = 1 then 1 else 0) = fun _ => 0 by
      funext i; split <;> simp_all]
    exact ih (t + 1)

/-- **C107, restriction.** If feasibility is to be ensured, and no limit on time is given, then the call may never
end: here every choice of a wall separates the initial position from the goal. -/
theorem randomWorld_diverges_counterexample (fuel : Nat) :
    DrawOk corridorArgs.draw ∧ randomWorld corridorArgs fuel (1 / 3) 1 1 0 = .ok .pending := by
  refine ⟨corridor_draw, ?_⟩
  unfold randomWorld
  have h1 : pickMany corridorArgs.draw (corridorArgs.rows * corridorArgs.cols) (fun _ => 0) [] 1 0 [] = .ok [2] := rfl
  have h2 : pickMany corridorArgs.draw (corridorArgs.rows * corridorArgs.cols) (fun _ => 0) [2] 1 1 [] = .ok [0] := rfl
  have h3 : npRound (1 / 3 * ((corridorArgs.rows * corridorArgs.cols : Nat) : Rat)) = 1 := by decide +kernel
  dsimp only
  rw [h1, ok_bind, h2, ok_bind, h3]
  show (do
    let r ← wallLoop corridorArgs 1 [2] [0] [] fuel _ (fun _ => 0) 0
    _) = _
  rw [corridor_loop]
  rfl

/-- A world of two rows and three columns, with two walls, one initial position, one goal and one troll. The second
wall that is chosen would separate the goal from the initial position, and is rejected. -/
def smallArgs : RandomArgs where
  draw := fun t n => if t = 0 then n - 1 else if t = 4 then min 1 (n - 1) else 0
  late := fun _ => false
  rows := 2
  cols := 3
  pre := c!"Y"
  feasible := true

/-- A picture of the result. -/
def picture (r : Except PyErr (Outcome (World × Option (List ((Int × Int) × Int))))) :
    List Int × List (List (Int × Int)) :=
  match r with
  | .ok (.returned (⟨some A, ini, goal, _, _⟩, ts)) =>
    ((indices A.rows A.cols).map fun k => A.cell k.1 k.2, [ini, goal, (ts.getD []).map Prod.fst])
  | _ => ([], [])

example : picture (randomWorld smallArgs 3 (1 / 3) 1 1 1)
    = ([0, 0, 1, 1, 0, 0], [[(0, 0)], [(1, 2)], [(0, 1)]]) := by decide +kernel

example : DrawOk smallArgs.draw := by
  intro t n hn
  simp only [smallArgs]
  split
  · omega
  · split <;> omega

/-! ### Narrow passages -/

/-- `random.sample` returns a part of a list, of the length that was asked for. -/
def SampleOk (sample : List (Int × Int) → Nat → List (Int × Int)) : Prop :=
  ∀ l k, k ≤ l.length → (sample l k).length = k ∧ (sample l k).Subperm l

theorem mem_columns {rows : Nat} {xs : List Nat} {c : Int × Int} :
    c ∈ columns rows xs ↔ 0 ≤ c.1 ∧ c.1 < rows ∧ ∃ x ∈ xs, c.2 = (x : Int) := by
  simp only [columns, List.mem_flatMap, List.mem_range, List.mem_map]
  constructor
  · rintro ⟨y, hy, x, hx, rfl⟩
    exact ⟨Int.natCast_nonneg _, Int.ofNat_lt.2 hy, x, hx, rfl⟩
  · rintro ⟨h1, h2, x, hx, h3⟩
    exact ⟨c.1.toNat, by omega, x, hx, Prod.ext (by simp only; omega) h3.symm⟩

theorem length_columns (rows : Nat) (xs : List Nat) : (columns rows xs).length = xs.length * rows := by
  simp [columns, List.length_flatMap, Nat.mul_comm]

theorem nodup_columns (rows : Nat) {xs : List Nat} (h : xs.Nodup) : (columns rows xs).Nodup := by
  unfold columns
  rw [List.nodup_flatMap]
  refine ⟨fun y _ => h.map fun a b hab => by simpa using hab, ?_⟩
  refine List.nodup_range.imp ?_
  intro a b hab
  simp only [Function.onFun, List.disjoint_left, List.mem_map]
  rintro c ⟨x, _, rfl⟩ ⟨x', _, h'⟩
  rw [Prod.mk.injEq] at h'
  omega

theorem mem_drop_range {cols g x : Nat} : x ∈ (List.range cols).drop g ↔ g ≤ x ∧ x < cols := by
  rw [List.mem_drop_iff_getElem]
  constructor
  · rintro ⟨i, hi, h⟩
    rw [List.length_range] at hi
    rw [List.getElem_range] at h
    omega
  · rintro ⟨h1, h2⟩
    exact ⟨x - g, by rw [List.length_range]; omega, by rw [List.getElem_range]; omega⟩

/-- The number of columns of a zone, as the documentation describes it: the columns outside the passage are divided
in two halves, and a half is rounded down, but it has at least one column. -/
def IsZone (len : Rat) (cols z : Nat) : Prop :=
  if (1 - len) / 2 * cols < 1 then z = 1
  else (z : Rat) ≤ (1 - len) / 2 * cols ∧ (1 - len) / 2 * cols < z + 1

theorem zone_spec (len : Rat) (cols : Nat) : IsZone len cols (zone len cols) := by
  unfold IsZone zone
  generalize (1 - len) / 2 * (cols : Rat) = q
  split
  · rename_i h
    rw [max_eq_left (le_of_lt h)]
    decide +kernel
  · rename_i h
    rw [not_lt] at h
    rw [max_eq_right h]
    have h1 : (1 : Int) ≤ q.floor := Rat.le_floor_iff.2 (by exact_mod_cast h)
    have h2 : ((q.floor.toNat : Int)) = q.floor := Int.toNat_of_nonneg (by omega)
    have h3 : ((q.floor.toNat : Nat) : Rat) = (q.floor : Rat) := by
      exact_mod_cast congrArg (Int.cast : Int → Rat) h2
    rw [h3]
    refine ⟨Rat.floor_le q, ?_⟩
    have := Rat.lt_floor_add_one q
    push_cast at this; exact this

theorem zone_unique {len : Rat} {cols z z' : Nat} (h : IsZone len cols z) (h' : IsZone len cols z') : z = z' := by
  unfold IsZone at h h'
  split at h
  · rename_i hc
    rw [if_pos hc] at h'
    omega
  · rename_i hc
    rw [if_neg hc] at h'
    have h1 : z < z' + 1 := by exact_mod_cast lt_of_le_of_lt h.1 h'.2
    have h2 : z' < z + 1 := by exact_mod_cast lt_of_le_of_lt h'.1 h.2
    omega

theorem zone_pos {len : Rat} {cols z : Nat} (h : IsZone len cols z) : 1 ≤ z := by
  unfold IsZone at h
  split at h
  · omega
  · rename_i hc
    rw [not_lt] at hc
    have : 1 < z + 1 := by exact_mod_cast lt_of_le_of_lt hc h.2
    omega

theorem zone_half {len : Rat} {cols z : Nat} (hl : 0 ≤ len) (hc : 2 ≤ cols) (h : IsZone len cols z) :
    2 * z ≤ cols := by
  unfold IsZone at h
  split at h
  · omega
  · have hc' : (0 : Rat) ≤ cols := Nat.cast_nonneg _
    have : ((2 * z : Nat) : Rat) ≤ (cols : Nat) := by
      push_cast
      have h1 := h.1
      nlinarith
    exact_mod_cast this

/-- The row of the top of the passage. -/
def topOf (draw : Nat → Nat) (rows : Nat) (width : Int) (ptop : Option Int) : Int :=
  match ptop with
  | some p => p
  | none => draw ((rows : Int) - width).toNat

/-- **C107.** A call of `narrow_passage` returns a world exactly if the world has three rows and columns, each zone
has enough cells, and the row of the passage is given or the passage is narrower than the world; otherwise it
raises `ValueError`. In the world that it returns, the occupied cells are those between the zones that are not in
the rows of the passage, and the initial positions and goals are different cells of the left and right zone. -/
theorem narrowPassage_spec (draw : Nat → Nat) (sample₁ sample₂ : List (Int × Int) → Nat → List (Int × Int))
    (h₁ : SampleOk sample₁) (h₂ : SampleOk sample₂) (rows cols : Nat) (width : Int) (numInit numGoals : Nat)
    (len : Rat) (hlen : 0 ≤ len) (ptop : Option Int) (pre : List Char) (z : Nat) (hz : IsZone len cols z) :
    (¬ (3 ≤ rows ∧ 3 ≤ cols ∧ numInit ≤ z * rows ∧ numGoals ≤ z * rows ∧ (ptop = none → width < rows)) →
      narrowPassage draw sample₁ sample₂ rows cols width numInit numGoals len ptop pre = .error .valueError) ∧
    ((3 ≤ rows ∧ 3 ≤ cols ∧ numInit ≤ z * rows ∧ numGoals ≤ z * rows ∧ (ptop = none → width < rows)) →
      ∃ w A, narrowPassage draw sample₁ sample₂ rows cols width numInit numGoals len ptop pre = .ok w ∧
        w.W = some A ∧ A.rows = rows ∧ A.cols = cols ∧
        (∀ y x : Int, 0 ≤ y → y < rows → 0 ≤ x → x < cols →
          A.cell y x = if (z : Int) ≤ x ∧ x < (cols : Int) - z ∧
            ¬ (topOf draw rows width ptop ≤ y ∧ y < topOf draw rows width ptop + width) then 1 else 0) ∧
        w.inits.length = numInit ∧ w.goals.length = numGoals ∧ (w.inits ++ w.goals).Nodup ∧
        (∀ p ∈ w.inits, 0 ≤ p.1 ∧ p.1 < rows ∧ 0 ≤ p.2 ∧ p.2 < z) ∧
        (∀ p ∈ w.goals, 0 ≤ p.1 ∧ p.1 < rows ∧ (cols : Int) - z ≤ p.2 ∧ p.2 < cols)) := by
  have hz' : zone len cols = z := zone_unique (zone_spec len cols) hz
  unfold narrowPassage
  by_cases hs : rows < 3 ∨ cols < 3
  · rw [if_pos hs]
    exact ⟨fun _ => rfl, fun h => by omega⟩
  rw [if_neg hs]
  obtain ⟨Z, A, hZ, hW, hr, hc, hcell, -, -, -⟩ := unoccupied_spec rows cols pre
  have hhalf := zone_half hlen (by omega) hz
  rw [hZ, ok_bind]
  simp only [hz']
  have e1 : ((cols : Int) - z) * rows = ((cols - z) * rows : Nat) := by
    rw [Int.natCast_mul, Int.ofNat_sub (by omega)]
  have hle : z * rows ≤ (cols - z) * rows := Nat.mul_le_mul_right _ (by omega)
  by_cases hi : z * rows < numInit
  · rw [if_pos (Or.inl hi)]
    exact ⟨fun _ => rfl, fun h => by omega⟩
  by_cases hg0 : ((cols : Int) - z) * rows < numGoals
  · rw [if_pos (Or.inr hg0)]
    rw [e1] at hg0
    exact ⟨fun _ => rfl, fun h => by omega⟩
  rw [if_neg (by rw [not_or]; exact ⟨hi, hg0⟩)]
  have htop : (ptop = none → width < rows) →
      passageTop draw rows width ptop
        = .ok (topOf draw rows width ptop) := by
    intro h
    cases ptop with
    | some p => rfl
    | none =>
      have := h rfl
      simp only [topOf, passageTop]
      rw [if_neg (by omega)]
  by_cases ht : ptop = none → width < rows
  · rw [htop ht, ok_bind]
    have l1 : (columns rows (List.range z)).length = z * rows := by rw [length_columns, List.length_range]
    have l2 : (columns rows ((List.range cols).drop (cols - z))).length = z * rows := by
      rw [length_columns, List.length_drop, List.length_range]; congr 1; omega
    have s1 : sampleOf sample₁ (columns rows (List.range z)) numInit
        = .ok (sample₁ (columns rows (List.range z)) numInit) := by
      unfold sampleOf; rw [l1, if_neg (by omega)]
    rw [s1, ok_bind]
    by_cases hg : z * rows < numGoals
    · refine ⟨fun _ => ?_, fun h => by omega⟩
      unfold sampleOf
      rw [l2, if_pos hg]
      rfl
    · have s2 : sampleOf sample₂ (columns rows ((List.range cols).drop (cols - z))) numGoals
          = .ok (sample₂ (columns rows ((List.range cols).drop (cols - z))) numGoals) := by
        unfold sampleOf; rw [l2, if_neg (by omega)]
      rw [s2, ok_bind]
      refine ⟨fun h => absurd ⟨by omega, by omega, by omega, by omega, ht⟩ h, fun _ => ?_⟩
      obtain ⟨a1, a2⟩ := h₁ (columns rows (List.range z)) numInit (by omega)
      obtain ⟨b1, b2⟩ := h₂ (columns rows ((List.range cols).drop (cols - z))) numGoals (by omega)
      have m1 : ∀ p ∈ sample₁ (columns rows (List.range z)) numInit, 0 ≤ p.1 ∧ p.1 < rows ∧ 0 ≤ p.2 ∧ p.2 < z := by
        intro p hp
        obtain ⟨h1, h2, x, hx, h3⟩ := mem_columns.1 (a2.subset hp)
        rw [List.mem_range] at hx
        omega
      have m2 : ∀ p ∈ sample₂ (columns rows ((List.range cols).drop (cols - z))) numGoals,
          0 ≤ p.1 ∧ p.1 < rows ∧ (cols : Int) - z ≤ p.2 ∧ p.2 < cols := by
        intro p hp
        obtain ⟨h1, h2, x, hx, h3⟩ := mem_columns.1 (b2.subset hp)
        rw [mem_drop_range] at hx
        omega
      refine ⟨_, { A with cell := passageCell z (cols - z) (topOf draw rows width ptop) width A.cell }, rfl, ?_, hr, hc,
        ?_, a1, b1, ?_, m1, m2⟩
      · simp only [hW, Option.map_some]
      · intro y x _ _ _ _
        simp only [passageCell, hcell]
        split
        · rename_i h
          rw [if_neg (by tauto)]
        · rename_i h
          have : (((cols - z : Nat)) : Int) = (cols : Int) - z := by omega
          rw [this]
          split
          · rename_i h'
            rw [if_pos ⟨h'.1, h'.2, h⟩]
          · rename_i h'
            rw [if_neg (by tauto)]
      · simp only
        rw [List.nodup_append]
        have n1 := nodup_columns rows (List.nodup_range (n := z))
        have n2 := nodup_columns rows ((List.nodup_range (n := cols)).sublist (List.drop_sublist (cols - z) _))
        refine ⟨?_, ?_, ?_⟩
        · obtain ⟨l, p1, p2⟩ := a2
          exact p1.nodup_iff.1 (n1.sublist p2)
        · obtain ⟨l, p1, p2⟩ := b2
          exact p1.nodup_iff.1 (n2.sublist p2)
        · intro p hp q hq hpq
          subst hpq
          have := m1 p hp
          have := m2 p hq
          omega
  · refine ⟨fun _ => ?_, fun h => absurd h.2.2.2.2 ht⟩
    rw [Classical.not_imp] at ht
    rw [ht.1]
    unfold passageTop
    rw [if_pos (by omega)]
    rfl

/-- **C107.** In the world of a narrow passage, any two of the initial positions and goals are connected by free
cells, if the passage has a row of the world: the given row is one of the world, or it is chosen. -/
theorem narrowPassage_connected (draw : Nat → Nat) (hd : ∀ n, 0 < n → draw n < n)
    (sample₁ sample₂ : List (Int × Int) → Nat → List (Int × Int))
    (h₁ : SampleOk sample₁) (h₂ : SampleOk sample₂) (rows cols : Nat) (width : Int) (numInit numGoals : Nat)
    (len : Rat) (hlen : 0 ≤ len) (ptop : Option Int) (pre : List Char) (hw : 1 ≤ width)
    (hp : ∀ p, ptop = some p → 0 ≤ p ∧ p < rows) {w : World}
    (h : narrowPassage draw sample₁ sample₂ rows cols width numInit numGoals len ptop pre = .ok w) :
    ∃ A, w.W = some A ∧ Connected A (w.inits ++ w.goals) := by
  have hz := zone_spec len cols
  generalize zone len cols = z at hz
  obtain ⟨hs1, hs2⟩ := narrowPassage_spec draw sample₁ sample₂ h₁ h₂ rows cols width numInit numGoals len hlen ptop pre
    z hz
  by_cases hc : 3 ≤ rows ∧ 3 ≤ cols ∧ numInit ≤ z * rows ∧ numGoals ≤ z * rows ∧ (ptop = none → width < rows)
  · obtain ⟨w', A, he, hW, hr, hcols, hcell, -, -, -, hi, hg⟩ := hs2 hc
    rw [h] at he
    cases he
    refine ⟨A, hW, ?_⟩
    have hhalf := zone_half hlen (by omega) hz
    have htop : 0 ≤ topOf draw rows width ptop ∧ topOf draw rows width ptop < rows := by
      cases ptop with
      | some p => exact hp p rfl
      | none =>
        have h1 := hc.2.2.2.2 rfl
        have h2 := hd ((rows : Int) - width).toNat (by omega)
        simp only [topOf]
        omega
    have hrow : ∀ x : Int, 0 ≤ x → x < A.cols → Free A (topOf draw rows width ptop, x) := by
      intro x h1 h2
      refine ⟨htop.1, by simp only; omega, h1, h2, ?_⟩
      simp only
      rw [hcell _ _ htop.1 htop.2 h1 (by omega), if_neg (by omega)]
    have hcorner : ∀ p ∈ w.inits ++ w.goals, Reach A p (topOf draw rows width ptop, 0) := by
      intro p hpm
      have hin : 0 ≤ p.1 ∧ p.1 < rows ∧ 0 ≤ p.2 ∧ p.2 < cols ∧ ¬ ((z : Int) ≤ p.2 ∧ p.2 < (cols : Int) - z) := by
        rw [List.mem_append] at hpm
        rcases hpm with hpm | hpm
        · have := hi p hpm; omega
        · have := hg p hpm; omega
      refine reach_corner_of (by omega) hrow (y := p.1) (x := p.2) (by omega) (by omega) ?_
      intro y h1 h2
      refine ⟨h1, h2, hin.2.2.1, by simp only; omega, ?_⟩
      simp only
      rw [hcell _ _ h1 (by omega) hin.2.2.1 hin.2.2.2.1, if_neg (by omega)]
    intro p hpm q hqm
    exact (hcorner p hpm).trans (hcorner q hqm).symm
  · rw [hs1 hc] at h
    cases h

/-- The first elements of a list. -/
def firsts (l : List (Int × Int)) (k : Nat) : List (Int × Int) := l.take k

theorem firsts_ok : SampleOk firsts := by
  intro l k h
  exact ⟨by simp [firsts, h], (List.take_sublist k l).subperm⟩

/-- The value of a world for an example. -/
def cellsOf (r : Except PyErr World) : List Int × List (List (Int × Int)) :=
  match r with
  | .ok ⟨some A, ini, goal, _, _⟩ => ((indices A.rows A.cols).map fun k => A.cell k.1 k.2, [ini, goal])
  | _ => ([], [])

/-- A world of three rows and five columns. -/
example : cellsOf (narrowPassage (fun _ => 1) firsts firsts 3 5 1 1 2 (2 / 5) none c!"Y")
    = ([0, 1, 1, 1, 0, 0, 0, 0, 0, 0, 0, 1, 1, 1, 0], [[(0, 0)], [(0, 4), (1, 4)]]) := by decide +kernel

example : IsZone (2 / 5) 5 1 := by
  unfold IsZone
  norm_num

/-- **C107, restriction.** A row of the passage outside the world is not rejected: the zones are then separated, and
no goal can be reached. -/
theorem narrowPassage_ptop_counterexample :
    ∃ w A, narrowPassage (fun _ => 0) firsts firsts 3 3 1 1 1 (2 / 5) (some 7) c!"Y" = .ok w ∧ w.W = some A ∧
      (0, 0) ∈ w.inits ∧ (0, 2) ∈ w.goals ∧ ¬ Reach A (0, 0) (0, 2) := by
  have hz : IsZone (2 / 5) 3 1 := by unfold IsZone; norm_num
  obtain ⟨w, A, he, hW, hr, hc, hcell, -⟩ := (narrowPassage_spec (fun _ => 0) firsts firsts firsts_ok firsts_ok 3 3 1 1 1
    (2 / 5) (by norm_num) (some 7) c!"Y" 1 hz).2 ⟨by omega, by omega, by omega, by omega, by simp⟩
  have hm : cellsOf (narrowPassage (fun _ => 0) firsts firsts 3 3 1 1 1 (2 / 5) (some 7) c!"Y")
      = ([0, 1, 0, 0, 1, 0, 0, 1, 0], [[(0, 0)], [(0, 2)]]) := by decide +kernel
  rw [he] at hm
  obtain ⟨W, ini, goal, p, o⟩ := w
  cases hW
  simp only [cellsOf, Prod.mk.injEq, List.cons.injEq, and_true] at hm
  refine ⟨_, A, he, rfl, by simp [hm.2.1], by simp [hm.2.2], ?_⟩
  intro hreach
  have hfree : Free A (0, 0) := hreach.free_left
  have hmove := (path_iff hfree).2 hreach
  have hinv : ∀ b, Relation.ReflTransGen (Move A) (0, 0) b → b.2 = 0 := by
    intro b hb
    induction hb with
    | refl => rfl
    | @tail b c _ hbc ih =>
      obtain ⟨hadj, hf⟩ := hbc
      obtain ⟨f1, f2, f3, f4, f5⟩ := hf
      rw [hr] at f2
      rw [hc] at f4
      rw [hcell c.1 c.2 f1 f2 f3 f4] at f5
      have htop : topOf (fun _ => 0) 3 1 (some 7) = 7 := rfl
      simp only [Adjacent] at hadj
      have hne : ¬ (1 ≤ c.2 ∧ c.2 < 2) := fun hh => by
        rw [if_pos ⟨by push_cast; omega, by push_cast; omega, by push_cast at f2; omega⟩] at f5
        cases f5
      omega
  have := hinv _ hmove
  simp at this

/-- **C107, restriction.** A passage as wide as the world is possible only if its row is given: otherwise the choice
of its row raises `ValueError`. -/
theorem narrowPassage_width_counterexample :
    cellsOf (narrowPassage (fun _ => 0) firsts firsts 3 3 3 1 1 (2 / 5) (some 0) c!"Y")
      = ([0, 0, 0, 0, 0, 0, 0, 0, 0], [[(0, 0)], [(0, 2)]]) ∧
    narrowPassage (fun _ => 0) firsts firsts 3 3 3 1 1 (2 / 5) none c!"Y" = .error .valueError := by
  constructor
  · decide +kernel
  · exact (narrowPassage_spec (fun _ => 0) firsts firsts firsts_ok firsts_ok 3 3 3 1 1 (2 / 5) (by norm_num) none
      c!"Y" 1 (by unfold IsZone; norm_num)).1 (by simp)

end Gw

end Tulip
