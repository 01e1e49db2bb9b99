import Verif.Abstract.PlotGrid
import Mathlib.Tactic.Linarith
import Mathlib.Tactic.FieldSimp
import Mathlib.Tactic.Ring
import Mathlib.Tactic.Positivity
import Mathlib.Data.List.Nodup
import Mathlib.Algebra.Order.Field.Basic
import Mathlib.Algebra.Order.Field.Rat
import Mathlib.Algebra.BigOperators.Group.List.Basic

/-!
# C128: grids over boxes, and the layout of axes
-/

namespace Tulip
namespace Graphics

/-! ## Groups -/

theorem grouperLoop_spec {α : Type} {n : Nat} (hn : 0 < n) (fill : α) : ∀ (k : Nat) (l : List α), l.length ≤ k →
    (∀ c ∈ grouperLoop n fill k l, c.length = n) ∧
    ∃ j < n, (grouperLoop n fill k l).flatten = l ++ List.replicate j fill := by
  intro k
  induction k with
  | zero =>
    intro l hl
    have : l = [] := List.length_eq_zero_iff.1 (by omega)
    subst this
    exact ⟨by simp [grouperLoop], 0, hn, by simp [grouperLoop]⟩
  | succ k ih =>
    intro l hl
    cases l with
    | nil => exact ⟨by simp [grouperLoop], 0, hn, by simp [grouperLoop]⟩
    | cons x l =>
      rw [grouperLoop]
      obtain ⟨h1, j, h2, h3⟩ := ih ((x :: l).drop n) (by simp at hl ⊢; omega)
      refine ⟨?_, ?_⟩
      · intro c hc
        rcases List.mem_cons.1 hc with rfl | hc
        · simp; omega
        · exact h1 c hc
      · by_cases hlen : n ≤ (x :: l).length
        · refine ⟨j, h2, ?_⟩
          rw [List.flatten_cons, h3, Nat.sub_eq_zero_of_le hlen, List.replicate_zero, List.append_nil, ← List.append_assoc,
            List.take_append_drop]
        · refine ⟨n - (x :: l).length, by simp; omega, ?_⟩
          have hd : (x :: l).drop n = [] := List.drop_eq_nil_of_le (by omega)
          rw [hd] at h3 ⊢
          have : grouperLoop n fill k [] = [] := by cases k <;> rfl
          rw [this, List.take_of_length_le (by omega)]
          simp

/-- **C128**. `_grouper(n, iterable, fillvalue)` cuts the sequence into pieces of length `n`, in order, and fills the last one; fewer than `n`
fill values are used. -/
theorem grouper_spec {α : Type} {n : Nat} (hn : 0 < n) (fill : α) (l : List α) :
    (∀ c ∈ grouper n fill l, c.length = n) ∧ ∃ j < n, (grouper n fill l).flatten = l ++ List.replicate j fill := by
  unfold grouper
  rw [if_neg (by omega)]
  exact grouperLoop_spec hn fill _ l le_rfl

/-! ## Grids -/

/-- `x` is one of the `n` evenly spaced points from `a` to `b`, both included; the one point is `a` if `n = 1`. -/
def GridPoint (box : Rat × Rat) (n : Nat) (x : Rat) : Prop :=
  (n = 1 ∧ x = box.1) ∨ (2 ≤ n ∧ ∃ k < n, x = box.1 + k * ((box.2 - box.1) / (n - 1 : Rat)))

/-- The list `[xmin, xmax, ymin, ymax, ...]` of a box. -/
def flat (boxes : List (Rat × Rat)) : List Rat := boxes.flatMap fun p => [p.1, p.2]

theorem linspace_mem (a b : Rat) (n : Nat) :
    ∃ l, linspace (some a) (some b) n = .ok l ∧ l.length = n ∧ (∀ x, x ∈ l ↔ GridPoint (a, b) n x) ∧
      ((n ≤ 1 ∨ a ≠ b) → l.Nodup) := by
  unfold linspace
  rw [if_neg (by omega)]
  by_cases h1 : n = 1
  · subst h1
    exact ⟨[a], by simp, by simp, fun x => by simp [GridPoint], fun _ => by simp⟩
  · have : ¬ ((n : Int) = 1) := by omega
    simp only [this, if_false]
    refine ⟨_, rfl, by simp, fun x => ?_, fun h => ?_⟩
    · simp only [List.mem_map, List.mem_range, Int.toNat_natCast, GridPoint, h1, false_and, false_or, Int.cast_natCast]
      constructor
      · rintro ⟨k, hk, rfl⟩
        exact ⟨by omega, k, hk, rfl⟩
      · rintro ⟨-, k, hk, rfl⟩
        exact ⟨k, hk, rfl⟩
    · refine List.Nodup.map_on ?_ List.nodup_range
      intro i hi j hj hij
      simp only [List.mem_range, Int.toNat_natCast] at hi hj
      by_cases h0 : n ≤ 1
      · omega
      · have hab : b - a ≠ 0 := sub_ne_zero.2 (Ne.symm (by tauto))
        have hn : ((n : Int) : Rat) - 1 ≠ 0 := by
          have : (2 : Rat) ≤ ((n : Int) : Rat) := by exact_mod_cast (by omega : 2 ≤ n)
          linarith
        have := add_left_cancel hij
        have := mul_right_cancel₀ (div_ne_zero hab hn) this
        exact_mod_cast this

theorem grouper_flat (boxes : List (Rat × Rat)) (rest : List (Option Rat)) (k : Nat) (hk : (flat boxes).length + rest.length ≤ k) :
    ∃ k', rest.length ≤ k' ∧ grouperLoop 2 none k ((flat boxes).map some ++ rest) =
      boxes.map (fun p => [some p.1, some p.2]) ++ grouperLoop 2 none k' rest := by
  induction boxes generalizing k with
  | nil => exact ⟨k, by simpa [flat] using hk, rfl⟩
  | cons p boxes ih =>
    cases k with
    | zero => simp [flat] at hk
    | succ k =>
      obtain ⟨k', h1, h2⟩ := ih k (by simp only [flat, List.flatMap_cons, List.length_append, List.length_cons] at hk ⊢; omega)
      refine ⟨k', h1, ?_⟩
      show grouperLoop 2 none (k + 1) (some p.1 :: some p.2 :: ((flat boxes).map some ++ rest)) = _
      rw [grouperLoop]
      simp only [List.take_succ_cons, List.take_zero, List.length_cons, List.drop_succ_cons, List.drop_zero, h2]
      have : 2 - (((flat boxes).map some ++ rest).length + 1 + 1) = 0 := by omega
      rw [this]
      rfl

theorem axisGrids_ok : ∀ (boxes : List (Rat × Rat)) (ns : List Nat) (ds : List (List (Option Rat))),
    boxes.length = ns.length → ∃ axes, axisGrids (boxes.map (fun p => [some p.1, some p.2]) ++ ds) (ns.map (↑)) = .ok axes ∧
      axes.map List.length = ns ∧
      List.Forall₂ (fun (b : (Rat × Rat) × Nat) l => ∀ x, x ∈ l ↔ GridPoint b.1 b.2 x) (boxes.zip ns) axes ∧
      ((∀ b ∈ boxes.zip ns, b.2 ≤ 1 ∨ b.1.1 ≠ b.1.2) → ∀ l ∈ axes, l.Nodup) := by
  intro boxes
  induction boxes with
  | nil =>
    intro ns ds h
    have : ns = [] := List.length_eq_zero_iff.1 (by simpa using h.symm)
    subst this
    refine ⟨[], ?_, rfl, .nil, by simp⟩
    cases ds with
    | nil => rfl
    | cons d ds => unfold axisGrids; split <;> simp_all
  | cons p boxes ih =>
    intro ns ds h
    cases ns with
    | nil => simp at h
    | cons n ns =>
      obtain ⟨l, h1, h2, h3, h4⟩ := linspace_mem p.1 p.2 n
      obtain ⟨axes, h5, h6, h7, h8⟩ := ih ns ds (by simpa using h)
      refine ⟨l :: axes, ?_, by simp [h2, h6], .cons h3 h7, ?_⟩
      · simp only [List.map_cons, List.cons_append, axisGrids, h1, h5, ok_bind]
      · intro hb m hm
        rcases List.mem_cons.1 hm with rfl | hm
        · exact h4 (hb (p, n) (by simp))
        · exact h8 (fun b hbm => hb b (by simp [hbm])) m hm

theorem mem_points (axes : List (List Rat)) (c : List Rat) :
    c ∈ points axes ↔ List.Forall₂ (fun l x => x ∈ l) axes c := by
  induction axes generalizing c with
  | nil => simp [points]
  | cons l axes ih =>
    simp only [points, List.mem_flatMap, List.mem_map, ih]
    constructor
    · rintro ⟨a, ha, p, hp, rfl⟩
      exact .cons ha hp
    · intro h
      cases h with
      | cons ha hp => exact ⟨_, ha, _, hp, rfl⟩

theorem length_points (axes : List (List Rat)) : (points axes).length = (axes.map List.length).prod := by
  induction axes with
  | nil => rfl
  | cons l axes ih => simp [points, List.length_flatMap, ih]

theorem nodup_points {axes : List (List Rat)} (h : ∀ l ∈ axes, l.Nodup) : (points axes).Nodup := by
  induction axes with
  | nil => simp [points]
  | cons l axes ih =>
    rw [points, List.nodup_flatMap]
    refine ⟨fun a _ => (List.nodup_map_iff fun x y hxy => (List.cons.inj hxy).2).2 (ih fun m hm => h m (by simp [hm])), ?_⟩
    refine (h l (by simp)).imp fun {a b} hab => ?_
    intro c hc hd
    simp only [List.mem_map] at hc hd
    obtain ⟨p, -, rfl⟩ := hc
    obtain ⟨q, -, hq⟩ := hd
    exact hab (List.cons.inj hq).1.symm

theorem columns_perm {axes : List (List Rat)} (h : axes ≠ []) :
    ∃ cols, columns axes = .ok cols ∧ (∀ c, c ∈ cols ↔ c ∈ points axes) ∧ cols.length = (points axes).length ∧
      ((∀ l ∈ axes, l.Nodup) → cols.Nodup) := by
  match axes, h with
  | [x], _ =>
    refine ⟨_, rfl, fun c => by simp [points, eq_comm], by simp [points, List.length_flatMap], fun hn => ?_⟩
    exact (List.nodup_map_iff fun a b h => (List.cons.inj h).1).2 (hn x (by simp))
  | x :: y :: zs, _ =>
    refine ⟨_, rfl, fun c => ?_, ?_, fun hn => ?_⟩
    · simp only [points, List.mem_flatMap, List.mem_map]
      constructor
      · rintro ⟨b, hb, a, ha, p, hp, rfl⟩
        exact ⟨a, ha, b :: p, ⟨b, hb, p, hp, rfl⟩, rfl⟩
      · rintro ⟨a, ha, _, ⟨b, hb, p, hp, rfl⟩, rfl⟩
        exact ⟨b, hb, a, ha, p, hp, rfl⟩
    · simp [points, List.length_flatMap]
      ring
    · rw [List.nodup_flatMap]
      refine ⟨fun b _ => ?_, ?_⟩
      · rw [List.nodup_flatMap]
        refine ⟨fun a _ => (List.nodup_map_iff fun p q hpq => by simpa using hpq).2 (nodup_points fun m hm => hn m (by simp [hm])), ?_⟩
        refine (hn x (by simp)).imp fun {a a'} haa => ?_
        intro c hc hd
        simp only [List.mem_map] at hc hd
        obtain ⟨p, -, rfl⟩ := hc
        obtain ⟨q, -, hq⟩ := hd
        exact haa (List.cons.inj hq).1.symm
      · refine (hn y (by simp)).imp fun {b b'} hbb => ?_
        intro c hc hd
        simp only [List.mem_flatMap, List.mem_map] at hc hd
        obtain ⟨a, -, p, -, rfl⟩ := hc
        obtain ⟨a', -, q, -, hq⟩ := hd
        exact hbb (List.cons.inj (List.cons.inj hq).2).1.symm

/-- **C128**. The columns of `dom2vec(domain, resolution)` are exactly the points of the grid over the box: those whose `i`-th coordinate is one
of the evenly spaced points in the `i`-th interval. There are as many columns as the product of the resolutions, each
point occurs once if no interval with several points is a single number, and further intervals of the domain for which
there is no resolution are ignored. -/
theorem dom2vec_spec (boxes : List (Rat × Rat)) (more : List Rat) (ns : List Nat) (hlen : boxes.length = ns.length)
    (hne : boxes ≠ []) :
    ∃ cols, dom2vec (flat boxes ++ more) (ns.map (↑)) = .ok cols ∧
      (∀ c, c ∈ cols ↔ List.Forall₂ (fun (b : (Rat × Rat) × Nat) x => GridPoint b.1 b.2 x) (boxes.zip ns) c) ∧
      cols.length = ns.prod ∧
      ((∀ b ∈ boxes.zip ns, b.2 ≤ 1 ∨ b.1.1 ≠ b.1.2) → cols.Nodup) := by
  unfold dom2vec grouper
  rw [if_neg (by omega), List.map_append]
  obtain ⟨k', -, hk⟩ := grouper_flat boxes (more.map some) ((flat boxes).map some ++ more.map some).length (by simp)
  rw [hk]
  obtain ⟨axes, h1, h2, h3, h4⟩ := axisGrids_ok boxes ns (grouperLoop 2 none k' (more.map some)) hlen
  have hax : axes ≠ [] := by
    rintro rfl
    have := h3.length_eq
    simp [hlen] at this
    exact hne (List.length_eq_zero_iff.1 (by simp [hlen, this]))
  obtain ⟨cols, h5, h6, h7, h8⟩ := columns_perm hax
  refine ⟨cols, by rw [h1, ok_bind, h5], fun c => ?_, by rw [h7, length_points, h2], fun h => h8 (h4 h)⟩
  rw [h6, mem_points]
  clear h1 h2 h4 h5 h6 h7 h8 hax hk hlen hne
  generalize boxes.zip ns = z at h3 ⊢
  induction h3 generalizing c with
  | nil => simp
  | cons hx _ ih =>
    cases c with
    | nil => simp
    | cons a c => simp [hx, ih]

/-- **C128**. The points lie in the box, and the corners are among them. -/
theorem gridPoint_box {a b x : Rat} {n : Nat} (h : GridPoint (a, b) n x) :
    min a b ≤ x ∧ x ≤ max a b := by
  rcases h with ⟨-, rfl⟩ | ⟨hn, k, hk, rfl⟩
  · exact ⟨min_le_left _ _, le_max_left _ _⟩
  · have h1 : (0 : Rat) < (n : Rat) - 1 := by
      have : (2 : Rat) ≤ n := by exact_mod_cast hn
      linarith
    have h2 : (k : Rat) ≤ (n : Rat) - 1 := by
      have : (k : Rat) + 1 ≤ n := by exact_mod_cast hk
      linarith
    have h3 : (0 : Rat) ≤ k := by positivity
    set t : Rat := k / ((n : Rat) - 1) with ht
    have t0 : 0 ≤ t := div_nonneg h3 h1.le
    have t1 : t ≤ 1 := (div_le_one h1).2 h2
    have e : (k : Rat) * ((b - a) / ((n : Rat) - 1)) = t * (b - a) := by rw [ht]; ring
    simp only [e]
    constructor
    · rcases le_total a b with hab | hab
      · rw [min_eq_left hab]; nlinarith
      · rw [min_eq_right hab]; nlinarith
    · rcases le_total a b with hab | hab
      · rw [max_eq_right hab]; nlinarith
      · rw [max_eq_left hab]; nlinarith

theorem gridPoint_ends (a b : Rat) {n : Nat} (hn : 2 ≤ n) : GridPoint (a, b) n a ∧ GridPoint (a, b) n b := by
  refine ⟨.inr ⟨hn, 0, by omega, by simp⟩, .inr ⟨hn, n - 1, by omega, ?_⟩⟩
  have h1 : ((n - 1 : Nat) : Rat) = (n : Rat) - 1 := by
    rw [Nat.cast_sub (by omega)]; simp
  have h2 : (n : Rat) - 1 ≠ 0 := by
    have : (2 : Rat) ≤ n := by exact_mod_cast hn
    linarith
  rw [h1]
  field_simp
  ring

/-- **C128**. A last number of the domain without partner is a `TypeError`, if there is a resolution for it, and a negative number of points is a
`ValueError`. -/
theorem dom2vec_raises (boxes : List (Rat × Rat)) (ns : List Nat) (hlen : boxes.length = ns.length) (more : List Int)
    (rest : List Rat) :
    (∀ (a : Rat) (n : Nat), dom2vec (flat boxes ++ [a]) (ns.map (↑) ++ (n : Int) :: more) = .error .typeError) ∧
    (∀ (a b : Rat) (n : Int), n < 0 → dom2vec (flat boxes ++ a :: b :: rest) (ns.map (↑) ++ n :: more) = .error .valueError) := by
  have key : ∀ (boxes : List (Rat × Rat)) (ns : List Nat), boxes.length = ns.length →
      ∀ (d : List (Option Rat)) (ds : List (List (Option Rat))) (ms : List Int) (e : PyErr),
      axisGrids (d :: ds) ms = .error e →
      axisGrids (boxes.map (fun p => [some p.1, some p.2]) ++ d :: ds) (ns.map (↑) ++ ms) = .error e := by
    intro boxes
    induction boxes with
    | nil =>
      intro ns h d ds ms e he
      have : ns = [] := List.length_eq_zero_iff.1 (by simpa using h.symm)
      subst this
      exact he
    | cons p boxes ih =>
      intro ns h d ds ms e he
      cases ns with
      | nil => simp at h
      | cons n ns =>
        obtain ⟨l, h1, -⟩ := linspace_mem p.1 p.2 n
        simp only [List.map_cons, List.cons_append, axisGrids, h1, ok_bind, ih ns (by simpa using h) d ds ms e he]
        rfl
  constructor
  · intro a n
    unfold dom2vec grouper
    rw [if_neg (by omega), List.map_append]
    obtain ⟨k', hk', hk⟩ := grouper_flat boxes ([a].map some) ((flat boxes).map some ++ [a].map some).length (by simp)
    rw [hk]
    cases k' with
    | zero => simp at hk'
    | succ k' =>
      have : grouperLoop 2 none (k' + 1) ([a].map some) = [[some a, none]] := by cases k' <;> rfl
      rw [this, key boxes ns hlen _ _ _ .typeError]
      · rfl
      · have : ¬ ((n : Int) < 0) := by omega
        simp [axisGrids, linspace, this, error_bind]
  · intro a b n hn
    unfold dom2vec grouper
    rw [if_neg (by omega), List.map_append]
    obtain ⟨k', hk', hk⟩ := grouper_flat boxes ((a :: b :: rest).map some) ((flat boxes).map some ++ (a :: b :: rest).map some).length
      (by simp)
    rw [hk]
    cases k' with
    | zero => simp at hk'
    | succ k' =>
      rw [List.map_cons, List.map_cons, grouperLoop]
      simp only [List.take_succ_cons, List.take_zero, List.length_cons, List.drop_succ_cons, List.drop_zero]
      have : 2 - ((rest.map some).length + 1 + 1) = 0 := by omega
      rw [this]
      simp only [List.replicate_zero, List.append_nil]
      rw [key boxes ns hlen _ _ _ .valueError]
      · rfl
      · simp [axisGrids, linspace, hn, error_bind]

/-- **C128**. A grid needs an interval and a resolution: else `ValueError`. -/
theorem dom2vec_empty (domain : List Rat) (ns : List Int) :
    dom2vec [] ns = .error .valueError ∧ dom2vec domain [] = .error .valueError := by
  constructor
  · cases ns <;> rfl
  · unfold dom2vec
    have : axisGrids (grouper 2 none (domain.map some)) [] = .ok [] := by
      unfold axisGrids
      split <;> simp_all
    rw [this]
    rfl

example : dom2vec [0, 1, 0, 2] [2, 3] = .ok [[0, 0], [1, 0], [0, 1], [1, 1], [0, 2], [1, 2]] := by
  simp [dom2vec, grouper, grouperLoop, axisGrids, linspace, columns, points, List.range_succ, ok_bind]
  norm_num

/-! ## Axes -/

theorem addAxes_ok {places : Nat} : ∀ (ds : List Nat) (i : Nat),
    ((∀ d ∈ ds, d = 2) ∧ (ds = [] ∨ i + ds.length ≤ places) →
      addAxes places i ds = .ok ((List.range ds.length).map (i + 1 + ·))) ∧
    (¬ ((∀ d ∈ ds, d = 2) ∧ (ds = [] ∨ i + ds.length ≤ places)) → addAxes places i ds = .error .valueError) := by
  intro ds
  induction ds with
  | nil => exact fun i => ⟨fun _ => rfl, fun h => absurd ⟨by simp, .inl rfl⟩ h⟩
  | cons d ds ih =>
    intro i
    obtain ⟨h1, h2⟩ := ih (i + 1)
    rw [addAxes]
    by_cases hd : d = 2
    · rw [if_pos hd]
      by_cases hi : i + 1 ≤ places
      · rw [if_pos hi]
        constructor
        · rintro ⟨h3, h4⟩
          rw [h1 ⟨fun e he => h3 e (by simp [he]), by
            rcases h4 with h4 | h4
            · cases h4
            · exact .inr (by simp at h4; omega)⟩, ok_bind, List.length_cons, List.range_succ_eq_map, List.map_cons, List.map_map]
          congr 2
          apply List.map_congr_left
          intro k _
          simp only [Function.comp]
          omega
        · intro h
          rw [h2]
          · rfl
          · rintro ⟨h3, h4⟩
            refine h ⟨fun e he => ?_, .inr ?_⟩
            · rcases List.mem_cons.1 he with rfl | he
              · exact hd
              · exact h3 e he
            · rcases h4 with rfl | h4
              · simpa using hi
              · simp; omega
      · rw [if_neg hi]
        refine ⟨?_, fun _ => rfl⟩
        rintro ⟨-, h | h⟩
        · cases h
        · simp at h; omega
    · rw [if_neg hd]
      refine ⟨fun h => absurd (h.1 d (by simp)) hd, fun _ => rfl⟩

/-- **C128**. With a layout of several places and two dimensions for each, `newax` returns one axes for each place, in order: as a
list, or as the rows of the layout. For the layout with one place, it is the single axes, but in a tuple if a matrix is asked for.
Any other number of dimensions is a `ValueError`. -/
theorem newax_spec (nv nh : Nat) (hv : 0 < nv) (hh : 0 < nh) :
    (nv * nh ≠ 1 → newax nv nh false 2 none = .ok (.list ((List.range (nv * nh)).map (1 + ·)))) ∧
    (nv * nh ≠ 1 → ∃ m, newax nv nh true 2 none = .ok (.matrix m) ∧ m.length = nv ∧ (∀ r ∈ m, r.length = nh) ∧
      m.flatten = ((List.range (nv * nh)).map fun i => some (1 + i))) ∧
    newax 1 1 false 2 none = .ok (.one 1) ∧ newax 1 1 true 2 none = .ok (.row [some 1]) ∧
    (∀ mat d, d ≠ 2 → newax nv nh mat d none = .error .valueError) := by
  have hp : 0 < nv * nh := Nat.mul_pos hv hh
  have hall : (List.replicate (nv * nh) 2).all (fun d => decide (d = 2 ∨ d = 3)) = true := by
    rw [List.all_eq_true]
    intro x hx
    simp [(List.mem_replicate.1 hx).2]
  have hadd : addAxes (nv * nh) 0 (List.replicate (nv * nh) 2) = .ok ((List.range (nv * nh)).map (1 + ·)) := by
    rw [(addAxes_ok _ _).1 ⟨fun d hd => (List.mem_replicate.1 hd).2, .inr (by simp)⟩]
    simp
  have hone : nv * nh ≠ 1 → ¬ (nv = 1 ∧ nh = 1) := by
    rintro h ⟨rfl, rfl⟩
    exact h rfl
  refine ⟨fun h => ?_, fun h => ?_, rfl, rfl, fun mat d hd => ?_⟩
  · unfold newax
    simp [hadd, ok_bind, hone h]
  · refine ⟨grouper nh none (((List.range (nv * nh)).map (1 + ·)).map some), ?_, ?_⟩
    · unfold newax
      simp [hadd, ok_bind, hone h]
    · obtain ⟨h1, j, h2, h3⟩ := grouper_spec hh (none : Option Nat) (((List.range (nv * nh)).map (1 + ·)).map some)
      have hl : (grouper nh none (((List.range (nv * nh)).map (1 + ·)).map some)).flatten.length =
          (grouper nh none (((List.range (nv * nh)).map (1 + ·)).map some)).length * nh := by
        rw [List.length_flatten, List.map_congr_left h1]
        simp
      rw [h3] at hl
      simp at hl
      have hj : j = 0 := by
        have hdvd : nh ∣ j := (Nat.dvd_add_right (Dvd.intro_left nv rfl)).1 ⟨_, by rw [hl, Nat.mul_comm]⟩
        exact Nat.eq_zero_of_dvd_of_lt hdvd h2
      subst hj
      refine ⟨?_, h1, ?_⟩
      · exact (Nat.eq_of_mul_eq_mul_right hh (by simpa using hl)).symm
      · rw [h3]
        simp
  · unfold newax
    by_cases h3 : d = 3
    · subst h3
      have : (List.replicate (nv * nh) 3).all (fun d => decide (d = 2 ∨ d = 3)) = true := by
        rw [List.all_eq_true]
        intro x hx
        simp [(List.mem_replicate.1 hx).2]
      simp only [Option.getD_none, this, if_true]
      rw [(addAxes_ok _ _).2]
      · rfl
      · rintro ⟨h, -⟩
        exact absurd (h 3 (List.mem_replicate.2 ⟨by omega, rfl⟩)) (by decide)
    · have : (List.replicate (nv * nh) d).all (fun d => decide (d = 2 ∨ d = 3)) = false := by
        rw [List.all_eq_false]
        exact ⟨d, List.mem_replicate.2 ⟨by omega, rfl⟩, by simp [hd, h3]⟩
      simp only [Option.getD_none, this]
      rfl

/-- With separate numbers of dimensions, there are as many axes as numbers, whatever the layout has room for: too many are a
`ValueError`, and too few leave places empty. -/
theorem newax_dims (nv nh : Nat) (ds : List Nat) (h1 : ¬ (nv = 1 ∧ nh = 1)) :
    ((∀ d ∈ ds, d = 2) → ds.length ≤ nv * nh →
      newax nv nh false 2 (some ds) = .ok (.list ((List.range ds.length).map (1 + ·)))) ∧
    (((∃ d ∈ ds, d ≠ 2) ∨ nv * nh < ds.length) → newax nv nh false 2 (some ds) = .error .valueError) := by
  constructor
  · intro h2 h3
    have hall : ds.all (fun d => decide (d = 2 ∨ d = 3)) = true := by
      rw [List.all_eq_true]
      intro x hx
      simp [h2 x hx]
    unfold newax
    simp only [Option.getD_some, hall, if_true]
    rw [(addAxes_ok _ _).1 ⟨h2, .inr (by omega)⟩]
    simp [ok_bind, h1]
  · intro h
    have herr : addAxes (nv * nh) 0 ds = .error .valueError := by
      refine (addAxes_ok _ _).2 ?_
      rintro ⟨h2, h3⟩
      rcases h with ⟨d, hd, h⟩ | h
      · exact h (h2 d hd)
      · rcases h3 with rfl | h3
        · simp at h
        · omega
    unfold newax
    simp only [Option.getD_some, herr]
    split <;> rfl

example : newax 2 2 true 2 (some [2, 2, 2]) = .ok (.matrix [[some 1, some 2], [some 3, none]]) := rfl

end Graphics
end Tulip
