import Verif.Gridworld.Plot
import Mathlib.Tactic.Linarith

/-!
# What `GridWorld.plot` draws

`plot_draws`: the image, the letters or symbols, the lines of the grid and the gray cells, for all worlds and all trolls inside
them. `plot_outside`: a troll outside of the world.
-/

namespace Tulip
namespace Gw
namespace Draw

/-! ## Specification -/

/-- The axes of matplotlib after an image was shown: the center of the entry in row `i` and column `j` is `(j, i)`, and rows are
drawn from top to bottom. -/
def imshowBox (rows cols : Nat) : Box := ⟨-1 / 2, cols - 1 / 2, rows - 1 / 2, -1 / 2⟩

/-- The cell in row `i` and column `j` is in the world. -/
def Inside (A : Arr) (i j : Int) : Prop := 0 ≤ i ∧ i < A.rows ∧ 0 ≤ j ∧ j < A.cols

/-- The extent of a troll: the cells at most `radius` rows and columns away from the center. -/
def Within (t : (Int × Int) × Int) (i j : Int) : Prop := |i - t.1.1| ≤ t.2 ∧ |j - t.1.2| ≤ t.2

/-- The letter `s` belongs at row `i` and column `j`. -/
def Letter (w : World) (trolls : List ((Int × Int) × Int)) (i j : Int) (init goal troll s : List Char) : Prop :=
  (s = init ∧ (i, j) ∈ w.inits) ∨ (s = goal ∧ (i, j) ∈ w.goals) ∨ (s = troll ∧ ∃ t ∈ trolls, t.1 = (i, j))

/-! ## Proofs -/

theorem extent_spec (n : Nat) (c r : Int) (h0 : 0 ≤ c) (hn : c < n) (i : Int) :
    (∃ k : Nat, k < (extent n c r).2.toNat ∧ i = k + (extent n c r).1) ↔ 0 ≤ i ∧ i < n ∧ |i - c| ≤ r := by
  unfold extent
  dsimp only
  rw [abs_le]
  constructor
  · rintro ⟨k, hk, rfl⟩
    split at hk <;> omega
  · intro h
    refine ⟨(i - max 0 (c - r)).toNat, ?_, by omega⟩
    split <;> omega

theorem xstep (cols : Nat) (k : Int) (h : 0 < cols) : step (-1 / 2) (cols - 1 / 2) cols k = k - 1 / 2 := by
  unfold step
  rw [if_neg (by omega)]
  have : (cols : Rat) ≠ 0 := by exact_mod_cast h.ne'
  field_simp
  ring

theorem ystep (rows : Nat) (k : Int) (h : 0 < rows) : step (rows - 1 / 2) (-1 / 2) rows k = rows - k - 1 / 2 := by
  unfold step
  rw [if_neg (by omega)]
  have : (rows : Rat) ≠ 0 := by exact_mod_cast h.ne'
  field_simp
  ring

theorem rowPatches_spec (A : Arr) (b : Box) (i oj : Int) (hi : i < A.rows) : ∀ js : List Nat,
    (∀ j ∈ js, (j : Int) + oj < A.cols) →
    ∃ r, rowPatches A b i oj js = .ok r ∧ ∀ m, m ∈ r ↔ ∃ j ∈ js, A.cell i (j + oj) = 0 ∧
      m = .patch (step b.xmin b.xmax A.cols (j + oj)) (step b.ymin b.ymax A.rows (A.rows - i))
  | [], _ => ⟨[], rfl, by simp⟩
  | j :: js, h => by
    obtain ⟨r, hr, hm⟩ := rowPatches_spec A b i oj hi js fun k hk => h k (.tail _ hk)
    have hj := h j (.head _)
    refine ⟨(if decide (A.cell i (j + oj) = 0) then
      [.patch (step b.xmin b.xmax A.cols (j + oj)) (step b.ymin b.ymax A.rows (A.rows - i))] else []) ++ r, ?_, ?_⟩
    · unfold rowPatches free
      rw [if_pos ⟨hi, hj⟩, ok_bind, hr, ok_bind]
    · intro m
      rw [List.mem_append, hm]
      by_cases hc : A.cell i (j + oj) = 0
      · simp [hc]
      · simp [hc]

theorem patches_spec (A : Arr) (b : Box) (oi oj : Int) (nj : Nat) (hj : ∀ j : Nat, j < nj → (j : Int) + oj < A.cols) :
    ∀ is : List Nat, (∀ i ∈ is, (i : Int) + oi < A.rows) →
    ∃ r, patches A b oi oj nj is = .ok r ∧ ∀ m, m ∈ r ↔ ∃ i ∈ is, ∃ j < nj, A.cell (i + oi) (j + oj) = 0 ∧
      m = .patch (step b.xmin b.xmax A.cols (j + oj)) (step b.ymin b.ymax A.rows (A.rows - (i + oi)))
  | [], _ => ⟨[], rfl, by simp⟩
  | i :: is, h => by
    obtain ⟨r, hr, hm⟩ := patches_spec A b oi oj nj hj is fun k hk => h k (.tail _ hk)
    obtain ⟨q, hq, hqm⟩ := rowPatches_spec A b (i + oi) oj (h i (.head _)) (List.range nj)
      fun j hjm => hj j (List.mem_range.1 hjm)
    refine ⟨q ++ r, ?_, ?_⟩
    · unfold patches
      rw [hq, ok_bind, hr, ok_bind]
    · intro m
      rw [List.mem_append, hm, hqm]
      simp only [List.mem_range, List.mem_cons, exists_eq_or_imp]

/-- The marks of a troll inside the world. -/
theorem troll_spec (A : Arr) (font : Int) (t : (Int × Int) × Int) (ht : Inside A t.1.1 t.1.2) :
    ∃ r, troll A (imshowBox A.rows A.cols) font t = .ok r ∧ ∀ m, m ∈ r ↔
      m = sign font t.1 c!"E" c!"gx" ∨
      ∃ i j, Inside A i j ∧ Within t i j ∧ A.cell i j = 0 ∧ m = .patch (j - 1 / 2) (i - 1 / 2) := by
  obtain ⟨h1, h2, h3, h4⟩ := ht
  have ei := extent_spec A.rows t.1.1 t.2 h1 h2
  have ej := extent_spec A.cols t.1.2 t.2 h3 h4
  obtain ⟨r, hr, hm⟩ := patches_spec A (imshowBox A.rows A.cols) (extent A.rows t.1.1 t.2).1 (extent A.cols t.1.2 t.2).1
    (extent A.cols t.1.2 t.2).2.toNat (fun j hj => ((ej _).1 ⟨j, hj, rfl⟩).2.1)
    (List.range (extent A.rows t.1.1 t.2).2.toNat) (fun i hi => ((ei _).1 ⟨i, List.mem_range.1 hi, rfl⟩).2.1)
  refine ⟨sign font t.1 c!"E" c!"gx" :: r, ?_, ?_⟩
  · unfold troll
    rw [if_neg (by omega)]
    dsimp only
    rw [hr, ok_bind]
  · intro m
    rw [List.mem_cons, hm]
    refine or_congr Iff.rfl ?_
    have hrows : 0 < A.rows := by omega
    have hcols : 0 < A.cols := by omega
    constructor
    · rintro ⟨i, hi, j, hj, hc, rfl⟩
      have a1 := (ei _).1 ⟨i, List.mem_range.1 hi, rfl⟩
      have a2 := (ej _).1 ⟨j, hj, rfl⟩
      refine ⟨_, _, ⟨a1.1, a1.2.1, a2.1, a2.2.1⟩, ⟨a1.2.2, a2.2.2⟩, hc, ?_⟩
      simp only [imshowBox]
      rw [xstep _ _ hcols, ystep _ _ hrows]
      push_cast
      congr 1
      ring
    · rintro ⟨i, j, hin, hw, hc, rfl⟩
      obtain ⟨k, hk, rfl⟩ := (ei i).2 ⟨hin.1, hin.2.1, hw.1⟩
      obtain ⟨l, hl, rfl⟩ := (ej j).2 ⟨hin.2.2.1, hin.2.2.2, hw.2⟩
      refine ⟨k, List.mem_range.2 hk, l, hl, hc, ?_⟩
      simp only [imshowBox]
      rw [xstep _ _ hcols, ystep _ _ hrows]
      push_cast
      congr 1
      ring

theorem trollLoop_spec (A : Arr) (font : Int) : ∀ ts : List ((Int × Int) × Int), (∀ t ∈ ts, Inside A t.1.1 t.1.2) →
    ∃ r, trollLoop A (imshowBox A.rows A.cols) font ts = .ok r ∧ ∀ m, m ∈ r ↔
      (∃ t ∈ ts, m = sign font t.1 c!"E" c!"gx") ∨
      ∃ i j, Inside A i j ∧ (∃ t ∈ ts, Within t i j) ∧ A.cell i j = 0 ∧ m = .patch (j - 1 / 2) (i - 1 / 2)
  | [], _ => ⟨[], rfl, by simp⟩
  | t :: ts, h => by
    obtain ⟨q, hq, hqm⟩ := troll_spec A font t (h t (.head _))
    obtain ⟨r, hr, hm⟩ := trollLoop_spec A font ts fun x hx => h x (.tail _ hx)
    refine ⟨q ++ r, ?_, ?_⟩
    · unfold trollLoop
      rw [hq, ok_bind, hr, ok_bind]
    · intro m
      rw [List.mem_append, hm, hqm]
      simp only [List.mem_cons, exists_eq_or_imp]
      constructor
      · rintro ((h | ⟨i, j, a, b, c, d⟩) | (h | ⟨i, j, a, b, c, d⟩))
        · exact .inl (.inl h)
        · exact .inr ⟨i, j, a, .inl b, c, d⟩
        · exact .inl (.inr h)
        · exact .inr ⟨i, j, a, .inr b, c, d⟩
      · rintro ((h | h) | ⟨i, j, a, b | b, c, d⟩)
        · exact .inl (.inl h)
        · exact .inr (.inl h)
        · exact .inl (.inr ⟨i, j, a, b, c, d⟩)
        · exact .inr (.inr ⟨i, j, a, b, c, d⟩)

theorem sign_text {font : Int} {p : Int × Int} {l f : List Char} {x y : Int} {s : List Char} :
    Mark.text x y s = sign font p l f ↔ 0 < font ∧ p = (y, x) ∧ s = l := by
  unfold sign
  split
  · rename_i h
    simp only [Mark.text.injEq, Prod.ext_iff]
    exact ⟨fun ⟨a, b, c⟩ => ⟨h, ⟨b.symm, a.symm⟩, c⟩, fun ⟨_, ⟨a, b⟩, c⟩ => ⟨b.symm, a.symm, c⟩⟩
  · rename_i h
    exact ⟨fun e => (by cases e), fun e => absurd e.1 h⟩

theorem sign_point {font : Int} {p : Int × Int} {l f : List Char} {x y : Int} {s : List Char} :
    Mark.point x y s = sign font p l f ↔ font ≤ 0 ∧ p = (y, x) ∧ s = f := by
  unfold sign
  split
  · rename_i h
    exact ⟨fun e => (by cases e), fun e => absurd e.1 (by omega)⟩
  · rename_i h
    simp only [Mark.point.injEq, Prod.ext_iff]
    exact ⟨fun ⟨a, b, c⟩ => ⟨by omega, ⟨b.symm, a.symm⟩, c⟩, fun ⟨_, ⟨a, b⟩, c⟩ => ⟨b.symm, a.symm, c⟩⟩

theorem sign_not_patch {font : Int} {p : Int × Int} {l f : List Char} {x y : Rat} : Mark.patch x y ≠ sign font p l f := by
  unfold sign; split <;> simp

theorem sign_not_line {font : Int} {p : Int × Int} {l f : List Char} {a b c d : Rat} :
    Mark.line a b c d ≠ sign font p l f := by
  unfold sign; split <;> simp

/-- The lines of the grid. -/
theorem gridLines_mem (A : Arr) (hr : 0 < A.rows) (hc : 0 < A.cols) (m : Mark) :
    m ∈ gridLines A (imshowBox A.rows A.cols) ↔
      (∃ k : Nat, k ≤ A.cols ∧ m = .line (k - 1 / 2) (k - 1 / 2) (A.rows - 1 / 2) (-1 / 2)) ∨
      (∃ k : Nat, k ≤ A.rows ∧ m = .line (-1 / 2) (A.cols - 1 / 2) (k - 1 / 2) (k - 1 / 2)) := by
  unfold gridLines imshowBox
  simp only [List.mem_append, List.mem_map, List.mem_range, Nat.lt_succ_iff]
  refine or_congr ?_ ?_
  · constructor
    · rintro ⟨k, hk, rfl⟩
      refine ⟨k, hk, ?_⟩
      rw [xstep _ _ hc]; push_cast; rfl
    · rintro ⟨k, hk, rfl⟩
      refine ⟨k, hk, ?_⟩
      rw [xstep _ _ hc]; push_cast; rfl
  · constructor
    · rintro ⟨k, hk, rfl⟩
      refine ⟨A.rows - k, by omega, ?_⟩
      rw [ystep _ _ hr, Nat.cast_sub hk]; push_cast; rfl
    · rintro ⟨k, hk, rfl⟩
      refine ⟨A.rows - k, by omega, ?_⟩
      rw [ystep _ _ hr]
      push_cast [Nat.cast_sub hk]
      congr 1 <;> ring

/-- **What is drawn** for a world with cells and trolls inside it: white for free cells and black for occupied ones; the letters
`I`, `G` and `E`, or symbols if the font size is zero, at the initial cells, goals and trolls; the lines between cells if the
grid is shown; and a gray square over each free cell in the extent of a troll, and over no other place. -/
theorem plot_draws {w : World} {A : Arr} (hA : w.W = some A) (hr : 0 < A.rows) (hc : 0 < A.cols) (font : Int) (grid : Bool)
    {trolls : List ((Int × Int) × Int)} (ht : ∀ t ∈ trolls, Inside A t.1.1 t.1.2) :
    ∃ d, plot imshowBox w font grid trolls = .ok d ∧
      (∀ i j, d.image i j = 1 - A.cell i j) ∧
      (∀ x y s, Mark.text x y s ∈ d.marks ↔ 0 < font ∧ Letter w trolls y x c!"I" c!"G" c!"E" s) ∧
      (∀ x y s, Mark.point x y s ∈ d.marks ↔ font ≤ 0 ∧ Letter w trolls y x c!"m+" c!"r*" c!"gx" s) ∧
      (∀ x y, Mark.patch x y ∈ d.marks ↔ ∃ i j : Int, Inside A i j ∧ A.cell i j = 0 ∧ (∃ t ∈ trolls, Within t i j) ∧
        x = j - 1 / 2 ∧ y = i - 1 / 2) ∧
      (∀ x1 x2 y1 y2, Mark.line x1 x2 y1 y2 ∈ d.marks ↔ grid = true ∧
        ((∃ k : Nat, k ≤ A.cols ∧ x1 = k - 1 / 2 ∧ x2 = k - 1 / 2 ∧ y1 = A.rows - 1 / 2 ∧ y2 = -1 / 2) ∨
         (∃ k : Nat, k ≤ A.rows ∧ x1 = -1 / 2 ∧ x2 = A.cols - 1 / 2 ∧ y1 = k - 1 / 2 ∧ y2 = k - 1 / 2))) := by
  obtain ⟨r, hl, hm⟩ := trollLoop_spec A font trolls ht
  have hgrid : ∀ m, m ∈ (if grid then gridLines A (imshowBox A.rows A.cols) else []) ↔ grid = true ∧
      ((∃ k : Nat, k ≤ A.cols ∧ m = .line (k - 1 / 2) (k - 1 / 2) (A.rows - 1 / 2) (-1 / 2)) ∨
       (∃ k : Nat, k ≤ A.rows ∧ m = .line (-1 / 2) (A.cols - 1 / 2) (k - 1 / 2) (k - 1 / 2))) := by
    intro m
    cases grid with
    | true => rw [if_pos rfl, gridLines_mem A hr hc]; simp
    | false => simp
  refine ⟨_, by unfold plot; rw [hA]; dsimp only; rw [hl, ok_bind], fun _ _ => rfl, ?_, ?_, ?_, ?_⟩
  · intro x y s
    simp only [List.mem_append, hm, hgrid, List.mem_map, reduceCtorEq, and_false, exists_false, or_false, or_assoc, false_or,
      @eq_comm Mark (sign _ _ _ _), sign_text, Letter]
    constructor
    · rintro (⟨p, hp, h1, rfl, h3⟩ | ⟨p, hp, h1, rfl, h3⟩ | ⟨t, ht, h1, h2, h3⟩)
      · exact ⟨h1, .inl ⟨h3, hp⟩⟩
      · exact ⟨h1, .inr (.inl ⟨h3, hp⟩)⟩
      · exact ⟨h1, .inr (.inr ⟨h3, t, ht, h2⟩)⟩
    · rintro ⟨h1, ⟨h3, hp⟩ | ⟨h3, hp⟩ | ⟨h3, t, ht, h2⟩⟩
      · exact .inl ⟨_, hp, h1, rfl, h3⟩
      · exact .inr (.inl ⟨_, hp, h1, rfl, h3⟩)
      · exact .inr (.inr ⟨t, ht, h1, h2, h3⟩)
  · intro x y s
    simp only [List.mem_append, hm, hgrid, List.mem_map, reduceCtorEq, and_false, exists_false, or_false, or_assoc, false_or,
      @eq_comm Mark (sign _ _ _ _), sign_point, Letter]
    constructor
    · rintro (⟨p, hp, h1, rfl, h3⟩ | ⟨p, hp, h1, rfl, h3⟩ | ⟨t, ht, h1, h2, h3⟩)
      · exact ⟨h1, .inl ⟨h3, hp⟩⟩
      · exact ⟨h1, .inr (.inl ⟨h3, hp⟩)⟩
      · exact ⟨h1, .inr (.inr ⟨h3, t, ht, h2⟩)⟩
    · rintro ⟨h1, ⟨h3, hp⟩ | ⟨h3, hp⟩ | ⟨h3, t, ht, h2⟩⟩
      · exact .inl ⟨_, hp, h1, rfl, h3⟩
      · exact .inr (.inl ⟨_, hp, h1, rfl, h3⟩)
      · exact .inr (.inr ⟨t, ht, h1, h2, h3⟩)
  · intro x y
    simp only [List.mem_append, hm, hgrid, List.mem_map, reduceCtorEq, and_false, exists_false, or_false, false_or,
      @eq_comm Mark (sign _ _ _ _), sign_not_patch, Mark.patch.injEq]
    constructor
    · rintro ⟨i, j, a, b, c, d⟩; exact ⟨i, j, a, c, b, d⟩
    · rintro ⟨i, j, a, b, c, d⟩; exact ⟨i, j, a, c, b, d⟩
  · intro x1 x2 y1 y2
    simp only [List.mem_append, hm, hgrid, List.mem_map, reduceCtorEq, and_false, exists_false, or_false,
      @eq_comm Mark (sign _ _ _ _), sign_not_line, Mark.line.injEq]

/-- **A troll outside of the world** raises `ValueError`, and so does no other troll. -/
theorem plot_outside {w : World} {A : Arr} (hA : w.W = some A) (font : Int) (grid : Bool)
    {trolls : List ((Int × Int) × Int)} (ht : ∃ t ∈ trolls, ¬ Inside A t.1.1 t.1.2) :
    plot imshowBox w font grid trolls = .error .valueError := by
  have key : ∀ ts : List ((Int × Int) × Int), (∃ t ∈ ts, ¬ Inside A t.1.1 t.1.2) →
      trollLoop A (imshowBox A.rows A.cols) font ts = .error .valueError := by
    intro ts
    induction ts with
    | nil => rintro ⟨t, h, _⟩; exact absurd h List.not_mem_nil
    | cons t ts ih =>
      rintro ⟨u, hu, hn⟩
      unfold trollLoop
      by_cases hi : Inside A t.1.1 t.1.2
      · obtain ⟨q, hq, _⟩ := troll_spec A font t hi
        rw [hq, ok_bind]
        rcases List.mem_cons.1 hu with rfl | hu
        · exact absurd hi hn
        · rw [ih ⟨u, hu, hn⟩]; rfl
      · have : troll A (imshowBox A.rows A.cols) font t = .error .valueError := by
          unfold troll
          rw [if_pos]
          unfold Inside at hi
          omega
        rw [this]; rfl
  unfold plot
  rw [hA]
  dsimp only
  rw [key trolls ht]; rfl

/-- **An empty world** cannot be drawn. -/
theorem plot_empty {w : World} (hW : w.W = none) (axis : Nat → Nat → Box) (font : Int) (grid : Bool)
    (trolls : List ((Int × Int) × Int)) : plot axis w font grid trolls = .error .attribute := by
  unfold plot; rw [hW]

/-! ## A case -/

/-- A world of two rows and three columns with an occupied cell. -/
def worldEx : World :=
  ⟨some ⟨2, 3, fun i j => if i = 0 ∧ j = 1 then 1 else 0⟩, [(0, 0)], [(1, 2)], c!"Y", (0, 0)⟩

example : ((plot imshowBox worldEx 18 false [((1, 0), 1)]).toOption.map fun d => d.marks) =
    some [.text 0 0 c!"I", .text 2 1 c!"G", .text 0 1 c!"E", .patch (-1 / 2) (-1 / 2), .patch (-1 / 2) (1 / 2),
      .patch (1 / 2) (1 / 2)] := by
  decide +kernel

example : ∃ d, plot imshowBox worldEx 18 false [((1, 0), 1)] = .ok d := by
  obtain ⟨d, h, _⟩ := plot_draws (w := worldEx) rfl (by decide) (by decide) 18 false (trolls := [((1, 0), 1)]) (by
    intro t h
    simp at h
    subst h
    simp [Inside])
  exact ⟨d, h⟩

example : plot imshowBox worldEx 18 false [((2, 0), 1)] = .error .valueError := rfl

end Draw
end Gw
end Tulip
