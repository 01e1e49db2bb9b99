import Verif.Gridworld.Picture
import Verif.Gridworld.SpecProps
import Mathlib.Tactic.IntervalCases

/-!
# C112: pictures of grid worlds show every cell
-/

namespace Tulip
namespace Gw

/-! ## The specification -/

/-- The arrow from a cell to another one: first to the column, then to the row. -/
inductive Points : Int × Int → Int × Int → Char → Prop
  | left {a b} : b.2 < a.2 → Points a b '<'
  | right {a b} : a.2 < b.2 → Points a b '>'
  | up {a b} : b.2 = a.2 → b.1 < a.1 → Points a b '^'
  | down {a b} : b.2 = a.2 → a.1 < b.1 → Points a b 'v'

/-- The cell that follows place `n` of a path that is repeated. -/
def Follows (path : List (Int × Int)) (n : Nat) (k : Int × Int) : Prop :=
  path[(n + 1) % path.length]? = some k

/-- The mark of a cell of the path: an arrow to where the path first leaves the cell, or a point if it never does. -/
def PathMark (path : List (Int × Int)) (k : Int × Int) (c : Char) : Prop :=
  (c = '.' ∧ ∀ n : Nat, path[n]? = some k → Follows path n k) ∨
  ∃ (n : Nat) (k' : Int × Int), path[n]? = some k ∧ Follows path n k' ∧ k' ≠ k ∧ Points k k' c ∧
    ∀ m < n, path[m]? = some k → Follows path m k

/-- The mark of a cell. -/
inductive Mark (w : World) (A : Arr) (path : List (Int × Int)) (goalOrder : Bool) (k : Int × Int) : Char → Prop
  | wall : A.cell k.1 k.2 = 1 → Mark w A path goalOrder k '*'
  | init : A.cell k.1 k.2 = 0 → k ∈ w.inits → Mark w A path goalOrder k 'I'
  | goal : A.cell k.1 k.2 = 0 → k ∉ w.inits → k ∈ w.goals → goalOrder = false → Mark w A path goalOrder k 'G'
  | nth (n : Nat) : A.cell k.1 k.2 = 0 → k ∉ w.inits → w.goals[n]? = some k → (∀ m < n, w.goals[m]? ≠ some k) →
      goalOrder = true → n < 10 → Mark w A path goalOrder k (Char.ofNat ('0'.toNat + n))
  | path {c : Char} : A.cell k.1 k.2 = 0 → k ∉ w.inits → k ∉ w.goals → k ∈ path → PathMark path k c →
      Mark w A path goalOrder k c
  | blank : A.cell k.1 k.2 = 0 → k ∉ w.inits → k ∉ w.goals → k ∉ path → Mark w A path goalOrder k ' '

/-- The lines of a picture without a grid. -/
def plainLines (pre : List Char) (rows cols : Nat) (f : Nat → Nat → Char) : List (List Char) :=
  [pre ++ List.replicate (cols + 2) '-'] ++
  (List.range rows).map (fun i => pre ++ '|' :: (List.range cols).map (f i) ++ c!"|") ++
  [pre ++ List.replicate (cols + 2) '-']

/-- The decimal digits of a number, after a space if there is one digit only. -/
def twoPlaces (n : Nat) : List Char := if n < 10 then ' ' :: (Nat.repr n).toList else (Nat.repr n).toList

/-- The lines of a picture with a grid. -/
def gridLines (pre : List Char) (rows cols : Nat) (f : Nat → Nat → Char) : List (List Char) :=
  [pre ++ c!"  " ++ (List.range cols).flatMap twoPlaces] ++
  (List.range rows).flatMap (fun i => [pre ++ c!"  " ++ List.replicate (cols * 2 + 1) '-',
    pre ++ twoPlaces i ++ (List.range cols).flatMap (fun j => ['|', f i j]) ++ c!"|"]) ++
  [pre ++ c!"  " ++ List.replicate (cols * 2 + 1) '-']

theorem digitsOf_repr (n : Nat) : digitsOf n = (Nat.repr n).toList := by
  rw [Nat.repr, String.toList_ofList]
  induction n using Nat.strongRecOn with
  | _ n ih =>
    unfold digitsOf
    split
    · rename_i h
      rw [Nat.toDigits_of_lt_base h]
      interval_cases n <;> rfl
    · rename_i h
      rw [ih (n / 10) (by omega), Nat.toDigits_of_base_le (b := 10) (n := n) (by omega) (by omega)]
      have h : n % 10 < 10 := Nat.mod_lt _ (by omega)
      generalize n % 10 = k at h ⊢
      interval_cases k <;> rfl

theorem rjust2_eq (n : Nat) : rjust2 n = twoPlaces n := by
  rw [rjust2, twoPlaces, ← digitsOf_repr]
  split
  · rename_i h
    rw [digitsOf, if_pos h]
    rfl
  · rename_i h
    have : 2 ≤ (digitsOf n).length := by
      rw [digitsOf, if_neg h, List.length_append, List.length_singleton]
      have := List.length_pos_of_ne_nil (digitsOf_spec (n / 10)).2.1
      omega
    rw [Nat.sub_eq_zero_of_le this]
    rfl

/-! ## Marks -/

theorem direct_spec (a b : Int × Int) : (direct a b = '.' ∧ b = a) ∨ (direct a b ≠ '.' ∧ b ≠ a ∧ Points a b (direct a b)) := by
  unfold direct
  split
  · refine Or.inr ⟨by decide, ?_, .left ‹_›⟩
    rintro rfl; omega
  split
  · refine Or.inr ⟨by decide, ?_, .right ‹_›⟩
    rintro rfl; omega
  split
  · refine Or.inr ⟨by decide, ?_, .up (by omega) ‹_›⟩
    rintro rfl; omega
  split
  · refine Or.inr ⟨by decide, ?_, .down (by omega) ‹_›⟩
    rintro rfl; omega
  · exact Or.inl ⟨rfl, Prod.ext (by omega) (by omega)⟩

theorem follows_getD {path : List (Int × Int)} (h : path ≠ []) (n : Nat) :
    Follows path n (path.getD ((n + 1) % path.length) (0, 0)) := by
  have hl : (n + 1) % path.length < path.length := Nat.mod_lt _ (List.length_pos_iff.2 h)
  unfold Follows
  rw [List.getD_eq_getElem?_getD, List.getElem?_eq_getElem hl]
  rfl

theorem arrowLoop_spec {path : List (Int × Int)} (hp : path ≠ []) (k : Int × Int) (xs : List Nat) (d : Char)
    (hx : xs ≠ [] ∨ d = '.') (hsort : xs.Pairwise (· < ·)) :
    (arrowLoop path k xs d = '.' ∧ ∀ n ∈ xs, Follows path n k) ∨
    ∃ n ∈ xs, ∃ k', Follows path n k' ∧ k' ≠ k ∧ Points k k' (arrowLoop path k xs d) ∧
      ∀ m ∈ xs, m < n → Follows path m k := by
  induction xs generalizing d with
  | nil =>
    rcases hx with hx | hx
    · exact absurd rfl hx
    · exact Or.inl ⟨hx, by simp⟩
  | cons x xs ih =>
    have hf := follows_getD hp x
    unfold arrowLoop
    rcases direct_spec k (path.getD ((x + 1) % path.length) (0, 0)) with ⟨h1, h2⟩ | ⟨h1, h2, h3⟩
    · simp only [h1, ne_eq, not_true_eq_false, if_false]
      rw [h2] at hf
      rcases ih '.' (Or.inr rfl) (List.pairwise_cons.1 hsort).2 with ⟨h4, h5⟩ | ⟨n, hn, k', h4, h5, h6, h7⟩
      · refine Or.inl ⟨h4, fun n hn => ?_⟩
        rcases List.mem_cons.1 hn with rfl | hn
        · exact hf
        · exact h5 n hn
      · refine Or.inr ⟨n, by simp [hn], k', h4, h5, h6, fun m hm hmn => ?_⟩
        rcases List.mem_cons.1 hm with rfl | hm
        · exact hf
        · exact h7 m hm hmn
    · simp only [ne_eq, h1, not_false_eq_true, if_true]
      refine Or.inr ⟨x, by simp, _, hf, h2, h3, fun m hm hmx => ?_⟩
      rcases List.mem_cons.1 hm with rfl | hm
      · omega
      · have := (List.pairwise_cons.1 hsort).1 m hm
        omega

theorem pathMark {path : List (Int × Int)} {k : Int × Int} (hk : k ∈ path) (d : Char) :
    PathMark path k (arrowLoop path k ((List.range path.length).filter fun n => path[n]? = some k) d) := by
  have hp : path ≠ [] := by rintro rfl; cases hk
  have hm : ∀ n : Nat, n ∈ (List.range path.length).filter (fun n => path[n]? = some k) ↔ path[n]? = some k := by
    intro n
    simp only [List.mem_filter, List.mem_range, decide_eq_true_eq, and_iff_right_iff_imp]
    intro h
    exact (List.getElem?_eq_some_iff.1 h).1
  obtain ⟨n, hn⟩ := List.mem_iff_getElem?.1 hk
  rcases arrowLoop_spec hp k _ d (Or.inl (List.ne_nil_of_mem ((hm n).2 hn)))
    (List.pairwise_lt_range.filter _) with ⟨h1, h2⟩ | ⟨n, hn, k', h1, h2, h3, h4⟩
  · exact Or.inl ⟨h1, fun n hn => h2 n ((hm n).2 hn)⟩
  · exact Or.inr ⟨n, k', (hm n).1 hn, h1, h2, h3, fun m hmn hmk => h4 m ((hm m).2 hmk) hmn⟩

theorem prettyCell_spec (w : World) (A : Arr) (path : List (Int × Int)) (goalOrder : Bool)
    (hg : goalOrder = false ∨ w.goals.length ≤ 10) (k : Int × Int)
    (hk : A.cell k.1 k.2 = 0 ∨ A.cell k.1 k.2 = 1) :
    ∃ c, prettyCell w A path goalOrder k = .ok [c] ∧ Mark w A path goalOrder k c := by
  unfold prettyCell
  rcases hk with h | h
  · rw [if_pos h]
    by_cases hi : k ∈ w.inits
    · rw [if_pos hi]
      exact ⟨_, rfl, .init h hi⟩
    rw [if_neg hi]
    by_cases hgl : k ∈ w.goals
    · rw [if_pos hgl]
      cases goalOrder with
      | false => exact ⟨_, rfl, .goal h hi hgl rfl⟩
      | true =>
        have hlt := List.idxOf_lt_length_of_mem hgl
        have h10 : w.goals.idxOf k < 10 := by
          rcases hg with hg | hg
          · cases hg
          · omega
        refine ⟨Char.ofNat ('0'.toNat + w.goals.idxOf k), ?_, .nth _ h hi ?_ ?_ rfl h10⟩
        · rw [if_pos rfl, digitsOf, if_pos h10]; rfl
        · rw [List.getElem?_eq_getElem hlt, List.getElem_idxOf]
        · intro m hm e
          obtain ⟨hml, e⟩ := List.getElem?_eq_some_iff.1 e
          have := List.not_of_lt_findIdx (p := (· == k)) hm
          rw [e] at this
          simp at this
    rw [if_neg hgl]
    by_cases hp : k ∈ path
    · rw [if_pos hp]
      exact ⟨_, rfl, .path h hi hgl hp (pathMark hp _)⟩
    · rw [if_neg hp]
      exact ⟨_, rfl, .blank h hi hgl hp⟩
  · rw [if_neg (by omega), if_pos h]
    exact ⟨_, rfl, .wall h⟩

/-! ## The picture -/

theorem prettyRow_spec {w : World} {A : Arr} {path : List (Int × Int)} {goalOrder : Bool} (showGrid : Bool)
    (f : Nat → Nat → Char) (i : Nat) (js : List Nat)
    (h : ∀ j ∈ js, prettyCell w A path goalOrder (i, j) = .ok [f i j]) :
    prettyRow w A path goalOrder showGrid i js =
      .ok (js.flatMap fun j => (if showGrid then c!"|" else []) ++ [f i j]) := by
  induction js with
  | nil => rfl
  | cons j js ih =>
    rw [prettyRow, h j (by simp), ok_bind, ih fun j hj => h j (by simp [hj]), ok_bind]
    simp

theorem prettyRows_spec {w : World} {A : Arr} {path : List (Int × Int)} {goalOrder : Bool} (showGrid : Bool)
    (pre : List Char) (f : Nat → Nat → Char) (is : List Nat)
    (h : ∀ i ∈ is, ∀ j < A.cols, prettyCell w A path goalOrder (i, j) = .ok [f i j]) :
    prettyRows w A path goalOrder showGrid pre is = .ok (is.flatMap fun i => pre ++
      (if showGrid then c!"  " ++ List.replicate (A.cols * 2 + 1) '-' ++ c!"\n" ++ pre ++ rjust2 i else c!"|") ++
      ((List.range A.cols).flatMap fun j => (if showGrid then c!"|" else []) ++ [f i j]) ++ c!"|\n") := by
  induction is with
  | nil => rfl
  | cons i is ih =>
    rw [prettyRows, prettyRow_spec showGrid f i _ fun j hj => h i (by simp) j (List.mem_range.1 hj), ok_bind,
      ih fun i hi => h i (by simp [hi]), ok_bind]
    simp

/-- **C112.** The lines of the picture: those of a frame around one character for each cell, which is the mark of
the cell. -/
theorem pretty_spec {w : World} {A : Arr} (hw : w.W = some A)
    (hA : ∀ k, Inside A k → A.cell k.1 k.2 = 0 ∨ A.cell k.1 k.2 = 1) (pre : List Char) (path : List (Int × Int))
    (goalOrder : Bool) (hg : goalOrder = false ∨ w.goals.length ≤ 10) :
    ∃ f : Nat → Nat → Char, (∀ i < A.rows, ∀ j < A.cols, Mark w A path goalOrder (i, j) (f i j)) ∧
      pretty w false pre path goalOrder = .ok ((plainLines pre A.rows A.cols f).flatMap (· ++ c!"\n")) ∧
      pretty w true pre path goalOrder = .ok ((gridLines pre A.rows A.cols f).flatMap (· ++ c!"\n")) := by
  have h : ∀ i j : Nat, ∃ c, i < A.rows → j < A.cols →
      prettyCell w A path goalOrder (i, j) = .ok [c] ∧ Mark w A path goalOrder (i, j) c := by
    intro i j
    by_cases hij : i < A.rows ∧ j < A.cols
    · obtain ⟨c, hc⟩ := prettyCell_spec w A path goalOrder hg (i, j)
        (hA _ ⟨by simp, by simpa using hij.1, by simp, by simpa using hij.2⟩)
      exact ⟨c, fun _ _ => hc⟩
    · exact ⟨' ', fun h1 h2 => absurd ⟨h1, h2⟩ hij⟩
  choose f hf using h
  refine ⟨f, fun i hi j hj => (hf i j hi hj).2, ?_, ?_⟩
  · rw [pretty, hw]
    dsimp only
    rw [prettyRows_spec false pre f _ fun i hi j hj => (hf i j (List.mem_range.1 hi) hj).1, ok_bind]
    congr 1
    simp [plainLines, List.flatMap_append, List.flatMap_map, List.append_assoc, ← List.map_eq_flatMap]
  · rw [pretty, hw]
    dsimp only
    rw [prettyRows_spec true pre f _ fun i hi j hj => (hf i j (List.mem_range.1 hi) hj).1, ok_bind]
    congr 1
    simp [gridLines, List.flatMap_append, List.flatMap_assoc, List.append_assoc, funext rjust2_eq]

theorem prettyCell_error {w : World} {A : Arr} {path : List (Int × Int)} {goalOrder : Bool} {k : Int × Int}
    (h0 : A.cell k.1 k.2 ≠ 0) (h1 : A.cell k.1 k.2 ≠ 1) :
    prettyCell w A path goalOrder k = .error .valueError := by
  rw [prettyCell, if_neg h0, if_neg h1]

theorem prettyCell_cases (w : World) (A : Arr) (path : List (Int × Int)) (goalOrder : Bool) (k : Int × Int) :
    prettyCell w A path goalOrder k = .error .valueError ∨ ∃ c, prettyCell w A path goalOrder k = .ok c := by
  unfold prettyCell
  split
  · exact Or.inr ⟨_, rfl⟩
  split
  · exact Or.inr ⟨_, rfl⟩
  · exact Or.inl rfl

theorem prettyRow_ok {w : World} {A : Arr} {path : List (Int × Int)} {goalOrder : Bool} (showGrid : Bool) (i : Nat)
    (js : List Nat) (h : ∀ j ∈ js, ∃ c, prettyCell w A path goalOrder (i, j) = .ok c) :
    ∃ r, prettyRow w A path goalOrder showGrid i js = .ok r := by
  induction js with
  | nil => exact ⟨_, rfl⟩
  | cons j js ih =>
    obtain ⟨c, hc⟩ := h j (by simp)
    obtain ⟨r, hr⟩ := ih fun j hj => h j (by simp [hj])
    rw [prettyRow, hc, hr]
    exact ⟨_, rfl⟩

theorem prettyRows_ok {w : World} {A : Arr} {path : List (Int × Int)} {goalOrder : Bool} (showGrid : Bool)
    (pre : List Char) (is : List Nat)
    (h : ∀ i ∈ is, ∀ j < A.cols, ∃ c, prettyCell w A path goalOrder (i, j) = .ok c) :
    prettyRows w A path goalOrder showGrid pre is ≠ .error .valueError := by
  have : ∃ r, prettyRows w A path goalOrder showGrid pre is = .ok r := by
    induction is with
    | nil => exact ⟨_, rfl⟩
    | cons i is ih =>
      obtain ⟨c, hc⟩ := prettyRow_ok showGrid i (List.range A.cols) fun j hj => h i (by simp) j (List.mem_range.1 hj)
      obtain ⟨r, hr⟩ := ih fun i hi => h i (by simp [hi])
      rw [prettyRows, hc, hr]
      exact ⟨_, rfl⟩
  obtain ⟨r, hr⟩ := this
  rw [hr]
  intro e
  cases e

theorem prettyRow_cases (w : World) (A : Arr) (path : List (Int × Int)) (goalOrder showGrid : Bool) (i : Nat)
    (js : List Nat) : (∃ c, prettyRow w A path goalOrder showGrid i js = .ok c ∧
        ∀ j ∈ js, ∃ c, prettyCell w A path goalOrder (i, j) = .ok c) ∨
      prettyRow w A path goalOrder showGrid i js = .error .valueError := by
  induction js with
  | nil => exact Or.inl ⟨_, rfl, by simp⟩
  | cons j js ih =>
    unfold prettyRow
    rcases prettyCell_cases w A path goalOrder (i, j) with h | ⟨c, h⟩
    · rw [h]; exact Or.inr rfl
    · rcases ih with ⟨d, h', hall⟩ | h'
      · rw [h, h']
        refine Or.inl ⟨_, rfl, fun j' hj' => ?_⟩
        rcases List.mem_cons.1 hj' with rfl | hj'
        · exact ⟨c, h⟩
        · exact hall j' hj'
      · rw [h, h']; exact Or.inr rfl

theorem prettyRows_cases (w : World) (A : Arr) (path : List (Int × Int)) (goalOrder showGrid : Bool)
    (pre : List Char) (is : List Nat) : (∃ c, prettyRows w A path goalOrder showGrid pre is = .ok c ∧
        ∀ i ∈ is, ∀ j < A.cols, ∃ c, prettyCell w A path goalOrder (i, j) = .ok c) ∨
      prettyRows w A path goalOrder showGrid pre is = .error .valueError := by
  induction is with
  | nil => exact Or.inl ⟨_, rfl, by simp⟩
  | cons i is ih =>
    unfold prettyRows
    rcases prettyRow_cases w A path goalOrder showGrid i (List.range A.cols) with ⟨c, h, hc⟩ | h
    · rcases ih with ⟨d, h', hall⟩ | h'
      · rw [h, h']
        refine Or.inl ⟨_, rfl, fun i' hi' => ?_⟩
        rcases List.mem_cons.1 hi' with rfl | hi'
        · exact fun j hj => hc j (List.mem_range.2 hj)
        · exact hall i' hi'
      · rw [h, h']; exact Or.inr rfl
    · rw [h]; exact Or.inr rfl

/-- **C112.** A picture is refused, with a `ValueError`, iff the value of a cell is neither 0 nor 1. -/
theorem pretty_error {w : World} {A : Arr} (hw : w.W = some A) (showGrid : Bool) (pre : List Char)
    (path : List (Int × Int)) (goalOrder : Bool) :
    ((∃ s, pretty w showGrid pre path goalOrder = .ok s) ∨
      pretty w showGrid pre path goalOrder = .error .valueError) ∧
    ((∃ s, pretty w showGrid pre path goalOrder = .ok s) ↔
      ∀ k, Inside A k → A.cell k.1 k.2 = 0 ∨ A.cell k.1 k.2 = 1) := by
  have hc := prettyRows_cases w A path goalOrder showGrid pre (List.range A.rows)
  have he : (∃ s, pretty w showGrid pre path goalOrder = .ok s) ↔
      ∃ s, prettyRows w A path goalOrder showGrid pre (List.range A.rows) = .ok s := by
    rw [pretty, hw]
    dsimp only
    rcases hc with ⟨c, h, _⟩ | h
    · rw [h]
      exact ⟨fun _ => ⟨_, rfl⟩, fun _ => ⟨_, rfl⟩⟩
    · rw [h]
      constructor <;> rintro ⟨s, hs⟩ <;> cases hs
  constructor
  · rcases hc with ⟨c, h, _⟩ | h
    · exact Or.inl (he.2 ⟨c, h⟩)
    · refine Or.inr ?_
      rw [pretty, hw]
      dsimp only
      rw [h]
      rfl
  · rw [he]
    constructor
    · rintro ⟨s, hs⟩ k ⟨h1, h2, h3, h4⟩
      rcases hc with ⟨c, h, hall⟩ | h
      · obtain ⟨d, hd⟩ := hall k.1.toNat (List.mem_range.2 (by omega)) k.2.toNat (by omega)
        have e : ((k.1.toNat : Int), (k.2.toNat : Int)) = k := Prod.ext (by simp; omega) (by simp; omega)
        rw [e] at hd
        by_contra hno
        rw [not_or] at hno
        rw [prettyCell_error hno.1 hno.2] at hd
        cases hd
      · rw [h] at hs; cases hs
    · intro hA
      rcases hc with ⟨c, h, hall⟩ | h
      · exact ⟨c, h⟩
      · exfalso
        have : ∀ i ∈ List.range A.rows, ∀ j < A.cols, ∃ c, prettyCell w A path goalOrder (i, j) = .ok c := by
          intro i hi j hj
          rcases prettyCell_cases w A path goalOrder (i, j) with h | h
          · exfalso
            have hin := hA (i, j) ⟨by simp, by simpa using hi, by simp, by simpa using hj⟩
            unfold prettyCell at h
            rcases hin with hin | hin
            · rw [if_pos hin] at h; cases h
            · rw [if_neg (by omega), if_pos hin] at h; cases h
          · exact h
        exact absurd h (prettyRows_ok showGrid pre _ this)

/-! ## Pictures determine worlds -/

theorem replicate_split {m n : Nat} {s t : List Char}
    (h : List.replicate m '-' ++ '\n' :: s = List.replicate n '-' ++ '\n' :: t) : m = n ∧ s = t := by
  induction m generalizing n with
  | zero =>
    cases n with
    | zero => exact ⟨rfl, (List.cons.inj h).2⟩
    | succ n => exact absurd (List.cons.inj h).1 (by decide)
  | succ m ih =>
    cases n with
    | zero => exact absurd (List.cons.inj h).1 (by decide)
    | succ n =>
      obtain ⟨rfl, e⟩ := ih (List.cons.inj h).2
      exact ⟨rfl, e⟩

theorem flatMap_blocks {α : Type} {g g' : α → List Char} (l : List α) (hl : ∀ a, (g a).length = (g' a).length)
    (h : l.flatMap g = l.flatMap g') : ∀ a ∈ l, g a = g' a := by
  induction l with
  | nil => simp
  | cons a l ih =>
    simp only [List.flatMap_cons] at h
    obtain ⟨h1, h2⟩ := List.append_inj h (hl a)
    intro b hb
    rcases List.mem_cons.1 hb with rfl | hb
    · exact h1
    · exact ih h2 b hb

theorem flatMap_length {α : Type} {g : α → List Char} {n : Nat} (l : List α) (hl : ∀ a, (g a).length = n) :
    (l.flatMap g).length = l.length * n := by
  induction l with
  | nil => simp
  | cons a l ih =>
    rw [List.flatMap_cons, List.length_append, ih, hl, List.length_cons, Nat.succ_mul, Nat.add_comm]

theorem plainLines_inj {pre : List Char} {m n m' n' : Nat} {f f' : Nat → Nat → Char}
    (h : (plainLines pre m n f).flatMap (· ++ c!"\n") = (plainLines pre m' n' f').flatMap (· ++ c!"\n")) :
    m = m' ∧ n = n' ∧ ∀ i < m, ∀ j < n, f i j = f' i j := by
  simp only [plainLines, List.flatMap_append, List.flatMap_map, List.flatMap_cons, List.flatMap_nil,
    List.append_nil, List.append_assoc] at h
  obtain ⟨e, h⟩ := replicate_split (List.append_cancel_left h)
  have e' : n = n' := by omega
  subst e'
  have hL : ∀ (f : Nat → Nat → Char) (i : Nat),
      (pre ++ ('|' :: (List.range n).map (f i) ++ (c!"|" ++ c!"\n"))).length = pre.length + (n + 3) := by
    intro f i
    simp
  replace h := (List.nil_append _).symm.trans (h.trans (List.nil_append _))
  have hlen := congrArg List.length h
  rw [List.length_append (bs := pre ++ (List.replicate (n + 2) '-' ++ c!"\n")), flatMap_length _ (hL f),
    List.length_append (bs := pre ++ (List.replicate (n + 2) '-' ++ c!"\n")), flatMap_length _ (hL f'),
    List.length_range, List.length_range] at hlen
  have hm : m = m' := Nat.eq_of_mul_eq_mul_right (by omega : 0 < pre.length + (n + 3)) (by omega)
  subst hm
  refine ⟨rfl, rfl, fun i hi j hj => ?_⟩
  obtain ⟨hb, -⟩ := List.append_inj h (by rw [flatMap_length _ (hL f), flatMap_length _ (hL f')])
  have := flatMap_blocks _ (fun i => by rw [hL, hL]) hb i (List.mem_range.2 hi)
  have := List.append_cancel_left this
  obtain ⟨hrow, -⟩ := List.append_inj (List.cons.inj this).2 (by simp)
  have := congrArg (fun l : List Char => l[j]?) hrow
  simpa [List.getElem?_map, List.getElem?_range, hj] using this

/-- **C112.** The picture determines the size of the world, which cells are walls, which are initial, and which of
the others are goals. -/
theorem pretty_inj {w w' : World} {A A' : Arr} (hw : w.W = some A) (hw' : w'.W = some A')
    (hA : ∀ k, Inside A k → A.cell k.1 k.2 = 0 ∨ A.cell k.1 k.2 = 1)
    (hA' : ∀ k, Inside A' k → A'.cell k.1 k.2 = 0 ∨ A'.cell k.1 k.2 = 1) (pre : List Char)
    (h : pretty w false pre [] false = pretty w' false pre [] false) :
    A.rows = A'.rows ∧ A.cols = A'.cols ∧ ∀ k, Inside A k → A.cell k.1 k.2 = A'.cell k.1 k.2 ∧
      (A.cell k.1 k.2 = 0 → (k ∈ w.inits ↔ k ∈ w'.inits) ∧ (k ∉ w.inits → (k ∈ w.goals ↔ k ∈ w'.goals))) := by
  obtain ⟨f, hf, h1, -⟩ := pretty_spec hw hA pre [] false (Or.inl rfl)
  obtain ⟨f', hf', h1', -⟩ := pretty_spec hw' hA' pre [] false (Or.inl rfl)
  rw [h1, h1'] at h
  injection h with h
  obtain ⟨hr, hc, hff⟩ := plainLines_inj h
  refine ⟨hr, hc, fun k hk => ?_⟩
  obtain ⟨k1, k2, k3, k4⟩ := hk
  have e : ((k.1.toNat : Int), (k.2.toNat : Int)) = k := Prod.ext (by simp; omega) (by simp; omega)
  have hm := hf k.1.toNat (by omega) k.2.toNat (by omega)
  have hm' := hf' k.1.toNat (by omega) k.2.toNat (by omega)
  rw [← hff k.1.toNat (by omega) k.2.toNat (by omega)] at hm'
  rw [e] at hm hm'
  generalize f k.1.toNat k.2.toNat = c at hm hm'
  generalize hb : false = b at hm hm'
  rcases hm with a | ⟨a, b⟩ | ⟨a, b, c, _⟩ | ⟨n, a, b, _, _, c, _⟩ | ⟨_, _, _, a, _⟩ | ⟨a, b, c, _⟩
  · generalize hx : '*' = x at hm'
    rcases hm' with a' | ⟨a', b'⟩ | ⟨a', b', c', _⟩ | ⟨n, a', b', _, _, c', _⟩ | ⟨_, _, _, a', _⟩ | ⟨a', b', c', _⟩
    all_goals first
      | (exfalso; revert hx; decide)
      | (rw [← hb] at c'; cases c')
      | (cases a')
      | (rw [a, a']; exact ⟨rfl, by omega⟩)
  · generalize hx : 'I' = x at hm'
    rcases hm' with a' | ⟨a', b'⟩ | ⟨a', b', c', _⟩ | ⟨n, a', b', _, _, c', _⟩ | ⟨_, _, _, a', _⟩ | ⟨a', b', c', _⟩
    all_goals first
      | (exfalso; revert hx; decide)
      | (rw [← hb] at c'; cases c')
      | (cases a')
      | (rw [a, a']; exact ⟨rfl, fun _ => ⟨⟨fun _ => b', fun _ => b⟩, fun h => absurd b h⟩⟩)
  · generalize hx : 'G' = x at hm'
    rcases hm' with a' | ⟨a', b'⟩ | ⟨a', b', c', _⟩ | ⟨n, a', b', _, _, c', _⟩ | ⟨_, _, _, a', _⟩ | ⟨a', b', c', _⟩
    all_goals first
      | (exfalso; revert hx; decide)
      | (rw [← hb] at c'; cases c')
      | (cases a')
      | (rw [a, a']; exact ⟨rfl, fun _ => ⟨⟨fun h => absurd h b, fun h => absurd h b'⟩, fun _ => ⟨fun _ => c', fun _ => c⟩⟩⟩)
  · rw [← hb] at c; cases c
  · cases a
  · generalize hx : ' ' = x at hm'
    rcases hm' with a' | ⟨a', b'⟩ | ⟨a', b', c', _⟩ | ⟨n, a', b', _, _, c', _⟩ | ⟨_, _, _, a', _⟩ | ⟨a', b', c', _⟩
    all_goals first
      | (exfalso; revert hx; decide)
      | (rw [← hb] at c'; cases c')
      | (cases a')
      | (rw [a, a']; exact ⟨rfl, fun _ => ⟨⟨fun h => absurd h b, fun h => absurd h b'⟩, fun _ => ⟨fun h => absurd h c, fun h => absurd h c'⟩⟩⟩)

/-! ## Examples -/

/-- A world of two rows with a wall, an initial cell and a goal. -/
def tiny : World :=
  ⟨some ⟨2, 3, fun i j => if i = 0 ∧ j = 1 then 1 else 0⟩, [(1, 0)], [(0, 2)], c!"Y", (0, 0)⟩

theorem tiny_binary : ∀ k, Inside ⟨2, 3, fun i j => if i = 0 ∧ j = 1 then 1 else 0⟩ k →
    (if k.1 = 0 ∧ k.2 = 1 then (1 : Int) else 0) = 0 ∨ (if k.1 = 0 ∧ k.2 = 1 then (1 : Int) else 0) = 1 := by
  intro k _
  split <;> simp

/-- Its picture, with a path that waits and goes up. -/
example : (pretty tiny false c!"% " [(1, 0), (1, 1), (1, 1), (1, 2), (0, 2)] false).toOption = some
    (c!"% -----\n% | *G|\n% |I>^|\n% -----\n") := by
  decide +kernel

example : (pretty tiny true [] [] true).toOption = some
    (c!"   0 1 2\n  -------\n 0| |*|0|\n" ++ c!"  -------\n 1|I| | |\n  -------\n") := by
  decide +kernel

example := fun path => pretty_spec (w := tiny) rfl tiny_binary c!"% " path true (Or.inr (by decide))

example := pretty_inj (w := tiny) (w' := tiny) rfl rfl tiny_binary tiny_binary c!"% " rfl

example := pretty_error (w := tiny) rfl true c!"% " [(1, 0), (1, 1)] true

/-- **C112, what fails.** With `goal_order` and more than ten goals the eleventh takes two characters, so that the
lines of the picture have different lengths. -/
theorem pretty_order_counterexample :
    (pretty ⟨some ⟨2, 11, fun _ _ => 0⟩, [], (List.range 11).map fun j => (0, (j : Int)), c!"Y", (0, 0)⟩
      false [] [] true).toOption = some
      (c!"-------------\n|012345678910|\n|           |\n-------------\n") := by
  decide +kernel

/-- **C112**. The picture of an instance that holds no world is the empty string. -/
theorem pretty_empty {w : World} (hw : w.W = none) (showGrid : Bool) (pre : List Char)
    (path : List (Int × Int)) (goalOrder : Bool) : pretty w showGrid pre path goalOrder = .ok [] := by
  rw [pretty, hw]

end Gw
end Tulip
