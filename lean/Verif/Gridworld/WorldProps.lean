import Verif.Gridworld.DumpProps
import Mathlib.Tactic.Linarith
import Mathlib.Tactic.Ring

/-!
# Names of cells, occupancy, windows, scaling and equality of grid worlds (C52, C53, C54, C75, C76)
-/

namespace Tulip

namespace Gw

/-! ### Names (C53) -/

theorem splitOn_append (sep : Char) (s t cur : List Char) :
    splitOnFrom sep cur (s ++ sep :: t) = splitOnFrom sep cur s ++ splitOnFrom sep [] t := by
  induction s generalizing cur with
  | nil => simp [splitOnFrom]
  | cons c s ih =>
    simp only [List.cons_append, splitOnFrom]
    split
    · rw [ih]; rfl
    · rw [ih]

theorem splitOn_none (sep : Char) {s : List Char} (h : sep ∉ s) (cur : List Char) :
    splitOnFrom sep cur s = [cur ++ s] := by
  induction s generalizing cur with
  | nil => simp [splitOnFrom]
  | cons c s ih =>
    simp only [splitOnFrom]
    rw [if_neg (by rintro rfl; simp at h), ih (by simp at h; tauto)]
    simp

theorem splitOn_ne_nil (sep : Char) (s cur : List Char) : splitOnFrom sep cur s ≠ [] := by
  induction s generalizing cur with
  | nil => simp [splitOnFrom]
  | cons c s ih =>
    simp only [splitOnFrom]
    split
    · simp
    · exact ih _

/-- Joining the fragments gives the string. -/
theorem join_splitOn (sep : Char) (s cur : List Char) :
    joinWith [sep] (splitOnFrom sep cur s) = cur ++ s := by
  induction s generalizing cur with
  | nil => simp [splitOnFrom, joinWith]
  | cons c s ih =>
    simp only [splitOnFrom]
    split
    · rename_i h
      subst h
      have := ih []
      cases hs : splitOnFrom c [] s with
      | nil => exact absurd hs (splitOn_ne_nil c s [])
      | cons x xs =>
        rw [hs] at this
        simp only [joinWith, this]
        simp
    · rw [ih]; simp

theorem intChars_noUnderscore (n : Int) : '_' ∉ intChars n := by
  have hd : ∀ n, '_' ∉ digitsOf n := fun n h => absurd (digitsOf_all n _ h) (by decide)
  cases n with
  | ofNat n => exact hd n
  | negSucc n =>
    simp only [intChars, List.mem_cons, not_or]
    exact ⟨by decide, hd _⟩

theorem splitOn_cellName (pre : List Char) (r c : List Char) (hr : '_' ∉ r) (hc : '_' ∉ c) :
    splitOn '_' (pre ++ c!"_" ++ r ++ c!"_" ++ c) = splitOn '_' pre ++ [r, c] := by
  have e : pre ++ c!"_" ++ r ++ c!"_" ++ c = pre ++ '_' :: (r ++ '_' :: c) := by simp
  unfold splitOn
  rw [e, splitOn_append, splitOn_append, splitOn_none _ hr, splitOn_none _ hc]
  simp

/-- **C53.** `extract_coord` inverts the naming of the variables of cells, for every prefix (which may contain
underscores) and all integer coordinates. -/
theorem extractCoord_cellName (pre : List Char) (i j : Int) :
    extractCoord (cellName pre i j) = some (pre, i, j) := by
  unfold extractCoord cellName
  rw [splitOn_cellName pre _ _ (intChars_noUnderscore i) (intChars_noUnderscore j)]
  rw [List.reverse_append]
  have hne := splitOn_ne_nil '_' pre []
  have hj := join_splitOn '_' pre []
  simp only [List.nil_append] at hj
  cases hs : (splitOn '_' pre).reverse with
  | nil => exact absurd (List.reverse_eq_nil_iff.1 hs) hne
  | cons p ps =>
    have hrev : (p :: ps).reverse = splitOn '_' pre := by rw [← hs, List.reverse_reverse]
    simp only [List.reverse_cons, List.reverse_nil, List.nil_append, List.cons_append]
    have hn : ¬ (intChars j = c!"n" ∧ intChars i = c!"n") := by
      rintro ⟨h, _⟩
      have h' := pyInt_intChars j
      rw [h] at h'
      revert h'
      have : pyInt c!"n" = none := by decide +kernel
      rw [this]
      simp
    rw [if_neg hn, pyInt_intChars, pyInt_intChars]
    simp only [Option.some.injEq, Prod.mk.injEq, and_true]
    rw [List.reverse_cons] at hrev
    rw [hrev]
    exact hj

/-- **C53.** The name of "nowhere". -/
theorem extractCoord_nowhere (pre : List Char) :
    extractCoord (pre ++ c!"_n_n") = some (pre, -1, -1) := by
  have e : pre ++ c!"_n_n" = pre ++ c!"_" ++ c!"n" ++ c!"_" ++ c!"n" := by simp
  unfold extractCoord
  rw [e, splitOn_cellName pre _ _ (by decide) (by decide), List.reverse_append]
  have hne := splitOn_ne_nil '_' pre []
  have hj := join_splitOn '_' pre []
  simp only [List.nil_append] at hj
  cases hs : (splitOn '_' pre).reverse with
  | nil => exact absurd (List.reverse_eq_nil_iff.1 hs) hne
  | cons p ps =>
    have hrev : (p :: ps).reverse = splitOn '_' pre := by rw [← hs, List.reverse_reverse]
    simp only [List.reverse_cons, List.reverse_nil, List.nil_append, List.cons_append]
    rw [if_pos ⟨by simp, by simp⟩]
    simp only [Option.some.injEq, Prod.mk.injEq, and_true]
    rw [List.reverse_cons] at hrev
    rw [hrev]
    exact hj

/-- **C53.** Different cells have different names. -/
theorem cellName_inj {pre pre' : List Char} {i j i' j' : Int}
    (h : cellName pre i j = cellName pre' i' j') : pre = pre' ∧ i = i' ∧ j = j' := by
  have := extractCoord_cellName pre i j
  rw [h, extractCoord_cellName] at this
  simp only [Option.some.injEq, Prod.mk.injEq] at this
  exact ⟨this.1.symm, this.2.1.symm, this.2.2.symm⟩

theorem splitOn_length (sep : Char) (s cur : List Char) :
    (splitOnFrom sep cur s).length = s.count sep + 1 := by
  induction s generalizing cur with
  | nil => simp [splitOnFrom]
  | cons c s ih =>
    simp only [splitOnFrom]
    split
    · rename_i h
      subst h
      simp [ih]
    · rename_i h
      rw [ih, List.count_cons_of_ne (fun e => h e)]

/-- **C53.** A name with fewer than two underscores is not the name of a cell. -/
theorem extractCoord_none {s : List Char} (h : s.count '_' < 2) : extractCoord s = none := by
  unfold extractCoord
  have hl := splitOn_length '_' s []
  split
  · rename_i heq
    have := congrArg List.length heq
    simp only [List.length_reverse, List.length_cons] at this
    unfold splitOn at this
    omega
  · rfl

/-- **C53.** The name that `w[key]` returns for a Boolean variable: the prefix, row and column (shifted by the
offset of the world) of the cell that the key denotes. -/
theorem getitem_extract {w : World} {A : Arr} (hw : w.W = some A) {key a : Int × Int}
    (hk : Denotes A key a) :
    ∃ s, getitem w key false false = .ok s ∧
      getitem w key true false = .ok (c!"X " ++ s) ∧
      extractCoord s = some (w.pre, a.1 + w.offset.1, a.2 + w.offset.2) := by
  refine ⟨cellName w.pre (a.1 + w.offset.1) (a.2 + w.offset.2), ?_, ?_, extractCoord_cellName _ _ _⟩
  · unfold getitem
    rw [(keyOf_ok hw).2 hk, ok_bind]
    simp [cellName]
  · unfold getitem
    rw [(keyOf_ok hw).2 hk, ok_bind]
    simp [cellName]

/-- A dictionary after setting keys to 0. -/
theorem get?_foldl_zero {β : Type} (f : β → List Char) (l : List β) (d : Dict (List Char) Int)
    (k : List Char) :
    (l.foldl (fun d b => Dict.set d (f b) 0) d).get? k =
      if k ∈ l.map f then some 0 else d.get? k := by
  induction l generalizing d with
  | nil => simp
  | cons b l ih =>
    rw [List.foldl_cons, ih, Dict.get?_set]
    by_cases h1 : k ∈ l.map f
    · simp [h1]
    · by_cases h2 : f b = k
      · subst h2; simp
      · have : ¬ k = f b := fun e => h2 e.symm
        simp [h1, h2, this]

theorem foldl_indices {δ : Type} (g : δ → Int × Int → δ) (rows cols : Nat) (d : δ) :
    ((List.range rows).foldl (fun d (i : Nat) =>
      (List.range cols).foldl (fun d (j : Nat) => g d ((i : Int), (j : Int))) d) d) =
    (indices rows cols).foldl g d := by
  unfold indices
  rw [List.foldl_flatMap]
  congr 1
  funext d i
  rw [List.foldl_map]

/-- **C76.** The state that places the agent in a cell, with one Boolean variable per cell: exactly the variables of
the cells of the grid are defined, the one of the cell is 1, and the others are 0. -/
theorem state_spec {w : World} {A : Arr} (hw : w.W = some A) {key a offset : Int × Int}
    (hk : Denotes A key a) :
    ∃ d, state w key offset false = .ok d ∧
      (∀ i j : Int, d.get? (cellName w.pre (i + offset.1) (j + offset.2)) =
        if (i, j) = a then some 1
        else if 0 ≤ i ∧ i < A.rows ∧ 0 ≤ j ∧ j < A.cols then some 0 else none) ∧
      ∀ s v, d.get? s = some v → ∃ i j : Int, (0 ≤ i ∧ i < A.rows ∧ 0 ≤ j ∧ j < A.cols) ∧
        s = cellName w.pre (i + offset.1) (j + offset.2) := by
  unfold state
  rw [(keyOf_ok hw).2 hk, ok_bind]
  simp only [Bool.false_eq_true, if_false]
  refine ⟨_, rfl, ?_, ?_⟩
  · intro i j
    rw [Dict.get?_set, foldl_indices (fun d k => Dict.set d
      (cellName w.pre (k.1 + offset.1) (k.2 + offset.2)) 0), get?_foldl_zero
      (fun k : Int × Int => cellName w.pre (k.1 + offset.1) (k.2 + offset.2))]
    by_cases h1 : (i, j) = a
    · subst h1; simp
    · rw [if_neg, if_neg h1]
      · by_cases h2 : 0 ≤ i ∧ i < A.rows ∧ 0 ≤ j ∧ j < A.cols
        · rw [if_pos h2, if_pos]
          exact List.mem_map.2 ⟨(i, j), (mem_indices _ _ _).2 h2, rfl⟩
        · rw [if_neg h2, if_neg]
          · rfl
          · intro hm
            obtain ⟨k, hk', e⟩ := List.mem_map.1 hm
            have := cellName_inj e
            have e1 : k = (i, j) := Prod.ext (by simp; omega) (by simp; omega)
            subst e1
            exact h2 ((mem_indices _ _ _).1 hk')
      · intro e
        have := cellName_inj e
        exact h1 (Prod.ext (by simp; omega) (by simp; omega))
  · intro s v h
    rw [Dict.get?_set, foldl_indices (fun d k => Dict.set d
      (cellName w.pre (k.1 + offset.1) (k.2 + offset.2)) 0), get?_foldl_zero
      (fun k : Int × Int => cellName w.pre (k.1 + offset.1) (k.2 + offset.2))] at h
    split at h
    · rename_i e
      exact ⟨a.1, a.2, ⟨hk.1, hk.2.1, hk.2.2.1, hk.2.2.2.1⟩, e.symm⟩
    · split at h
      · rename_i hm
        obtain ⟨k, hk', e⟩ := List.mem_map.1 hm
        exact ⟨k.1, k.2, (mem_indices _ _ _).1 hk', e.symm⟩
      · cases h

/-- **C76.** The state that places the agent in a cell, with two integer variables. -/
theorem state_nonbool {w : World} {A : Arr} (hw : w.W = some A) {key a offset : Int × Int}
    (hk : Denotes A key a) :
    ∃ d, state w key offset true = .ok d ∧ d.keys = [w.pre ++ c!"_r", w.pre ++ c!"_c"] ∧
      d.get? (w.pre ++ c!"_r") = some (a.1 + offset.1) ∧
      d.get? (w.pre ++ c!"_c") = some (a.2 + offset.2) := by
  have hne : w.pre ++ c!"_r" ≠ w.pre ++ c!"_c" := fun h => by
    have := List.append_cancel_left h
    revert this; decide
  unfold state
  rw [(keyOf_ok hw).2 hk, ok_bind]
  simp only [if_true]
  refine ⟨_, rfl, ?_, ?_, ?_⟩
  · rw [Dict.keys_set, Dict.keys_set]
    simp only [Dict.keys, List.map_nil, List.not_mem_nil, if_false, List.nil_append,
      List.mem_singleton]
    rw [if_neg hne.symm]
    rfl
  · rw [Dict.get?_set, if_neg hne.symm, Dict.get?_set, if_pos rfl]
  · rw [Dict.get?_set, if_pos rfl]

/-! ### Occupancy (C76) -/

/-- **C76.** After marking a cell, that cell has the mark, and the other cells, the initial cells and the goals are
unchanged. -/
theorem mark_spec {w : World} {A : Arr} (hw : w.W = some A) {key a : Int × Int} (hk : Denotes A key a)
    (v : Int) :
    ∃ w' B, mark w key v = .ok w' ∧ w'.W = some B ∧ B.rows = A.rows ∧ B.cols = A.cols ∧
      B.cell a.1 a.2 = v ∧ (∀ k : Int × Int, k ≠ a → B.cell k.1 k.2 = A.cell k.1 k.2) ∧
      w'.inits = w.inits ∧ w'.goals = w.goals ∧ w'.pre = w.pre := by
  refine ⟨{ w with W := some (A.set a.1 a.2 v) }, A.set a.1 a.2 v, ?_, rfl, rfl, rfl, ?_, ?_, rfl, rfl, rfl⟩
  · unfold mark index
    rw [hw]
    simp only [(normKey_spec A key a).2 hk, ok_bind]
  · simp [Arr.set]
  · intro k hk'
    simp only [Arr.set]
    rw [if_neg]
    rintro ⟨e1, e2⟩
    exact hk' (Prod.ext e1 e2)

/-- **C76.** `is_empty` of an index in bounds: whether the cell it denotes is empty. -/
theorem isEmpty_spec {w : World} {A : Arr} (hw : w.W = some A) {key a : Int × Int}
    (hk : Denotes A key a) :
    ∃ b, isEmpty w key false = .ok b ∧ (b = true ↔ Free A a) := by
  refine ⟨A.cell a.1 a.2 == 0, ?_, ?_⟩
  · unfold isEmpty index
    rw [hw]
    simp [(normKey_spec A key a).2 hk, ok_bind]
  · rw [beq_iff_eq]
    exact ⟨fun h => ⟨hk.1, hk.2.1, hk.2.2.1, hk.2.2.2.1, h⟩, fun h => h.2.2.2.2⟩

/-- **C76.** With `extend`, `is_empty` is total: it is true exactly for the free cells. -/
theorem isEmpty_extend {w : World} {A : Arr} (hw : w.W = some A) (a : Int × Int) :
    ∃ b, isEmpty w a true = .ok b ∧ (b = true ↔ Free A a) := by
  by_cases h : 0 ≤ a.1 ∧ a.1 < A.rows ∧ 0 ≤ a.2 ∧ a.2 < A.cols
  · have hk : Denotes A a a := ⟨h.1, h.2.1, h.2.2.1, h.2.2.2, Or.inl rfl, Or.inl rfl⟩
    refine ⟨A.cell a.1 a.2 == 0, ?_, ?_⟩
    · unfold isEmpty index
      rw [hw]
      simp only [true_and]
      rw [if_neg (by omega), (normKey_spec A a a).2 hk]
      rfl
    · rw [beq_iff_eq]
      exact ⟨fun h' => ⟨h.1, h.2.1, h.2.2.1, h.2.2.2, h'⟩, fun h => h.2.2.2.2⟩
  · refine ⟨false, ?_, ?_⟩
    · unfold isEmpty
      rw [hw]
      simp only [true_and]
      rw [if_pos (by omega)]
    · simp only [Bool.false_eq_true, false_iff]
      exact fun hf => h ⟨hf.1, hf.2.1, hf.2.2.1, hf.2.2.2.1⟩

/-- Without `extend`, an index out of bounds raises an exception. -/
theorem isEmpty_error {w : World} {A : Arr} (hw : w.W = some A) {key : Int × Int}
    (hk : ∀ a, ¬ Denotes A key a) : isEmpty w key false = .error .indexError := by
  unfold isEmpty index
  rw [hw]
  cases h : normKey A key with
  | none => simp [h]
  | some a => exact absurd ((normKey_spec A key a).1 h) (hk a)

/-! ### Windows (C52) -/

/-- What a window shows at a position of the plane: the cell of the grid, or an occupied cell outside of it. -/
def windowed (A : Arr) (i j : Int) : Int :=
  if 0 ≤ i ∧ i < A.rows ∧ 0 ≤ j ∧ j < A.cols then A.cell i j else 1

/-- **C52.** A window without extension: the cells of the grid from the offset on, without marks. -/
theorem subworld_spec {w : World} {A : Arr} (hw : w.W = some A) (size offset : Int × Int)
    (pre : List Char) :
    (∀ w', subworld w size offset pre false = .ok w' ↔
      (0 ≤ offset.1 ∧ 0 ≤ offset.2 ∧ 1 ≤ size.1 ∧ 1 ≤ size.2 ∧ offset.1 + size.1 ≤ A.rows ∧
        offset.2 + size.2 ≤ A.cols) ∧
      w' = ⟨some ⟨size.1.toNat, size.2.toNat, fun i j => A.cell (offset.1 + i) (offset.2 + j)⟩, [], [],
        pre, (0, 0)⟩) ∧
    ∀ e, subworld w size offset pre false = .error e → e = .valueError := by
  unfold subworld
  rw [hw]
  simp only [if_true]
  constructor
  · intro w'
    split
    · constructor
      · intro h; cases h
      · rintro ⟨h, _⟩; omega
    · split
      · constructor
        · intro h; cases h
        · rintro ⟨h, _⟩; omega
      · constructor
        · intro h
          cases h
          exact ⟨by omega, rfl⟩
        · rintro ⟨_, rfl⟩; rfl
  · intro e
    split
    · intro h; cases h; rfl
    · split <;> intro h <;> cases h
      rfl

/-- **C52.** A window with extension that meets the grid: the cells of the grid from the offset on, and occupied cells
outside of the grid. -/
theorem subworld_extend {w : World} {A : Arr} (hw : w.W = some A) (size offset : Int × Int)
    (pre : List Char) (hr : 0 < A.rows) (hc : 0 < A.cols) (h1 : offset.1 < A.rows) (h2 : offset.2 < A.cols) (h3 : 0 < offset.1 + size.1)
    (h4 : 0 < offset.2 + size.2) (h5 : 1 ≤ size.1) (h6 : 1 ≤ size.2) :
    ∃ w' B, subworld w size offset pre true = .ok w' ∧ w'.W = some B ∧ w'.inits = [] ∧ w'.goals = [] ∧
      w'.pre = pre ∧ (B.rows : Int) = size.1 ∧ (B.cols : Int) = size.2 ∧
      ∀ i j : Int, 0 ≤ i → i < size.1 → 0 ≤ j → j < size.2 →
        B.cell i j = windowed A (offset.1 + i) (offset.2 + j) := by
  unfold subworld
  rw [hw]
  simp only [Bool.true_eq_false, if_false]
  rw [if_neg (by omega)]
  refine ⟨_, _, rfl, rfl, rfl, rfl, rfl, ?_, ?_, ?_⟩
  · simp only; omega
  · simp only; omega
  · intro i j a1 a2 a3 a4
    simp only [windowed]
    by_cases h : 0 ≤ offset.1 + i ∧ offset.1 + i < A.rows ∧ 0 ≤ offset.2 + j ∧ offset.2 + j < A.cols
    · rw [if_pos h, if_pos (by omega)]
      congr 1 <;> omega
    · rw [if_neg h, if_neg (by omega)]

/-- The cell of a window. -/
def cellOf (r : Except PyErr World) (i j : Int) : Option Int :=
  match r with
  | .ok w => w.W.map fun A => A.cell i j
  | .error _ => none

/-- A window with extension that does not meet the grid shows a cell of the grid. -/
theorem subworld_counterexample :
    let w : World := ⟨some ⟨1, 1, fun _ _ => 0⟩, [], [], c!"Y", (0, 0)⟩
    cellOf (subworld w (1, 1) (5, 5) c!"X" true) 0 0 = some 0 ∧
      windowed ⟨1, 1, fun _ _ => 0⟩ 5 5 = 1 := by decide

example : cellOf (subworld wallWorld (2, 2) (1, 1) c!"X" false) 0 0 = some 1 ∧
    cellOf (subworld wallWorld (2, 2) (1, 1) c!"X" false) 0 1 = some 0 ∧
    cellOf (subworld wallWorld (2, 2) (2, 2) c!"X" false) 0 0 = none ∧
    cellOf (subworld wallWorld (2, 2) (2, 2) c!"X" true) 0 0 = some 0 ∧
    cellOf (subworld wallWorld (2, 2) (2, 2) c!"X" true) 1 0 = some 1 ∧
    cellOf (subworld wallWorld (2, 2) (-1, -1) c!"X" true) 1 1 = some 0 := by decide

/-! ### Scaling (C52, C75) -/

/-- The cell that is the first of the block of a cell. -/
def corner (xf yf : Nat) (k : Int × Int) : Int × Int := (k.1 * yf, k.2 * xf)

/-- The cell in whose block a cell lies. -/
def block (xf yf : Nat) (k : Int × Int) : Int × Int := (k.1 / yf, k.2 / xf)

/-- **C52.** The scaled world: the size is multiplied by the factors, a cell is occupied exactly if it lies in the
block of an occupied cell, and the marks are the first cells of the blocks of the marked cells. -/
theorem scale_spec {w : World} {A : Arr} (hw : w.W = some A) (hA : Coded A) {xf yf : Nat} (hx : 0 < xf)
    (hy : 0 < yf) :
    ∃ w' B, scale w xf yf = .ok w' ∧ w'.W = some B ∧ w'.pre = w.pre ∧ B.rows = A.rows * yf ∧
      B.cols = A.cols * xf ∧
      (∀ i j di dj : Int, 0 ≤ i → i < A.rows → 0 ≤ j → j < A.cols → 0 ≤ di → di < yf → 0 ≤ dj →
        dj < xf → B.cell (i * yf + di) (j * xf + dj) = A.cell i j) ∧
      (∀ k, k ∈ w'.inits ↔ ∃ a ∈ w.inits,
        (0 ≤ a.1 ∧ a.1 < A.rows ∧ 0 ≤ a.2 ∧ a.2 < A.cols) ∧ k = corner xf yf a) ∧
      (∀ k, k ∈ w'.goals ↔ ∃ a ∈ w.goals,
        (0 ≤ a.1 ∧ a.1 < A.rows ∧ 0 ≤ a.2 ∧ a.2 < A.cols) ∧ k = corner xf yf a) := by
  have hx' : (0 : Int) < xf := by omega
  have hy' : (0 : Int) < yf := by omega
  have marks : ∀ (l : List (Int × Int)) (k : Int × Int),
      k ∈ scaleMarks l (A.rows * yf) (A.cols * xf) xf yf ↔ ∃ a ∈ l,
        (0 ≤ a.1 ∧ a.1 < A.rows ∧ 0 ≤ a.2 ∧ a.2 < A.cols) ∧ k = corner xf yf a := by
    intro l k
    simp only [scaleMarks, List.mem_filter, mem_indices, Bool.and_eq_true, beq_iff_eq,
      List.contains_iff_mem]
    constructor
    · rintro ⟨⟨k1, k2, k3, k4⟩, ⟨m1, m2⟩, hm⟩
      have e1 : k.1 / yf * yf = k.1 := Int.ediv_mul_cancel (Int.dvd_of_emod_eq_zero m1)
      have e2 : k.2 / xf * xf = k.2 := Int.ediv_mul_cancel (Int.dvd_of_emod_eq_zero m2)
      push_cast at k2 k4
      refine ⟨_, hm, ⟨Int.ediv_nonneg k1 (by omega), ?_, Int.ediv_nonneg k3 (by omega), ?_⟩, ?_⟩
      · exact (Int.ediv_lt_iff_lt_mul hy').2 k2
      · exact (Int.ediv_lt_iff_lt_mul hx').2 k4
      · exact Prod.ext e1.symm e2.symm
    · rintro ⟨a, ha, ⟨a1, a2, a3, a4⟩, rfl⟩
      simp only [corner]
      refine ⟨⟨by positivity, ?_, by positivity, ?_⟩, ⟨by simp, by simp⟩, ?_⟩
      · push_cast; exact Int.mul_lt_mul_of_pos_right a2 hy'
      · push_cast; exact Int.mul_lt_mul_of_pos_right a4 hx'
      · rw [Int.mul_ediv_cancel _ (by omega), Int.mul_ediv_cancel _ (by omega)]
        exact ha
  unfold scale
  rw [hw]
  refine ⟨_, _, rfl, rfl, rfl, rfl, rfl, ?_, marks w.inits, marks w.goals⟩
  intro i j di dj i1 i2 j1 j2 d1 d2 d3 d4
  simp only
  have e1 : (i * yf + di) / yf = i := by
    rw [Int.add_comm, Int.add_mul_ediv_right _ _ (by omega), Int.ediv_eq_zero_of_lt d1 d2, Int.zero_add]
  have e2 : (j * xf + dj) / xf = j := by
    rw [Int.add_comm, Int.add_mul_ediv_right _ _ (by omega), Int.ediv_eq_zero_of_lt d3 d4, Int.zero_add]
  rw [e1, e2]
  rcases hA i j i1 i2 j1 j2 with h | h <;> rw [h] <;> simp

/-- Cells along a column. -/
theorem reach_down {B : Arr} (r c : Int) (n : Nat) (h : ∀ k : Nat, k ≤ n → Free B (r + k, c)) :
    Reach B (r, c) (r + n, c) := by
  induction n with
  | zero => simpa using Reach.refl (h 0 (by omega))
  | succ n ih =>
    refine (ih fun k hk => h k (by omega)).trans (Reach.step (h n (by omega)) (h (n + 1) (by omega)) ?_)
    simp only [Adjacent, true_and]; push_cast; omega

/-- Cells along a row. -/
theorem reach_right {B : Arr} (r c : Int) (n : Nat) (h : ∀ k : Nat, k ≤ n → Free B (r, c + k)) :
    Reach B (r, c) (r, c + n) := by
  induction n with
  | zero => simpa using Reach.refl (h 0 (by omega))
  | succ n ih =>
    refine (ih fun k hk => h k (by omega)).trans (Reach.step (h n (by omega)) (h (n + 1) (by omega)) ?_)
    simp only [Adjacent, true_and]; push_cast; omega

section
variable {A B : Arr} {xf yf : Nat}

/-- `B` is the scaled `A`. -/
def IsScaled (A B : Arr) (xf yf : Nat) : Prop :=
  B.rows = A.rows * yf ∧ B.cols = A.cols * xf ∧
    ∀ i j di dj : Int, 0 ≤ i → i < A.rows → 0 ≤ j → j < A.cols → 0 ≤ di → di < yf → 0 ≤ dj →
      dj < xf → B.cell (i * yf + di) (j * xf + dj) = A.cell i j

theorem free_scaled (hx : 0 < xf) (hy : 0 < yf) (hs : IsScaled A B xf yf) (k : Int × Int) :
    Free B k ↔ Free A (block xf yf k) := by
  have hx' : (0 : Int) < xf := by omega
  have hy' : (0 : Int) < yf := by omega
  have d1 : k.1 / yf * yf + k.1 % yf = k.1 := by
    have := Int.emod_add_mul_ediv k.1 yf; rw [Int.mul_comm] at this; omega
  have d2 : k.2 / xf * xf + k.2 % xf = k.2 := by
    have := Int.emod_add_mul_ediv k.2 xf; rw [Int.mul_comm] at this; omega
  have hcell : 0 ≤ k.1 / yf → k.1 / yf < A.rows → 0 ≤ k.2 / xf → k.2 / xf < A.cols →
      B.cell k.1 k.2 = A.cell (k.1 / yf) (k.2 / xf) := by
    intro a1 a2 a3 a4
    have := hs.2.2 (k.1 / yf) (k.2 / xf) (k.1 % yf) (k.2 % xf) a1 a2 a3 a4 (Int.emod_nonneg _ (by omega))
      (Int.emod_lt_of_pos _ hy') (Int.emod_nonneg _ (by omega)) (Int.emod_lt_of_pos _ hx')
    rwa [d1, d2] at this
  have n1 : 0 ≤ k.1 / yf ↔ 0 ≤ k.1 := by rw [Int.le_ediv_iff_mul_le hy']; simp
  have n2 : 0 ≤ k.2 / xf ↔ 0 ≤ k.2 := by rw [Int.le_ediv_iff_mul_le hx']; simp
  have l1 : k.1 / yf < A.rows ↔ k.1 < B.rows := by
    rw [Int.ediv_lt_iff_lt_mul hy', hs.1]; push_cast; exact Iff.rfl
  have l2 : k.2 / xf < A.cols ↔ k.2 < B.cols := by
    rw [Int.ediv_lt_iff_lt_mul hx', hs.2.1]; push_cast; exact Iff.rfl
  simp only [Free, block]
  rw [n1, n2, l1, l2]
  constructor
  · rintro ⟨a, b, c, d, e⟩
    exact ⟨a, b, c, d, by rw [← hcell (n1.2 a) (l1.2 b) (n2.2 c) (l2.2 d)]; exact e⟩
  · rintro ⟨a, b, c, d, e⟩
    exact ⟨a, b, c, d, by rw [hcell (n1.2 a) (l1.2 b) (n2.2 c) (l2.2 d)]; exact e⟩

theorem ediv_of_block {m : Nat} {q d : Int} (h1 : 0 ≤ d) (h2 : d < m) :
    (q * m + d) / m = q := by
  rw [Int.add_comm, Int.add_mul_ediv_right _ _ (by omega), Int.ediv_eq_zero_of_lt h1 h2, Int.zero_add]

/-- A free cell reaches the first cell of its block. -/
theorem reach_corner (hx : 0 < xf) (hy : 0 < yf) (hs : IsScaled A B xf yf) {k : Int × Int}
    (hk : Free B k) : Reach B (corner xf yf (block xf yf k)) k := by
  have hx' : (0 : Int) < xf := by omega
  have hy' : (0 : Int) < yf := by omega
  have hf := (free_scaled hx hy hs k).1 hk
  have d1 : k.1 / yf * yf + k.1 % yf = k.1 := by
    have := Int.emod_add_mul_ediv k.1 yf; rw [Int.mul_comm] at this; omega
  have d2 : k.2 / xf * xf + k.2 % xf = k.2 := by
    have := Int.emod_add_mul_ediv k.2 xf; rw [Int.mul_comm] at this; omega
  have m1 := Int.emod_nonneg k.1 (b := (yf : Int)) (by omega)
  have m2 := Int.emod_nonneg k.2 (b := (xf : Int)) (by omega)
  have m3 := Int.emod_lt_of_pos k.1 hy'
  have m4 := Int.emod_lt_of_pos k.2 hx'
  obtain ⟨n1, e1⟩ := Int.eq_ofNat_of_zero_le m1
  obtain ⟨n2, e2⟩ := Int.eq_ofNat_of_zero_le m2
  have hfree : ∀ a b : Nat, a ≤ n1 → b ≤ n2 → Free B (k.1 / yf * yf + a, k.2 / xf * xf + b) := by
    intro a b ha hb
    rw [free_scaled hx hy hs]
    simp only [block]
    rw [ediv_of_block (by omega) (by omega), ediv_of_block (by omega) (by omega)]
    exact hf
  have r1 := reach_down (B := B) (k.1 / yf * yf) (k.2 / xf * xf) n1 (fun a ha => by
    have := hfree a 0 ha (by omega)
    simpa using this)
  have r2 := reach_right (B := B) (k.1 / yf * yf + n1) (k.2 / xf * xf) n2 (fun b hb => hfree n1 b (by omega) hb)
  have := r1.trans r2
  rw [← e1, ← e2, d1, d2] at this
  exact this

/-- The first cells of adjacent free blocks reach each other. -/
theorem reach_adjacent (hx : 0 < xf) (hy : 0 < yf) (hs : IsScaled A B xf yf) {a b : Int × Int}
    (ha : Free A a) (hb : Free A b) (hab : Adjacent a b) :
    Reach B (corner xf yf a) (corner xf yf b) := by
  have hx' : (0 : Int) < xf := by omega
  have hy' : (0 : Int) < yf := by omega
  have down : ∀ a b : Int × Int, Free A a → Free A b → a.2 = b.2 → b.1 = a.1 + 1 →
      Reach B (corner xf yf a) (corner xf yf b) := by
    intro a b ha hb e1 e2
    have h := reach_down (B := B) (a.1 * yf) (a.2 * xf) yf (by
      intro k hk
      rw [free_scaled hx hy hs]
      simp only [block]
      have e3 := ediv_of_block (m := xf) (q := a.2) (d := 0) (by omega) hx'
      rw [Int.add_zero] at e3
      rw [e3]
      by_cases hlt : k < yf
      · rw [ediv_of_block (by omega) (by omega)]
        exact ha
      · have : k = yf := by omega
        subst this
        have e4 : a.1 * (k : Int) + k = b.1 * k + 0 := by rw [e2]; ring
        rw [e4, ediv_of_block (by omega) (by omega), e1]
        exact hb)
    have e5 : (a.1 * (yf : Int) + yf, a.2 * (xf : Int)) = corner xf yf b := by
      simp only [corner, e2, e1]
      congr 1
      ring
    rw [e5] at h
    exact h
  have right : ∀ a b : Int × Int, Free A a → Free A b → a.1 = b.1 → b.2 = a.2 + 1 →
      Reach B (corner xf yf a) (corner xf yf b) := by
    intro a b ha hb e1 e2
    have h := reach_right (B := B) (a.1 * yf) (a.2 * xf) xf (by
      intro k hk
      rw [free_scaled hx hy hs]
      simp only [block]
      have e3 := ediv_of_block (m := yf) (q := a.1) (d := 0) (by omega) hy'
      rw [Int.add_zero] at e3
      rw [e3]
      by_cases hlt : k < xf
      · rw [ediv_of_block (by omega) (by omega)]
        exact ha
      · have : k = xf := by omega
        subst this
        have e4 : a.2 * (k : Int) + k = b.2 * k + 0 := by rw [e2]; ring
        rw [e4, ediv_of_block (by omega) (by omega), e1]
        exact hb)
    have e5 : (a.1 * (yf : Int), a.2 * (xf : Int) + xf) = corner xf yf b := by
      simp only [corner, e2, e1]
      congr 1
      ring
    rw [e5] at h
    exact h
  rcases hab with ⟨e, h | h⟩ | ⟨e, h | h⟩
  · exact right a b ha hb e h
  · exact (right b a hb ha e.symm h).symm
  · exact down a b ha hb e h
  · exact (down b a hb ha e.symm h).symm

theorem ediv_succ {m : Nat} (hm : 0 < m) (x : Int) : (x + 1) / m = x / m ∨ (x + 1) / m = x / m + 1 := by
  have hm' : (0 : Int) < m := by omega
  have h1 : x / m * m ≤ x := Int.ediv_mul_le _ (by omega)
  have h2 : x < (x / m + 1) * m := by
    have := Int.lt_ediv_add_one_mul_self x hm'
    exact this
  have h3 : x / m ≤ (x + 1) / m := (Int.le_ediv_iff_mul_le hm').2 (by omega)
  have h4 : (x + 1) / m < x / m + 2 := by
    rw [Int.ediv_lt_iff_lt_mul hm']
    nlinarith
  omega

/-- Adjacent cells lie in the same or in adjacent blocks. -/
theorem block_adjacent (hx : 0 < xf) (hy : 0 < yf) {a b : Int × Int} (h : Adjacent a b) :
    block xf yf a = block xf yf b ∨ Adjacent (block xf yf a) (block xf yf b) := by
  simp only [Adjacent, block, Prod.mk.injEq]
  rcases h with ⟨e, h | h⟩ | ⟨e, h | h⟩
  · rw [e, h]; rcases ediv_succ hx a.2 with h | h <;> rw [h] <;> simp
  · rw [e, h]; rcases ediv_succ hx b.2 with h | h <;> rw [h] <;> simp
  · rw [e, h]; rcases ediv_succ hy a.1 with h | h <;> rw [h] <;> simp
  · rw [e, h]; rcases ediv_succ hy b.1 with h | h <;> rw [h] <;> simp

/-- **C75.** Scaling preserves reachability: there is a path between two cells of the scaled grid if and only if there
is a path between the cells in whose blocks they lie. -/
theorem scaled_reach (hx : 0 < xf) (hy : 0 < yf) (hs : IsScaled A B xf yf) (a b : Int × Int)
    : Reach B a b ↔ Reach A (block xf yf a) (block xf yf b) := by
  constructor
  · intro h
    have ha := h.free_left
    have ha' := (free_scaled hx hy hs a).1 ha
    have hr := (path_iff ha).2 h
    clear h
    induction hr with
    | refl => exact Reach.refl ha'
    | @tail b c hab hbc ih =>
      have hc' := (free_scaled hx hy hs c).1 hbc.2
      rcases block_adjacent hx hy hbc.1 with e | e
      · rw [← e]; exact ih
      · exact ih.trans (Reach.step ih.free_right hc' e)
  · intro h
    have ha' := h.free_left
    have hb' := h.free_right
    have ha := (free_scaled hx hy hs a).2 ha'
    have hb := (free_scaled hx hy hs b).2 hb'
    have corners : ∀ c, Relation.ReflTransGen (Move A) (block xf yf a) c →
        Reach B (corner xf yf (block xf yf a)) (corner xf yf c) := by
      intro c hc
      induction hc with
      | refl => exact Reach.refl (reach_corner hx hy hs ha).free_left
      | @tail c d hac hcd ih =>
        exact ih.trans (reach_adjacent hx hy hs (Reach.free_right ((path_iff ha').1 hac)) hcd.2 hcd.1)
    exact ((reach_corner hx hy hs ha).symm.trans (corners _ ((path_iff ha').2 h))).trans
      (reach_corner hx hy hs hb)

end

/-- **C75.** In the world that `scale` returns, `is_reachable` between marks gives the result of the original world. -/
theorem scale_reach {w : World} {A : Arr} (hw : w.W = some A) (hA : Coded A) {xf yf : Nat} (hx : 0 < xf)
    (hy : 0 < yf) (a b : Int × Int) :
    ∃ w' B, scale w xf yf = .ok w' ∧ w'.W = some B ∧
      (Reach B (corner xf yf a) (corner xf yf b) ↔ Reach A a b) := by
  obtain ⟨w', B, h1, h2, _, h4, h5, h6, _, _⟩ := scale_spec hw hA hx hy
  refine ⟨w', B, h1, h2, ?_⟩
  have hc : ∀ k : Int × Int, block xf yf (corner xf yf k) = k := by
    intro k
    simp only [block, corner]
    rw [Int.mul_ediv_cancel _ (by omega), Int.mul_ediv_cancel _ (by omega)]
  rw [scaled_reach hx hy ⟨h4, h5, h6⟩, hc, hc]

example : marksOf (scale wallWorld 2 3) = some ([(0, 0)], [(6, 0)], (9, 6)) := by decide +kernel

/-! ### Equality (C54) -/

/-- **C54.** When two worlds compare equal: both are empty, or they have the same size, the same list of initial
cells, the same list of goals, and agree on the occupancy of at least one cell. -/
theorem eqWorld_spec (v w : World) :
    eqWorld v w = true ↔ (v.W = none ∧ w.W = none) ∨ ∃ A B, v.W = some A ∧ w.W = some B ∧
      A.rows = B.rows ∧ A.cols = B.cols ∧ v.inits = w.inits ∧ v.goals = w.goals ∧
      ∃ i j : Int, (0 ≤ i ∧ i < A.rows ∧ 0 ≤ j ∧ j < A.cols) ∧ A.cell i j = B.cell i j := by
  unfold eqWorld
  cases hv : v.W with
  | none =>
    cases hw : w.W with
    | none => simp
    | some B => simp
  | some A =>
    cases hw : w.W with
    | none => simp
    | some B =>
      simp only [size, hv, hw, reduceCtorEq, and_self, false_or]
      by_cases h1 : (A.rows, A.cols) = (B.rows, B.cols)
      · rw [if_neg (by simpa using h1)]
        simp only [Prod.mk.injEq] at h1
        by_cases h2 : (indices A.rows A.cols).all (fun k => A.cell k.1 k.2 != B.cell k.1 k.2) = true
        · rw [if_pos h2]
          simp only [Bool.false_eq_true, false_iff]
          rintro ⟨A', B', e1, e2, _, _, _, _, i, j, hij, hc⟩
          cases e1; cases e2
          have := List.all_eq_true.1 h2 (i, j) ((mem_indices _ _ _).2 hij)
          simp only [bne_iff_ne, ne_eq] at this
          exact this hc
        · rw [if_neg h2]
          have h3 : ∃ i j : Int, (0 ≤ i ∧ i < A.rows ∧ 0 ≤ j ∧ j < A.cols) ∧
              A.cell i j = B.cell i j := by
            rw [List.all_eq_true] at h2
            by_contra hn
            apply h2
            intro k hk
            simp only [bne_iff_ne, ne_eq]
            intro hc
            exact hn ⟨k.1, k.2, (mem_indices _ _ _).1 hk, hc⟩
          by_cases h4 : v.goals = w.goals
          · rw [if_neg (by simpa using h4)]
            by_cases h5 : v.inits = w.inits
            · rw [if_neg (by simpa using h5)]
              simp only [true_iff]
              exact ⟨A, B, rfl, rfl, h1.1, h1.2, h5, h4, h3⟩
            · rw [if_pos (by simpa using h5)]
              simp only [Bool.false_eq_true, false_iff]
              rintro ⟨A', B', e1, e2, _, _, h, _⟩
              exact h5 h
          · rw [if_pos (by simpa using h4)]
            simp only [Bool.false_eq_true, false_iff]
            rintro ⟨A', B', e1, e2, _, _, _, h, _⟩
            exact h4 h
      · rw [if_pos (by simpa using h1)]
        simp only [Bool.false_eq_true, false_iff]
        rintro ⟨A', B', e1, e2, h, h', _⟩
        cases e1; cases e2
        exact h1 (by rw [h, h'])

/-- **C54.** Worlds with at least one cell and with the same size, occupancy, initial cells and goals compare
equal. -/
theorem eqWorld_same {v w : World} {A B : Arr} (hv : v.W = some A) (hw : w.W = some B) (h : SameArr A B)
    (hi : v.inits = w.inits) (hg : v.goals = w.goals) (hr : 0 < A.rows) (hc : 0 < A.cols) :
    eqWorld v w = true := by
  rw [eqWorld_spec]
  exact Or.inr ⟨A, B, hv, hw, h.1, h.2.1, hi, hg, 0, 0, ⟨by omega, by omega, by omega, by omega⟩,
    h.2.2 0 0 (by omega) (by omega) (by omega) (by omega)⟩

/-- **C54.** A world that was loaded and has a cell compares equal to its copy. -/
theorem copy_eq {s : List Char} {w : World} (h : loads s = .ok w) {A : Arr} (hA : w.W = some A)
    (hr : 0 < A.rows) (hc : 0 < A.cols) : ∃ w', copy w = .ok w' ∧ eqWorld w w' = true := by
  obtain ⟨A', s', w', B, h1, h2, h3, h4, h5, h6, h7⟩ := loads_dumps_loaded h
  rw [hA] at h1
  cases h1
  refine ⟨{ w' with pre := w.pre, offset := (0, 0) }, ?_, eqWorld_same hA h4 h5 h6.symm h7.symm hr hc⟩
  unfold copy
  rw [h2, ok_bind]
  unfold newWorld
  rw [h3, ok_bind]

/-- Worlds with different occupancy compare equal. -/
theorem eqWorld_counterexample :
    eqWorld ⟨some ⟨1, 2, fun _ _ => 0⟩, [], [], c!"Y", (0, 0)⟩
      ⟨some ⟨1, 2, fun _ j => j⟩, [], [], c!"Y", (0, 0)⟩ = true ∧
    eqWorld ⟨some ⟨0, 2, fun _ _ => 0⟩, [], [], c!"Y", (0, 0)⟩
      ⟨some ⟨0, 2, fun _ _ => 0⟩, [], [], c!"Y", (0, 0)⟩ = false := by decide

/-! ### Unoccupied worlds -/

/-- The prefix of a result. -/
def preOf : Except PyErr World → Option (List Char)
  | .ok w => some w.pre
  | .error _ => none

/-- **C76.** `unoccupied` returns a world of the given size in which every cell is free, without marks, whatever the
prefix that is asked for. -/
theorem unoccupied_spec (rows cols : Nat) (pre : List Char) :
    ∃ w A, unoccupied (rows, cols) pre = .ok w ∧ w.W = some A ∧ A.rows = rows ∧ A.cols = cols ∧
      (∀ i j : Int, A.cell i j = 0) ∧ w.inits = [] ∧ w.goals = [] ∧ w.pre = c!"Y" := by
  refine ⟨⟨some ⟨rows, cols, fun _ _ => 0⟩, [], [], c!"Y", (0, 0)⟩, _, ?_, rfl, rfl, rfl, fun _ _ => rfl,
    rfl, rfl, rfl⟩
  have hsplit : splitlines (sizeText ⟨rows, cols, fun _ _ => 0⟩) =
      [sizeText ⟨rows, cols, fun _ _ => 0⟩] := by
    have key : ∀ (s cur : List Char), (∀ c ∈ s, isBreak c = false) → cur ++ s ≠ [] →
        splitlinesFrom cur s = [cur ++ s] := by
      intro s
      induction s with
      | nil => intro cur _ h; simp at h; simp [splitlinesFrom, h]
      | cons c s ih =>
        intro cur h hne
        have hc : isBreak c = false := h c (by simp)
        have hcr : c ≠ '\r' := by rintro rfl; revert hc; decide
        have ih' := ih (cur ++ [c]) (fun d hd => h d (by simp [hd])) (by simp)
        unfold splitlinesFrom
        split
        · rename_i heq; cases heq
        · rename_i heq
          exact absurd (List.cons.inj heq).1 hcr
        · rename_i heq
          obtain ⟨rfl, rfl⟩ := List.cons.inj heq
          rw [hc]
          simp only [Bool.false_eq_true, if_false]
          rw [ih']
          simp
    refine key _ [] ?_ ?_
    · intro c hc
      unfold sizeText at hc
      rcases List.mem_append.1 hc with hc | hc
      · exact dig_notBreak (digitsOf_all _ c hc)
      · rcases List.mem_cons.1 hc with rfl | hc
        · decide
        · exact dig_notBreak (digitsOf_all _ c hc)
    · obtain ⟨c, s, e, _⟩ := sizeText_head ⟨rows, cols, fun _ _ => 0⟩
      rw [e]; simp
  have e : intChars (rows : Int) ++ c!" " ++ intChars (cols : Int) =
      sizeText ⟨rows, cols, fun _ _ => 0⟩ := by simp [sizeText, intChars]
  unfold unoccupied newWorld loads
  simp only
  rw [e, hsplit]
  unfold loadLines
  rw [if_neg (sizeText_notSkipped _), sizeLine_text, ok_bind]
  rfl

/-- The prefix that is asked for is ignored. -/
theorem unoccupied_counterexample : preOf (unoccupied (1, 1) c!"X") = some c!"Y" := by decide +kernel

end Gw

end Tulip
