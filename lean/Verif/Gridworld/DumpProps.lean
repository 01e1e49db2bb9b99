import Verif.Gridworld.ReachProps
import Verif.Spec.ParserLemmas
import Mathlib.Data.List.Sort
import Mathlib.Data.Prod.Lex
import Mathlib.Data.List.Basic

/-!
# Grid descriptions (C50)

`loads(dumps(w))` restores the world `w`.
-/

namespace Tulip

namespace Gw

/-! ### Specification -/

/-- The arrays have the same shape and the same elements. -/
def SameArr (A B : Arr) : Prop :=
  A.rows = B.rows ∧ A.cols = B.cols ∧
    ∀ i j : Int, 0 ≤ i → i < A.rows → 0 ≤ j → j < A.cols → A.cell i j = B.cell i j

/-- The elements of the array are 0 (empty) or 1 (occupied). -/
def Coded (A : Arr) : Prop :=
  ∀ i j : Int, 0 ≤ i → i < A.rows → 0 ≤ j → j < A.cols → A.cell i j = 0 ∨ A.cell i j = 1

instance (A : Arr) (a : Int × Int) : Decidable (Free A a) := by unfold Free; infer_instance

/-- The cells of a list that are free, in row-major order and once each. -/
def freeIn (A : Arr) (l : List (Int × Int)) : List (Int × Int) :=
  (indices A.rows A.cols).filter fun k => decide (Free A k ∧ k ∈ l)

/-! ### Lines -/

theorem splitlines_line {s : List Char} (hs : ∀ c ∈ s, isBreak c = false) (cur t : List Char) :
    splitlinesFrom cur (s ++ '\n' :: t) = (cur ++ s) :: splitlinesFrom [] t := by
  induction s generalizing cur with
  | nil =>
    have h : isBreak '\n' = true := by decide
    rw [List.nil_append, List.append_nil]
    conv => lhs; unfold splitlinesFrom
    split
    · rename_i heq; cases heq
    · rename_i heq; cases heq
    · rename_i heq
      cases heq
      rw [if_pos h]
  | cons c s ih =>
    have hc : isBreak c = false := hs c (by simp)
    have hcr : c ≠ '\r' := by rintro rfl; revert hc; decide
    have ih' := ih (fun d hd => hs d (by simp [hd])) (cur ++ [c])
    rw [List.cons_append]
    conv => lhs; unfold splitlinesFrom
    split
    · rename_i heq; cases heq
    · rename_i heq
      have := (List.cons.inj heq).1
      exact absurd this hcr
    · rename_i heq
      obtain ⟨rfl, rfl⟩ := List.cons.inj heq
      rw [hc]
      simp only [Bool.false_eq_true, if_false]
      rw [ih']
      simp

/-- The lines of a text in which every line ends in a newline. -/
theorem splitlines_unlines (ls : List (List Char)) (h : ∀ l ∈ ls, ∀ c ∈ l, isBreak c = false) :
    splitlines (ls.flatMap fun l => l ++ ['\n']) = ls := by
  unfold splitlines
  induction ls with
  | nil => rfl
  | cons l ls ih =>
    rw [List.flatMap_cons, List.append_assoc]
    have := splitlines_line (h l (by simp)) [] (ls.flatMap fun l => l ++ ['\n'])
    simp only [List.singleton_append, List.nil_append] at this ⊢
    rw [this, ih fun l' hl' => h l' (by simp [hl'])]

/-! ### The size line -/

theorem dig_notSpace {c : Char} (h : isDig c = true) : isSpace c = false := by
  simp only [isDig, Bool.and_eq_true, decide_eq_true_eq] at h
  have h1 : 48 ≤ c.toNat := h.1
  have h2 : c.toNat ≤ 57 := h.2
  simp only [isSpace, List.contains_eq_mem, decide_eq_false_iff_not, List.mem_cons, List.not_mem_nil,
    or_false, not_or]
  omega

theorem dig_notBreak {c : Char} (h : isDig c = true) : isBreak c = false := by
  simp only [isDig, Bool.and_eq_true, decide_eq_true_eq] at h
  have h1 : 48 ≤ c.toNat := h.1
  have h2 : c.toNat ≤ 57 := h.2
  simp only [isBreak, List.contains_eq_mem, decide_eq_false_iff_not, List.mem_cons, List.not_mem_nil,
    or_false, not_or]
  omega

theorem digitsOf_all (n : Nat) : ∀ c ∈ digitsOf n, isDig c = true :=
  fun c hc => List.all_eq_true.1 (digitsOf_spec n).1 c hc

theorem strip_noSpace {s : List Char} (h : ∀ c ∈ s, isSpace c = false) : strip s = s := by
  have key : ∀ t : List Char, (∀ c ∈ t, isSpace c = false) → t.dropWhile isSpace = t := by
    intro t ht
    cases t with
    | nil => rfl
    | cons c t => simp [List.dropWhile, ht c (by simp)]
  unfold strip lstrip
  rw [key s h, key s.reverse (fun c hc => h c (by simpa using hc)), List.reverse_reverse]

theorem digitsIn_digits {s : List Char} (hne : s ≠ []) (h : ∀ c ∈ s, isDig c = true) :
    digitsIn s = some s := by
  induction s with
  | nil => exact absurd rfl hne
  | cons c s ih =>
    have hc := h c (by simp)
    cases s with
    | nil => simp [digitsIn, hc]
    | cons d s =>
      have hd : d ≠ '_' := by
        rintro rfl
        have := h '_' (by simp)
        revert this; decide
      have := ih (by simp) (fun x hx => h x (by simp only [List.mem_cons] at hx ⊢; tauto))
      unfold digitsIn
      split
      · rename_i heq; cases heq
      · rename_i heq; cases heq
      · rename_i heq
        have := (List.cons.inj (List.cons.inj heq).2).1
        exact absurd this hd
      · rename_i heq
        obtain ⟨rfl, rfl⟩ := List.cons.inj heq
        rw [if_pos hc, this]; rfl

theorem pyInt_digits (n : Nat) : pyInt (digitsOf n) = some (n : Int) := by
  obtain ⟨h1, h2, h3⟩ := digitsOf_spec n
  have hall := digitsOf_all n
  unfold pyInt
  rw [strip_noSpace fun c hc => dig_notSpace (hall c hc)]
  have hd := digitsIn_digits h2 hall
  split
  · rename_i heq
    have := hall '-' (by rw [heq]; simp)
    exact absurd this (by decide)
  · rename_i heq
    have := hall '+' (by rw [heq]; simp)
    exact absurd this (by decide)
  · rw [hd]; simp [h3]

theorem pyInt_intChars (n : Int) : pyInt (intChars n) = some n := by
  cases n with
  | ofNat n => exact pyInt_digits n
  | negSucc n =>
    obtain ⟨h1, h2, h3⟩ := digitsOf_spec (n + 1)
    have hall := digitsOf_all (n + 1)
    unfold pyInt intChars
    rw [strip_noSpace]
    · simp only
      rw [digitsIn_digits h2 hall]
      simp only [Option.map_some, h3]
      rfl
    · intro c hc
      rcases List.mem_cons.1 hc with rfl | hc
      · decide
      · exact dig_notSpace (hall c hc)

theorem words_two {s t : List Char} (hs : s ≠ []) (ht : t ≠ []) (h1 : ∀ c ∈ s, isSpace c = false)
    (h2 : ∀ c ∈ t, isSpace c = false) : words (s ++ ' ' :: t) = [s, t] := by
  have tail : ∀ (t cur : List Char), (∀ c ∈ t, isSpace c = false) → cur ++ t ≠ [] →
      wordsFrom cur t = [cur ++ t] := by
    intro t
    induction t with
    | nil => intro cur _ hne; simp at hne; simp [wordsFrom, hne]
    | cons c t ih =>
      intro cur h hne
      unfold wordsFrom
      rw [h c (by simp)]
      simp only [Bool.false_eq_true, if_false]
      rw [ih (cur ++ [c]) (fun d hd => h d (by simp [hd])) (by simp)]
      simp
  have head : ∀ (s cur : List Char), (∀ c ∈ s, isSpace c = false) → cur ++ s ≠ [] →
      wordsFrom cur (s ++ ' ' :: t) = (cur ++ s) :: wordsFrom [] t := by
    intro s
    induction s with
    | nil =>
      intro cur _ hne
      have hsp : isSpace ' ' = true := by decide
      simp only [List.append_nil] at hne
      rw [List.nil_append]
      conv => lhs; unfold wordsFrom
      rw [if_pos hsp, if_neg hne, List.append_nil]
    | cons c s ih =>
      intro cur h hne
      rw [List.cons_append]
      conv => lhs; unfold wordsFrom
      rw [h c (by simp)]
      simp only [Bool.false_eq_true, if_false]
      rw [ih (cur ++ [c]) (fun d hd => h d (by simp [hd])) (by simp)]
      simp
  unfold words
  rw [head s [] h1 (by simpa using hs), tail t [] h2 (by simpa using ht)]
  rfl

/-- The size line that `dumps` writes. -/
def sizeText (A : Arr) : List Char := digitsOf A.rows ++ ' ' :: digitsOf A.cols

theorem sizeLine_text (A : Arr) : sizeLine (sizeText A) = .ok ⟨A.rows, A.cols, fun _ _ => 0⟩ := by
  unfold sizeLine sizeText
  rw [words_two (digitsOf_spec _).2.1 (digitsOf_spec _).2.1
    (fun c hc => dig_notSpace (digitsOf_all _ c hc)) (fun c hc => dig_notSpace (digitsOf_all _ c hc))]
  simp only [pyInt_digits]
  rw [if_neg (by omega)]
  simp

theorem sizeText_head (A : Arr) : ∃ c s, sizeText A = c :: s ∧ isDig c = true := by
  unfold sizeText
  exact digitsOf_head _ _

theorem sizeText_notSkipped (A : Arr) :
    ¬ (strip (sizeText A) = [] ∨ (lstrip (sizeText A)).head? = some '#') := by
  obtain ⟨c, s, e, hc⟩ := sizeText_head A
  have hsp := dig_notSpace hc
  have hl : lstrip (sizeText A) = c :: s := by
    unfold lstrip
    rw [e]
    simp [List.dropWhile, hsp]
  rintro (h | h)
  · unfold strip at h
    rw [hl, List.reverse_eq_nil_iff] at h
    have hmem : ∀ t : List Char, t.dropWhile isSpace = [] → ∀ d ∈ t, isSpace d = true := by
      intro t
      induction t with
      | nil => simp
      | cons d t ih =>
        intro ht e he
        by_cases hd : isSpace d = true
        · rw [List.dropWhile_cons_of_pos hd] at ht
          rcases List.mem_cons.1 he with rfl | he
          · exact hd
          · exact ih ht e he
        · rw [List.dropWhile_cons_of_neg hd] at ht
          cases ht
    have := hmem _ h c (by simp)
    rw [hsp] at this; cases this
  · rw [hl] at h
    simp only [List.head?_cons, Option.some.injEq] at h
    subst h
    revert hc; decide

/-! ### Rows -/

/-- The symbol of a cell. -/
def sym (w : World) (A : Arr) (i j : Nat) : Char :=
  if A.cell i j = 0 then
    (if ((i : Int), (j : Int)) ∈ w.inits then 'I'
      else if ((i : Int), (j : Int)) ∈ w.goals then 'G' else ' ')
  else '*'

theorem symbol_ok {w : World} {A : Arr} (hA : Coded A) {i j : Nat} (hi : i < A.rows) (hj : j < A.cols) :
    symbol w A i j = .ok (sym w A i j) := by
  unfold symbol sym
  rcases hA i j (by omega) (by omega) (by omega) (by omega) with h | h
  · simp [h]
  · simp [h]

theorem dumpRow_ok {w : World} {A : Arr} (hA : Coded A) {i : Nat} (hi : i < A.rows) (l : List Nat)
    (hl : ∀ j ∈ l, j < A.cols) : dumpRow w A i l = .ok (l.map (sym w A i)) := by
  induction l with
  | nil => rfl
  | cons j l ih =>
    simp only [dumpRow, symbol_ok hA hi (hl j (by simp)), ih (fun j hj => hl j (by simp [hj])), ok_bind,
      List.map_cons]

/-- The line of a row. -/
def rowText (w : World) (A : Arr) (i : Nat) : List Char := (List.range A.cols).map (sym w A i)

theorem dumpRows_ok {w : World} {A : Arr} (hA : Coded A) (pre : List Char) (l : List Nat)
    (hl : ∀ i ∈ l, i < A.rows) :
    dumpRows w A pre l = .ok (l.flatMap fun i => pre ++ rowText w A i ++ ['\n']) := by
  induction l with
  | nil => rfl
  | cons i l ih =>
    simp only [dumpRows, dumpRow_ok hA (hl i (by simp)) (List.range A.cols) (by simp),
      ih (fun j hj => hl j (by simp [hj])), ok_bind, List.flatMap_cons]
    rfl

theorem dumps_ok {w : World} {A : Arr} (hw : w.W = some A) (hA : Coded A) :
    dumps w [] = .ok ((sizeText A :: (List.range A.rows).map (rowText w A)).flatMap
      fun l => l ++ ['\n']) := by
  unfold dumps
  rw [hw]
  simp only [dumpRows_ok hA [] (List.range A.rows) (by simp), ok_bind]
  simp [sizeText, List.flatMap_map]

theorem sym_cases (w : World) (A : Arr) (i j : Nat) :
    sym w A i j = ' ' ∨ sym w A i j = '*' ∨ sym w A i j = 'I' ∨ sym w A i j = 'G' := by
  unfold sym
  split
  · split
    · simp
    · split <;> simp
  · simp

theorem sym_notBreak (w : World) (A : Arr) (i j : Nat) : isBreak (sym w A i j) = false := by
  rcases sym_cases w A i j with h | h | h | h <;> rw [h] <;> decide

/-- The effect of reading one row that `dumps` wrote. -/
theorem loadRow_ok {w : World} {A : Arr} (hA : Coded A) {i : Nat} (hi : i < A.rows) (n j : Nat)
    (hn : j + n = A.cols) {B : Arr} (hB : B.rows = A.rows ∧ B.cols = A.cols)
    (h0 : ∀ j' : Int, (j : Int) ≤ j' → B.cell i j' = 0) (ini goal : List (Int × Int)) :
    ∃ B' : Arr, B'.rows = A.rows ∧ B'.cols = A.cols ∧
      (∀ i' j' : Int, B'.cell i' j' =
        if i' = i ∧ (j : Int) ≤ j' ∧ j' < A.cols then A.cell i' j' else B.cell i' j') ∧
      loadRow i j ((List.range' j n).map (sym w A i)) (B, ini, goal) =
        .ok (B',
          ini ++ ((List.range' j n).map fun (j : Nat) => ((i : Int), (j : Int))).filter
            (fun k => decide (Free A k ∧ k ∈ w.inits)),
          goal ++ ((List.range' j n).map fun (j : Nat) => ((i : Int), (j : Int))).filter
            (fun k => decide (Free A k ∧ k ∈ w.goals ∧ k ∉ w.inits))) := by
  induction n generalizing j B ini goal with
  | zero =>
    refine ⟨B, hB.1, hB.2, ?_, by simp [loadRow]⟩
    intro i' j'
    rw [if_neg (by omega)]
  | succ n ih =>
    have hj : j < A.cols := by omega
    rw [List.range'_succ]
    simp only [List.map_cons, List.filter_cons]
    have hfree : Free A ((i : Int), (j : Int)) ↔ A.cell i j = 0 := by
      unfold Free
      simp only
      constructor
      · exact fun h => h.2.2.2.2
      · exact fun h => ⟨by omega, by omega, by omega, by omega, h⟩
    have hbj : ¬ j ≥ B.cols := by rw [hB.2]; omega
    unfold loadRow
    simp only [if_neg hbj]
    have step : ∀ (C : Arr) (ini' goal' : List (Int × Int)),
        (C.rows = A.rows ∧ C.cols = A.cols) → (∀ i' j' : Int, C.cell i' j' =
          if i' = i ∧ j' = j then A.cell i' j' else B.cell i' j') →
        ∃ B' : Arr, B'.rows = A.rows ∧ B'.cols = A.cols ∧
          (∀ i' j' : Int, B'.cell i' j' =
            if i' = i ∧ (j : Int) ≤ j' ∧ j' < A.cols then A.cell i' j' else B.cell i' j') ∧
          loadRow i (j + 1) ((List.range' (j + 1) n).map (sym w A i)) (C, ini', goal') =
            .ok (B',
              ini' ++ ((List.range' (j + 1) n).map fun (j : Nat) => ((i : Int), (j : Int))).filter
                (fun k => decide (Free A k ∧ k ∈ w.inits)),
              goal' ++ ((List.range' (j + 1) n).map fun (j : Nat) => ((i : Int), (j : Int))).filter
                (fun k => decide (Free A k ∧ k ∈ w.goals ∧ k ∉ w.inits))) := by
      intro C ini' goal' hC hcell
      obtain ⟨B', b1, b2, b3, b4⟩ := ih (j + 1) (by omega) hC (by
        intro j' hj'
        rw [hcell, if_neg (by omega)]
        exact h0 j' (by omega)) ini' goal'
      refine ⟨B', b1, b2, ?_, b4⟩
      intro i' j'
      rw [b3, hcell]
      by_cases h1 : i' = i
      · subst h1
        by_cases h2 : j' = j
        · subst h2
          rw [if_neg (by omega), if_pos ⟨rfl, rfl⟩, if_pos (by omega)]
        · simp only [true_and, h2, if_false]
          by_cases h3 : (j : Int) + 1 ≤ j' ∧ j' < A.cols
          · rw [if_pos (by push_cast; exact h3), if_pos (by omega)]
          · rw [if_neg (by push_cast; exact h3), if_neg (by omega)]
      · simp [h1]
    have hstay : ∀ i' j' : Int, A.cell i j = 0 →
        B.cell i' j' = if i' = i ∧ j' = j then A.cell i' j' else B.cell i' j' := by
      intro i' j' hz
      by_cases h : i' = i ∧ j' = j
      · rw [if_pos h, h.1, h.2, hz]
        exact h0 j (by omega)
      · rw [if_neg h]
    have hset : ∀ (v i' j' : Int), A.cell i j = v →
        (B.set i j v).cell i' j' = if i' = i ∧ j' = j then A.cell i' j' else B.cell i' j' := by
      intro v i' j' hv
      simp only [Arr.set]
      by_cases h : i' = i ∧ j' = j
      · rw [if_pos h, if_pos h, h.1, h.2, hv]
      · rw [if_neg h, if_neg h]
    rcases hA i j (by omega) (by omega) (by omega) (by omega) with hz | hz
    · by_cases hini : ((i : Int), (j : Int)) ∈ w.inits
      · have hs : sym w A i j = 'I' := by simp [sym, hz, hini]
        rw [hs]
        have := step B (ini ++ [((i : Int), (j : Int))]) goal hB (fun i' j' => hstay i' j' hz)
        simpa [hfree, hz, hini] using this
      · by_cases hgoal : ((i : Int), (j : Int)) ∈ w.goals
        · have hs : sym w A i j = 'G' := by simp [sym, hz, hini, hgoal]
          rw [hs]
          have := step B ini (goal ++ [((i : Int), (j : Int))]) hB (fun i' j' => hstay i' j' hz)
          simpa [hfree, hz, hini, hgoal] using this
        · have hs : sym w A i j = ' ' := by simp [sym, hz, hini, hgoal]
          rw [hs]
          have := step (B.set i j 0) ini goal hB (fun i' j' => hset 0 i' j' hz)
          simpa [hfree, hz, hini, hgoal] using this
    · have hs : sym w A i j = '*' := by simp [sym, hz]
      rw [hs]
      have := step (B.set i j 1) ini goal hB (fun i' j' => hset 1 i' j' hz)
      simpa [hfree, hz] using this

/-- The pairs of indices of the rows from `i` on. -/
def indicesFrom (i n cols : Nat) : List (Int × Int) :=
  (List.range' i n).flatMap fun (i : Nat) => (List.range cols).map fun (j : Nat) => ((i : Int), (j : Int))

theorem loadRows_ok {w : World} {A : Arr} (hA : Coded A) (n i : Nat) (hn : i + n = A.rows) {B : Arr}
    (hB : B.rows = A.rows ∧ B.cols = A.cols)
    (h0 : ∀ i' j' : Int, (i : Int) ≤ i' → B.cell i' j' = 0) (ini goal : List (Int × Int)) :
    ∃ B' : Arr, B'.rows = A.rows ∧ B'.cols = A.cols ∧
      (∀ i' j' : Int, B'.cell i' j' =
        if (i : Int) ≤ i' ∧ i' < A.rows ∧ 0 ≤ j' ∧ j' < A.cols then A.cell i' j' else B.cell i' j') ∧
      loadRows i ((List.range' i n).map (rowText w A)) (B, ini, goal) =
        .ok (B',
          ini ++ (indicesFrom i n A.cols).filter (fun k => decide (Free A k ∧ k ∈ w.inits)),
          goal ++ (indicesFrom i n A.cols).filter
            (fun k => decide (Free A k ∧ k ∈ w.goals ∧ k ∉ w.inits))) := by
  induction n generalizing i B ini goal with
  | zero =>
    refine ⟨B, hB.1, hB.2, ?_, by simp [loadRows, indicesFrom]⟩
    intro i' j'
    rw [if_neg (by omega)]
  | succ n ih =>
    have hi : i < A.rows := by omega
    have hbi : ¬ i ≥ B.rows := by rw [hB.1]; omega
    obtain ⟨C, c1, c2, c3, c4⟩ := loadRow_ok (w := w) hA hi A.cols 0 (by omega) hB
      (fun j' _ => h0 i j' (by omega)) ini goal
    obtain ⟨B', b1, b2, b3, b4⟩ := ih (i + 1) (by omega) (B := C) ⟨c1, c2⟩ (by
      intro i' j' h
      rw [c3, if_neg (by omega)]
      exact h0 i' j' (by omega))
      (ini ++ ((List.range' 0 A.cols).map fun (j : Nat) => ((i : Int), (j : Int))).filter
            (fun k => decide (Free A k ∧ k ∈ w.inits)))
      (goal ++ ((List.range' 0 A.cols).map fun (j : Nat) => ((i : Int), (j : Int))).filter
            (fun k => decide (Free A k ∧ k ∈ w.goals ∧ k ∉ w.inits)))
    refine ⟨B', b1, b2, ?_, ?_⟩
    · intro i' j'
      rw [b3, c3]
      by_cases h1 : i' = i
      · subst h1
        rw [if_neg (by omega)]
        by_cases h2 : 0 ≤ j' ∧ j' < A.cols
        · rw [if_pos (by push_cast; exact ⟨rfl, h2⟩), if_pos ⟨by omega, by omega, h2⟩]
        · rw [if_neg (by push_cast; exact fun h => h2 h.2), if_neg (fun h => h2 h.2.2)]
      · simp only [h1, false_and, if_false]
        by_cases h2 : (i : Int) + 1 ≤ i' ∧ i' < A.rows ∧ 0 ≤ j' ∧ j' < A.cols
        · rw [if_pos (by push_cast; exact h2), if_pos ⟨by omega, h2.2⟩]
        · rw [if_neg (by push_cast; exact h2), if_neg (by
            rintro ⟨a, b⟩; exact h2 ⟨by omega, b⟩)]
    · rw [List.range'_succ, List.map_cons]
      unfold loadRows
      simp only [if_neg hbi]
      have hrow : rowText w A i = (List.range' 0 A.cols).map (sym w A i) := by
        unfold rowText
        rw [List.range_eq_range']
      rw [hrow, c4, ok_bind, b4]
      simp only [indicesFrom, List.range'_succ, List.flatMap_cons, List.filter_append,
        List.range_eq_range', List.append_assoc]

/-- **C50.** Loading the dump of a world: the size and occupancy are restored; the initial cells of the result are
the free initial cells, and its goals are the free goals that are not initial cells, in row-major order. -/
theorem loads_dumps {w : World} {A : Arr} (hw : w.W = some A) (hA : Coded A) :
    ∃ s w' B, dumps w [] = .ok s ∧ loads s = .ok w' ∧ w'.W = some B ∧ SameArr A B ∧
      w'.inits = freeIn A w.inits ∧
      w'.goals = (freeIn A w.goals).filter (fun k => decide (k ∉ w.inits)) := by
  obtain ⟨B, b1, b2, b3, b4⟩ := loadRows_ok (w := w) hA A.rows 0 (by omega)
    (B := ⟨A.rows, A.cols, fun _ _ => 0⟩) ⟨rfl, rfl⟩ (fun _ _ _ => rfl) [] []
  refine ⟨_, ⟨some B, freeIn A w.inits, (freeIn A w.goals).filter (fun k => decide (k ∉ w.inits)),
    c!"Y", (0, 0)⟩, B, dumps_ok hw hA, ?_, rfl, ?_, rfl, rfl⟩
  · unfold loads
    rw [splitlines_unlines]
    · unfold loadLines
      rw [if_neg (sizeText_notSkipped A), sizeLine_text, ok_bind]
      rw [List.range_eq_range', b4]
      simp only [ok_bind, freeIn, indicesFrom, indices, List.nil_append, List.filter_filter,
        List.range_eq_range']
      congr 3
      funext k
      by_cases h1 : Free A k <;> by_cases h2 : k ∈ w.goals <;> by_cases h3 : k ∈ w.inits <;>
        simp [h1, h2, h3]
    · intro l hl c hc
      rcases List.mem_cons.1 hl with rfl | hl
      · unfold sizeText at hc
        rcases List.mem_append.1 hc with hc | hc
        · exact dig_notBreak (digitsOf_all _ c hc)
        · rcases List.mem_cons.1 hc with rfl | hc
          · decide
          · exact dig_notBreak (digitsOf_all _ c hc)
      · obtain ⟨i, _, rfl⟩ := List.mem_map.1 hl
        unfold rowText at hc
        obtain ⟨j, _, rfl⟩ := List.mem_map.1 hc
        exact sym_notBreak w A i j
  · refine ⟨b1.symm, b2.symm, ?_⟩
    intro i j h1 h2 h3 h4
    rw [b3, if_pos (by omega)]

theorem mem_freeIn (A : Arr) (l : List (Int × Int)) (k : Int × Int) :
    k ∈ freeIn A l ↔ Free A k ∧ k ∈ l := by
  simp only [freeIn, List.mem_filter, decide_eq_true_eq, mem_indices]
  exact ⟨fun h => h.2, fun h => ⟨⟨h.1.1, h.1.2.1, h.1.2.2.1, h.1.2.2.2.1⟩, h⟩⟩

/-- **C50.** If the initial cells and goals of a world are free cells and no cell is both, then loading the dump of
the world restores its size, its occupancy, its set of initial cells and its set of goals. -/
theorem loads_dumps_sets {w : World} {A : Arr} (hw : w.W = some A) (hA : Coded A)
    (hi : ∀ k ∈ w.inits, Free A k) (hg : ∀ k ∈ w.goals, Free A k) (hd : ∀ k ∈ w.goals, k ∉ w.inits) :
    ∃ s w' B, dumps w [] = .ok s ∧ loads s = .ok w' ∧ w'.W = some B ∧ SameArr A B ∧
      (∀ k, k ∈ w'.inits ↔ k ∈ w.inits) ∧ (∀ k, k ∈ w'.goals ↔ k ∈ w.goals) := by
  obtain ⟨s, w', B, h1, h2, h3, h4, h5, h6⟩ := loads_dumps hw hA
  refine ⟨s, w', B, h1, h2, h3, h4, ?_, ?_⟩
  · intro k
    rw [h5, mem_freeIn]
    exact ⟨fun h => h.2, fun h => ⟨hi k h, h⟩⟩
  · intro k
    rw [h6, List.mem_filter, mem_freeIn]
    simp only [decide_eq_true_eq]
    exact ⟨fun h => h.1.2, fun h => ⟨⟨hg k h, h⟩, hd k h⟩⟩

/-! ### Worlds that were loaded -/

/-- Row-major order. -/
def Before (a b : Int × Int) : Prop := a.1 < b.1 ∨ (a.1 = b.1 ∧ a.2 < b.2)

/-- What reading up to row `i` and column `j` guarantees. -/
structure LoadInv (i j : Nat) (s : Arr × List (Int × Int) × List (Int × Int)) : Prop where
  coded : ∀ i' j' : Int, s.1.cell i' j' = 0 ∨ s.1.cell i' j' = 1
  rest : ∀ i' j' : Int, ¬ Before (i', j') ((i : Int), (j : Int)) → s.1.cell i' j' = 0
  ini : s.2.1.Pairwise Before
  goal : s.2.2.Pairwise Before
  iniFree : ∀ k ∈ s.2.1, Free s.1 k ∧ Before k ((i : Int), (j : Int))
  goalFree : ∀ k ∈ s.2.2, Free s.1 k ∧ Before k ((i : Int), (j : Int))
  disj : ∀ k ∈ s.2.2, k ∉ s.2.1

theorem before_trans {a b c : Int × Int} (h : Before a b) (h' : Before b c) : Before a c := by
  simp only [Before] at *; omega

theorem LoadInv.advance {i j i' j' : Nat} {s : Arr × List (Int × Int) × List (Int × Int)}
    (h : LoadInv i j s) (hb : i < i' ∨ (i = i' ∧ j ≤ j')) : LoadInv i' j' s := by
  have hk : ∀ k, Before k ((i : Int), (j : Int)) → Before k ((i' : Int), (j' : Int)) := by
    intro k hk
    simp only [Before] at *; omega
  refine ⟨h.coded, ?_, h.ini, h.goal, ?_, ?_, h.disj⟩
  · intro a b hn
    exact h.rest a b fun hb' => hn (hk _ hb')
  · intro k hm
    exact ⟨(h.iniFree k hm).1, hk _ (h.iniFree k hm).2⟩
  · intro k hm
    exact ⟨(h.goalFree k hm).1, hk _ (h.goalFree k hm).2⟩

theorem loadRow_inv {i : Nat} (l : List Char) (j : Nat)
    {s s' : Arr × List (Int × Int) × List (Int × Int)} (hi : i < s.1.rows) (h : LoadInv i j s)
    (hok : loadRow i j l s = .ok s') :
    LoadInv (i + 1) 0 s' ∧ s'.1.rows = s.1.rows ∧ s'.1.cols = s.1.cols := by
  induction l generalizing j s with
  | nil =>
    unfold loadRow at hok
    cases hok
    exact ⟨h.advance (by omega), rfl, rfl⟩
  | cons c l ih =>
    obtain ⟨A, ini, goal⟩ := s
    unfold loadRow at hok
    simp only at hok hi
    split at hok
    · cases hok
      exact ⟨h.advance (by omega), rfl, rfl⟩
    · rename_i hj
      have hj : j < A.cols := by omega
      have hadv : LoadInv i (j + 1) (A, ini, goal) := h.advance (by omega)
      have hset : ∀ v : Int, (v = 0 ∨ v = 1) → LoadInv i (j + 1) (A.set i j v, ini, goal) := by
        intro v hv
        have hcell : ∀ k : Int × Int, Before k ((i : Int), (j : Int)) →
            (A.set i j v).cell k.1 k.2 = A.cell k.1 k.2 := by
          intro k hk
          simp only [Arr.set]
          rw [if_neg]
          rintro ⟨e1, e2⟩
          simp only [Before] at hk
          omega
        refine ⟨?_, ?_, h.ini, h.goal, ?_, ?_, h.disj⟩
        · intro a b
          simp only [Arr.set]
          split
          · exact hv
          · exact h.coded a b
        · intro a b hn
          simp only [Arr.set]
          rw [if_neg]
          · exact h.rest a b (fun hb => hn (by simp only [Before] at *; omega))
          · rintro ⟨rfl, rfl⟩
            exact hn (by simp only [Before, true_and]; omega)
        · intro k hk
          obtain ⟨hf, hb⟩ := h.iniFree k hk
          refine ⟨⟨hf.1, hf.2.1, hf.2.2.1, hf.2.2.2.1, ?_⟩, (hadv.iniFree k hk).2⟩
          exact (hcell k hb).trans hf.2.2.2.2
        · intro k hk
          obtain ⟨hf, hb⟩ := h.goalFree k hk
          refine ⟨⟨hf.1, hf.2.1, hf.2.2.1, hf.2.2.2.1, ?_⟩, (hadv.goalFree k hk).2⟩
          exact (hcell k hb).trans hf.2.2.2.2
      have hnew : Free A ((i : Int), (j : Int)) ∧
          Before ((i : Int), (j : Int)) ((i : Int), ((j + 1 : Nat) : Int)) := by
        refine ⟨⟨by simp, by simpa using hi, by simp, by simpa using hj, ?_⟩, ?_⟩
        · exact h.rest i j (by simp only [Before]; omega)
        · simp only [Before, true_and]; omega
      have hirr : ¬ Before ((i : Int), (j : Int)) ((i : Int), (j : Int)) := by
        simp only [Before]; omega
      split at hok
      · exact ih (j + 1) (s := (A.set i j 0, ini, goal)) hi (hset 0 (Or.inl rfl)) hok
      · split at hok
        · exact ih (j + 1) (s := (A.set i j 1, ini, goal)) hi (hset 1 (Or.inr rfl)) hok
        · split at hok
          · refine ih (j + 1) hi (s := (A, ini ++ [((i : Int), (j : Int))], goal))
              ⟨hadv.coded, hadv.rest, ?_, hadv.goal, ?_, hadv.goalFree, ?_⟩ hok
            · refine List.pairwise_append.2 ⟨h.ini, List.pairwise_singleton _ _, ?_⟩
              intro a ha b hb
              rw [List.mem_singleton.1 hb]
              exact (h.iniFree a ha).2
            · intro k hk
              rcases List.mem_append.1 hk with hk | hk
              · exact hadv.iniFree k hk
              · rw [List.mem_singleton.1 hk]; exact hnew
            · intro k hk hm
              rcases List.mem_append.1 hm with hm | hm
              · exact h.disj k hk hm
              · rw [List.mem_singleton.1 hm] at hk
                exact hirr (h.goalFree _ hk).2
          · split at hok
            · refine ih (j + 1) hi (s := (A, ini, goal ++ [((i : Int), (j : Int))]))
                ⟨hadv.coded, hadv.rest, hadv.ini, ?_, hadv.iniFree, ?_, ?_⟩ hok
              · refine List.pairwise_append.2 ⟨h.goal, List.pairwise_singleton _ _, ?_⟩
                intro a ha b hb
                rw [List.mem_singleton.1 hb]
                exact (h.goalFree a ha).2
              · intro k hk
                rcases List.mem_append.1 hk with hk | hk
                · exact hadv.goalFree k hk
                · rw [List.mem_singleton.1 hk]; exact hnew
              · intro k hk hm
                rcases List.mem_append.1 hk with hk | hk
                · exact h.disj k hk hm
                · rw [List.mem_singleton.1 hk] at hm
                  exact hirr (h.iniFree _ hm).2
            · cases hok

theorem loadRows_inv (l : List (List Char)) (i : Nat)
    {s s' : Arr × List (Int × Int) × List (Int × Int)} (h : LoadInv i 0 s)
    (hok : loadRows i l s = .ok s') :
    (∃ i', LoadInv i' 0 s') ∧ s'.1.rows = s.1.rows ∧ s'.1.cols = s.1.cols := by
  induction l generalizing i s with
  | nil =>
    unfold loadRows at hok
    cases hok
    exact ⟨⟨i, h⟩, rfl, rfl⟩
  | cons line l ih =>
    unfold loadRows at hok
    split at hok
    · cases hok
      exact ⟨⟨i, h⟩, rfl, rfl⟩
    · rename_i hi
      cases hr : loadRow i 0 line s with
      | error e => rw [hr] at hok; cases hok
      | ok t =>
        rw [hr, ok_bind] at hok
        obtain ⟨t1, t2, t3⟩ := loadRow_inv line 0 (by omega) h hr
        obtain ⟨u1, u2, u3⟩ := ih (i + 1) t1 hok
        exact ⟨u1, u2.trans t2, u3.trans t3⟩

theorem sizeLine_zero {line : List Char} {A : Arr} (h : sizeLine line = .ok A) :
    ∀ i j, A.cell i j = 0 := by
  unfold sizeLine at h
  split at h
  · split at h
    · split at h
      · cases h
      · cases h; exact fun _ _ => rfl
    · cases h
  · split at h <;> cases h
  · cases h

/-- **C50.** What every loaded world satisfies: its elements are 0 or 1, its initial cells and goals are free cells in
row-major order without repetitions, and no cell is both. -/
theorem loads_wf {s : List Char} {w : World} (h : loads s = .ok w) :
    ∃ A, w.W = some A ∧ Coded A ∧ w.inits.Pairwise Before ∧ w.goals.Pairwise Before ∧
      (∀ k ∈ w.inits, Free A k) ∧ (∀ k ∈ w.goals, Free A k) ∧ ∀ k ∈ w.goals, k ∉ w.inits := by
  unfold loads at h
  cases hl : loadLines (splitlines s) with
  | error e => rw [hl] at h; cases h
  | ok t =>
    rw [hl] at h
    obtain ⟨A, ini, goal⟩ := t
    cases h
    have key : ∀ ls, loadLines ls = .ok (A, ini, goal) → ∃ i, LoadInv i 0 (A, ini, goal) := by
      intro ls
      induction ls with
      | nil => intro h; cases h
      | cons line ls ih =>
        intro h
        unfold loadLines at h
        split at h
        · exact ih h
        · cases hs : sizeLine line with
          | error e => rw [hs] at h; cases h
          | ok B =>
            rw [hs, ok_bind] at h
            have hz := sizeLine_zero hs
            exact (loadRows_inv ls 0 (s := (B, [], [])) ⟨fun i j => Or.inl (hz i j),
              fun i j _ => hz i j, by simp, by simp, by simp, by simp, by simp⟩ h).1
    obtain ⟨i, hi⟩ := key _ hl
    exact ⟨A, rfl, fun a b _ _ _ _ => hi.coded a b, hi.ini, hi.goal, fun k hk => (hi.iniFree k hk).1,
      fun k hk => (hi.goalFree k hk).1, hi.disj⟩

theorem indices_sorted (rows cols : Nat) : (indices rows cols).Pairwise Before := by
  unfold indices
  rw [List.pairwise_flatMap]
  constructor
  · intro i _
    rw [List.pairwise_map]
    refine List.pairwise_lt_range.imp ?_
    intro a b hab
    simp only [Before, true_and]; omega
  · refine List.pairwise_lt_range.imp ?_
    intro a b hab x hx y hy
    obtain ⟨_, _, rfl⟩ := List.mem_map.1 hx
    obtain ⟨_, _, rfl⟩ := List.mem_map.1 hy
    simp only [Before, true_and]; omega

theorem eq_of_sorted {l l' : List (Int × Int)} (h : l.Pairwise Before) (h' : l'.Pairwise Before)
    (hm : ∀ k, k ∈ l ↔ k ∈ l') : l = l' := by
  have hnd : ∀ {m : List (Int × Int)}, m.Pairwise Before → m.Nodup := by
    intro m hm
    refine hm.imp ?_
    rintro a b hab rfl
    simp only [Before] at hab; omega
  have hp : l.Perm l' := (List.perm_ext_iff_of_nodup (hnd h) (hnd h')).2 hm
  refine hp.eq_of_pairwise ?_ h h'
  intro a b _ _ h1 h2
  simp only [Before] at h1 h2
  omega

/-- **C50.** A world that was loaded is restored by dumping and loading: the size, the occupancy, the list of initial
cells and the list of goals are the same. -/
theorem loads_dumps_loaded {s : List Char} {w : World} (h : loads s = .ok w) :
    ∃ A s' w' B, w.W = some A ∧ dumps w [] = .ok s' ∧ loads s' = .ok w' ∧ w'.W = some B ∧
      SameArr A B ∧ w'.inits = w.inits ∧ w'.goals = w.goals := by
  obtain ⟨A, h1, h2, h3, h4, h5, h6, h7⟩ := loads_wf h
  obtain ⟨s', w', B, k1, k2, k3, k4, k5, k6⟩ := loads_dumps h1 h2
  obtain ⟨B', c1, _, c3, c4, _, _, _⟩ := loads_wf k2
  refine ⟨A, s', w', B, h1, k1, k2, k3, k4, ?_, ?_⟩
  · refine eq_of_sorted c3 h3 ?_
    intro k
    rw [k5, mem_freeIn]
    exact ⟨fun h => h.2, fun h => ⟨h5 k h, h⟩⟩
  · refine eq_of_sorted c4 h4 ?_
    intro k
    rw [k6, List.mem_filter, mem_freeIn]
    simp only [decide_eq_true_eq]
    exact ⟨fun h => h.1.2, fun h => ⟨⟨h6 k h, h⟩, h7 k h⟩⟩

/-- **C50.** `copy` of a world returns a world with the same prefix, size and occupancy, the free initial cells, and
the free goals that are not initial cells; the offset is not copied. -/
theorem copy_spec {w : World} {A : Arr} (hw : w.W = some A) (hA : Coded A) :
    ∃ w' B, copy w = .ok w' ∧ w'.W = some B ∧ SameArr A B ∧ w'.pre = w.pre ∧ w'.offset = (0, 0) ∧
      w'.inits = freeIn A w.inits ∧
      w'.goals = (freeIn A w.goals).filter (fun k => decide (k ∉ w.inits)) := by
  obtain ⟨s, w', B, h1, h2, h3, h4, h5, h6⟩ := loads_dumps hw hA
  refine ⟨{ w' with pre := w.pre, offset := (0, 0) }, B, ?_, h3, h4, rfl, rfl, h5, h6⟩
  unfold copy
  rw [h1, ok_bind]
  unfold newWorld
  rw [h2, ok_bind]

/-! ### Examples -/

/-- The text of a world. -/
example : (dumps wallWorld []).toOption = some c!"3 3\nI  \n** \nG  \n" := by decide +kernel

example : Coded wallArr ∧ (∀ k ∈ wallWorld.inits, Free wallArr k) ∧
    (∀ k ∈ wallWorld.goals, Free wallArr k) ∧ ∀ k ∈ wallWorld.goals, k ∉ wallWorld.inits := by
  refine ⟨?_, by decide, by decide, by decide⟩
  intro i j _ _ _ _
  simp only [wallArr]
  split <;> simp

/-- The marks of a result. -/
def marksOf : Except PyErr World → Option (List (Int × Int) × List (Int × Int) × (Nat × Nat))
  | .ok w => some (w.inits, w.goals, size w)
  | .error _ => none

/-- Comments, short rows and missing rows. -/
example : marksOf (loads c!"# a comment\n\n 3 4 cells\n I*G\n*\n") =
    some ([(0, 1)], [(0, 3)], (3, 4)) := by decide +kernel

/-- A mark on an occupied cell, or a goal that is an initial cell, is lost. -/
theorem loads_dumps_counterexample :
    ((dumps { wallWorld with goals := [(1, 0), (0, 0)] } []).toOption.map
      fun s => marksOf (loads s)) = some (some ([(0, 0)], [], (3, 3))) := by decide +kernel

end Gw

end Tulip
