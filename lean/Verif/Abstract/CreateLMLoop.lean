import Verif.Abstract.CreateLMLemmas

/-!
# The loop of `createLM`
-/

namespace Tulip

namespace Abs

open Finset

set_option linter.unusedSectionVars false

variable {R : Type} [Field R] [LinearOrder R] [IsStrictOrderedRing R]

/-- The number of the first row for the polytope `i` of the list. -/
def off (l : List (HP R)) (i : Nat) : Nat := ((l.take i).map (·.A.rows)).sum

theorem off_zero (l : List (HP R)) : off l 0 = 0 := by simp [off]

theorem off_succ {l : List (HP R)} {i : Nat} {P : HP R} (h : l[i]? = some P) :
    off l (i + 1) = off l i + P.A.rows := by
  simp [off, List.take_add_one, h]

theorem off_mono (l : List (HP R)) {i j : Nat} (h : i ≤ j) : off l i ≤ off l j := by
  induction h with
  | refl => exact le_refl _
  | @step j _ ih =>
    refine le_trans ih ?_
    cases hP : l[j]? with
    | none => simp [off, List.take_add_one, hP]
    | some P => rw [off_succ hP]; omega

theorem off_length (l : List (HP R)) : off l l.length = (l.map (·.A.rows)).sum := by simp [off]

theorem off_decompose {l : List (HP R)} {k r : Nat} (hk : k ≤ l.length) (hr : r < off l k) :
    ∃ i P r', i < k ∧ l[i]? = some P ∧ r' < P.A.rows ∧ r = off l i + r' := by
  induction k with
  | zero => simp [off_zero] at hr
  | succ k ih =>
    have hP : l[k]? = some l[k] := List.getElem?_eq_getElem (by omega)
    by_cases h : r < off l k
    · obtain ⟨i, P, r', hi, h⟩ := ih (by omega) h
      exact ⟨i, P, r', by omega, h⟩
    · rw [off_succ hP] at hr
      exact ⟨k, l[k], r - off l k, by omega, hP, by omega, by omega⟩

theorem off_lt {l : List (HP R)} {i k r : Nat} {P : HP R} (hi : i < k) (hP : l[i]? = some P)
    (hr : r < P.A.rows) : off l i + r < off l k := by
  have := off_mono l (Nat.succ_le_of_lt hi)
  rw [off_succ hP] at this
  omega

section

variable (s : Lti R) (N : Nat) (Bd Ed Kh : Mat R) (listP : List (HP R)) (ind : List Nat)

/-- `AB_line` in iteration `i`. -/
def abK (i : Nat) : Mat R := (anK s.A i).hstack ((akK s.A N i).dot Bd)

/-- The arrays `Lk`, `Mk`, `Gk` after `k` iterations. -/
structure RowsInv (k : Nat) (Lk Mk Gk : Mat R) : Prop where
  LkS : Lk.rows = (listP.map (·.A.rows)).sum ∧ Lk.cols = s.A.cols + N * s.B.cols
  MkS : Mk.rows = (listP.map (·.A.rows)).sum ∧ Mk.cols = 1
  GkS : Gk.rows = (listP.map (·.A.rows)).sum ∧ Gk.cols = s.E.cols * N
  L : ∀ i < k, ∀ P, listP[i]? = some P → ∀ r < P.A.rows, ∀ c < s.A.cols + N * s.B.cols,
    Lk.get (off listP i + r) c = (P.A.dot (abK s N Bd i)).get r c
  M : ∀ i < k, ∀ P, listP[i]? = some P → ∀ r < P.A.rows,
    Mk.get (off listP i + r) 0 = P.b r - ((P.A.dot (akK s.A N i)).dot Kh).get r 0
  G : ∀ i < k, ∀ P, listP[i]? = some P → ∀ r < P.A.rows, ∀ c < s.E.cols * N,
    Gk.get (off listP i + r) c =
      if i ∈ ind then ((P.A.dot (akK s.A N i)).dot Ed).get r c else 0
  GZ : ∀ r c, off listP k ≤ r → Gk.get r c = 0

/-- The rows of `LU` for iteration `i`. -/
def luK (i : Nat) : Mat R :=
  if s.U.A.cols = s.B.cols then
    (Mat.zeros s.U.A.rows (s.A.cols + N * s.B.cols)).setBlock 0 (s.A.cols + s.B.cols * i) s.U.A
  else s.U.A.dot ((((Mat.zeros s.B.cols (s.A.cols + s.B.cols * N)).setBlock 0 (s.A.cols + s.B.cols * i)
    (Mat.eye s.B.cols))).vstack (abK s N Bd i))

/-- The constants of the rows of `LU` for iteration `i`. -/
def muK (i r : Nat) : R :=
  if s.U.A.cols = s.B.cols then s.U.b r
  else s.U.b r - (s.U.A.dot ((Mat.zeros (s.B.cols + s.A.cols) 1).setBlock s.B.cols 0
    ((akK s.A N i).dot Kh))).get r 0

/-- The rows of `GU` for iteration `i`. -/
def guK (i : Nat) : Mat R :=
  s.U.A.dot ((Mat.zeros s.B.cols (s.E.cols * N)).vstack ((akK s.A N i).dot Ed))

/-- The arrays `LU`, `MU`, `GU` after `k` iterations. -/
structure UInv (k : Nat) (LU MU GU : Mat R) : Prop where
  LUS : LU.rows = s.U.A.rows * N ∧ LU.cols = s.A.cols + N * s.B.cols
  MUS : MU.rows = N * s.U.A.rows ∧ MU.cols = 1
  GUS : GU.rows = s.U.A.rows * N ∧ GU.cols = s.E.cols * N
  L : ∀ i < k, ∀ r < s.U.A.rows, ∀ c < s.A.cols + N * s.B.cols,
    LU.get (i * s.U.A.rows + r) c = (luK s N Bd i).get r c
  LZ : ∀ r c, k * s.U.A.rows ≤ r → LU.get r c = 0
  M : ∀ i < k, ∀ r < s.U.A.rows, MU.get (i * s.U.A.rows + r) 0 = muK s N Kh i r
  MZ : ∀ r, k * s.U.A.rows ≤ r → MU.get r 0 = s.U.b (r % s.U.A.rows)
  G : ∀ i < k, ∀ r < s.U.A.rows, ∀ c < s.E.cols * N, GU.get (i * s.U.A.rows + r) c =
    if s.U.A.cols = s.B.cols + s.A.cols ∧ i ∈ ind then (guK s N Ed i).get r c else 0
  GZ : ∀ r c, k * s.U.A.rows ≤ r → GU.get r c = 0

variable {s N Bd Ed Kh listP ind}

theorem rowsInv_step {k : Nat} {Lk Mk Gk : Mat R} (h : RowsInv s N Bd Ed Kh listP ind k Lk Mk Gk)
    {P : HP R} (hP : listP[k]? = some P) (hB : Bd.cols = N * s.B.cols) (hE : Ed.cols = s.E.cols * N)
    (hK : Kh.cols = 1) :
    RowsInv s N Bd Ed Kh listP ind (k + 1) (Lk.setBlock (off listP k) 0 (P.A.dot (abK s N Bd k)))
      (Mk.setBlock (off listP k) 0 (P.bcol.sub ((P.A.dot (akK s.A N k)).dot Kh)))
      (if k ∈ ind then Gk.setBlock (off listP k) 0 ((P.A.dot (akK s.A N k)).dot Ed) else Gk) := by
  have hab : (P.A.dot (abK s N Bd k)).cols = s.A.cols + N * s.B.cols := by
    show (anK s.A k).cols + Bd.cols = _
    rw [anK_cols, hB]
  refine ⟨h.LkS, h.MkS, ?_, ?_, ?_, ?_, ?_⟩
  · split <;> exact h.GkS
  · intro i hi Q hQ r hr c hc
    by_cases hik : i = k
    · subst hik
      obtain rfl : P = Q := Option.some.inj (hP.symm.trans hQ)
      exact Mat.setBlock_row _ _ hr (by rw [hab]; exact hc)
    · have := off_lt (show i < k by omega) hQ hr
      rw [Mat.setBlock_out _ _ (by omega)]
      exact h.L i (by omega) Q hQ r hr c hc
  · intro i hi Q hQ r hr
    by_cases hik : i = k
    · subst hik
      obtain rfl : P = Q := Option.some.inj (hP.symm.trans hQ)
      exact Mat.setBlock_row _ _ hr (show 0 < 1 by omega)
    · have := off_lt (show i < k by omega) hQ hr
      rw [Mat.setBlock_out _ _ (by omega)]
      exact h.M i (by omega) Q hQ r hr
  · intro i hi Q hQ r hr c hc
    by_cases hik : i = k
    · subst hik
      obtain rfl : P = Q := Option.some.inj (hP.symm.trans hQ)
      by_cases hin : i ∈ ind
      · rw [if_pos hin, if_pos hin]
        exact Mat.setBlock_row _ _ hr (show c < Ed.cols by omega)
      · rw [if_neg hin, if_neg hin]
        exact h.GZ _ _ (by omega)
    · have := off_lt (show i < k by omega) hQ hr
      rw [← h.G i (by omega) Q hQ r hr c hc]
      split
      · rw [Mat.setBlock_out _ _ (by omega)]
      · rfl
  · intro r c hr
    rw [off_succ hP] at hr
    split
    · rw [Mat.setBlock_out _ _ (by
        have : ((P.A.dot (akK s.A N k)).dot Ed).rows = P.A.rows := rfl
        omega)]
      exact h.GZ r c (by omega)
    · exact h.GZ r c (by omega)

theorem mul_row {i k a r : Nat} (hi : i < k) (hr : r < a) : i * a + r < k * a := by
  have := Nat.mul_le_mul_right a (Nat.succ_le_of_lt hi)
  rw [Nat.succ_mul] at this
  omega

/-- The arrays `LU` and `MU` of `stepU`. -/
theorem uInv_step {k : Nat} {LU MU GU : Mat R} (h : UInv s N Bd Ed Kh ind k LU MU GU)
    {st : LM R} (hst : st.LU = LU ∧ st.MU = MU ∧ st.An = anK s.A k ∧ st.Ak = akK s.A N k) (hk : k < N)
    (hU : s.U.A.cols = s.B.cols ∨ s.U.A.cols = s.B.cols + s.A.cols)
    (hB : Bd.cols = N * s.B.cols) (hE : Ed.cols = s.E.cols * N) (hK : Kh.cols = 1) :
    UInv s N Bd Ed Kh ind (k + 1) (stepU s N Kh (abLine st Bd) k st).1 (stepU s N Kh (abLine st Bd) k st).2
      (if s.U.A.cols = s.B.cols + s.A.cols ∧ k ∈ ind then
        GU.setBlock (s.U.A.rows * k) 0 (guK s N Ed k) else GU) := by
  obtain ⟨hLU, hMU, hAn, hAk⟩ := hst
  have hab : abLine st Bd = abK s N Bd k := by rw [abLine, abK, hAn, hAk]
  have hG : ∀ (X : Mat R), ∀ i < k + 1, ∀ r < s.U.A.rows, ∀ c < s.E.cols * N,
      (∀ i < k, ∀ r < s.U.A.rows, ∀ c < s.E.cols * N, X.get (i * s.U.A.rows + r) c =
        if s.U.A.cols = s.B.cols + s.A.cols ∧ i ∈ ind then (guK s N Ed i).get r c else 0) →
      (∀ r c, k * s.U.A.rows ≤ r → X.get r c = 0) →
      (if s.U.A.cols = s.B.cols + s.A.cols ∧ k ∈ ind then
        X.setBlock (s.U.A.rows * k) 0 (guK s N Ed k) else X).get (i * s.U.A.rows + r) c =
      if s.U.A.cols = s.B.cols + s.A.cols ∧ i ∈ ind then (guK s N Ed i).get r c else 0 := by
    intro X i hi r hr c hc h1 h2
    rw [Nat.mul_comm s.U.A.rows k]
    by_cases hik : i = k
    · subst hik
      by_cases hin : s.U.A.cols = s.B.cols + s.A.cols ∧ i ∈ ind
      · rw [if_pos hin, if_pos hin]
        exact Mat.setBlock_row _ _ hr (show c < s.E.cols * N by omega)
      · rw [if_neg hin, if_neg hin]
        exact h2 _ _ (by omega)
    · have := mul_row (show i < k by omega) hr
      rw [← h1 i (by omega) r hr c hc]
      split
      · rw [Mat.setBlock_out _ _ (by omega)]
      · rfl
  refine ⟨?_, ?_, ?_, ?_, ?_, ?_, ?_, fun i hi r hr c hc => hG GU i hi r hr c hc h.G h.GZ, ?_⟩
  · unfold stepU
    rw [hLU]
    dsimp only
    split
    · exact h.LUS
    · split <;> exact h.LUS
  · unfold stepU
    rw [hMU]
    dsimp only
    split
    · exact h.MUS
    · split <;> exact h.MUS
  · split <;> exact h.GUS
  · intro i hi r hr c hc
    unfold stepU luK
    rw [hLU, hab]
    dsimp only
    by_cases hm : s.U.A.cols = s.B.cols
    · rw [if_pos hm, if_pos hm]
      dsimp only
      by_cases hik : i = k
      · subst hik
        by_cases hcc : s.A.cols + s.B.cols * i ≤ c ∧ c < s.A.cols + s.B.cols * i + s.U.A.cols
        · rw [Mat.setBlock_in _ s.U.A (by omega) (Nat.add_lt_add_left hr _) hcc.1 hcc.2,
            Mat.setBlock_in _ s.U.A (by omega) (by omega) hcc.1 hcc.2, Nat.add_sub_cancel_left,
            Nat.sub_zero]
        · rw [Mat.setBlock_out _ _ (by omega), Mat.setBlock_out _ _ (by omega)]
          exact h.LZ _ _ (by omega)
      · have := mul_row (show i < k by omega) hr
        rw [Mat.setBlock_out _ _ (by omega), h.L i (by omega) r hr c hc, luK, if_pos hm]
    · have hm' : s.U.A.cols = s.B.cols + s.A.cols := hU.resolve_left hm
      rw [if_neg hm, if_pos hm', if_neg hm]
      dsimp only
      by_cases hik : i = k
      · subst hik
        refine Mat.setBlock_row _ _ hr ?_
        show c < s.A.cols + s.B.cols * N
        rw [Nat.mul_comm s.B.cols N]
        omega
      · have := mul_row (show i < k by omega) hr
        rw [Mat.setBlock_out _ _ (by omega), h.L i (by omega) r hr c hc, luK, if_neg hm]
  · intro r c hr
    rw [Nat.succ_mul] at hr
    unfold stepU
    rw [hLU]
    dsimp only
    split
    · dsimp only
      rw [Mat.setBlock_out _ _ (by omega)]
      exact h.LZ _ _ (by omega)
    · split
      · dsimp only
        rw [Mat.setBlock_out _ _ (by
          have : (s.U.A.dot (((Mat.zeros s.B.cols (s.A.cols + s.B.cols * N)).setBlock 0
            (s.A.cols + s.B.cols * k) (Mat.eye s.B.cols)).vstack (abLine st Bd))).rows = s.U.A.rows := rfl
          omega)]
        exact h.LZ _ _ (by omega)
      · exact h.LZ _ _ (by omega)
  · intro i hi r hr
    unfold stepU muK
    rw [hMU, hAk]
    dsimp only
    by_cases hm : s.U.A.cols = s.B.cols
    · rw [if_pos hm, if_pos hm]
      dsimp only
      by_cases hik : i = k
      · subst hik
        rw [h.MZ _ (by omega), mod_block hr]
      · rw [h.M i (by omega) r hr, muK, if_pos hm]
    · have hm' : s.U.A.cols = s.B.cols + s.A.cols := hU.resolve_left hm
      rw [if_neg hm, if_pos hm', if_neg hm]
      dsimp only
      by_cases hik : i = k
      · subst hik
        refine (Mat.setBlock_row _ _ ?_ ?_).trans ?_
        · show r < (i + 1) * s.U.A.rows - i * s.U.A.rows
          rw [Nat.succ_mul]
          omega
        · show 0 < MU.cols
          rw [h.MUS.2]
          omega
        simp only [Mat.sub, Mat.rowsFrom]
        rw [h.MZ _ (by omega), mod_block hr]
      · have := mul_row (show i < k by omega) hr
        rw [Mat.setBlock_out _ _ (by omega), h.M i (by omega) r hr, muK, if_neg hm]
  · intro r hr
    rw [Nat.succ_mul] at hr
    unfold stepU
    rw [hMU]
    dsimp only
    split
    · exact h.MZ _ (by omega)
    · split
      · dsimp only
        rw [Mat.setBlock_out _ _ (by
          have : ((MU.rowsFrom (k * s.U.A.rows) ((k + 1) * s.U.A.rows)).sub
            (s.U.A.dot ((Mat.zeros (s.B.cols + s.A.cols) 1).setBlock s.B.cols 0
              (st.Ak.dot Kh)))).rows = (k + 1) * s.U.A.rows - k * s.U.A.rows := rfl
          rw [Nat.succ_mul] at this ⊢
          omega)]
        exact h.MZ _ (by omega)
      · exact h.MZ _ (by omega)
  · intro r c hr
    rw [Nat.succ_mul] at hr
    split
    · rw [Mat.setBlock_out _ _ (by
        have : (guK s N Ed k).rows = s.U.A.rows := rfl
        rw [Nat.mul_comm s.U.A.rows k]
        omega)]
      exact h.GZ _ _ (by omega)
    · exact h.GZ _ _ (by omega)

/-- The state of the loop after `k` iterations, for `k ≤ N`. -/
structure LoopInv (s : Lti R) (N : Nat) (Bd Ed Kh : Mat R) (listP : List (HP R)) (ind : List Nat) (k : Nat)
    (st : LM R) : Prop where
  rows : RowsInv s N Bd Ed Kh listP ind k st.Lk st.Mk st.Gk
  u : UInv s N Bd Ed Kh ind k st.LU st.MU st.GU
  An : st.An = anK s.A k
  Ak : st.Ak = akK s.A N k
  vert : st.sumVert = off listP k

/-- What `stepG` computes. -/
theorem stepG_ok {k : Nat} {st : LM R} (h : LoopInv s N Bd Ed Kh listP ind k st) (P : HP R)
    (hE : Ed.cols = s.E.cols * N) :
    stepG s N Ed s.E.cols P k st = .ok
      (st.Gk.setBlock (off listP k) 0 ((P.A.dot (akK s.A N k)).dot Ed),
        if s.U.A.cols = s.B.cols + s.A.cols ∧ k < N then
          st.GU.setBlock (s.U.A.rows * k) 0 (guK s N Ed k) else st.GU) := by
  have h1 : setRows st.Gk st.sumVert ((P.A.dot st.Ak).dot Ed) =
      .ok (st.Gk.setBlock (off listP k) 0 ((P.A.dot (akK s.A N k)).dot Ed)) := by
    unfold setRows
    rw [if_pos (by rw [h.rows.GkS.2]; exact hE), h.Ak, h.vert]
  have h2 : vstackE (Mat.zeros s.B.cols (s.E.cols * N)) (st.Ak.dot Ed) =
      .ok ((Mat.zeros s.B.cols (s.E.cols * N)).vstack ((akK s.A N k).dot Ed)) := by
    unfold vstackE
    rw [if_pos (show (Mat.zeros s.B.cols (s.E.cols * N) : Mat R).cols = (st.Ak.dot Ed).cols from hE.symm),
      h.Ak]
  simp only [stepG, h1, h2, ok_bind]
  split <;> rfl

theorem step_lt {k : Nat} {st : LM R} (h : LoopInv s N Bd Ed Kh listP ind k st) (hk : k < N)
    (hlen : listP.length = N + 1)
    (hU : s.U.A.cols = s.B.cols ∨ s.U.A.cols = s.B.cols + s.A.cols)
    (hB : Bd.cols = N * s.B.cols) (hE : Ed.cols = s.E.cols * N) (hK : Kh.cols = 1) :
    ∃ st', stepLM s N Bd Ed Kh s.E.cols listP ind st k = .ok st' ∧
      LoopInv s N Bd Ed Kh listP ind (k + 1) st' := by
  have hP : listP[k]? = some listP[k] := List.getElem?_eq_getElem (by omega)
  have hab : abLine st Bd = abK s N Bd k := by rw [abLine, abK, h.An, h.Ak]
  have hr := rowsInv_step h.rows hP hB hE hK
  have hu := uInv_step h.u (st := st) ⟨rfl, rfl, h.An, h.Ak⟩ hk hU hB hE hK
  unfold stepLM
  rw [hP]
  dsimp only
  by_cases hin : k ∈ ind
  · rw [if_pos hin, stepG_ok h _ hE, ok_bind, if_neg (by omega)]
    rw [if_pos hin] at hr
    refine ⟨_, rfl, ⟨?_, ?_, ?_, ?_, ?_⟩⟩
    · dsimp only
      rw [h.vert, hab, h.Ak]
      exact hr
    · dsimp only
      have : (if s.U.A.cols = s.B.cols + s.A.cols ∧ k < N then
          st.GU.setBlock (s.U.A.rows * k) 0 (guK s N Ed k) else st.GU) =
        (if s.U.A.cols = s.B.cols + s.A.cols ∧ k ∈ ind then
          st.GU.setBlock (s.U.A.rows * k) 0 (guK s N Ed k) else st.GU) := by
        by_cases hc : s.U.A.cols = s.B.cols + s.A.cols
        · rw [if_pos ⟨hc, hk⟩, if_pos ⟨hc, hin⟩]
        · rw [if_neg (fun h => hc h.1), if_neg (fun h => hc h.1)]
      rw [this]
      exact hu
    · dsimp only
      rw [h.An]
      rfl
    · dsimp only
      rw [h.Ak]
      rfl
    · dsimp only
      rw [h.vert, off_succ hP]
  · rw [if_neg hin, ok_bind, if_neg (by omega)]
    rw [if_neg hin] at hr
    refine ⟨_, rfl, ⟨?_, ?_, ?_, ?_, ?_⟩⟩
    · dsimp only
      rw [h.vert, hab, h.Ak]
      exact hr
    · dsimp only
      rw [if_neg (fun h => hin h.2)] at hu
      exact hu
    · dsimp only
      rw [h.An]
      rfl
    · dsimp only
      rw [h.Ak]
      rfl
    · dsimp only
      rw [h.vert, off_succ hP]

theorem step_last {st : LM R} (h : LoopInv s N Bd Ed Kh listP ind N st)
    (hlen : listP.length = N + 1)
    (hB : Bd.cols = N * s.B.cols) (hE : Ed.cols = s.E.cols * N) (hK : Kh.cols = 1) :
    ∃ st', stepLM s N Bd Ed Kh s.E.cols listP ind st N = .ok st' ∧
      RowsInv s N Bd Ed Kh listP ind (N + 1) st'.Lk st'.Mk st'.Gk ∧
      UInv s N Bd Ed Kh ind N st'.LU st'.MU st'.GU := by
  have hP : listP[N]? = some listP[N] := List.getElem?_eq_getElem (by omega)
  have hab : abLine st Bd = abK s N Bd N := by rw [abLine, abK, h.An, h.Ak]
  have hr := rowsInv_step h.rows hP hB hE hK
  unfold stepLM
  rw [hP]
  dsimp only
  by_cases hin : N ∈ ind
  · rw [if_pos hin, stepG_ok h _ hE, ok_bind, if_pos (by omega)]
    rw [if_pos hin] at hr
    refine ⟨_, rfl, ?_, ?_⟩
    · dsimp only
      rw [h.vert, hab, h.Ak]
      exact hr
    · dsimp only
      rw [if_neg (by omega)]
      exact h.u
  · rw [if_neg hin, ok_bind, if_pos (by omega)]
    rw [if_neg hin] at hr
    refine ⟨_, rfl, ?_, h.u⟩
    dsimp only
    rw [h.vert, hab, h.Ak]
    exact hr

/-- The loop ends with the arrays that the invariant describes. -/
theorem loop_ok (hlen : listP.length = N + 1)
    (hU : s.U.A.cols = s.B.cols ∨ s.U.A.cols = s.B.cols + s.A.cols)
    (hB : Bd.cols = N * s.B.cols) (hE : Ed.cols = s.E.cols * N) (hK : Kh.cols = 1) :
    ∃ st, (List.range (N + 1)).foldlM (stepLM s N Bd Ed Kh s.E.cols listP ind) (initLM s N listP) = .ok st ∧
      RowsInv s N Bd Ed Kh listP ind (N + 1) st.Lk st.Mk st.Gk ∧
      UInv s N Bd Ed Kh ind N st.LU st.MU st.GU := by
  have h0 : LoopInv s N Bd Ed Kh listP ind 0 (initLM s N listP) := by
    refine ⟨⟨⟨rfl, rfl⟩, ⟨rfl, rfl⟩, ⟨rfl, rfl⟩, ?_, ?_, ?_, ?_⟩,
      ⟨⟨rfl, rfl⟩, ⟨rfl, rfl⟩, ⟨rfl, rfl⟩, ?_, ?_, ?_, ?_, ?_, ?_⟩, rfl, rfl, ?_⟩
    all_goals first
      | (intro i hi; exact absurd hi (Nat.not_lt_zero i))
      | (intros; rfl)
  have key : ∀ k ≤ N, ∃ st, (List.range k).foldlM (stepLM s N Bd Ed Kh s.E.cols listP ind)
      (initLM s N listP) = .ok st ∧ LoopInv s N Bd Ed Kh listP ind k st := by
    intro k
    induction k with
    | zero => exact fun _ => ⟨_, rfl, h0⟩
    | succ k ih =>
      intro hk
      obtain ⟨st, h1, h2⟩ := ih (by omega)
      obtain ⟨st', h3, h4⟩ := step_lt h2 (by omega) hlen hU hB hE hK
      exact ⟨st', by rw [foldlM_range_succ, h1, ok_bind, h3], h4⟩
  obtain ⟨st, h1, h2⟩ := key N (le_refl _)
  obtain ⟨st', h3, h4⟩ := step_last h2 hlen hB hE hK
  exact ⟨st', by rw [foldlM_range_succ, h1, ok_bind, h3], h4⟩

end

end Abs

end Tulip
