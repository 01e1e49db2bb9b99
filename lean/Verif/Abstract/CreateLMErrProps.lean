import Verif.Abstract.CreateLMProps

/-!
# Where `createLM` fails

The systems that the theorems of `CreateLMProps` exclude.
-/

namespace Tulip

namespace Abs

open Finset

set_option linter.unusedSectionVars false

variable {R : Type} [Field R] [LinearOrder R] [IsStrictOrderedRing R]

/-- A set of disturbances with more than 10 vertices is refused with `ValueError`: an index of a vertex
is read from one digit. -/
theorem getMaxExtreme_many (pc : Pc R) (G : Mat R) (D : HP R) (N : Nat) (hN : 0 < N)
    (h : 10 < (pc.extreme D).rows) : getMaxExtreme pc G D N = .error .valueError := by
  unfold getMaxExtreme
  suffices hd : dnExtreme (pc.extreme D) N = .error .valueError by rw [hd]; rfl
  generalize pc.extreme D = V at h
  have hle : V.rows ≤ V.rows ^ N := Nat.le_self_pow (by omega) _
  unfold dnExtreme
  by_cases h36 : V.rows > 36
  · obtain ⟨q, hq⟩ : ∃ q, V.rows ^ N = q + 1 := ⟨V.rows ^ N - 1, by omega⟩
    rw [hq, List.range_succ_eq_map, List.foldlM_cons]
    simp only [baseRepr, if_pos (Or.inl h36 : V.rows > 36 ∨ V.rows < 2), error_bind]
  · have hsplit : List.range (V.rows ^ N) = List.range (10 + 1) ++ List.range' 11 (V.rows ^ N - 11) := by
      rw [List.range_eq_range', List.range_eq_range']
      have := @List.range'_append 0 11 (V.rows ^ N - 11) 1
      rw [show 0 + 1 * 11 = 11 from rfl] at this
      rw [show (10 + 1) = 11 from rfl, this]
      congr 1
      omega
    have hrepr : ∀ i, baseRepr i V.rows N = .ok (Nat.digits V.rows i ++ List.replicate N 0) := by
      intro i
      unfold baseRepr
      rw [if_neg (by omega)]
    have key : ∀ k ≤ 10, ∃ DN, (List.range k).foldlM (fun DN i => do
        let ind ← baseRepr i V.rows N
        dnColumn V i ind N DN) (Mat.zeros (V.cols * N) (V.rows ^ N)) = .ok DN := by
      intro k
      induction k with
      | zero => exact fun _ => ⟨_, rfl⟩
      | succ k ih =>
        intro hk
        obtain ⟨D1, h1⟩ := ih (by omega)
        obtain ⟨D2, h2, _⟩ := dnColumn_spec V k N D1 (by omega) (fun j => by
          have h1 : k / V.rows ^ j ≤ k := Nat.div_le_self _ _
          have h2 : k / V.rows ^ j % V.rows ≤ k / V.rows ^ j := Nat.mod_le _ _
          omega) N (le_refl _)
        exact ⟨D2, by rw [foldlM_range_succ, h1, ok_bind, hrepr, ok_bind, h2]⟩
    obtain ⟨D1, h1⟩ := key 10 (le_refl _)
    have h10 : dnColumn V 10 (Nat.digits V.rows 10 ++ List.replicate N 0) N D1 = .error .valueError := by
      unfold dnColumn
      obtain ⟨q, rfl⟩ : ∃ q, N = q + 1 := ⟨N - 1, by omega⟩
      rw [List.range_succ_eq_map, List.foldlM_cons]
      have : intDigit (Nat.digits V.rows 10 ++ List.replicate (q + 1) 0) 0 = .error .valueError := by
        unfold intDigit
        rw [digit_getElem _ _ _ _ (by omega) (by omega)]
        simp only [pow_zero, Nat.div_one]
        rw [Nat.mod_eq_of_lt h, if_neg (by omega)]
      rw [this]
      rfl
    rw [hsplit, List.foldlM_append, foldlM_range_succ, h1, ok_bind, hrepr, ok_bind, h10, error_bind]

/-- A set of disturbances that is not full-dimensional, in more than one dimension, is refused with
`ValueError` for each horizon longer than 1: the matrix that replaces `E` has one column. -/
theorem createLM_thin_error (pc : Pc R) (s : Lti R) (hs : s.Shaped) (hd : s.Disturbed)
    (hthin : pc.fulldim s.W = false) (hp : 2 ≤ s.E.cols) (N : Nat) (hN : 2 ≤ N) (listP : List (HP R))
    (hlen : listP.length = N + 1) : createLM pc s N listP none = .error .valueError := by
  unfold createLM
  rw [if_neg (by omega)]
  dsimp only
  have hE : effE pc s = Mat.zeros s.K.rows s.K.cols := by
    unfold effE
    rw [(disturbed_iff s).1 hd, if_neg (by simp), hthin, if_neg (by simp)]
  have hEd : (blockDiags (effE pc s) (N - 1)).cols = N := by
    rw [(blockDiags_shape _ _).2, hE]
    show (N - 1 + 1) * s.K.cols = N
    rw [hs.K.2]
    omega
  obtain ⟨q, rfl⟩ : ∃ q, N = q + 2 := ⟨N - 2, by omega⟩
  have h0 : listP[0]? = some listP[0] := List.getElem?_eq_getElem (by omega)
  have h1 : listP[1]? = some listP[1] := List.getElem?_eq_getElem (by omega)
  have hr : List.range (q + 2 + 1) = 0 :: 1 :: ((List.range (q + 1)).map (· + 2)) := by
    rw [List.range_succ_eq_map, List.range_succ_eq_map]
    simp [List.map_map]
  rw [hr, List.foldlM_cons]
  have hs0 : ∃ st, stepLM s (q + 2) (blockDiags s.B (q + 2 - 1)) (blockDiags (effE pc s) (q + 2 - 1))
      (s.K.tile (q + 2)) s.E.cols listP ((none : Option (List Nat)).getD (List.range' 1 (q + 2)))
      (initLM s (q + 2) listP) 0 = .ok st ∧ st.Gk.cols = s.E.cols * (q + 2) := by
    unfold stepLM
    rw [h0]
    dsimp only
    rw [if_neg (by
      show ¬ 0 ∈ List.range' 1 (q + 2)
      rw [List.mem_range'_1]
      omega), ok_bind, if_neg (by omega)]
    exact ⟨_, rfl, rfl⟩
  obtain ⟨st, hst, hGk⟩ := hs0
  rw [hst, ok_bind, List.foldlM_cons]
  have hs1 : stepLM s (q + 2) (blockDiags s.B (q + 2 - 1)) (blockDiags (effE pc s) (q + 2 - 1))
      (s.K.tile (q + 2)) s.E.cols listP ((none : Option (List Nat)).getD (List.range' 1 (q + 2)))
      st 1 = .error .valueError := by
    unfold stepLM
    rw [h1]
    dsimp only
    rw [if_pos (by
      show 1 ∈ List.range' 1 (q + 2)
      rw [List.mem_range'_1]
      omega)]
    have : setRows st.Gk st.sumVert ((listP[1].A.dot st.Ak).dot (blockDiags (effE pc s) (q + 2 - 1))) =
        .error .valueError := by
      unfold setRows
      have hc : ((listP[1].A.dot st.Ak).dot (blockDiags (effE pc s) (q + 2 - 1))).cols = q + 2 := hEd
      rw [hc, hGk, if_neg (by
        have := Nat.mul_le_mul_right (q + 2) hp
        omega), if_neg (by omega)]
    unfold stepG
    simp only [this, error_bind]
  rw [hs1]
  rfl

/-! ## Counterexamples

The two exclusions on the sets: disturbances that are ignored. -/

/-- A matrix given by its rows. -/
def Mat.ofRows (c : Nat) (l : List (List Rat)) : Mat Rat := ⟨l.length, c, fun i j => (l.getD i []).getD j 0⟩

/-- The interval from `-b` to `b`. -/
def sym (b : Rat) : HP Rat := ⟨Mat.ofRows 1 [[1], [-1]], fun _ => b⟩

/-- `x(t + 1) = x(t) + u(t) + d(t)`, with inputs from -1 to 1, and the set of disturbances with the one
element 1. -/
def thinSys : Lti Rat :=
  { A := .ofRows 1 [[1]], B := .ofRows 1 [[1]], E := .ofRows 1 [[1]], K := .ofRows 1 [[0]], U := sym 1,
    W := ⟨.ofRows 1 [[1], [-1]], fun i => if i = 0 then 1 else -1⟩ }

def thinPc : Pc Rat := ⟨fun _ => false, fun _ => .ofRows 1 [[1]]⟩

/-- Whether `L v <= M` holds of the result. -/
def holds (r : Except PyErr (Mat Rat × Mat Rat)) (v : Nat → Rat) : Bool :=
  match r with
  | .ok LM => (List.range LM.1.rows).all fun r =>
      decide (∑ c ∈ range LM.1.cols, LM.1.get r c * v c ≤ LM.2.get r 0)
  | .error _ => false

theorem holds_sat {r : Except PyErr (Mat Rat × Mat Rat)} {v : Nat → Rat} (h : holds r v = true) :
    ∃ L M, r = .ok (L, M) ∧ Sat L M v := by
  unfold holds at h
  split at h
  · rename_i LM
    refine ⟨LM.1, LM.2, rfl, fun r hr => ?_⟩
    have := List.all_eq_true.1 h r (List.mem_range.2 hr)
    exact of_decide_eq_true this
  · exact absurd h (by simp)

/-- The input 1 keeps the state in the interval from -1 to 1 for no disturbance of the set: the only
disturbance is 1. But `createLM` accepts it, because the set has no interior. -/
theorem thin_counterexample :
    ∃ L M, createLM3 thinPc thinSys 1 (sym 1) (sym 1) (sym 1) = .ok (L, M) ∧
      Sat L M (thinSys.stack (fun _ => 0) fun _ _ => 1) ∧
      ∀ d, thinSys.Possible thinPc 1 d → ¬ (sym 1).Mem (thinSys.traj (fun _ => 0) (fun _ _ => 1) d 1) := by
  obtain ⟨L, M, h, hs⟩ := holds_sat (r := createLM3 thinPc thinSys 1 (sym 1) (sym 1) (sym 1))
    (v := thinSys.stack (fun _ => 0) fun _ _ => 1) (by decide +kernel)
  refine ⟨L, M, h, hs, fun d hd hm => ?_⟩
  obtain ⟨w, _, hw1, hd0⟩ := hd ⟨0, by decide, 0, by decide, by decide +kernel⟩ 0 (by omega)
  have h1 : w 0 = 1 := by simpa [thinPc, Mat.ofRows] using hw1
  have h2 : d 0 0 = 1 := by
    have := hd0 0 (by decide)
    simpa [thinPc, Mat.ofRows, h1] using this
  have h3 := hm 0 (by decide)
  simp [sym, Mat.ofRows, Lti.traj, Lti.next, thinSys, h2] at h3
  norm_num at h3

/-- A system with two states: the disturbance, from -1 to 1, is added to the second state; the inputs are
from -1 to 1, and are allowed while the second state is at most 1/2. -/
def missSys : Lti Rat :=
  { A := .ofRows 2 [[1, 0], [0, 1]], B := .ofRows 1 [[1], [0]], E := .ofRows 1 [[0], [1]],
    K := .ofRows 1 [[0], [0]],
    U := ⟨.ofRows 3 [[1, 0, 0], [-1, 0, 0], [0, 0, 1]], fun i => if i = 2 then 1/2 else 1⟩, W := sym 1 }

def missPc : Pc Rat := ⟨fun _ => true, fun _ => .ofRows 1 [[1], [-1]]⟩

/-- The stripP where the first state is from -1 to 1. -/
def stripP : HP Rat := ⟨.ofRows 2 [[1, 0], [-1, 0]], fun _ => 1⟩

/-- The disturbance 1 leads to a state where the input is not allowed. But `createLM` accepts the
inputs: as the disturbances do not affect the constraints on the states, their effect on the constraint on
the inputs is not computed. -/
theorem missed_counterexample :
    ∃ L M, createLM3 missPc missSys 2 stripP stripP stripP = .ok (L, M) ∧
      Sat L M (missSys.stack (fun _ => 0) fun _ _ => 0) ∧
      missSys.Possible missPc 2 (fun _ _ => 1) ∧
      ¬ missSys.InputOk (missSys.traj (fun _ => 0) (fun _ _ => 0) (fun _ _ => 1) 1) (fun _ => 0) := by
  obtain ⟨L, M, h, hs⟩ := holds_sat (r := createLM3 missPc missSys 2 stripP stripP stripP)
    (v := missSys.stack (fun _ => 0) fun _ _ => 0) (by decide +kernel)
  refine ⟨L, M, h, hs, fun _ k _ => ?_, fun hm => ?_⟩
  · refine ⟨fun i => if i = 0 then 1 else 0, fun i _ => by dsimp only; split <;> norm_num, ?_, fun c hc => ?_⟩
    · simp [missPc, Mat.ofRows]
    · obtain rfl : c = 0 := by
        have : c < 1 := hc
        omega
      simp [missPc, Mat.ofRows]
  · have hne : ¬ missSys.U.A.cols = missSys.B.cols := by decide
    unfold Lti.InputOk at hm
    rw [if_neg hne] at hm
    have h3 := hm 2 (by decide)
    simp [Mat.ofRows, Lti.traj, Lti.next, missSys, sum_range_succ] at h3
    norm_num at h3

/-! ## The hypotheses of the theorems are met -/

/-- As `thinSys`, with disturbances from -1/10 to 1/10. -/
def lineSys : Lti Rat := { thinSys with W := sym (1/10) }

def linePc : Pc Rat := ⟨fun _ => true, fun _ => .ofRows 1 [[1/10], [-1/10]]⟩

theorem lineSys_shaped : lineSys.Shaped := ⟨rfl, by decide, rfl, rfl, ⟨rfl, rfl⟩, Or.inl rfl⟩

theorem lineSys_dist : lineSys.GoodDist linePc := fun _ => ⟨rfl, rfl, by decide, by decide⟩

theorem lineSys_disturbed : lineSys.Disturbed := ⟨0, by decide, 0, by decide, by decide +kernel⟩

-- from 0, the inputs 1, 1 lead to the interval from -21/10 to 21/10 whatever the disturbances, and the
-- inputs 1, 3/2 are refused
example : holds (createLM3 linePc lineSys 2 (sym 1) (sym 2) (sym (22/10)))
    (lineSys.stack (fun _ => 0) fun _ _ => 1) = true := by decide +kernel

example : holds (createLM3 linePc lineSys 2 (sym 1) (sym 2) (sym (22/10)))
    (lineSys.stack (fun _ => 0) fun k _ => if k = 0 then 1 else 3/2) = false := by decide +kernel

-- the last interval is exact
example : holds (createLM3 linePc lineSys 2 (sym 1) (sym 2) (sym (219/100)))
    (lineSys.stack (fun _ => 0) fun _ _ => 1) = false := by decide +kernel

example : ∃ L M, createLM3 linePc lineSys 2 (sym 1) (sym 2) (sym (22/10)) = .ok (L, M) ∧
    L.cols = 3 ∧ ∀ x0 u, Sat L M (lineSys.stack x0 u) ↔ (sym 1).Mem x0 ∧ ∀ d, lineSys.Possible linePc 2 d →
        (∀ k, 0 < k → k < 2 → (sym 2).Mem (lineSys.traj x0 u d k)) ∧
        (sym (22/10)).Mem (lineSys.traj x0 u d 2) ∧ ∀ k < 2, lineSys.InputOk (lineSys.traj x0 u d k) (u k) :=
  createLM3_spec linePc lineSys lineSys_shaped lineSys_dist 2 (by omega) _ _ _ rfl rfl rfl (Or.inl rfl)

-- constraints on the input and the state, with bounded polytopes
example : HP.Pointed (sym 1) := fun v h c hc => by
  obtain rfl : c = 0 := by
    have : c < 1 := hc
    omega
  have := h 0 (by decide)
  simpa [sym, Mat.ofRows] using this

example : missSys.Shaped := ⟨rfl, by decide, rfl, rfl, ⟨rfl, rfl⟩, Or.inr rfl⟩

-- more than 10 vertices; a set of disturbances with two dimensions and no interior
example : getMaxExtreme ⟨fun _ => true, fun _ => .ofRows 1 ((List.range 11).map fun (i : Nat) => [(i : Rat)])⟩
    (.ofRows 2 [[1, 1]]) (sym 1) 2 = .error .valueError :=
  getMaxExtreme_many _ _ _ _ (by omega) (by decide)

example : createLM thinPc { thinSys with E := .ofRows 2 [[1, 1]] } 2 [sym 1, sym 1, sym 1] none =
    .error .valueError :=
  createLM_thin_error _ _ ⟨rfl, by decide, rfl, rfl, ⟨rfl, rfl⟩, Or.inl rfl⟩
    ⟨0, by decide, 0, by decide, by decide +kernel⟩ rfl (by decide) 2 (by omega) _ rfl

end Abs

end Tulip
