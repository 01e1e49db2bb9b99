import Verif.Abstract.CreateLMLoop
import Verif.Abstract.FeasibleProps
import Mathlib.Data.Rat.Defs
import Mathlib.Algebra.Order.Ring.Rat
import Mathlib.Tactic.NormNum

/-!
# The polytope of inputs and initial states: theorems about `createLM`
-/

namespace Tulip

namespace Abs

open Finset

set_option linter.unusedSectionVars false

variable {R : Type} [Field R] [LinearOrder R] [IsStrictOrderedRing R]

/-! ## Specification

A vector is a function from the indices of its coordinates. -/

/-- The point `x` is in the polytope `P`. -/
def HP.Mem (P : HP R) (x : Nat → R) : Prop :=
  ∀ r < P.A.rows, ∑ c ∈ range P.A.cols, P.A.get r c * x c ≤ P.b r

/-- The next state: `A x + B u + E d + K`. -/
def Lti.next (s : Lti R) (x u d : Nat → R) (i : Nat) : R :=
  ∑ j ∈ range s.A.cols, s.A.get i j * x j + ∑ j ∈ range s.B.cols, s.B.get i j * u j +
    ∑ j ∈ range s.E.cols, s.E.get i j * d j + s.K.get i 0

/-- The state at time `k`, from the state `x0` with the inputs `u` and the disturbances `d`. -/
def Lti.traj (s : Lti R) (x0 : Nat → R) (u d : Nat → Nat → R) : Nat → Nat → R
  | 0 => x0
  | k + 1 => s.next (s.traj x0 u d k) (u k) (d k)

/-- The input `u` is allowed in the state `x`: the set of inputs constrains the input, or the input and
the state. -/
def Lti.InputOk (s : Lti R) (x u : Nat → R) : Prop :=
  if s.U.A.cols = s.B.cols then s.U.Mem u
  else s.U.Mem fun c => if c < s.B.cols then u c else x (c - s.B.cols)

/-- The system has disturbances: the matrix `E` is not zero. -/
def Lti.Disturbed (s : Lti R) : Prop := ∃ i < s.E.rows, ∃ j < s.E.cols, s.E.get i j ≠ 0

/-- The point `d` is in the convex hull of the rows of `V`. -/
def InHull (V : Mat R) (d : Nat → R) : Prop :=
  ∃ w : Nat → R, (∀ i < V.rows, 0 ≤ w i) ∧ ∑ i ∈ range V.rows, w i = 1 ∧
    ∀ c < V.cols, d c = ∑ i ∈ range V.rows, w i * V.get i c

/-- The disturbances are possible until time `N`. -/
def Lti.Possible (s : Lti R) (pc : Pc R) (N : Nat) (d : Nat → Nat → R) : Prop :=
  s.Disturbed → ∀ k < N, InHull (pc.extreme s.W) (d k)

/-- The vector `[x(0)' u(0)' ... u(N-1)']'`. -/
def Lti.stack (s : Lti R) (x0 : Nat → R) (u : Nat → Nat → R) (c : Nat) : R :=
  if c < s.A.cols then x0 c else u ((c - s.A.cols) / s.B.cols) ((c - s.A.cols) % s.B.cols)

/-- `L v <= M`. -/
def Sat (L M : Mat R) (v : Nat → R) : Prop :=
  ∀ r < L.rows, ∑ c ∈ range L.cols, L.get r c * v c ≤ M.get r 0

/-- The shapes that the constructor of `LtiSysDyn` requires. -/
structure Lti.Shaped (s : Lti R) : Prop where
  A : s.A.rows = s.A.cols
  pos : 0 < s.A.cols
  B : s.B.rows = s.A.cols
  E : s.E.rows = s.A.cols
  K : s.K.rows = s.A.cols ∧ s.K.cols = 1
  U : s.U.A.cols = s.B.cols ∨ s.U.A.cols = s.B.cols + s.A.cols

/-- What is assumed of a set of disturbances: it has an interior, and 2 to 10 vertices. -/
def Lti.GoodDist (s : Lti R) (pc : Pc R) : Prop :=
  s.Disturbed → pc.fulldim s.W = true ∧ (pc.extreme s.W).cols = s.E.cols ∧
    2 ≤ (pc.extreme s.W).rows ∧ (pc.extreme s.W).rows ≤ 10

/-- No direction is left free by the polytope (as for every bounded polytope that is not empty). -/
def HP.Pointed (P : HP R) : Prop :=
  ∀ v : Nat → R, (∀ r < P.A.rows, ∑ c ∈ range P.A.cols, P.A.get r c * v c = 0) → ∀ c < P.A.cols, v c = 0

/-! ## Proofs -/

theorem disturbed_iff (s : Lti R) : s.Disturbed ↔ s.E.allZero = false := by
  rw [← Bool.not_eq_true, Mat.allZero_iff]
  simp [Lti.Disturbed]

theorem row_mem (V : Mat R) (i : Nat) (hi : i < V.rows) : InHull V (V.get i) := by
  refine ⟨fun j => if j = i then 1 else 0, fun j _ => ?_, ?_, fun c _ => ?_⟩
  · show (0 : R) ≤ if j = i then 1 else 0
    split
    · exact zero_le_one
    · exact le_refl _
  · rw [sum_ite_eq' (range V.rows) i]
    rw [if_pos (mem_range.2 hi)]
  · rw [sum_eq_single i]
    · simp
    · intro j _ hj
      simp only [if_neg hj, zero_mul]
    · intro h
      exact absurd (mem_range.2 hi) h

/-- A linear function of the disturbances is at most `y` if it is so at the vertices. -/
theorem hull_bound (V : Mat R) (N : Nat) (g : Nat → R) (y : R) (hV : 0 < V.rows) :
    (∀ f : Nat → Nat, (∀ j, f j < V.rows) →
      ∑ c ∈ range (V.cols * N), g c * flatSeq V.cols (fun k => V.get (f k)) c ≤ y) ↔
    ∀ d : Nat → Nat → R, (∀ k < N, InHull V (d k)) →
      ∑ c ∈ range (V.cols * N), g c * flatSeq V.cols d c ≤ y := by
  constructor
  · intro h d hd
    -- the best vertex for each time
    have hbest : ∀ k, ∃ v < V.rows, ∀ v' < V.rows,
        ∑ j ∈ range V.cols, g (k * V.cols + j) * V.get v' j ≤
          ∑ j ∈ range V.cols, g (k * V.cols + j) * V.get v j := by
      intro k
      obtain ⟨v, hv, hm⟩ := exists_max_image (range V.rows)
        (fun v => ∑ j ∈ range V.cols, g (k * V.cols + j) * V.get v j) ⟨0, mem_range.2 hV⟩
      exact ⟨v, mem_range.1 hv, fun v' hv' => hm v' (mem_range.2 hv')⟩
    choose f hf hmax using hbest
    refine le_trans ?_ (h f hf)
    rw [sum_blocks, sum_blocks]
    refine sum_le_sum fun k hk => ?_
    obtain ⟨w, hw, hw1, hdk⟩ := hd k (mem_range.1 hk)
    have e1 : ∑ j ∈ range V.cols, g (k * V.cols + j) * flatSeq V.cols d (k * V.cols + j) =
        ∑ v ∈ range V.rows, w v * ∑ j ∈ range V.cols, g (k * V.cols + j) * V.get v j := by
      simp only [mul_sum]
      rw [sum_comm]
      refine sum_congr rfl fun j hj => ?_
      rw [flatSeq_block _ _ (mem_range.1 hj), hdk j (mem_range.1 hj), mul_sum]
      exact sum_congr rfl fun v _ => by ring
    have e2 : ∑ j ∈ range V.cols, g (k * V.cols + j) * flatSeq V.cols (fun k => V.get (f k)) (k * V.cols + j) =
        ∑ j ∈ range V.cols, g (k * V.cols + j) * V.get (f k) j :=
      sum_congr rfl fun j hj => by rw [flatSeq_block _ _ (mem_range.1 hj)]
    rw [e1, e2]
    calc ∑ v ∈ range V.rows, w v * ∑ j ∈ range V.cols, g (k * V.cols + j) * V.get v j
        ≤ ∑ v ∈ range V.rows, w v * ∑ j ∈ range V.cols, g (k * V.cols + j) * V.get (f k) j :=
          sum_le_sum fun v hv => mul_le_mul_of_nonneg_left (hmax k v (mem_range.1 hv))
            (hw v (mem_range.1 hv))
      _ = ∑ j ∈ range V.cols, g (k * V.cols + j) * V.get (f k) j := by
          rw [← sum_mul, hw1, one_mul]
  · intro h f hf
    exact h _ fun k _ => row_mem V (f k) (hf k)

/-- The state at time `k` in terms of the arrays of the loop. -/
theorem traj_eq (s : Lti R) (hs : s.Shaped) (N : Nat) (hN : 0 < N) (x0 : Nat → R) (u d : Nat → Nat → R)
    (k : Nat) (hk : k ≤ N) (r : Nat) (hr : r < s.A.cols) :
    s.traj x0 u d k r = (anK s.A k).app x0 r +
      (akK s.A N k).app ((blockDiags s.B (N - 1)).app (flatSeq s.B.cols u)) r +
      (akK s.A N k).app ((blockDiags s.E (N - 1)).app (flatSeq s.E.cols d)) r +
      (akK s.A N k).app (fun c => (s.K.tile N).get c 0) r := by
  induction k generalizing r with
  | zero =>
    rw [show akK s.A N 0 = Mat.zeros s.A.cols (s.A.cols * N) from rfl, Mat.app_zeros, Mat.app_zeros,
      Mat.app_zeros, show anK s.A 0 = Mat.eye s.A.cols from rfl, Mat.app_eye _ hr]
    simp [Lti.traj]
  | succ k ih =>
    have hkN : k < N := by omega
    have e1 : (blockDiags s.B (N - 1)).app (flatSeq s.B.cols u) (k * s.A.cols + r) = s.B.app (u k) r := by
      have := blockDiags_app s.B (N - 1) (flatSeq s.B.cols u) (j := k) (r := r) (by omega) (by rw [hs.B]; exact hr)
      rw [hs.B] at this
      rw [this]
      exact Mat.app_congr _ (fun c hc => flatSeq_block _ _ hc k) r
    have e2 : (blockDiags s.E (N - 1)).app (flatSeq s.E.cols d) (k * s.A.cols + r) = s.E.app (d k) r := by
      have := blockDiags_app s.E (N - 1) (flatSeq s.E.cols d) (j := k) (r := r) (by omega) (by rw [hs.E]; exact hr)
      rw [hs.E] at this
      rw [this]
      exact Mat.app_congr _ (fun c hc => flatSeq_block _ _ hc k) r
    have e3 : (s.K.tile N).get (k * s.A.cols + r) 0 = s.K.get r 0 := by
      show s.K.get ((k * s.A.cols + r) % s.K.rows) 0 = _
      rw [hs.K.1, mod_block hr]
    rw [akK_app_succ _ _ _ hkN _ hr, akK_app_succ _ _ _ hkN _ hr, akK_app_succ _ _ _ hkN _ hr, e1, e2, e3]
    show s.A.app (s.traj x0 u d k) r + s.B.app (u k) r + s.E.app (d k) r + s.K.get r 0 = _
    rw [Mat.app_congr s.A (fun j hj => ih (by omega) j hj) r]
    simp only [Mat.app_add]
    rw [show anK s.A (k + 1) = s.A.dot (anK s.A k) from rfl, Mat.app_dot]
    ring

theorem app_stack (s : Lti R) (x0 : Nat → R) (u : Nat → Nat → R) (A B : Mat R) (hA : A.cols = s.A.cols)
    (r : Nat) : (A.hstack B).app (s.stack x0 u) r = A.app x0 r + B.app (flatSeq s.B.cols u) r := by
  rw [Mat.app_hstack, hA]
  congr 1
  · exact Mat.app_congr _ (fun c hc => by rw [hA] at hc; simp [Lti.stack, hc]) r
  · refine Mat.app_congr _ (fun c _ => ?_) r
    simp [Lti.stack, flatSeq]

theorem effE_good (pc : Pc R) (s : Lti R) (h : s.GoodDist pc) : effE pc s = s.E := by
  unfold effE
  split
  · rfl
  · rename_i h0
    rw [(h ((disturbed_iff s).2 (by simpa using h0))).1, if_pos rfl]

/-- The disturbances that are taken into account at time `i`. -/
def distAt (ind : List Nat) (i : Nat) (d : Nat → Nat → R) : Nat → Nat → R :=
  if i ∈ ind then d else fun _ _ => 0

theorem flatSeq_zero (p : Nat) : flatSeq p (fun _ _ => (0 : R)) = fun _ => 0 := rfl

/-- `L v <= M` holds for the vectors of the initial states and inputs for which, whatever the possible
disturbances, each state until time `N` is in its polytope and each input is allowed in the state where it
is applied. At the times that are not in `ind`, the disturbances are ignored. -/
theorem createLM_spec (pc : Pc R) (s : Lti R) (hs : s.Shaped) (hW : s.GoodDist pc) (N : Nat) (hN : 0 < N)
    (listP : List (HP R)) (hlen : listP.length = N + 1) (hdim : ∀ P ∈ listP, P.A.cols = s.A.cols)
    (ind : Option (List Nat))
    (hU : s.U.A.cols = s.B.cols ∨ ∀ P ∈ listP, P.Pointed) :
    ∃ L M, createLM pc s N listP ind = .ok (L, M) ∧ L.cols = s.A.cols + N * s.B.cols ∧
      L.rows = (listP.map (·.A.rows)).sum + s.U.A.rows * N ∧
      (∀ x0 u, Sat L M (s.stack x0 u) ↔ ∀ d, s.Possible pc N d → ∀ i ≤ N,
        (∀ P, listP[i]? = some P → P.Mem (s.traj x0 u (distAt (ind.getD (List.range' 1 N)) i d) i)) ∧
        (i < N → s.InputOk (s.traj x0 u (distAt (ind.getD (List.range' 1 N)) i d) i) (u i))) ∧
      ∀ x0 u, (∀ r, (∀ P, listP[0]? = some P → P.A.rows ≤ r) → r < L.rows →
          ∑ c ∈ range L.cols, L.get r c * s.stack x0 u c ≤ M.get r 0) ↔
        ∀ d, s.Possible pc N d → ∀ i ≤ N,
        (∀ P, 0 < i → listP[i]? = some P →
          P.Mem (s.traj x0 u (distAt (ind.getD (List.range' 1 N)) i d) i)) ∧
        (i < N → s.InputOk (s.traj x0 u (distAt (ind.getD (List.range' 1 N)) i d) i) (u i)) := by
  generalize hind : ind.getD (List.range' 1 N) = ind'
  have hBd : (blockDiags s.B (N - 1)).cols = N * s.B.cols := by
    rw [(blockDiags_shape _ _).2]
    congr 1
    omega
  have hEd : (blockDiags s.E (N - 1)).cols = s.E.cols * N := by
    rw [(blockDiags_shape _ _).2, Nat.mul_comm]
    congr 1
    omega
  have hKd : (s.K.tile N).cols = 1 := hs.K.2
  obtain ⟨st, hloop, hrows, hu⟩ := loop_ok (ind := ind') hlen hs.U hBd hEd hKd
  -- the rows without the disturbances
  have hGrow : ∀ i, i < N + 1 → ∀ P, listP[i]? = some P → ∀ r < P.A.rows, ∀ d : Nat → Nat → R,
      ∑ c ∈ range (s.E.cols * N), st.Gk.get (off listP i + r) c * flatSeq s.E.cols d c =
        P.A.app ((akK s.A N i).app ((blockDiags s.E (N - 1)).app (flatSeq s.E.cols (distAt ind' i d)))) r := by
    intro i hi P hP r hr d
    unfold distAt
    by_cases hin : i ∈ ind'
    · rw [if_pos hin, ← Mat.app_dot, ← Mat.app_dot]
      show _ = ∑ c ∈ range (blockDiags s.E (N - 1)).cols, _
      rw [hEd]
      refine sum_congr rfl fun c hc => ?_
      rw [hrows.G i hi P hP r hr c (mem_range.1 hc), if_pos hin]
    · rw [if_neg hin, flatSeq_zero]
      have : ∀ X : Mat R, X.app (fun _ => (0 : R)) = fun _ => 0 := fun X => funext fun i => Mat.app_zero X i
      rw [this, this, this]
      exact sum_eq_zero fun c hc => by
        rw [hrows.G i hi P hP r hr c (mem_range.1 hc), if_neg hin, zero_mul]
  have hLrow : ∀ i, i < N + 1 → ∀ P, listP[i]? = some P → ∀ r < P.A.rows, ∀ x0 u d,
      ∑ c ∈ range (s.A.cols + N * s.B.cols), st.Lk.get (off listP i + r) c * s.stack x0 u c +
        ∑ c ∈ range (s.E.cols * N), st.Gk.get (off listP i + r) c * flatSeq s.E.cols d c -
        st.Mk.get (off listP i + r) 0 =
      ∑ c ∈ range P.A.cols, P.A.get r c * s.traj x0 u (distAt ind' i d) i c - P.b r := by
    intro i hi P hP r hr x0 u d
    have hPd := hdim P (List.mem_of_getElem? hP)
    have e1 : ∑ c ∈ range (s.A.cols + N * s.B.cols), st.Lk.get (off listP i + r) c * s.stack x0 u c =
        P.A.app ((abK s N (blockDiags s.B (N - 1)) i).app (s.stack x0 u)) r := by
      rw [← Mat.app_dot]
      have hc : (P.A.dot (abK s N (blockDiags s.B (N - 1)) i)).cols = s.A.cols + N * s.B.cols := by
        show (anK s.A i).cols + (blockDiags s.B (N - 1)).cols = _
        rw [anK_cols, hBd]
      rw [Mat.app, hc]
      exact sum_congr rfl fun c hc => by rw [hrows.L i hi P hP r hr c (mem_range.1 hc)]
    have e2 : ((P.A.dot (akK s.A N i)).dot (s.K.tile N)).get r 0 =
        P.A.app ((akK s.A N i).app fun c => (s.K.tile N).get c 0) r := by
      rw [Mat.dot_get, Mat.app_dot]
    have e3 : ∑ c ∈ range P.A.cols, P.A.get r c * s.traj x0 u (distAt ind' i d) i c =
        P.A.app (s.traj x0 u (distAt ind' i d) i) r := rfl
    rw [e1, hGrow i hi P hP r hr, hrows.M i hi P hP r hr, e2, e3]
    rw [Mat.app_congr P.A (fun j hj => traj_eq s hs N hN x0 u (distAt ind' i d) i (by omega) j
      (by rw [← hPd]; exact hj)) r]
    simp only [Mat.app_add]
    rw [Mat.app_congr P.A (x := (abK s N (blockDiags s.B (N - 1)) i).app (s.stack x0 u))
      (fun j _ => app_stack s x0 u _ _ (anK_cols s.A i) j) r]
    simp only [Mat.app_add, Mat.app_dot]
    ring
  -- the rows of the set of inputs
  have hGUrow : ∀ i, i < N → ∀ r < s.U.A.rows, ∀ d : Nat → Nat → R,
      ∑ c ∈ range (s.E.cols * N), st.GU.get (i * s.U.A.rows + r) c * flatSeq s.E.cols d c =
        if s.U.A.cols = s.B.cols then 0 else
          s.U.A.app (fun c => if c < s.B.cols then 0 else
            (akK s.A N i).app ((blockDiags s.E (N - 1)).app (flatSeq s.E.cols (distAt ind' i d)))
              (c - s.B.cols)) r := by
    intro i hi r hr d
    by_cases hm : s.U.A.cols = s.B.cols
    · rw [if_pos hm]
      have hpos := hs.pos
      exact sum_eq_zero fun c hc => by
        rw [hu.G i hi r hr c (mem_range.1 hc), if_neg (by omega), zero_mul]
    · have hm' := hs.U.resolve_left hm
      rw [if_neg hm]
      unfold distAt
      by_cases hin : i ∈ ind'
      · rw [if_pos hin]
        have : ∑ c ∈ range (s.E.cols * N), st.GU.get (i * s.U.A.rows + r) c * flatSeq s.E.cols d c =
            (guK s N (blockDiags s.E (N - 1)) i).app (flatSeq s.E.cols d) r := by
          refine sum_congr rfl fun c hc => ?_
          rw [hu.G i hi r hr c (mem_range.1 hc), if_pos ⟨hm', hin⟩]
        rw [this, guK, Mat.app_dot]
        refine Mat.app_congr _ (fun c hc => ?_) r
        split
        · rename_i h
          rw [Mat.app_vstack_lt _ _ _ (by exact h), Mat.app_zeros]
        · rename_i h
          have h' := Mat.app_vstack_ge (Mat.zeros s.B.cols (s.E.cols * N) : Mat R)
            ((akK s.A N i).dot (blockDiags s.E (N - 1))) hEd.symm (flatSeq s.E.cols d) (c - s.B.cols)
          have hcc : (Mat.zeros s.B.cols (s.E.cols * N) : Mat R).rows + (c - s.B.cols) = c := by
            show s.B.cols + (c - s.B.cols) = c
            omega
          rw [hcc] at h'
          rw [h', Mat.app_dot]
      · rw [if_neg hin, flatSeq_zero]
        have : ∀ X : Mat R, X.app (fun _ => (0 : R)) = fun _ => 0 := fun X => funext fun i => Mat.app_zero X i
        rw [this, this]
        simp only [ite_self]
        rw [this]
        exact sum_eq_zero fun c hc => by
          rw [hu.G i hi r hr c (mem_range.1 hc), if_neg (fun h => hin h.2), zero_mul]
  have hUrow : ∀ i, i < N → ∀ r < s.U.A.rows, ∀ x0 u d,
      ∑ c ∈ range (s.A.cols + N * s.B.cols), st.LU.get (i * s.U.A.rows + r) c * s.stack x0 u c +
        ∑ c ∈ range (s.E.cols * N), st.GU.get (i * s.U.A.rows + r) c * flatSeq s.E.cols d c -
        st.MU.get (i * s.U.A.rows + r) 0 =
      ∑ c ∈ range s.U.A.cols, s.U.A.get r c * (if s.U.A.cols = s.B.cols then u i c else
        if c < s.B.cols then u i c else s.traj x0 u (distAt ind' i d) i (c - s.B.cols)) - s.U.b r := by
    intro i hi r hr x0 u d
    have hstack : ∀ j < s.B.cols, s.stack x0 u (s.A.cols + s.B.cols * i + j) = u i j := by
      intro j hj
      unfold Lti.stack
      rw [if_neg (by omega), show s.A.cols + s.B.cols * i + j - s.A.cols = i * s.B.cols + j by
        rw [Nat.mul_comm]; omega, div_block hj, mod_block hj]
    have hfit : s.A.cols + s.B.cols * i + s.B.cols ≤ s.A.cols + N * s.B.cols := by
      have := Nat.mul_le_mul_right s.B.cols (Nat.succ_le_of_lt hi)
      rw [Nat.succ_mul, Nat.mul_comm i] at this
      omega
    rw [hGUrow i hi r hr, hu.M i hi r hr]
    by_cases hm : s.U.A.cols = s.B.cols
    · simp only [if_pos hm, muK]
      rw [add_zero]
      congr 1
      have hL : ∀ c < s.A.cols + N * s.B.cols, st.LU.get (i * s.U.A.rows + r) c =
          if s.A.cols + s.B.cols * i ≤ c ∧ c < s.A.cols + s.B.cols * i + s.B.cols then
            s.U.A.get r (c - (s.A.cols + s.B.cols * i)) else 0 := by
        intro c hc
        rw [hu.L i hi r hr c hc, luK, if_pos hm]
        by_cases hcc : s.A.cols + s.B.cols * i ≤ c ∧ c < s.A.cols + s.B.cols * i + s.B.cols
        · rw [Mat.setBlock_in _ s.U.A (by omega) (by omega) hcc.1 (by omega), if_pos hcc, Nat.sub_zero]
        · rw [Mat.setBlock_out _ s.U.A (by omega), if_neg hcc]
          rfl
      rw [sum_congr rfl fun c hc => by rw [hL c (mem_range.1 hc)]]
      obtain ⟨q, hq⟩ : ∃ q, s.A.cols + N * s.B.cols = (s.A.cols + s.B.cols * i) + (s.B.cols + q) :=
        ⟨s.A.cols + N * s.B.cols - (s.A.cols + s.B.cols * i + s.B.cols), by omega⟩
      rw [hq, sum_range_add, hm]
      rw [sum_eq_zero (fun c hc => by
        have := mem_range.1 hc
        rw [if_neg (by omega), zero_mul]), zero_add, sum_range_add]
      rw [add_eq_left.2 (sum_eq_zero fun c _ => by rw [if_neg (by omega), zero_mul])]
      refine sum_congr rfl fun j hj => ?_
      have := mem_range.1 hj
      rw [if_pos (by omega), Nat.add_sub_cancel_left, hstack j this]
    · have hm' := hs.U.resolve_left hm
      simp only [if_neg hm, muK]
      have e1 : ∑ c ∈ range (s.A.cols + N * s.B.cols), st.LU.get (i * s.U.A.rows + r) c * s.stack x0 u c =
          s.U.A.app (fun c => if c < s.B.cols then u i c else
            (abK s N (blockDiags s.B (N - 1)) i).app (s.stack x0 u) (c - s.B.cols)) r := by
        have hcols : (luK s N (blockDiags s.B (N - 1)) i).cols = s.A.cols + N * s.B.cols := by
          rw [luK, if_neg hm]
          show s.A.cols + s.B.cols * N = _
          rw [Nat.mul_comm]
        have : ∑ c ∈ range (s.A.cols + N * s.B.cols),
            st.LU.get (i * s.U.A.rows + r) c * s.stack x0 u c =
            (luK s N (blockDiags s.B (N - 1)) i).app (s.stack x0 u) r := by
          rw [Mat.app, hcols]
          exact sum_congr rfl fun c hc => by rw [hu.L i hi r hr c (mem_range.1 hc)]
        rw [this, luK, if_neg hm, Mat.app_dot]
        refine Mat.app_congr _ (fun c hc => ?_) r
        split
        · rename_i h
          rw [Mat.app_vstack_lt _ _ _ (by exact h), ← hstack c h]
          have hblk : ∀ c', ((Mat.zeros s.B.cols (s.A.cols + s.B.cols * N) : Mat R).setBlock 0
              (s.A.cols + s.B.cols * i) (Mat.eye s.B.cols)).get c c' =
              if s.A.cols + s.B.cols * i ≤ c' ∧ c' < s.A.cols + s.B.cols * i + s.B.cols then
                (if c = c' - (s.A.cols + s.B.cols * i) then (1 : R) else 0) else 0 := by
            intro c'
            by_cases hcc : s.A.cols + s.B.cols * i ≤ c' ∧ c' < s.A.cols + s.B.cols * i + s.B.cols
            · rw [Mat.setBlock_in _ (Mat.eye s.B.cols) (Nat.zero_le _)
                (by show c < 0 + s.B.cols; omega) hcc.1 hcc.2, if_pos hcc]
              rfl
            · rw [Mat.setBlock_out _ (Mat.eye s.B.cols) (fun h => hcc ⟨h.2.2.1, h.2.2.2⟩), if_neg hcc]
              rfl
          simp only [Mat.app, hblk]
          refine Mat.sum_block _ h ?_
          show _ ≤ s.A.cols + s.B.cols * N
          rw [Nat.mul_comm s.B.cols N]
          exact hfit
        · rename_i h
          have h' := Mat.app_vstack_ge ((Mat.zeros s.B.cols (s.A.cols + s.B.cols * N) : Mat R).setBlock 0
              (s.A.cols + s.B.cols * i) (Mat.eye s.B.cols)) (abK s N (blockDiags s.B (N - 1)) i)
              (by
                show s.A.cols + s.B.cols * N = (anK s.A i).cols + (blockDiags s.B (N - 1)).cols
                rw [anK_cols, hBd, Nat.mul_comm]) (s.stack x0 u) (c - s.B.cols)
          have hcc : ((Mat.zeros s.B.cols (s.A.cols + s.B.cols * N) : Mat R).setBlock 0
              (s.A.cols + s.B.cols * i) (Mat.eye s.B.cols)).rows + (c - s.B.cols) = c := by
            show s.B.cols + (c - s.B.cols) = c
            omega
          rw [hcc] at h'
          exact h'
      have e2 : (s.U.A.dot ((Mat.zeros (s.B.cols + s.A.cols) 1 : Mat R).setBlock s.B.cols 0
            ((akK s.A N i).dot (s.K.tile N)))).get r 0 =
          s.U.A.app (fun c => if c < s.B.cols then 0 else
            (akK s.A N i).app (fun c => (s.K.tile N).get c 0) (c - s.B.cols)) r := by
        rw [Mat.dot_get]
        refine Mat.app_congr _ (fun c hc => ?_) r
        split
        · rename_i h
          rw [Mat.setBlock_out _ _ (by omega)]
          rfl
        · rename_i h
          rw [Mat.setBlock_in _ ((akK s.A N i).dot (s.K.tile N)) (by omega)
            (by
              show c < s.B.cols + (akK s.A N i).rows
              rw [akK_rows _ hs.A]
              omega) (by omega) (by show 0 < 0 + (s.K.tile N).cols; rw [hKd]; omega), Mat.dot_get]
      have e3 : ∀ y : Nat → R, ∑ c ∈ range s.U.A.cols, s.U.A.get r c * y c = s.U.A.app y r := fun _ => rfl
      rw [e1, e2, e3]
      have e4 : ∀ c < s.U.A.cols, (if c < s.B.cols then u i c else
          s.traj x0 u (distAt ind' i d) i (c - s.B.cols)) =
          (if c < s.B.cols then u i c else
            (abK s N (blockDiags s.B (N - 1)) i).app (s.stack x0 u) (c - s.B.cols)) +
          (if c < s.B.cols then 0 else
            (akK s.A N i).app ((blockDiags s.E (N - 1)).app (flatSeq s.E.cols (distAt ind' i d)))
              (c - s.B.cols)) +
          (if c < s.B.cols then 0 else
            (akK s.A N i).app (fun c => (s.K.tile N).get c 0) (c - s.B.cols)) := by
        intro c hc
        split
        · ring
        · rw [traj_eq s hs N hN x0 u _ i (by omega) _ (by omega), abK,
            app_stack s x0 u _ _ (anK_cols s.A i), Mat.app_dot]
      rw [Mat.app_congr s.U.A e4 r]
      simp only [Mat.app_add]
      ring
  -- the rows with the disturbances: each row holds for all of them
  have hE0 : ¬ s.Disturbed → ∀ d, (blockDiags s.E (N - 1)).app (flatSeq s.E.cols d) =
      fun c => (blockDiags s.E (N - 1)).app (flatSeq s.E.cols d) c := fun _ _ => rfl
  have hEz : ¬ s.Disturbed → ∀ x r, r < s.A.cols → s.E.app x r = 0 := by
    intro h x r hr
    refine sum_eq_zero fun j hj => ?_
    have : s.E.get r j = 0 := by
      by_contra h'
      exact h ⟨r, by rw [hs.E]; exact hr, j, mem_range.1 hj, h'⟩
    rw [this, zero_mul]
  have hAkz : ¬ s.Disturbed → ∀ d, ∀ k ≤ N, ∀ r < s.A.cols,
      (akK s.A N k).app ((blockDiags s.E (N - 1)).app (flatSeq s.E.cols d)) r = 0 := by
    intro h d k
    induction k with
    | zero => exact fun _ r _ => Mat.app_zeros _ _ _ _
    | succ k ih =>
      intro hk r hr
      rw [akK_app_succ _ _ _ (by omega) _ hr]
      have e2 := blockDiags_app s.E (N - 1) (flatSeq s.E.cols d) (j := k) (r := r) (by omega)
        (by rw [hs.E]; exact hr)
      rw [hs.E] at e2
      rw [e2, hEz h _ r hr, add_zero, Mat.app_congr s.A (fun j hj => ih (by omega) j hj) r, Mat.app_zero]
  have hposs : ∃ d, s.Possible pc N d := by
    by_cases h : s.Disturbed
    · exact ⟨fun _ => (pc.extreme s.W).get 0, fun _ k _ => row_mem _ _ (by have := (hW h).2.2.1; omega)⟩
    · exact ⟨fun _ _ => 0, fun h' => absurd h' h⟩
  -- `D_hat`
  obtain ⟨H, hH, hHrow⟩ : ∃ H : Mat R,
      (if st.Gk.allZero then (.ok (Mat.zeros ((listP.map (·.A.rows)).sum + s.U.A.rows * N) 1) :
          Except PyErr (Mat R))
        else getMaxExtreme pc (st.Gk.vstack st.GU) s.W N) = .ok H ∧
      ∀ r < st.Gk.rows + st.GU.rows, ∀ y, H.get r 0 ≤ y ↔ ∀ d, s.Possible pc N d →
        ∑ c ∈ range (s.E.cols * N), (st.Gk.vstack st.GU).get r c * flatSeq s.E.cols d c ≤ y := by
    cases hz : st.Gk.allZero with
    | true =>
      refine ⟨_, rfl, fun r hr y => ?_⟩
      have hGk := (Mat.allZero_iff st.Gk).1 hz
      have hzero : ∀ c < s.E.cols * N, (st.Gk.vstack st.GU).get r c = 0 := by
        intro c hc
        show (if r < st.Gk.rows then st.Gk.get r c else st.GU.get (r - st.Gk.rows) c) = 0
        split
        · rename_i h
          exact hGk r h c (by rw [hrows.GkS.2]; exact hc)
        · rename_i h
          obtain ⟨i, hi, r', hr', he⟩ : ∃ i, i < N ∧ ∃ r', r' < s.U.A.rows ∧
              r - st.Gk.rows = i * s.U.A.rows + r' := by
            have hlt : r - st.Gk.rows < s.U.A.rows * N := by
              rw [← hu.GUS.1]
              omega
            have hpos : 0 < s.U.A.rows := by
              rcases Nat.eq_zero_or_pos s.U.A.rows with h0 | h0
              · rw [h0, Nat.zero_mul] at hlt
                omega
              · exact h0
            exact ⟨(r - st.Gk.rows) / s.U.A.rows, Nat.div_lt_of_lt_mul hlt,
              (r - st.Gk.rows) % s.U.A.rows, Nat.mod_lt _ hpos, by
                rw [Nat.mul_comm]
                exact (Nat.div_add_mod _ _).symm⟩
          rw [he, hu.G i hi r' hr' c hc]
          split
          · rename_i hcond
            have hpos := hs.pos
            have hpt := hU.resolve_left (by omega)
            have hPi : listP[i]? = some listP[i] := List.getElem?_eq_getElem (by omega)
            have hPm : listP[i] ∈ listP := List.getElem_mem _
            have hcol := hpt _ hPm (fun j => ((akK s.A N i).dot (blockDiags s.E (N - 1))).get j c)
              (fun q hq => by
                have h1 := hrows.G i (by omega) _ hPi q hq c hc
                rw [if_pos hcond.2] at h1
                have h2 := hGk (off listP i + q) (by
                  rw [hrows.GkS.1, ← off_length]
                  exact off_lt (by omega) hPi hq) c (by rw [hrows.GkS.2]; exact hc)
                rw [h2] at h1
                show listP[i].A.app _ q = 0
                rw [h1, Mat.dot_get, Mat.app_dot]
                rfl)
            show s.U.A.app _ r' = 0
            refine (Mat.app_congr _ (y := fun _ => 0) (fun j hj => ?_) r').trans (Mat.app_zero _ _)
            show (if j < s.B.cols then (0 : R) else
              ((akK s.A N i).dot (blockDiags s.E (N - 1))).get (j - s.B.cols) c) = 0
            split
            · rfl
            · exact hcol _ (by rw [hdim _ hPm]; omega)
          · rfl
      have hs0 : ∀ d : Nat → Nat → R,
          ∑ c ∈ range (s.E.cols * N), (st.Gk.vstack st.GU).get r c * flatSeq s.E.cols d c = 0 :=
        fun d => sum_eq_zero fun c hc => by rw [hzero c (mem_range.1 hc), zero_mul]
      constructor
      · intro hy d _
        rw [hs0 d]
        exact hy
      · intro hy
        obtain ⟨d, hd⟩ := hposs
        have := hy d hd
        rw [hs0 d] at this
        exact this
    | false =>
      have hdist : s.Disturbed := by
        by_contra h
        have : st.Gk.allZero = true := by
          rw [Mat.allZero_iff]
          intro r hr c hc
          rw [hrows.GkS.1, ← off_length] at hr
          obtain ⟨i, P, r', hi, hP, hr', rfl⟩ := off_decompose (le_refl _) hr
          rw [hrows.GkS.2] at hc
          rw [hrows.G i (by omega) P hP r' hr' c hc]
          split
          · have hPd := hdim P (List.mem_of_getElem? hP)
            -- the column `c` is the effect of a unit disturbance
            have hunit := hAkz h (fun k j => if k = c / s.E.cols ∧ j = c % s.E.cols then 1 else 0) i (by omega)
            have hcol : ∀ j, ((akK s.A N i).dot (blockDiags s.E (N - 1))).get j c =
                (akK s.A N i).app ((blockDiags s.E (N - 1)).app (flatSeq s.E.cols
                  (fun k j => if k = c / s.E.cols ∧ j = c % s.E.cols then 1 else 0))) j := by
              intro j
              rw [Mat.dot_get]
              refine Mat.app_congr _ (fun q _ => ?_) j
              unfold Mat.app flatSeq
              rw [sum_eq_single c]
              · simp
              · intro b hb hbc
                dsimp only
                rw [if_neg, mul_zero]
                rintro ⟨h1, h2⟩
                exact hbc (by rw [← Nat.div_add_mod b s.E.cols, ← Nat.div_add_mod c s.E.cols, h1, h2])
              · intro hn
                exact absurd (mem_range.2 (by rw [hEd]; exact hc)) hn
            rw [Mat.dot_get, Mat.app_dot]
            refine (Mat.app_congr _ (y := fun _ => 0) (fun j hj => ?_) r').trans (Mat.app_zero _ _)
            show (akK s.A N i).app _ j = 0
            rw [← Mat.dot_get, hcol j]
            exact hunit j (by rw [← hPd]; exact hj)
          · rfl
        rw [this] at hz
        exact absurd hz (by simp)
      obtain ⟨hfd, hVc, hV2, hV10⟩ := hW hdist
      have hGc : (st.Gk.vstack st.GU).cols = (pc.extreme s.W).cols * N := by
        show st.Gk.cols = _
        rw [hrows.GkS.2, hVc]
      obtain ⟨H, hH, _, hspec⟩ := getMaxExtreme_spec pc (st.Gk.vstack st.GU) s.W N hV2 hV10 hGc
      refine ⟨H, by rw [if_neg (by simp)]; exact hH, fun r _ y => ?_⟩
      rw [hspec r y, hGc, hull_bound _ N _ y (by omega), hVc]
      exact ⟨fun h d hd => h d (hd hdist), fun h d hd => h d fun _ => hd⟩
  refine ⟨st.Lk.vstack st.LU, (st.Mk.vstack st.MU).sub H, ?_, hrows.LkS.2, ?_, ?_⟩
  · unfold createLM
    rw [if_neg (by omega)]
    dsimp only
    rw [hind, effE_good pc s hW, hloop, ok_bind]
    cases hz : st.Gk.allZero with
    | true =>
      rw [hz, if_pos rfl] at hH
      rw [if_pos rfl, hH, ok_bind]
    | false =>
      rw [hz, if_neg (by simp)] at hH
      rw [if_neg (by simp), hH, ok_bind]
  · show st.Lk.rows + st.LU.rows = _
    rw [hrows.LkS.1, hu.LUS.1]
  · have hLc : (st.Lk.vstack st.LU).cols = s.A.cols + N * s.B.cols := hrows.LkS.2
    have hLr : (st.Lk.vstack st.LU).rows = st.Gk.rows + st.GU.rows := by
      show st.Lk.rows + st.LU.rows = _
      rw [hrows.LkS.1, hrows.GkS.1, hu.LUS.1, hu.GUS.1]
    -- a row holds when it holds for all disturbances
    have hrow1 : ∀ i, i < N + 1 → ∀ P, listP[i]? = some P → ∀ r < P.A.rows, ∀ x0 u,
        (∑ c ∈ range (st.Lk.vstack st.LU).cols,
            (st.Lk.vstack st.LU).get (off listP i + r) c * s.stack x0 u c ≤
            ((st.Mk.vstack st.MU).sub H).get (off listP i + r) 0 ↔
          ∀ d, s.Possible pc N d →
            ∑ c ∈ range P.A.cols, P.A.get r c * s.traj x0 u (distAt ind' i d) i c ≤ P.b r) := by
      intro i hi P hP r hr x0 u
      have hlt : off listP i + r < (listP.map (·.A.rows)).sum := by
        rw [← off_length]
        exact off_lt (by omega) hP hr
      have g1 : ∀ c, (st.Lk.vstack st.LU).get (off listP i + r) c = st.Lk.get (off listP i + r) c := by
        intro c
        exact if_pos (by rw [hrows.LkS.1]; exact hlt)
      have g2 : ((st.Mk.vstack st.MU).sub H).get (off listP i + r) 0 =
          st.Mk.get (off listP i + r) 0 - H.get (off listP i + r) 0 := by
        show (if _ then _ else _) - _ = _
        rw [if_pos (by rw [hrows.MkS.1]; exact hlt)]
      have g3 : ∀ c, (st.Gk.vstack st.GU).get (off listP i + r) c = st.Gk.get (off listP i + r) c := by
        intro c
        exact if_pos (by rw [hrows.GkS.1]; exact hlt)
      rw [g2, hLc]
      simp only [g1]
      rw [le_sub_comm, hHrow _ (by rw [hrows.GkS.1]; omega)]
      simp only [g3]
      refine forall_congr' fun d => imp_congr_right fun _ => ?_
      have := hLrow i hi P hP r hr x0 u d
      constructor <;> intro hle <;> linarith
    have hrow2 : ∀ i, i < N → ∀ r < s.U.A.rows, ∀ x0 u,
        (∑ c ∈ range (st.Lk.vstack st.LU).cols,
            (st.Lk.vstack st.LU).get (st.Lk.rows + (i * s.U.A.rows + r)) c * s.stack x0 u c ≤
            ((st.Mk.vstack st.MU).sub H).get (st.Lk.rows + (i * s.U.A.rows + r)) 0 ↔
          ∀ d, s.Possible pc N d →
            ∑ c ∈ range s.U.A.cols, s.U.A.get r c * (if s.U.A.cols = s.B.cols then u i c else
              if c < s.B.cols then u i c else
                s.traj x0 u (distAt ind' i d) i (c - s.B.cols)) ≤ s.U.b r) := by
      intro i hi r hr x0 u
      have hlt : i * s.U.A.rows + r < s.U.A.rows * N := by
        have := mul_row hi hr
        rw [Nat.mul_comm s.U.A.rows N]
        exact this
      have g1 : ∀ c, (st.Lk.vstack st.LU).get (st.Lk.rows + (i * s.U.A.rows + r)) c =
          st.LU.get (i * s.U.A.rows + r) c := by
        intro c
        show (if _ then _ else _) = _
        rw [if_neg (by omega), Nat.add_sub_cancel_left]
      have g2 : ((st.Mk.vstack st.MU).sub H).get (st.Lk.rows + (i * s.U.A.rows + r)) 0 =
          st.MU.get (i * s.U.A.rows + r) 0 - H.get (st.Lk.rows + (i * s.U.A.rows + r)) 0 := by
        show (if _ then _ else _) - _ = _
        rw [if_neg (by rw [hrows.MkS.1, hrows.LkS.1]; omega), hrows.MkS.1, hrows.LkS.1,
          Nat.add_sub_cancel_left]
      have g3 : ∀ c, (st.Gk.vstack st.GU).get (st.Lk.rows + (i * s.U.A.rows + r)) c =
          st.GU.get (i * s.U.A.rows + r) c := by
        intro c
        show (if _ then _ else _) = _
        rw [if_neg (by rw [hrows.GkS.1, hrows.LkS.1]; omega), hrows.GkS.1, hrows.LkS.1,
          Nat.add_sub_cancel_left]
      rw [g2, hLc]
      simp only [g1]
      rw [le_sub_comm, hHrow _ (by rw [hrows.LkS.1, hrows.GkS.1, hu.GUS.1]; omega)]
      simp only [g3]
      refine forall_congr' fun d => imp_congr_right fun _ => ?_
      have := hUrow i hi r hr x0 u d
      constructor <;> intro hle <;> linarith
    have hdec : ∀ r < (st.Lk.vstack st.LU).rows,
        (∃ i P r', i < N + 1 ∧ listP[i]? = some P ∧ r' < P.A.rows ∧ r = off listP i + r') ∨
        ∃ i r', i < N ∧ r' < s.U.A.rows ∧ r = st.Lk.rows + (i * s.U.A.rows + r') := by
      intro r hr
      by_cases h : r < st.Lk.rows
      · left
        rw [hrows.LkS.1, ← off_length] at h
        obtain ⟨i, P, r', hi, h⟩ := off_decompose (le_refl _) h
        exact ⟨i, P, r', by omega, h⟩
      · right
        have hlt : r - st.Lk.rows < s.U.A.rows * N := by
          rw [← hu.LUS.1]
          have : (st.Lk.vstack st.LU).rows = st.Lk.rows + st.LU.rows := rfl
          omega
        have hpos : 0 < s.U.A.rows := by
          rcases Nat.eq_zero_or_pos s.U.A.rows with h0 | h0
          · rw [h0, Nat.zero_mul] at hlt
            omega
          · exact h0
        refine ⟨(r - st.Lk.rows) / s.U.A.rows, (r - st.Lk.rows) % s.U.A.rows, Nat.div_lt_of_lt_mul hlt,
          Nat.mod_lt _ hpos, ?_⟩
        have := Nat.div_add_mod (r - st.Lk.rows) s.U.A.rows
        rw [Nat.mul_comm] at this
        omega
    have hin1 : ∀ i, i < N + 1 → ∀ P, listP[i]? = some P → ∀ r < P.A.rows,
        off listP i + r < (st.Lk.vstack st.LU).rows := by
      intro i hi P hP r hr
      have : off listP i + r < (listP.map (·.A.rows)).sum := by
        rw [← off_length]
        exact off_lt (by omega) hP hr
      show _ < st.Lk.rows + st.LU.rows
      rw [hrows.LkS.1]
      omega
    have hin2 : ∀ i, i < N → ∀ r < s.U.A.rows,
        st.Lk.rows + (i * s.U.A.rows + r) < (st.Lk.vstack st.LU).rows := by
      intro i hi r hr
      have := mul_row hi hr
      show _ < st.Lk.rows + st.LU.rows
      rw [hu.LUS.1, Nat.mul_comm s.U.A.rows N]
      omega
    have hok : ∀ i x0 u d, s.InputOk (s.traj x0 u (distAt ind' i d) i) (u i) ↔
        ∀ r < s.U.A.rows, ∑ c ∈ range s.U.A.cols, s.U.A.get r c *
          (if s.U.A.cols = s.B.cols then u i c else
              if c < s.B.cols then u i c else
                s.traj x0 u (distAt ind' i d) i (c - s.B.cols)) ≤ s.U.b r := by
      intro i x0 u d
      unfold Lti.InputOk
      by_cases hm : s.U.A.cols = s.B.cols
      · simp only [if_pos hm]
        exact Iff.rfl
      · simp only [if_neg hm]
        exact Iff.rfl
    constructor
    · intro x0 u
      constructor
      · intro hsat d hd i hi
        refine ⟨fun P hP r hr => ?_, fun hiN => ?_⟩
        · exact (hrow1 i (by omega) P hP r hr x0 u).1 (hsat _ (hin1 i (by omega) P hP r hr)) d hd
        · rw [hok]
          exact fun r hr => (hrow2 i hiN r hr x0 u).1 (hsat _ (hin2 i hiN r hr)) d hd
      · intro h r hr
        rcases hdec r hr with ⟨i, P, r', hi, hP, hr', rfl⟩ | ⟨i, r', hi, hr', rfl⟩
        · exact (hrow1 i hi P hP r' hr' x0 u).2 fun d hd => (h d hd i (by omega)).1 P hP r' hr'
        · exact (hrow2 i hi r' hr' x0 u).2 fun d hd =>
            (hok i x0 u d).1 ((h d hd i (by omega)).2 hi) r' hr'
    · intro x0 u
      have hP0 : listP[0]? = some listP[0] := List.getElem?_eq_getElem (by omega)
      have hoff1 : off listP 1 = listP[0].A.rows := by
        rw [off_succ hP0, off_zero, Nat.zero_add]
      constructor
      · intro hsat d hd i hi
        refine ⟨fun P hi0 hP r hr => ?_, fun hiN => ?_⟩
        · refine (hrow1 i (by omega) P hP r hr x0 u).1 (hsat _ (fun Q hQ => ?_)
            (hin1 i (by omega) P hP r hr)) d hd
          obtain rfl : listP[0] = Q := Option.some.inj (hP0.symm.trans hQ)
          have := off_mono listP (show 1 ≤ i by omega)
          omega
        · rw [hok]
          refine fun r hr => (hrow2 i hiN r hr x0 u).1 (hsat _ (fun Q hQ => ?_) (hin2 i hiN r hr)) d hd
          obtain rfl : listP[0] = Q := Option.some.inj (hP0.symm.trans hQ)
          have := off_mono listP (show 1 ≤ listP.length by omega)
          rw [off_length, hoff1, ← hrows.LkS.1] at this
          omega
      · intro h r hr0 hr
        rcases hdec r hr with ⟨i, P, r', hi, hP, hr', rfl⟩ | ⟨i, r', hi, hr', rfl⟩
        · refine (hrow1 i hi P hP r' hr' x0 u).2 fun d hd => (h d hd i (by omega)).1 P ?_ hP r' hr'
          rcases Nat.eq_zero_or_pos i with rfl | h0
          · have := hr0 P hP
            rw [off_zero] at this
            omega
          · exact h0
        · exact (hrow2 i hi r' hr' x0 u).2 fun d hd =>
            (hok i x0 u d).1 ((h d hd i (by omega)).2 hi) r' hr'

/-- `createLM` with polytopes for the first, the intermediate and the last state. -/
theorem createLM3_spec (pc : Pc R) (s : Lti R) (hs : s.Shaped) (hW : s.GoodDist pc) (N : Nat) (hN : 0 < N)
    (P1 Pk PN : HP R) (h1 : P1.A.cols = s.A.cols) (hk : Pk.A.cols = s.A.cols) (hPN : PN.A.cols = s.A.cols)
    (hU : s.U.A.cols = s.B.cols ∨ P1.Pointed ∧ Pk.Pointed ∧ PN.Pointed) :
    ∃ L M, createLM3 pc s N P1 Pk PN = .ok (L, M) ∧ L.cols = s.A.cols + N * s.B.cols ∧
      ∀ x0 u, Sat L M (s.stack x0 u) ↔ P1.Mem x0 ∧ ∀ d, s.Possible pc N d →
        (∀ k, 0 < k → k < N → Pk.Mem (s.traj x0 u d k)) ∧ PN.Mem (s.traj x0 u d N) ∧
        ∀ k < N, s.InputOk (s.traj x0 u d k) (u k) := by
  have hmem : ∀ P ∈ [P1] ++ List.replicate (N - 1) Pk ++ [PN], P = P1 ∨ P = Pk ∨ P = PN := by
    intro P hP
    simp only [List.mem_append, List.mem_singleton, List.mem_replicate] at hP
    rcases hP with (h | h) | h
    · exact Or.inl h
    · exact Or.inr (Or.inl h.2)
    · exact Or.inr (Or.inr h)
  have hlen : ([P1] ++ List.replicate (N - 1) Pk ++ [PN]).length = N + 1 := by
    simp only [List.length_append, List.length_replicate, List.length_singleton]
    omega
  obtain ⟨L, M, h, hc, _, hsat, _⟩ := createLM_spec pc s hs hW N hN ([P1] ++ List.replicate (N - 1) Pk ++ [PN])
    hlen (by
      intro P hP
      rcases hmem P hP with rfl | rfl | rfl
      · exact h1
      · exact hk
      · exact hPN) none (by
      rcases hU with h | ⟨h, h', h''⟩
      · exact Or.inl h
      · refine Or.inr fun P hP => ?_
        rcases hmem P hP with rfl | rfl | rfl
        · exact h
        · exact h'
        · exact h'')
  refine ⟨L, M, h, hc, fun x0 u => ?_⟩
  rw [hsat x0 u]
  have g0 : ([P1] ++ List.replicate (N - 1) Pk ++ [PN])[0]? = some P1 := by simp
  have gN : ([P1] ++ List.replicate (N - 1) Pk ++ [PN])[N]? = some PN := by
    rw [List.getElem?_append_right (by
      simp only [List.length_append, List.length_replicate, List.length_singleton]; omega)]
    simp only [List.length_append, List.length_replicate, List.length_singleton]
    rw [show N - (1 + (N - 1)) = 0 by omega]
    rfl
  have gk : ∀ k, 0 < k → k < N → ([P1] ++ List.replicate (N - 1) Pk ++ [PN])[k]? = some Pk := by
    intro k h0 hkN
    rw [List.getElem?_append_left (by
      simp only [List.length_append, List.length_replicate, List.length_singleton]; omega),
      List.getElem?_append_right (by simp only [List.length_singleton]; omega),
      List.getElem?_replicate, if_pos (by simp only [List.length_singleton]; omega)]
  have hdist : ∀ (d : Nat → Nat → R) i, 0 < i → i ≤ N →
      distAt ((none : Option (List Nat)).getD (List.range' 1 N)) i d = d := by
    intro d i h0 hi
    unfold distAt
    rw [if_pos (by
      show i ∈ List.range' 1 N
      rw [List.mem_range'_1]
      omega)]
  have hok0 : ∀ (d d' : Nat → Nat → R), s.traj x0 u d 0 = s.traj x0 u d' 0 := fun _ _ => rfl
  constructor
  · intro hall
    have hposs : ∃ d, s.Possible pc N d := by
      by_cases h : s.Disturbed
      · exact ⟨fun _ => (pc.extreme s.W).get 0, fun _ k _ => row_mem _ _ (by have := (hW h).2.2.1; omega)⟩
      · exact ⟨fun _ _ => 0, fun h' => absurd h' h⟩
    obtain ⟨d0, hd0⟩ := hposs
    refine ⟨(hall d0 hd0 0 (by omega)).1 P1 g0, fun d hd => ⟨fun k h0 hkN => ?_, ?_, fun k hkN => ?_⟩⟩
    · have := (hall d hd k (by omega)).1 Pk (gk k h0 hkN)
      rwa [hdist d k h0 (by omega)] at this
    · have := (hall d hd N (le_refl _)).1 PN gN
      rwa [hdist d N hN (le_refl _)] at this
    · have := (hall d hd k (by omega)).2 hkN
      rcases Nat.eq_zero_or_pos k with rfl | h0
      · exact this
      · rwa [hdist d k h0 (by omega)] at this
  · rintro ⟨hx0, hall⟩ d hd i hi
    obtain ⟨hk, hlast, hin⟩ := hall d hd
    refine ⟨fun P hP => ?_, fun hiN => ?_⟩
    · rcases Nat.eq_zero_or_pos i with rfl | h0
      · obtain rfl : P1 = P := Option.some.inj (g0.symm.trans hP)
        exact hx0
      · rw [hdist d i h0 hi]
        by_cases hiN : i = N
        · subst hiN
          obtain rfl : PN = P := Option.some.inj (gN.symm.trans hP)
          exact hlast
        · obtain rfl : Pk = P := Option.some.inj ((gk i h0 (by omega)).symm.trans hP)
          exact hk i h0 (by omega)
    · rcases Nat.eq_zero_or_pos i with rfl | h0
      · exact hin 0 hiN
      · rw [hdist d i h0 hi]
        exact hin i hiN

/-! ## `poly_to_poly` -/

/-- The system of a `LtiSysDyn`. -/
def Lti.dyn (s : Lti R) (pc : Pc R) : Dyn (Nat → R) (Nat → R) (Nat → R) where
  input x := {u | s.InputOk x u}
  dist := {d | s.Disturbed → InHull (pc.extreme s.W) d}
  next := s.next

/-- The states from where inputs exist. -/
def polyStates (pc : Pc R) (s : Lti R) (N : Nat) (p1 trans p2 : HP R) : Set (Nat → R) :=
  {x0 | ∃ L M u, createLM3 pc s N p1 trans p2 = .ok (L, M) ∧ Sat L M (s.stack x0 u)}

theorem traj_shift (s : Lti R) (x0 : Nat → R) (u d : Nat → Nat → R) (k : Nat) :
    s.traj (s.next x0 (u 0) (d 0)) (fun k => u (k + 1)) (fun k => d (k + 1)) k = s.traj x0 u d (k + 1) := by
  induction k with
  | zero => rfl
  | succ k ih =>
    show s.next (s.traj _ _ _ k) _ _ = s.next (s.traj x0 u d (k + 1)) _ _
    rw [ih]

theorem open_of_traj (pc : Pc R) (s : Lti R) (stay T : HP R) (N : Nat) (x0 : Nat → R) (u : Nat → Nat → R)
    (h : ∀ d, (∀ k < N, d k ∈ (s.dyn pc).dist) →
      (∀ k < N, stay.Mem (s.traj x0 u d k)) ∧ T.Mem (s.traj x0 u d N) ∧
        ∀ k < N, s.InputOk (s.traj x0 u d k) (u k))
    (hne : ∃ w, w ∈ (s.dyn pc).dist) :
    x0 ∈ (s.dyn pc).Open {x | stay.Mem x} {x | T.Mem x} ((List.range N).map u) := by
  induction N generalizing x0 u with
  | zero => exact (h (fun _ _ => 0) (fun k hk => by omega)).2.1
  | succ N ih =>
    obtain ⟨w0, hw0⟩ := hne
    have h0 := h (fun _ => w0) (fun _ _ => hw0)
    rw [List.range_succ_eq_map, List.map_cons, List.map_map]
    refine ⟨h0.1 0 (by omega), h0.2.2 0 (by omega), fun w hw => ?_⟩
    refine ih (s.next x0 (u 0) w) (fun k => u (k + 1)) fun d hd => ?_
    have h1 := h (fun k => match k with | 0 => w | k + 1 => d k) (fun k hk => by
      cases k with
      | zero => exact hw
      | succ k => exact hd k (by omega))
    have hsh := traj_shift s x0 u (fun k => match k with | 0 => w | k + 1 => d k)
    refine ⟨fun k hk => ?_, ?_, fun k hk => ?_⟩
    · rw [show s.traj (s.next x0 (u 0) w) (fun k => u (k + 1)) d k = _ from hsh k]
      exact h1.1 (k + 1) (by omega)
    · rw [show s.traj (s.next x0 (u 0) w) (fun k => u (k + 1)) d N = _ from hsh N]
      exact h1.2.1
    · rw [show s.traj (s.next x0 (u 0) w) (fun k => u (k + 1)) d k = _ from hsh k]
      exact h1.2.2 (k + 1) (by omega)

/-- What `Solver.Sound` assumes of `poly_to_poly` holds of the projection of the polytope that `createLM`
describes. -/
theorem polyStates_sound (pc : Pc R) (s : Lti R) (hs : s.Shaped) (hW : s.GoodDist pc) (N : Nat)
    (p1 stay p2 : HP R) (h1 : p1.A.cols = s.A.cols) (hk : stay.A.cols = s.A.cols)
    (hPN : p2.A.cols = s.A.cols)
    (hU : s.U.A.cols = s.B.cols ∨ p1.Pointed ∧ stay.Pointed ∧ p2.Pointed)
    (x : Nat → R) (hx : x ∈ polyStates pc s (N + 1) p1 stay p2) : p1.Mem x ∧
    ∃ u us, us.length = N ∧ u ∈ (s.dyn pc).input x ∧
      ∀ w ∈ (s.dyn pc).dist, (s.dyn pc).next x u w ∈ (s.dyn pc).Open {x | stay.Mem x} {x | p2.Mem x} us := by
  obtain ⟨L, M, u, hLM, hsat⟩ := hx
  obtain ⟨L', M', hLM', _, hspec⟩ := createLM3_spec pc s hs hW (N + 1) (by omega) p1 stay p2 h1 hk hPN hU
  rw [hLM] at hLM'
  obtain ⟨rfl, rfl⟩ := Prod.mk.inj (Except.ok.inj hLM')
  obtain ⟨hx, hall⟩ := (hspec x u).1 hsat
  have hne : ∃ w, w ∈ (s.dyn pc).dist := by
    by_cases h : s.Disturbed
    · exact ⟨(pc.extreme s.W).get 0, fun _ => row_mem _ _ (by have := (hW h).2.2.1; omega)⟩
    · exact ⟨fun _ => 0, fun h' => absurd h' h⟩
  obtain ⟨w0, hw0⟩ := hne
  refine ⟨hx, u 0, (List.range N).map fun k => u (k + 1), by simp, ?_, fun w hw => ?_⟩
  · exact (hall (fun _ => w0) fun h _ _ => hw0 h).2.2 0 (by omega)
  · refine open_of_traj pc s stay p2 N (s.next x (u 0) w) (fun k => u (k + 1)) (fun d hd => ?_) ⟨w0, hw0⟩
    have h1 := hall (fun k => match k with | 0 => w | k + 1 => d k) (fun h k hk => by
      cases k with
      | zero => exact hw h
      | succ k => exact hd k (by omega) h)
    have hsh := traj_shift s x u (fun k => match k with | 0 => w | k + 1 => d k)
    refine ⟨fun k hk => ?_, ?_, fun k hk => ?_⟩
    · rw [show s.traj (s.next x (u 0) w) (fun k => u (k + 1)) d k = _ from hsh k]
      exact h1.1 (k + 1) (by omega) (by omega)
    · rw [show s.traj (s.next x (u 0) w) (fun k => u (k + 1)) d N = _ from hsh N]
      exact h1.2.1
    · rw [show s.traj (s.next x (u 0) w) (fun k => u (k + 1)) d k = _ from hsh k]
      exact h1.2.2 (k + 1) (by omega)

end Abs

end Tulip
