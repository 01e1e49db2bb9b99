import Verif.Abstract.CreateLM
import Mathlib.Data.Nat.Digits.Lemmas
import Mathlib.Tactic.Linarith
import Mathlib.Order.Preorder.Finite

/-!
# Lemmas about `createLM`

The arrays that the loop computes, entry by entry, and the largest effect of the disturbances.
-/

namespace Tulip

namespace Abs

open Finset

set_option linter.unusedSectionVars false

variable {R : Type} [Field R] [LinearOrder R] [IsStrictOrderedRing R]

/-! ## Powers of `A` -/

/-- `A_n` in iteration `k`. -/
def anK (A : Mat R) : Nat → Mat R
  | 0 => Mat.eye A.cols
  | k + 1 => A.dot (anK A k)

/-- `A_k` in iteration `k`. -/
def akK (A : Mat R) (N : Nat) : Nat → Mat R
  | 0 => Mat.zeros A.cols (A.cols * N)
  | k + 1 => nextAk A (akK A N k) k

theorem akK_cols (A : Mat R) (N k : Nat) : (akK A N k).cols = A.cols * N := by
  induction k with
  | zero => rfl
  | succ k ih => exact ih

theorem akK_rows (A : Mat R) (hA : A.rows = A.cols) (N k : Nat) : (akK A N k).rows = A.cols := by
  cases k with
  | zero => rfl
  | succ k => exact hA

theorem anK_cols (A : Mat R) (k : Nat) : (anK A k).cols = A.cols := by
  induction k with
  | zero => rfl
  | succ k ih => exact ih

theorem anK_rows (A : Mat R) (hA : A.rows = A.cols) (k : Nat) : (anK A k).rows = A.cols := by
  cases k with
  | zero => rfl
  | succ k => exact hA

theorem akK_get_ge (A : Mat R) (N k r c : Nat) (hc : k * A.cols ≤ c) : (akK A N k).get r c = 0 := by
  induction k generalizing r with
  | zero => rfl
  | succ k ih =>
    have h1 : k * A.cols + A.cols ≤ c := by rw [Nat.succ_mul] at hc; exact hc
    show ((A.dot (akK A N k)).setBlock 0 (k * A.cols) (Mat.eye A.cols)).get r c = 0
    rw [Mat.setBlock_out _ _ (by simp only [Mat.eye]; omega), Mat.dot_get]
    unfold Mat.app
    exact sum_eq_zero fun j _ => by simp only [ih j (by omega), mul_zero]

theorem akK_app_succ (A : Mat R) (N k : Nat) (hk : k < N) (w : Nat → R) {r : Nat} (hr : r < A.cols) :
    (akK A N (k + 1)).app w r = A.app ((akK A N k).app w) r + w (k * A.cols + r) := by
  have hget : ∀ c, (akK A N (k + 1)).get r c = (A.dot (akK A N k)).get r c +
      (if k * A.cols ≤ c ∧ c < k * A.cols + A.cols then (if r = c - k * A.cols then (1 : R) else 0)
        else 0) := by
    intro c
    show ((A.dot (akK A N k)).setBlock 0 (k * A.cols) (Mat.eye A.cols)).get r c = _
    by_cases h : k * A.cols ≤ c ∧ c < k * A.cols + A.cols
    · have h0 : (A.dot (akK A N k)).get r c = 0 := by
        rw [Mat.dot_get]
        exact sum_eq_zero fun j _ => by
          simp only [akK_get_ge A N k j c h.1, mul_zero]
      rw [Mat.setBlock_in _ (Mat.eye A.cols) (Nat.zero_le _) (by simpa [Mat.eye] using hr) h.1 h.2, if_pos h, h0,
        zero_add]
      rfl
    · rw [Mat.setBlock_out _ (Mat.eye A.cols) (fun h' => h ⟨h'.2.2.1, h'.2.2.2⟩), if_neg h, add_zero]
  rw [← Mat.app_dot]
  have hcols : (akK A N (k + 1)).cols = A.cols * N := akK_cols A N _
  have hcols' : (A.dot (akK A N k)).cols = A.cols * N := akK_cols A N _
  simp only [Mat.app, hcols, hcols', hget, add_mul, sum_add_distrib]
  congr 1
  refine Mat.sum_block w hr ?_
  have := Nat.mul_le_mul_left A.cols (Nat.succ_le_of_lt hk)
  rw [Nat.mul_succ, Nat.mul_comm] at this
  exact this

/-! ## Blocks on the diagonal -/

theorem blockDiags_shape (B : Mat R) (k : Nat) :
    (blockDiags B k).rows = (k + 1) * B.rows ∧ (blockDiags B k).cols = (k + 1) * B.cols := by
  induction k with
  | zero => exact ⟨by simp [blockDiags], by simp [blockDiags]⟩
  | succ k ih =>
    refine ⟨?_, ?_⟩
    · show (blockDiags B k).rows + B.rows = _
      rw [ih.1, Nat.succ_mul (k + 1)]
    · show (blockDiags B k).cols + B.cols = _
      rw [ih.2, Nat.succ_mul (k + 1)]

theorem blockDiags_app (B : Mat R) (k : Nat) (w : Nat → R) {j r : Nat} (hj : j ≤ k) (hr : r < B.rows) :
    (blockDiags B k).app w (j * B.rows + r) = B.app (fun c => w (j * B.cols + c)) r := by
  induction k with
  | zero =>
    obtain rfl : j = 0 := by omega
    simp [blockDiags]
  | succ k ih =>
    have hs := blockDiags_shape B k
    by_cases h : j ≤ k
    · rw [← ih h]
      refine Mat.app_blockDiag2_lt _ _ _ ?_
      rw [hs.1]
      have := Nat.mul_le_mul_right B.rows h
      rw [Nat.succ_mul]
      omega
    · obtain rfl : j = k + 1 := by omega
      have := Mat.app_blockDiag2_ge (blockDiags B k) B w hr
      rw [hs.1, hs.2] at this
      exact this

/-! ## Sums over blocks -/

theorem sum_blocks (h : Nat → R) (p N : Nat) :
    ∑ c ∈ range (p * N), h c = ∑ k ∈ range N, ∑ j ∈ range p, h (k * p + j) := by
  induction N with
  | zero => simp
  | succ N ih =>
    rw [Nat.mul_succ, sum_range_add, ih, sum_range_succ, Nat.mul_comm]

theorem div_block {p j : Nat} (hj : j < p) (k : Nat) : (k * p + j) / p = k := by
  rw [Nat.mul_comm, Nat.mul_add_div (by omega), Nat.div_eq_of_lt hj, Nat.add_zero]

theorem mod_block {p j : Nat} (hj : j < p) (k : Nat) : (k * p + j) % p = j := by
  rw [Nat.mul_comm, Nat.mul_add_mod, Nat.mod_eq_of_lt hj]

/-- The vectors of a sequence, one after the other. -/
def flatSeq (p : Nat) (d : Nat → Nat → R) (c : Nat) : R := d (c / p) (c % p)

theorem flatSeq_block (p : Nat) (d : Nat → Nat → R) {j : Nat} (hj : j < p) (k : Nat) :
    flatSeq p d (k * p + j) = d k j := by
  rw [flatSeq, div_block hj, mod_block hj]

/-! ## `get_max_extreme` -/

theorem digit_getElem (b i N j : Nat) (hb : 2 ≤ b) (hj : j < N) :
    (Nat.digits b i ++ List.replicate N 0)[j]? = some (i / b ^ j % b) := by
  have h := Nat.getD_digits i j hb
  rw [List.getD_eq_getElem?_getD] at h
  by_cases hl : j < (Nat.digits b i).length
  · rw [List.getElem?_append_left hl]
    rw [List.getElem?_eq_getElem hl] at h ⊢
    rw [← h]
    rfl
  · rw [List.getElem?_append_right (by omega)]
    rw [List.getElem?_eq_none (by omega)] at h
    rw [List.getElem?_replicate, if_pos (by omega), ← h]
    rfl

theorem foldlM_range_succ {α : Type} (f : α → Nat → Except PyErr α) (a : α) (k : Nat) :
    (List.range (k + 1)).foldlM f a = (List.range k).foldlM f a >>= fun b => f b k := by
  rw [List.range_succ, List.foldlM_append]
  congr 1
  funext b
  simp only [List.foldlM_cons, List.foldlM_nil]
  cases f b k <;> rfl

theorem dnColumn_spec (V : Mat R) (i N : Nat) (DN : Mat R) (hb : 2 ≤ V.rows)
    (hb' : ∀ j, i / V.rows ^ j % V.rows < 10) (k : Nat) (hk : k ≤ N) : ∃ DN', dnColumn V i (Nat.digits V.rows i ++ List.replicate N 0) k DN = .ok DN' ∧
      DN'.rows = DN.rows ∧ DN'.cols = DN.cols ∧
      (∀ c i', i' ≠ i → DN'.get c i' = DN.get c i') ∧
      ∀ c, c < k * V.cols → DN'.get c i = V.get (i / V.rows ^ (c / V.cols) % V.rows) (c % V.cols) := by
  induction k with
  | zero => exact ⟨DN, rfl, rfl, rfl, fun _ _ _ => rfl, fun c hc => by simp at hc⟩
  | succ k ih =>
    obtain ⟨D1, h1, hr, hc, ho, hi⟩ := ih (by omega)
    unfold dnColumn at h1 ⊢
    rw [foldlM_range_succ, h1, ok_bind]
    have hd : intDigit (Nat.digits V.rows i ++ List.replicate N 0) k = .ok (i / V.rows ^ k % V.rows) := by
      unfold intDigit
      rw [digit_getElem _ _ _ _ hb (by omega)]
      simp only
      rw [if_pos (hb' k)]
    rw [hd, ok_bind]
    refine ⟨_, rfl, hr, hc, fun c i' h => ?_, fun c hc' => ?_⟩
    · simp only [Mat.setBlock]
      rw [if_neg (by omega)]
      exact ho c i' h
    · simp only [Mat.setBlock]
      rw [Nat.succ_mul] at hc'
      by_cases hck : c < k * V.cols
      · rw [if_neg (by omega)]
        exact hi c hck
      · rw [if_pos (by omega)]
        obtain ⟨j, rfl⟩ : ∃ j, c = k * V.cols + j := ⟨c - k * V.cols, by omega⟩
        rw [div_block (by omega), mod_block (by omega)]
        congr 1
        omega

theorem dnExtreme_spec (V : Mat R) (N : Nat) (hb : 2 ≤ V.rows) (hb' : V.rows ≤ 10) :
    ∃ DN, dnExtreme V N = .ok DN ∧ DN.cols = V.rows ^ N ∧ ∀ c i, c < V.cols * N → i < V.rows ^ N →
      DN.get c i = V.get (i / V.rows ^ (c / V.cols) % V.rows) (c % V.cols) := by
  have key : ∀ k, ∃ DN, (List.range k).foldlM (fun DN i => do
      let ind ← baseRepr i V.rows N
      dnColumn V i ind N DN) (Mat.zeros (V.cols * N) (V.rows ^ N)) = .ok DN ∧ DN.cols = V.rows ^ N ∧
      ∀ c i, c < V.cols * N → i < k →
        DN.get c i = V.get (i / V.rows ^ (c / V.cols) % V.rows) (c % V.cols) := by
    intro k
    induction k with
    | zero => exact ⟨_, rfl, rfl, fun c i _ hi => by omega⟩
    | succ k ih =>
      obtain ⟨D1, h1, hc, hi⟩ := ih
      obtain ⟨D2, h2, _, hc2, ho2, hi2⟩ := dnColumn_spec V k N D1 hb
        (fun j => lt_of_lt_of_le (Nat.mod_lt _ (by omega)) hb') N (le_refl _)
      have hbr : baseRepr k V.rows N = .ok (Nat.digits V.rows k ++ List.replicate N 0) := by
        unfold baseRepr
        rw [if_neg (by omega)]
      rw [foldlM_range_succ, h1, ok_bind, hbr, ok_bind, h2]
      refine ⟨D2, rfl, by rw [hc2, hc], fun c i hc' hi' => ?_⟩
      by_cases hik : i = k
      · subst hik
        exact hi2 c (by rw [Nat.mul_comm]; exact hc')
      · rw [ho2 c i hik]
        exact hi c i hc' (by omega)
  exact key _

theorem maxUpTo_le (f : Nat → R) (k : Nat) (y : R) : maxUpTo f k ≤ y ↔ ∀ i < k + 1, f i ≤ y := by
  induction k with
  | zero =>
    simp only [maxUpTo]
    exact ⟨fun h i hi => by obtain rfl : i = 0 := by omega
                            exact h, fun h => h 0 (by omega)⟩
  | succ k ih =>
    simp only [maxUpTo, max_le_iff, ih]
    refine ⟨fun h i hi => ?_, fun h => ⟨fun i hi => h i (by omega), h _ (by omega)⟩⟩
    by_cases hik : i = k + 1
    · subst hik
      exact h.2
    · exact h.1 i (by omega)

/-- The number whose digits are `f`. -/
def enc (b : Nat) (f : Nat → Nat) : Nat → Nat
  | 0 => 0
  | N + 1 => f N * b ^ N + enc b f N

theorem enc_lt (b : Nat) (f : Nat → Nat) (hf : ∀ j, f j < b) (N : Nat) : enc b f N < b ^ N := by
  induction N with
  | zero => simp [enc]
  | succ N ih =>
    simp only [enc, pow_succ]
    have := Nat.mul_le_mul_right (b ^ N) (Nat.succ_le_of_lt (hf N))
    rw [Nat.succ_mul] at this
    calc f N * b ^ N + enc b f N < f N * b ^ N + b ^ N := by omega
      _ ≤ b * b ^ N := this
      _ = b ^ N * b := Nat.mul_comm _ _

theorem enc_digit (b : Nat) (f : Nat → Nat) (hf : ∀ j, f j < b) (N j : Nat) (hj : j < N) :
    enc b f N / b ^ j % b = f j := by
  have hb : 0 < b := lt_of_le_of_lt (Nat.zero_le _) (hf 0)
  induction N with
  | zero => omega
  | succ N ih =>
    simp only [enc]
    by_cases h : j = N
    · subst h
      rw [Nat.add_comm, Nat.add_mul_div_right _ _ (Nat.pow_pos hb),
        Nat.div_eq_of_lt (enc_lt b f hf j), Nat.zero_add, Nat.mod_eq_of_lt (hf j)]
    · have hN : b ^ N = b ^ (N - j - 1) * b * b ^ j := by
        rw [← pow_succ, ← pow_add]
        congr 1
        omega
      rw [hN, ← Nat.mul_assoc, Nat.add_comm, Nat.add_mul_div_right _ _ (Nat.pow_pos hb),
        ← Nat.mul_assoc, Nat.add_mul_mod_self_right]
      exact ih (by omega)

theorem getMaxExtreme_spec (pc : Pc R) (G : Mat R) (D : HP R) (N : Nat) (hb : 2 ≤ (pc.extreme D).rows)
    (hb' : (pc.extreme D).rows ≤ 10) (hG : G.cols = (pc.extreme D).cols * N) :
    ∃ H, getMaxExtreme pc G D N = .ok H ∧ H.rows = G.rows ∧ ∀ r y, H.get r 0 ≤ y ↔
      ∀ f : Nat → Nat, (∀ j, f j < (pc.extreme D).rows) →
        ∑ c ∈ range G.cols, G.get r c * flatSeq (pc.extreme D).cols
          (fun k => (pc.extreme D).get (f k)) c ≤ y := by
  obtain ⟨DN, h, hc, hget⟩ := dnExtreme_spec (pc.extreme D) N hb hb'
  obtain ⟨c0, hc0⟩ : ∃ c0, (G.dot DN).cols = c0 + 1 := by
    refine ⟨(pc.extreme D).rows ^ N - 1, ?_⟩
    have := Nat.pow_pos (n := N) (show 0 < (pc.extreme D).rows by omega)
    show DN.cols = _
    omega
  refine ⟨⟨(G.dot DN).rows, 1, fun i _ => maxUpTo ((G.dot DN).get i) c0⟩, ?_, rfl, ?_⟩
  · unfold getMaxExtreme
    rw [h, ok_bind, amax]
    split
    · rename_i h0
      rw [hc0] at h0
      omega
    · rename_i c h1
      rw [hc0] at h1
      obtain rfl : c0 = c := by omega
      rfl
  · intro r y
    rw [maxUpTo_le]
    have hcc : c0 + 1 = (pc.extreme D).rows ^ N := by rw [← hc0, ← hc]; rfl
    have hrow : ∀ i, i < (pc.extreme D).rows ^ N → (G.dot DN).get r i =
        ∑ c ∈ range G.cols, G.get r c * flatSeq (pc.extreme D).cols
          (fun k => (pc.extreme D).get (i / (pc.extreme D).rows ^ k % (pc.extreme D).rows)) c := by
      intro i hi
      simp only [Mat.dot]
      refine sum_congr rfl fun c hcr => ?_
      rw [hget c i (by rw [← hG]; exact mem_range.1 hcr) hi]
      rfl
    rw [hcc]
    constructor
    · intro hall f hf
      have hi := enc_lt _ f hf N
      have := hall _ hi
      rw [hrow _ hi] at this
      refine le_trans (le_of_eq ?_) this
      refine sum_congr rfl fun c hcr => ?_
      have hcN : c < (pc.extreme D).cols * N := by rw [← hG]; exact mem_range.1 hcr
      have hj : c / (pc.extreme D).cols < N := by
        apply Nat.div_lt_of_lt_mul hcN
      simp only [flatSeq]
      rw [enc_digit _ f hf N _ hj]
    · intro hall i hi
      rw [hrow i hi]
      exact hall _ fun j => Nat.mod_lt _ (by omega)

end Abs

end Tulip
