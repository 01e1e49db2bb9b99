import Verif.Gridworld.World
import Mathlib.Logic.Relation
import Mathlib.Data.List.Nodup
import Mathlib.Data.List.Perm.Subperm
import Mathlib.Data.List.ProdSigma
import Mathlib.Data.List.Range

/-!
# Reachability in a grid world (C49)
-/

namespace Tulip

namespace Gw

/-! ### Specification -/

/-- The cell is inside the grid and not occupied. -/
def Free (A : Arr) (a : Int × Int) : Prop :=
  0 ≤ a.1 ∧ a.1 < A.rows ∧ 0 ≤ a.2 ∧ a.2 < A.cols ∧ A.cell a.1 a.2 = 0

/-- The cells share a side. -/
def Adjacent (a b : Int × Int) : Prop :=
  (a.1 = b.1 ∧ (b.2 = a.2 + 1 ∨ a.2 = b.2 + 1)) ∨ (a.2 = b.2 ∧ (b.1 = a.1 + 1 ∨ a.1 = b.1 + 1))

/-- A path: a list of free cells, each adjacent to the next one, from the first to the last. -/
def IsPath (A : Arr) (p : List (Int × Int)) (a b : Int × Int) : Prop :=
  p.head? = some a ∧ p.getLast? = some b ∧ (∀ c ∈ p, Free A c) ∧ p.IsChain Adjacent

/-- The cell that an index pair denotes: a negative index counts from the end. -/
def Denotes (A : Arr) (key a : Int × Int) : Prop :=
  0 ≤ a.1 ∧ a.1 < A.rows ∧ 0 ≤ a.2 ∧ a.2 < A.cols ∧
    (key.1 = a.1 ∨ key.1 + A.rows = a.1) ∧ (key.2 = a.2 ∨ key.2 + A.cols = a.2)

/-! ### Keys -/

theorem norm_spec (n : Nat) (i k : Int) :
    norm n i = some k ↔ 0 ≤ k ∧ k < n ∧ (i = k ∨ i + n = k) := by
  unfold norm
  split
  · simp; omega
  · split <;> simp <;> omega

theorem norm_none (n : Nat) (i : Int) : norm n i = none ↔ i < -n ∨ i ≥ n := by
  unfold norm
  split <;> simp <;> omega

theorem normKey_spec (A : Arr) (key a : Int × Int) : normKey A key = some a ↔ Denotes A key a := by
  obtain ⟨i, j⟩ := a
  unfold normKey Denotes
  have h1 := norm_spec A.rows key.1
  have h2 := norm_spec A.cols key.2
  cases e1 : norm A.rows key.1 with
  | none =>
    simp only [reduceCtorEq, false_iff]
    rintro ⟨a, b, c, d, e, f⟩
    have := (h1 i).2 ⟨a, b, e⟩
    rw [e1] at this; cases this
  | some i' =>
    cases e2 : norm A.cols key.2 with
    | none =>
      simp only [reduceCtorEq, false_iff]
      rintro ⟨a, b, c, d, e, f⟩
      have := (h2 j).2 ⟨c, d, f⟩
      rw [e2] at this; cases this
    | some j' =>
      simp only [Option.some.injEq, Prod.mk.injEq]
      constructor
      · rintro ⟨rfl, rfl⟩
        obtain ⟨a, b, c⟩ := (h1 _).1 e1
        obtain ⟨d, e, f⟩ := (h2 _).1 e2
        exact ⟨a, b, d, e, c, f⟩
      · rintro ⟨a, b, c, d, e, f⟩
        have g1 := (h1 i).2 ⟨a, b, e⟩
        have g2 := (h2 j).2 ⟨c, d, f⟩
        rw [e1] at g1
        rw [e2] at g2
        cases g1; cases g2
        exact ⟨rfl, rfl⟩

theorem denotes_unique {A : Arr} {key a b : Int × Int} (h : Denotes A key a) (h' : Denotes A key b) :
    a = b := by
  rw [← normKey_spec] at h h'
  rw [h] at h'
  cases h'; rfl

theorem denotes_self {A : Arr} {a : Int × Int} (h : Free A a) : Denotes A a a :=
  ⟨h.1, h.2.1, h.2.2.1, h.2.2.2.1, Or.inl rfl, Or.inl rfl⟩

theorem keyOf_ok {w : World} {A : Arr} (hw : w.W = some A) {key a : Int × Int} :
    keyOf w key = .ok (A, a) ↔ Denotes A key a := by
  unfold keyOf
  rw [hw, ← normKey_spec]
  simp only
  cases normKey A key <;> simp

theorem keyOf_error {w : World} {A : Arr} (hw : w.W = some A) {key : Int × Int}
    (h : ∀ a, ¬ Denotes A key a) : keyOf w key = .error .valueError := by
  unfold keyOf
  rw [hw]
  simp only
  cases e : normKey A key with
  | none => rfl
  | some a => exact absurd ((normKey_spec A key a).1 e) (h a)

/-! ### The search -/

/-- A step of a path. -/
def Move (A : Arr) (a b : Int × Int) : Prop := Adjacent a b ∧ Free A b

theorem adjacent_iff (a b : Int × Int) :
    Adjacent a b ↔ ∃ d ∈ directions, b = (a.1 + d.1, a.2 + d.2) := by
  obtain ⟨a1, a2⟩ := a
  obtain ⟨b1, b2⟩ := b
  simp only [Adjacent, directions, List.mem_cons, List.not_mem_nil, or_false, exists_eq_or_imp,
    exists_eq_left, Prod.mk.injEq]
  omega

theorem expand_spec (A : Arr) (cur : Int × Int) (closed ds opn : List (Int × Int)) :
    ∃ new, expand A cur closed ds opn = opn ++ new ∧ new.Nodup ∧
      (∀ b ∈ new, b ∉ opn ∧ b ∉ closed ∧ Free A b ∧ ∃ d ∈ ds, b = (cur.1 + d.1, cur.2 + d.2)) ∧
      ∀ d ∈ ds, ∀ b, b = (cur.1 + d.1, cur.2 + d.2) → Free A b → b ∈ opn ∨ b ∈ closed ∨ b ∈ new := by
  induction ds generalizing opn with
  | nil => exact ⟨[], by simp [expand], by simp, by simp, by simp⟩
  | cons d ds ih =>
    unfold expand
    simp only
    split
    · rename_i hout
      obtain ⟨new, h1, h2, h3, h4⟩ := ih opn
      refine ⟨new, h1, h2, ?_, ?_⟩
      · intro b hb
        obtain ⟨x, y, z, d', hd', e⟩ := h3 b hb
        exact ⟨x, y, z, d', by simp [hd'], e⟩
      · intro d' hd' b hb hf
        rcases List.mem_cons.1 hd' with rfl | hd'
        · exfalso
          rw [hb] at hf
          obtain ⟨f1, f2, f3, f4, _⟩ := hf
          simp only at f1 f2 f3 f4
          omega
        · exact h4 d' hd' b hb hf
    · rename_i hin
      simp only [not_or, ge_iff_le, Int.not_lt, Int.not_le] at hin
      split
      · rename_i hc
        obtain ⟨new, h1, h2, h3, h4⟩ := ih (opn ++ [(cur.1 + d.1, cur.2 + d.2)])
        refine ⟨(cur.1 + d.1, cur.2 + d.2) :: new, by rw [h1]; simp, ?_, ?_, ?_⟩
        · refine List.nodup_cons.2 ⟨?_, h2⟩
          intro hm
          exact (h3 _ hm).1 (by simp)
        · intro b hb
          rcases List.mem_cons.1 hb with rfl | hb
          · exact ⟨hc.2.2, hc.2.1, ⟨hin.1, hin.2.1, hin.2.2.1, hin.2.2.2, hc.1⟩, d, by simp, rfl⟩
          · obtain ⟨x, y, z, d', hd', e⟩ := h3 b hb
            exact ⟨fun h => x (by simp [h]), y, z, d', by simp [hd'], e⟩
        · intro d' hd' b hb hf
          rcases List.mem_cons.1 hd' with rfl | hd'
          · exact Or.inr (Or.inr (by simp [hb]))
          · rcases h4 d' hd' b hb hf with h | h | h
            · rcases List.mem_append.1 h with h | h
              · exact Or.inl h
              · exact Or.inr (Or.inr (by simp [List.mem_singleton.1 h]))
            · exact Or.inr (Or.inl h)
            · exact Or.inr (Or.inr (by simp [h]))
      · rename_i hc
        obtain ⟨new, h1, h2, h3, h4⟩ := ih opn
        refine ⟨new, h1, h2, ?_, ?_⟩
        · intro b hb
          obtain ⟨x, y, z, d', hd', e⟩ := h3 b hb
          exact ⟨x, y, z, d', by simp [hd'], e⟩
        · intro d' hd' b hb hf
          rcases List.mem_cons.1 hd' with rfl | hd'
          · rw [← hb] at hc
            have h0 : A.cell (cur.1 + d'.1) (cur.2 + d'.2) = 0 := by
              have := hf.2.2.2.2
              rw [hb] at this; exact this
            by_cases hcl : b ∈ closed
            · exact Or.inr (Or.inl hcl)
            · by_cases ho : b ∈ opn
              · exact Or.inl ho
              · exact absurd ⟨h0, hcl, ho⟩ hc
          · exact h4 d' hd' b hb hf

/-- The invariant of the search. -/
structure Inv (A : Arr) (start stop : Int × Int) (opn closed : List (Int × Int)) : Prop where
  nodup : (opn ++ closed).Nodup
  reach : ∀ a ∈ opn ++ closed, Free A a ∧ Relation.ReflTransGen (Move A) start a
  start : start ∈ opn ++ closed
  closedUnder : ∀ a ∈ closed, ∀ b, Move A a b → b ∈ opn ++ closed
  notStop : stop ∉ closed

theorem inv_step {A : Arr} {start stop cur : Int × Int} {opn closed : List (Int × Int)}
    (hI : Inv A start stop (opn ++ [cur]) closed) (hne : cur ≠ stop) :
    Inv A start stop (expand A cur closed directions opn) (closed ++ [cur]) := by
  obtain ⟨new, h1, h2, h3, h4⟩ := expand_spec A cur closed directions opn
  rw [h1]
  have hcur := hI.reach cur (by simp)
  have hadj : ∀ b ∈ new, Adjacent cur b := fun b hb => (adjacent_iff _ _).2 (h3 b hb).2.2.2
  have hncur : cur ∉ new := by
    intro h
    have := hadj cur h
    simp only [Adjacent] at this
    omega
  have hnd := hI.nodup
  rw [List.append_assoc] at hnd
  refine ⟨?_, ?_, ?_, ?_, ?_⟩
  · have hperm : List.Perm ((opn ++ new) ++ (closed ++ [cur])) (new ++ ((opn ++ [cur]) ++ closed)) := by
      simp only [List.append_assoc]
      have p1 : List.Perm (opn ++ (new ++ (closed ++ [cur]))) (new ++ (opn ++ (closed ++ [cur]))) := by
        rw [← List.append_assoc, ← List.append_assoc new]
        exact List.perm_append_comm.append_right _
      refine p1.trans (List.Perm.append_left _ (List.Perm.append_left _ ?_))
      exact List.perm_append_comm
    rw [hperm.nodup_iff]
    refine List.nodup_append.2 ⟨h2, hI.nodup, ?_⟩
    rintro a ha b hb rfl
    obtain ⟨n1, n2, _, _⟩ := h3 a ha
    rcases List.mem_append.1 hb with hb | hb
    · rcases List.mem_append.1 hb with hb | hb
      · exact n1 hb
      · exact hncur (List.mem_singleton.1 hb ▸ ha)
    · exact n2 hb
  · intro a ha
    have hcases : a ∈ (opn ++ [cur]) ++ closed ∨ a ∈ new := by
      simp only [List.mem_append, List.mem_singleton] at ha ⊢; tauto
    rcases hcases with h | h
    · exact hI.reach a h
    · exact ⟨(h3 a h).2.2.1, hcur.2.tail ⟨hadj a h, (h3 a h).2.2.1⟩⟩
  · have := hI.start
    simp only [List.mem_append, List.mem_singleton] at this ⊢; tauto
  · intro a ha b hb
    rcases List.mem_append.1 ha with ha | ha
    · have := hI.closedUnder a ha b hb
      simp only [List.mem_append, List.mem_singleton] at this ⊢; tauto
    · obtain rfl := List.mem_singleton.1 ha
      obtain ⟨d, hd, e⟩ := (adjacent_iff _ _).1 hb.1
      have := h4 d hd b e hb.2
      simp only [List.mem_append, List.mem_singleton]; tauto
  · intro h
    rcases List.mem_append.1 h with h | h
    · exact hI.notStop h
    · exact hne (List.mem_singleton.1 h).symm

theorem search_ok {A : Arr} {start stop : Int × Int} (fuel : Nat) {opn closed : List (Int × Int)}
    (hI : Inv A start stop opn closed) {b : Bool} (h : search A stop fuel opn closed = some b) :
    b = true ↔ Relation.ReflTransGen (Move A) start stop := by
  induction fuel generalizing opn closed with
  | zero => cases h
  | succ fuel ih =>
    unfold search at h
    split at h
    · rename_i hl
      rw [List.getLast?_eq_none_iff] at hl
      subst hl
      cases h
      simp only [Bool.false_eq_true, false_iff]
      intro hr
      have hall : ∀ c, Relation.ReflTransGen (Move A) start c → c ∈ closed := by
        intro c hc
        induction hc with
        | refl => simpa using hI.start
        | tail _ hbc ihc => simpa using hI.closedUnder _ ihc _ hbc
      exact hI.notStop (hall stop hr)
    · rename_i cur hl
      have hsplit : opn = opn.dropLast ++ [cur] := by
        have hne : opn ≠ [] := by rintro rfl; cases hl
        rw [List.getLast?_eq_some_getLast hne] at hl
        cases hl
        exact (List.dropLast_concat_getLast hne).symm
      split at h
      · rename_i he
        subst he
        cases h
        simp only [true_iff]
        refine (hI.reach cur ?_).2
        rw [hsplit]; simp
      · rename_i hne
        rw [hsplit] at hI
        exact ih (inv_step hI hne) h

theorem mem_indices (rows cols : Nat) (k : Int × Int) :
    k ∈ indices rows cols ↔ 0 ≤ k.1 ∧ k.1 < rows ∧ 0 ≤ k.2 ∧ k.2 < cols := by
  obtain ⟨i, j⟩ := k
  simp only [indices, List.mem_flatMap, List.mem_map, List.mem_range, Prod.mk.injEq]
  constructor
  · rintro ⟨a, ha, b, hb, rfl, rfl⟩
    omega
  · rintro ⟨h1, h2, h3, h4⟩
    exact ⟨i.toNat, by omega, j.toNat, by omega, by omega, by omega⟩

theorem length_indices (rows cols : Nat) : (indices rows cols).length = rows * cols := by
  unfold indices
  rw [List.length_flatMap]
  simp

theorem search_total {A : Arr} {start stop : Int × Int} (fuel : Nat) {opn closed : List (Int × Int)}
    (hI : Inv A start stop opn closed) (hf : A.rows * A.cols + 1 ≤ fuel + closed.length) :
    ∃ b, search A stop fuel opn closed = some b := by
  have hle : ∀ opn closed, Inv A start stop opn closed →
      (opn ++ closed).length ≤ A.rows * A.cols := by
    intro opn closed hI
    rw [← length_indices]
    refine (hI.nodup.subperm ?_).length_le
    intro a ha
    obtain ⟨h1, h2, h3, h4, _⟩ := (hI.reach a ha).1
    exact (mem_indices _ _ _).2 ⟨h1, h2, h3, h4⟩
  induction fuel generalizing opn closed with
  | zero =>
    have := hle opn closed hI
    rw [List.length_append] at this
    omega
  | succ fuel ih =>
    unfold search
    split
    · exact ⟨false, rfl⟩
    · rename_i cur hl
      have hsplit : opn = opn.dropLast ++ [cur] := by
        have hne : opn ≠ [] := by rintro rfl; cases hl
        rw [List.getLast?_eq_some_getLast hne] at hl
        cases hl
        exact (List.dropLast_concat_getLast hne).symm
      split
      · exact ⟨true, rfl⟩
      · rename_i hne
        rw [hsplit] at hI
        refine ih (inv_step hI hne) ?_
        rw [List.length_append, List.length_singleton]
        omega

theorem path_iff {A : Arr} {a b : Int × Int} (ha : Free A a) :
    Relation.ReflTransGen (Move A) a b ↔ ∃ p, IsPath A p a b := by
  constructor
  · intro h
    induction h with
    | refl => exact ⟨[a], rfl, rfl, by simpa using ha, List.isChain_singleton _⟩
    | @tail b c _ hbc ih =>
      obtain ⟨p, h1, h2, h3, h4⟩ := ih
      refine ⟨p ++ [c], ?_, by simp, ?_, ?_⟩
      · cases p with
        | nil => cases h1
        | cons x p => simpa using h1
      · intro x hx
        rcases List.mem_append.1 hx with hx | hx
        · exact h3 x hx
        · rw [List.mem_singleton.1 hx]; exact hbc.2
      · refine List.isChain_append.2 ⟨h4, List.isChain_singleton _, ?_⟩
        intro x hx y hy
        rw [h2] at hx
        simp at hx hy
        subst hx; subst hy
        exact hbc.1
  · rintro ⟨p, h1, h2, h3, h4⟩
    clear ha
    induction p generalizing a with
    | nil => cases h1
    | cons x p ih =>
      simp only [List.head?_cons, Option.some.injEq] at h1
      subst h1
      cases p with
      | nil =>
        simp only [List.getLast?_singleton, Option.some.injEq] at h2
        subst h2
        exact .refl
      | cons y p =>
        have h5 := List.isChain_cons_cons.1 h4
        refine Relation.ReflTransGen.head ⟨h5.1, h3 y (by simp)⟩ ?_
        refine ih rfl (by simpa using h2) (fun c hc => h3 c (by simp [hc])) h5.2

/-- **C49.** The search of `is_reachable` ends within as many iterations as there are cells, and whenever it ends,
the result is `True` if and only if there is a path of free cells from the start to the stop cell. -/
theorem isReachable_spec {w : World} {A : Arr} (hw : w.W = some A) {start stop a b : Int × Int}
    (ha : Denotes A start a) (hb : Denotes A stop b) :
    (∃ r, isReachable w (A.rows * A.cols + 1) start stop = .ok (some r)) ∧
    ∀ fuel r, isReachable w fuel start stop = .ok (some r) → (r = true ↔ ∃ p, IsPath A p a b) := by
  have hinv : A.cell a.1 a.2 = 0 → Inv A a b [a] [] := by
    intro h0
    refine ⟨by simp, ?_, by simp, by simp, by simp⟩
    intro x hx
    simp only [List.append_nil, List.mem_singleton] at hx
    subst hx
    exact ⟨⟨ha.1, ha.2.1, ha.2.2.1, ha.2.2.2.1, h0⟩, .refl⟩
  have heq : ∀ fuel, isReachable w fuel start stop =
      if ¬ (A.cell a.1 a.2 = 0 ∧ A.cell b.1 b.2 = 0) then .ok (some false)
      else .ok (search A b fuel [a] []) := by
    intro fuel
    unfold isReachable
    rw [(keyOf_ok hw).2 ha, (keyOf_ok hw).2 hb]
    rfl
  constructor
  · rw [heq]
    split
    · exact ⟨false, rfl⟩
    · rename_i h
      rw [not_not] at h
      obtain ⟨r, hr⟩ := search_total (A.rows * A.cols + 1) (hinv h.1) (by simp)
      exact ⟨r, by rw [hr]⟩
  · intro fuel r hr
    rw [heq] at hr
    split at hr
    · rename_i h
      cases hr
      simp only [Bool.false_eq_true, false_iff]
      rintro ⟨p, h1, h2, h3, _⟩
      apply h
      exact ⟨(h3 a (List.mem_of_head? h1)).2.2.2.2, (h3 b (List.mem_of_getLast? h2)).2.2.2.2⟩
    · rename_i h
      rw [not_not] at h
      have hf : Free A a := ⟨ha.1, ha.2.1, ha.2.2.1, ha.2.2.2.1, h.1⟩
      rw [← path_iff hf]
      simp only [Except.ok.injEq] at hr
      exact search_ok fuel (hinv h.1) hr

/-- **C49.** A world without cells, or a coordinate out of bounds, is a `ValueError`. -/
theorem isReachable_error (w : World) (fuel : Nat) (start stop : Int × Int)
    (h : w.W = none ∨ ∃ A, w.W = some A ∧
      ((∀ a, ¬ Denotes A start a) ∨ ∀ a, ¬ Denotes A stop a)) :
    isReachable w fuel start stop = .error .valueError := by
  unfold isReachable
  rcases h with h | ⟨A, hA, h | h⟩
  · unfold keyOf
    rw [h]; rfl
  · rw [keyOf_error hA h]; rfl
  · rw [keyOf_error hA h]
    unfold keyOf
    rw [hA]
    simp only
    cases normKey A start <;> rfl

/-- Reachability of free cells is symmetric and transitive. -/
theorem adjacent_symm {a b : Int × Int} (h : Adjacent a b) : Adjacent b a := by
  simp only [Adjacent] at h ⊢; omega

/-- A path of free cells leads from the one to the other. -/
def Reach (A : Arr) (a b : Int × Int) : Prop := ∃ p, IsPath A p a b

theorem Reach.free_left {A : Arr} {a b : Int × Int} (h : Reach A a b) : Free A a := by
  obtain ⟨p, h1, _, h3, _⟩ := h
  exact h3 a (List.mem_of_head? h1)

theorem Reach.free_right {A : Arr} {a b : Int × Int} (h : Reach A a b) : Free A b := by
  obtain ⟨p, _, h2, h3, _⟩ := h
  exact h3 b (List.mem_of_getLast? h2)

theorem Reach.refl {A : Arr} {a : Int × Int} (h : Free A a) : Reach A a a := (path_iff h).1 .refl

theorem Reach.trans {A : Arr} {a b c : Int × Int} (h : Reach A a b) (h' : Reach A b c) :
    Reach A a c :=
  (path_iff h.free_left).1 (((path_iff h.free_left).2 h).trans ((path_iff h'.free_left).2 h'))

theorem Reach.step {A : Arr} {a b : Int × Int} (ha : Free A a) (hb : Free A b) (h : Adjacent a b) :
    Reach A a b := (path_iff ha).1 (.single ⟨h, hb⟩)

theorem Reach.symm {A : Arr} {a b : Int × Int} (h : Reach A a b) : Reach A b a := by
  have hr := (path_iff h.free_left).2 h
  have ha := h.free_left
  clear h
  induction hr with
  | refl => exact Reach.refl ha
  | @tail b c hab hbc ih =>
    have hr : Reach A a b := (path_iff ha).1 hab
    have hb : Free A b := hr.free_right
    exact (Reach.step hbc.2 hb (adjacent_symm hbc.1)).trans ih

/-! ### Example -/

/-- A world of three rows and columns with a wall. -/
def wallArr : Arr := ⟨3, 3, fun i j => if i = 1 ∧ j ≠ 2 then 1 else 0⟩
def wallWorld : World := ⟨some wallArr, [(0, 0)], [(2, 0)], c!"Y", (0, 0)⟩

example : Denotes wallArr (0, 0) (0, 0) ∧ Denotes wallArr (-1, -3) (2, 0) := by
  simp [Denotes, wallArr]

example : (isReachable wallWorld 10 (0, 0) (-1, -3)).toOption = some (some true) ∧
    (isReachable wallWorld 10 (0, 0) (1, 1)).toOption = some (some false) ∧
    (isReachable wallWorld 10 (0, 0) (3, 0)).toOption = none := by decide +kernel

end Gw

end Tulip
