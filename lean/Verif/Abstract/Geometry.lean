import Mathlib.Data.Set.Lattice

/-!
# The geometry used by the abstraction algorithms

`tulip` computes with polytopes through the package `polytope`, which is not part of the repository.
It enters the model as a parameter: a type `P` of representations of sets of points of the state space
`X`, and the operations of the package. `Geom.Lawful` states what is assumed about them. The package
ignores sets that are not full-dimensional (with a small Chebyshev radius or volume), so its set
operations are exact only up to sets of a family `null` of negligible sets, which is also a parameter.
-/

namespace Tulip

namespace Abs

/-- The operations of the package `polytope` that the modelled code calls. -/
structure Geom (P X : Type) where
  /-- The points of a polytope or region. -/
  den : P → Set X
  /-- The negligible sets of points. -/
  null : Set X → Prop
  /-- `intersect`. -/
  inter : P → P → P
  /-- `diff`. -/
  diff : P → P → P
  /-- `pc.is_fulldim`. -/
  fulldim : P → Bool

variable {P X : Type}

/-- What is assumed of the package `polytope`. -/
structure Geom.Lawful (G : Geom P X) : Prop where
  null_empty : G.null ∅
  null_mono : ∀ {A B : Set X}, A ⊆ B → G.null B → G.null A
  null_union : ∀ {A B : Set X}, G.null A → G.null B → G.null (A ∪ B)
  inter_sub : ∀ a b, G.den (G.inter a b) ⊆ G.den a ∩ G.den b
  inter_null : ∀ a b, G.null ((G.den a ∩ G.den b) \ G.den (G.inter a b))
  diff_sub : ∀ a b, G.den (G.diff a b) ⊆ G.den a
  diff_null : ∀ a b, G.null (G.den (G.diff a b) ∩ G.den b)
  diff_cover : ∀ a b, G.null ((G.den a \ G.den b) \ G.den (G.diff a b))
  thin : ∀ a, G.fulldim a = false → G.null (G.den a)

namespace Geom.Lawful

variable {G : Geom P X} (hG : G.Lawful)
include hG

theorem null_of_sub {A B C : Set X} (h : A ⊆ B ∪ C) (hB : G.null B) (hC : G.null C) : G.null A :=
  hG.null_mono h (hG.null_union hB hC)

/-- Splitting a set in two parts loses only a negligible set. -/
theorem split (a b : P) : G.null (G.den a \ (G.den (G.inter a b) ∪ G.den (G.diff a b))) := by
  refine hG.null_of_sub ?_ (hG.inter_null a b) (hG.diff_cover a b)
  intro x hx
  by_cases hb : x ∈ G.den b
  · exact Or.inl ⟨⟨hx.1, hb⟩, fun h => hx.2 (Or.inl h)⟩
  · exact Or.inr ⟨⟨hx.1, hb⟩, fun h => hx.2 (Or.inr h)⟩

theorem null_iUnion {α : Type} (l : List α) (f : α → Set X) (h : ∀ a ∈ l, G.null (f a)) :
    G.null {x | ∃ a ∈ l, x ∈ f a} := by
  induction l with
  | nil => exact hG.null_mono (fun x => by simp) hG.null_empty
  | cons a l ih =>
    refine hG.null_of_sub ?_ (h a (by simp)) (ih fun b hb => h b (by simp [hb]))
    rintro x ⟨b, hb, hx⟩
    rcases List.mem_cons.1 hb with rfl | hb
    · exact Or.inl hx
    · exact Or.inr ⟨b, hb, hx⟩

end Geom.Lawful

/-- A model of the assumptions, for the examples: a set is a list of cells of a line, a cell has an
interior (`true`) and a boundary (`false`), and boundaries are negligible. -/
def cells : Geom (List (Int × Bool)) (Int × Bool) where
  den a := {x | x ∈ a}
  null A := ∀ x ∈ A, x.2 = false
  inter a b := a.filter (· ∈ b)
  diff a b := a.filter fun x => x ∉ b || !x.2
  fulldim a := a.any (·.2)

theorem cells_lawful : cells.Lawful where
  null_empty := by simp [cells]
  null_mono h h' := fun x hx => h' x (h hx)
  null_union h h' := fun x hx => hx.elim (h x) (h' x)
  inter_sub a b x h := by simpa [cells] using h
  inter_null a b x h := by
    simp only [cells, Set.mem_sdiff, Set.mem_inter_iff, Set.mem_ofPred_eq, List.mem_filter,
      decide_eq_true_eq, not_and] at h
    exact absurd h.1.2 (h.2 h.1.1)
  diff_sub a b x h := by
    simp only [cells, Set.mem_ofPred_eq, List.mem_filter] at h
    exact h.1
  diff_null a b x h := by
    simp only [cells, Set.mem_inter_iff, Set.mem_ofPred_eq, List.mem_filter, Bool.or_eq_true,
      decide_eq_true_eq, Bool.not_eq_true'] at h
    rcases h.1.2 with h' | h'
    · exact absurd h.2 h'
    · exact h'
  diff_cover a b x h := by
    simp only [cells, Set.mem_sdiff, Set.mem_ofPred_eq, List.mem_filter, Bool.or_eq_true,
      decide_eq_true_eq, Bool.not_eq_true', not_and, not_or] at h
    exact absurd h.1.2 (h.2 h.1.1).1
  thin a h x hx := by
    simp only [cells, List.any_eq_false] at h
    simpa using h x hx

end Abs

end Tulip
