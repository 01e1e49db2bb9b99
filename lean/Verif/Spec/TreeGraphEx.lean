import Verif.Spec.TreeSubProps

/-!
# Examples for the graphs of syntax trees

C126. Every formula is a tree of objects in some memory (the one that the parser creates), so that the theorems apply to
every formula. Concrete cases, and what happens if an object is shared.
-/

namespace Tulip
namespace TreeG

theorem Lay.prefix {h h' : List Obj} (hp : h <+: h') {us : List Nat} {ts : List Ast} {l : List Nat} (H : Lay h us ts l) :
    Lay h' us ts l := by
  induction H with
  | nil => exact .nil
  | cons obj _ _ ih1 ih2 =>
    obtain ⟨m, rfl⟩ := hp
    refine .cons ?_ ih1 ih2
    rw [List.getElem?_append_left (List.getElem?_eq_some_iff.1 obj).1]
    exact obj

theorem allocates : ∀ (N : Nat) (ts : List Ast), lens ts ≤ N → ∀ h : List Obj, ∃ h' us l, h <+: h' ∧ Lay h' us ts l ∧
    l.Nodup ∧ ∀ w ∈ l, h.length ≤ w ∧ w < h'.length := by
  intro N
  induction N with
  | zero =>
    intro ts hts h
    cases ts with
    | nil => exact ⟨h, [], [], List.prefix_refl _, .nil, List.nodup_nil, by simp⟩
    | cons t ts => simp only [lens, lens_children] at hts; omega
  | succ N ih =>
    intro ts hts h
    cases ts with
    | nil => exact ⟨h, [], [], List.prefix_refl _, .nil, List.nodup_nil, by simp⟩
    | cons t ts =>
      simp only [lens] at hts
      rw [lens_children] at hts
      obtain ⟨h1, ids, l, p1, L1, n1, b1⟩ := ih t.children (by omega) h
      obtain ⟨h2, us, m, p2, L2, n2, b2⟩ := ih ts (by omega) (h1 ++ [⟨headOf t, ids⟩])
      have p3 : h1 <+: h2 := (List.prefix_append _ _).trans p2
      have e1 := p1.length_le
      have e2 := p2.length_le
      simp only [List.length_append, List.length_singleton] at e2 b2
      refine ⟨h2, h1.length :: us, h1.length :: (l ++ m), p1.trans p3, .cons ?_ (L1.prefix p3) L2, ?_, ?_⟩
      · obtain ⟨r, rfl⟩ := p2
        simp
      · simp only [List.nodup_cons, List.mem_append, not_or, List.nodup_append]
        refine ⟨⟨fun hw => ?_, fun hw => ?_⟩, n1, n2, fun a ha b hb he => ?_⟩
        · have := b1 _ hw; omega
        · have := b2 _ hw; omega
        · have := b1 _ ha; have := b2 _ hb; omega
      · intro w hw
        simp only [List.mem_cons, List.mem_append] at hw
        rcases hw with rfl | hw | hw
        · omega
        · have := b1 _ hw; omega
        · have := b2 _ hw; omega

/-- **C126**. Every formula is a tree of distinct objects in some memory, so that the theorems apply to every formula; the
tree has as many objects as the formula has nodes. -/
theorem exists_isTree (t : Ast) : ∃ h u l, IsTree h u t l ∧ l.length = t.len := by
  obtain ⟨h, us, l, -, L, hn, -⟩ := allocates (lens [t]) [t] (Nat.le_refl _) []
  match us, L.length with
  | [u], _ => exact ⟨h, u, l, ⟨L, hn⟩, by rw [L.size]; simp [lens]⟩

/-! ## Concrete cases -/

/-- Memory for `(x /\ y) \/ x` (objects 0 to 4) and for `p -> "a"` (objects 5 to 7), with other objects for each occurrence
of `x`. -/
def memEx : List Obj :=
  [⟨.bin .or, [1, 4]⟩, ⟨.bin .and, [2, 3]⟩, ⟨.var "x", []⟩, ⟨.var "y", []⟩, ⟨.var "x", []⟩,
   ⟨.bin .imp, [6, 7]⟩, ⟨.var "p", []⟩, ⟨.str "a", []⟩]

def fEx : Ast := .bin .or (.bin .and (.var "x") (.var "y")) (.var "x")

def gEx : Ast := .bin .imp (.var "p") (.str "a")

theorem fEx_tree : IsTree memEx 0 fEx [0, 1, 2, 3, 4] :=
  ⟨.cons (ids := [1, 4]) (l := [1, 2, 3, 4]) (m := []) rfl
    (.cons (ids := [2, 3]) (l := [2, 3]) (m := [4]) rfl
      (.cons (ids := []) (l := []) (m := [3]) rfl .nil (.cons (ids := []) (l := []) (m := []) rfl .nil .nil))
      (.cons (ids := []) (l := []) (m := []) rfl .nil .nil)) .nil, by decide⟩

theorem gEx_tree : IsTree memEx 5 gEx [5, 6, 7] :=
  ⟨.cons (ids := [6, 7]) (l := [6, 7]) (m := []) rfl
    (.cons (ids := []) (l := []) (m := [7]) rfl .nil (.cons (ids := []) (l := []) (m := []) rfl .nil .nil)) .nil,
    by decide⟩

/-- The graph of `f`. -/
example : (fromRec memEx 5 0).toOption =
    some ⟨[0, 1, 2, 3, 4], [(0, 1, 0), (1, 2, 0), (1, 3, 1), (0, 4, 1)], 0⟩ := by decide +kernel

def gGraph : Tree := ⟨[5, 6, 7], [(5, 6, 0), (5, 7, 1)], 5⟩

theorem tableEx : TableIn memEx 5 [0, 1, 2, 3, 4] [("x", gEx)] [("x", gGraph)] := by
  intro x
  by_cases hx : x = "x"
  · subst hx
    exact .inr ⟨gEx, gGraph, 5, [5, 6, 7], rfl, rfl, gEx_tree, by decide, rfl, by decide⟩
  · refine .inl ⟨?_, ?_⟩ <;> simp [Dict.get?, Ne.symm hx]

/-- Both occurrences of `x` are replaced, although the graph then holds the objects of `g` once. -/
example : (do let T ← fromRec memEx 5 0
              let T' ← subBoolTree memEx [("x", gGraph)] T
              T'.toAst memEx 9) = .ok (.bin .or (.bin .and gEx (.var "y")) gEx) :=
  subBoolTree_spec fEx_tree (by decide) tableEx (by decide)

example : (do let T ← fromRec memEx 5 5
              let r ← subConstantsTree memEx 5 [("p", ["b", "a"])] T
              r.2.toAst r.1 5) = .ok (.bin .imp (.var "p") (.num 1)) :=
  (subConstantsTree_spec gEx_tree (by decide) _).trans rfl

example : (do let T ← fromRec memEx 5 0
              let r ← subValuesTree memEx [("x", .str "u"), ("y", .str "v")] T
              r.2.toAst r.1 5) = .ok (.bin .or (.bin .and (.str "u") (.str "v")) (.str "u")) :=
  (subValuesTree_spec fEx_tree (by decide) _).trans rfl

/-- A value is missing: `KeyError`. -/
example : (do let T ← fromRec memEx 5 0
              let r ← subValuesTree memEx [("x", .str "u")] T
              r.2.toAst r.1 5) = .error .keyError :=
  (subValuesTree_spec fEx_tree (by decide) _).trans rfl

/-- The formula `x /\ x` with the object of `x` shared. -/
def sharedMem : List Obj := [⟨.bin .and, [1, 1]⟩, ⟨.var "x", []⟩, ⟨.var "y", []⟩]

/-- Without the hypothesis that the objects form a tree the claim fails: if both operands are the same object, then
`add_subtree` finds two edges to the leaf and raises an `AssertionError`. The conversion there and back still works. -/
theorem shared_counterexample :
    (do let T ← fromRec sharedMem 3 0
        T.toAst sharedMem 3) = .ok (.bin .and (.var "x") (.var "x")) ∧
    (do let T ← fromRec sharedMem 3 0
        subBoolTree sharedMem [("x", ⟨[2], [], 2⟩)] T) = .error .assertion :=
  ⟨by
    have h1 : fromRec sharedMem 3 0 = .ok ⟨[0, 1], [(0, 1, 0), (0, 1, 1)], 0⟩ := rfl
    have h2 : (⟨[0, 1], [(0, 1, 0), (0, 1, 1)], 0⟩ : Tree).succs 0 = [1, 1] := by simp [Tree.succs, List.mergeSort]
    have h3 : (⟨[0, 1], [(0, 1, 0), (0, 1, 1)], 0⟩ : Tree).succs 1 = [] := by simp [Tree.succs]
    rw [h1, ok_bind, Tree.toAst, toRec, h2]
    simp only [List.mapM_cons, List.mapM_nil, toRec, h3]
    rfl, rfl⟩

end TreeG
end Tulip
