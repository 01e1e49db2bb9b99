import Verif.Gridworld.Partition
import Verif.Gridworld.SpecProps
import Verif.Gridworld.WorldProps
import Verif.Gridworld.DumpProps
import Verif.Abstract.Prop2partProps
import Verif.Spec.LtlFileProps
import Mathlib.Data.List.Perm.Subperm
import Mathlib.Tactic.Linarith
import Mathlib.Tactic.Positivity
import Mathlib.Order.Interval.Set.Infinite

/-!
# C111: the partition of the plane that a grid world describes
-/

namespace Tulip
namespace Gw
open Abs

/-! ## The specification -/

/-- The rectangle of the cell in row `k.1` (counted from the top) and column `k.2`. -/
def rect (A : Arr) (side offset : Rat × Rat) (k : Int × Int) : Set (Rat × Rat) :=
  {z | offset.1 + k.2 * side.1 ≤ z.1 ∧ z.1 ≤ offset.1 + (k.2 + 1) * side.1 ∧
    offset.2 + (A.rows - 1 - k.1) * side.2 ≤ z.2 ∧ z.2 ≤ offset.2 + (A.rows - k.1) * side.2}

/-- The proposition of a cell: the formula `((prefix_r = i) && (prefix_c = j))`, where the offset of the world
is added to the row and the column, or the name `prefix_i_j`. -/
def cellProp (w : World) (nonbool : Bool) (k : Int × Int) : String :=
  String.ofList (
    if nonbool then
      c!"((" ++ w.pre ++ c!"_r = " ++ intChars (k.1 + w.offset.1) ++ c!") && (" ++ w.pre ++ c!"_c = " ++
        intChars (k.2 + w.offset.2) ++ c!"))"
    else w.pre ++ c!"_" ++ intChars k.1 ++ c!"_" ++ intChars k.2)

/-- What is assumed of the package `polytope` in the plane, besides `Geom.Lawful`: the points of
`Polytope(A, b)`, lines are negligible, rectangles are not, and neither are full-dimensional sets. -/
structure Plane {P : Type} (G : Geom P (Rat × Rat)) (poly : Sides → P) : Prop where
  den : ∀ b, G.den (poly b) = {z | -z.2 ≤ b.down ∧ z.2 ≤ b.up ∧ -z.1 ≤ b.left ∧ z.1 ≤ b.right}
  column : ∀ c, G.null {z | z.1 = c}
  row : ∀ c, G.null {z | z.2 = c}
  thick : ∀ x x' y y' : Rat, x < x' → y < y' → ¬ G.null {z | x ≤ z.1 ∧ z.1 ≤ x' ∧ y ≤ z.2 ∧ z.2 ≤ y'}
  full : ∀ a, G.fulldim a = true → ¬ G.null (G.den a)

/-! ## Partitions by sets that overlap on negligible sets only -/

section Tiles
variable {P X K : Type} {G : Geom P X}

theorem tiles (hG : G.Lawful) (hfull : ∀ a, G.fulldim a = true → ¬ G.null (G.den a)) {domain : P}
    {props : Dict String P} {ks : List K} (hks : ks.Nodup) (hne : ks ≠ []) {name : K → String} {tile : K → P}
    (hprops : ∀ n q, props.get? n = some q ↔ ∃ k ∈ ks, n = name k ∧ q = tile k)
    (hinj : ∀ k ∈ ks, ∀ k' ∈ ks, name k = name k' → k = k')
    (hcov : ∀ x ∈ G.den domain, ∃ k ∈ ks, x ∈ G.den (tile k))
    (hin : ∀ k ∈ ks, G.den (tile k) ⊆ G.den domain)
    (hdis : ∀ k ∈ ks, ∀ k' ∈ ks, k ≠ k' → G.null (G.den (tile k) ∩ G.den (tile k')))
    (hthick : ∀ k ∈ ks, ¬ G.null (G.den (tile k))) {regions : List (Region P)}
    (h : Classes G domain props regions) :
    regions.length = ks.length ∧ (∀ r ∈ regions, ∃ k ∈ ks, ∀ q, q ∈ r.props ↔ q = name k) ∧
      ∀ k ∈ ks, ∃ r ∈ regions, (∀ q, q ∈ r.props ↔ q = name k) ∧ G.den r.poly ⊆ G.den (tile k) ∧
        G.null (G.den (tile k) \ G.den r.poly) := by
  have hdom : G.fulldim domain = true := by
    by_contra hf
    rw [Bool.not_eq_true] at hf
    cases ks with
    | nil => exact hne rfl
    | cons k _ => exact hthick k (by simp) (hG.null_mono (hin k (by simp)) (hG.thin _ hf))
  have hr : ∀ r ∈ regions, ∃ k ∈ ks, ∀ q, q ∈ r.props ↔ q = name k := by
    intro r hr
    have hnn := hfull _ (h.full hdom r hr)
    by_cases he : r.props = []
    · exfalso
      refine hnn (hG.null_mono ?_ (hG.null_iUnion ks (fun k => G.den r.poly ∩ G.den (tile k)) fun k hk => ?_))
      · intro x hx
        obtain ⟨k, hk, hxk⟩ := hcov x (h.inside r hr hx)
        exact ⟨k, hk, hx, hxk⟩
      · exact h.fails r hr (name k) (tile k) ((hprops _ _).2 ⟨k, hk, rfl, rfl⟩) (by rw [he]; simp)
    · obtain ⟨p, hp⟩ := List.exists_mem_of_ne_nil _ he
      obtain ⟨q, hq, hsub⟩ := h.holds r hr p hp
      obtain ⟨k, hk, rfl, rfl⟩ := (hprops _ _).1 hq
      refine ⟨k, hk, fun p' => ⟨fun hp' => ?_, fun e => e ▸ hp⟩⟩
      obtain ⟨q', hq', hsub'⟩ := h.holds r hr p' hp'
      obtain ⟨k', hk', rfl, rfl⟩ := (hprops _ _).1 hq'
      by_contra hkk
      exact hnn (hG.null_mono (B := G.den (tile k') ∩ G.den (tile k)) (fun x hx => ⟨hsub' hx, hsub hx⟩)
        (hdis k' hk' k hk fun e => hkk (by rw [e])))
  have hpair : ∀ r ∈ regions, ∀ s ∈ regions, (∀ q, q ∈ r.props ↔ q ∈ s.props) → r = s := by
    intro r hr s hs hq
    by_contra hrs
    have hd : regions.Pairwise fun r s : Region P => (∃ p, ¬ (p ∈ r.props ↔ p ∈ s.props)) ∨ r = s :=
      h.distinct.imp Or.inl
    have hsym : ∀ {r s : Region P}, ((∃ p, ¬ (p ∈ r.props ↔ p ∈ s.props)) ∨ r = s) →
        ((∃ p, ¬ (p ∈ s.props ↔ p ∈ r.props)) ∨ s = r) :=
      fun hx => hx.imp (fun ⟨p, hp⟩ => ⟨p, fun h => hp h.symm⟩) Eq.symm
    have hall : ∀ (l : List (Region P)),
        l.Pairwise (fun r s : Region P => (∃ p, ¬ (p ∈ r.props ↔ p ∈ s.props)) ∨ r = s) →
        ∀ r ∈ l, ∀ s ∈ l, (∃ p, ¬ (p ∈ r.props ↔ p ∈ s.props)) ∨ r = s := by
      intro l hl
      induction hl with
      | nil => intro r hr; cases hr
      | cons h1 _ ih =>
        intro r hr s hs
        rcases List.mem_cons.1 hr with rfl | hr' <;> rcases List.mem_cons.1 hs with rfl | hs'
        · exact Or.inr rfl
        · exact h1 s hs'
        · exact hsym (h1 r hr')
        · exact ih r hr' s hs'
    rcases hall regions hd r hr s hs with ⟨p, hp⟩ | e
    · exact hp (hq p)
    · exact hrs e
  have hk : ∀ k ∈ ks, ∃ r ∈ regions, ∀ q, q ∈ r.props ↔ q = name k := by
    intro k hk
    by_contra hno
    refine hthick k hk (hG.null_of_sub (B := G.den domain \ {x | ∃ r ∈ regions, x ∈ G.den r.poly})
      (C := {x | ∃ r ∈ regions, x ∈ G.den r.poly ∩ G.den (tile k)}) ?_ h.cover
      (hG.null_iUnion regions (fun r => G.den r.poly ∩ G.den (tile k)) fun r hr' => ?_))
    · intro x hx
      by_cases hxr : ∃ r ∈ regions, x ∈ G.den r.poly
      · obtain ⟨r, hr, hx'⟩ := hxr
        exact Or.inr ⟨r, hr, hx', hx⟩
      · exact Or.inl ⟨hin k hk hx, hxr⟩
    · refine h.fails r hr' (name k) (tile k) ((hprops _ _).2 ⟨k, hk, rfl, rfl⟩) fun hmem => hno ⟨r, hr', ?_⟩
      obtain ⟨k', hk', hq⟩ := hr r hr'
      rw [(hq _).1 hmem]
      exact hq
  refine ⟨?_, hr, ?_⟩
  · classical
    choose f hf hfq using hr
    have hL : (regions.attach.map fun r => f r.1 r.2).Nodup := by
      refine List.Nodup.map_on ?_ ?_
      · intro r _ s _ e
        refine Subtype.ext (hpair _ r.2 _ s.2 fun q => ?_)
        rw [hfq r.1 r.2, hfq s.1 s.2, e]
      · rw [List.nodup_attach]
        exact h.distinct.imp fun {r s} ⟨p, hp⟩ e => hp (by rw [e])
    have h1 := (List.subperm_of_subset hL (l₂ := ks) (by
      intro k hk
      obtain ⟨r, -, rfl⟩ := List.mem_map.1 hk
      exact hf _ _)).length_le
    have h2 := (List.subperm_of_subset hks (l₂ := regions.attach.map fun r => f r.1 r.2) (by
      intro k hk'
      obtain ⟨r, hr, hq⟩ := hk k hk'
      refine List.mem_map.2 ⟨⟨r, hr⟩, List.mem_attach _ _, ?_⟩
      exact hinj _ (hf _ _) _ hk' ((hq _).1 ((hfq r hr _).2 rfl)))).length_le
    simp only [List.length_map, List.length_attach] at h1 h2
    omega
  · intro k hk'
    obtain ⟨r, hr', hq⟩ := hk k hk'
    refine ⟨r, hr', hq, ?_, ?_⟩
    · obtain ⟨q, hq', hsub⟩ := h.holds r hr' (name k) ((hq _).2 rfl)
      rw [(hprops _ _).2 ⟨k, hk', rfl, rfl⟩] at hq'
      cases hq'
      exact hsub
    · refine hG.null_of_sub (B := G.den domain \ {x | ∃ r ∈ regions, x ∈ G.den r.poly})
        (C := {x | ∃ s ∈ regions, x ∈ (G.den s.poly ∩ G.den (tile k)) \ G.den r.poly}) ?_ h.cover
        (hG.null_iUnion regions (fun s => (G.den s.poly ∩ G.den (tile k)) \ G.den r.poly) fun s hs => ?_)
      · rintro x ⟨hx, hxr⟩
        by_cases hxs : ∃ r ∈ regions, x ∈ G.den r.poly
        · obtain ⟨s, hs, hx'⟩ := hxs
          exact Or.inr ⟨s, hs, ⟨hx', hx⟩, hxr⟩
        · exact Or.inl ⟨hin k hk' hx, hxs⟩
      · by_cases hmem : name k ∈ s.props
        · obtain ⟨k', _, hq'⟩ := hr s hs
          have : s = r := hpair s hs r hr' fun q => by rw [hq, hq', (hq' _).1 hmem]
          subst this
          exact hG.null_mono (fun x hx => hx.2 hx.1.1) hG.null_empty
        · exact hG.null_mono (fun x hx => hx.1)
            (h.fails s hs (name k) (tile k) ((hprops _ _).2 ⟨k, hk', rfl, rfl⟩) hmem)

end Tiles

/-! ## The names -/

theorem split_paren {a b s t : List Char} (ha : ')' ∉ a) (hb : ')' ∉ b) (h : a ++ ')' :: s = b ++ ')' :: t) :
    a = b ∧ s = t := by
  rcases List.append_eq_append_iff.mp h with ⟨u, h1, h2⟩ | ⟨u, h1, h2⟩
  · cases u with
    | nil => rw [List.append_nil] at h1; exact ⟨h1.symm, (List.cons.inj h2).2⟩
    | cons x u =>
      obtain ⟨rfl, _⟩ := List.cons.inj h2
      exact absurd (by rw [h1]; simp) hb
  · cases u with
    | nil => rw [List.append_nil] at h1; exact ⟨h1, (List.cons.inj h2).2.symm⟩
    | cons x u =>
      obtain ⟨rfl, _⟩ := List.cons.inj h2
      exact absurd (by rw [h1]; simp) ha

theorem intChars_injective {m n : Int} (h : intChars m = intChars n) : m = n := by
  have := pyInt_intChars m
  rw [h, pyInt_intChars] at this
  exact (Option.some.inj this).symm

theorem cellProp_inj {w : World} {nonbool : Bool} {k k' : Int × Int}
    (h : cellProp w nonbool k = cellProp w nonbool k') : k = k' := by
  unfold cellProp at h
  replace h := String.ofList_injective h
  cases nonbool with
  | false =>
    have := cellName_inj (pre := w.pre) (pre' := w.pre) (i := k.1) (j := k.2) (i' := k'.1) (j' := k'.2) h
    exact Prod.ext this.2.1 this.2.2
  | true =>
    simp only [if_true, List.append_assoc] at h
    replace h := List.append_cancel_left (List.append_cancel_left (List.append_cancel_left h))
    have hp : ∀ n, ')' ∉ intChars n := LtlFile.not_mem_intChars (by decide) (by decide)
    obtain ⟨h1, h2⟩ := split_paren (hp _) (hp _) h
    replace h2 := List.append_cancel_left (as := c!" && (") h2
    replace h2 := List.append_cancel_left (List.append_cancel_left h2)
    obtain ⟨h3, -⟩ := split_paren (hp _) (hp _) h2
    exact Prod.ext (by have := intChars_injective h1; omega) (by have := intChars_injective h3; omega)

theorem cellVarName_ok {w : World} {A : Arr} (hw : w.W = some A) (nonbool : Bool) {k : Int × Int}
    (hk : Inside A k) : ∃ n, cellVarName w nonbool k = .ok n ∧ String.ofList n = cellProp w nonbool k := by
  unfold cellVarName
  cases nonbool with
  | false => exact ⟨_, rfl, rfl⟩
  | true =>
    have : keyOf w k = .ok (A, k) :=
      (keyOf_ok hw).2 ⟨hk.1, hk.2.1, hk.2.2.1, hk.2.2.2, Or.inl rfl, Or.inl rfl⟩
    refine ⟨c!"((" ++ w.pre ++ c!"_r = " ++ intChars (k.1 + w.offset.1) ++ c!") && (" ++ w.pre ++ c!"_c = " ++
        intChars (k.2 + w.offset.2) ++ c!"))", ?_, rfl⟩
    rw [if_pos rfl, getitem, this, ok_bind]
    rfl

section Loop
variable {P : Type} (poly : Sides → P)

theorem cellLoop_spec {w : World} {A : Arr} (hw : w.W = some A) (side offset : Rat × Rat) (nonbool : Bool)
    (ks : List (Int × Int)) (hks : ∀ k ∈ ks, Inside A k) (hnd : ks.Nodup) (d : Dict String P) (hd : d.Wf)
    (hnew : ∀ k ∈ ks, d.get? (cellProp w nonbool k) = none) :
    ∃ d', cellLoop poly w A side offset nonbool ks d = .ok d' ∧ d'.Wf ∧ ∀ n q, d'.get? n = some q ↔
      d.get? n = some q ∨ ∃ k ∈ ks, n = cellProp w nonbool k ∧ q = poly (cellSides A side offset k) := by
  induction ks generalizing d with
  | nil => exact ⟨d, rfl, hd, by simp⟩
  | cons k ks ih =>
    obtain ⟨n, hn, hn'⟩ := cellVarName_ok hw nonbool (hks k (by simp))
    obtain ⟨d', h1, h2, h3⟩ := ih (fun k hk => hks k (by simp [hk])) (List.nodup_cons.1 hnd).2
      (d.set (cellProp w nonbool k) (poly (cellSides A side offset k))) (Dict.wf_set hd _ _) (by
        intro k' hk'
        rw [Dict.get?_set, if_neg]
        · exact hnew k' (by simp [hk'])
        · intro e
          have := cellProp_inj e
          subst this
          exact (List.nodup_cons.1 hnd).1 hk')
    refine ⟨d', ?_, h2, fun m q => ?_⟩
    · rw [cellLoop, hn, ok_bind, hn', h1]
    · rw [h3, Dict.get?_set]
      by_cases hm : m = cellProp w nonbool k
      · subst hm
        rw [if_pos rfl, hnew k (by simp)]
        constructor
        · rintro (h | ⟨k', hk', e, rfl⟩)
          · cases h
            exact Or.inr ⟨k, by simp, rfl, rfl⟩
          · exact Or.inr ⟨k', by simp [hk'], e, rfl⟩
        · rintro (h | ⟨k', hk', e, rfl⟩)
          · cases h
          · rw [← cellProp_inj e]
            exact Or.inl rfl
      · rw [if_neg (Ne.symm hm)]
        constructor
        · rintro (h | ⟨k', hk', e, rfl⟩)
          · exact Or.inl h
          · exact Or.inr ⟨k', by simp [hk'], e, rfl⟩
        · rintro (h | ⟨k', hk', e, rfl⟩)
          · exact Or.inl h
          · rcases List.mem_cons.1 hk' with rfl | hk'
            · exact absurd e hm
            · exact Or.inr ⟨k', hk', e, rfl⟩

end Loop

/-! ## The rectangles -/

theorem slot {W : Rat} (hW : 0 < W) : ∀ (n : Nat) (d : Rat), 0 < n → 0 ≤ d → d ≤ n * W →
    ∃ j : Nat, j < n ∧ j * W ≤ d ∧ d ≤ (j + 1) * W
  | 0, _, h, _, _ => absurd h (by omega)
  | n + 1, d, _, h0, h1 => by
    by_cases hd : n * W ≤ d
    · exact ⟨n, by omega, hd, by push_cast at h1; exact h1⟩
    · cases n with
      | zero => simp at hd; linarith
      | succ n =>
        obtain ⟨j, hj, h2, h3⟩ := slot hW (n + 1) d (by omega) h0 (by linarith)
        exact ⟨j, by omega, h2, h3⟩

/-- **C111.** The partition of a grid world has one region for each cell. The label of the region is the
proposition of the cell, and its points are those of the rectangle of the cell, up to a negligible set. -/
theorem dumpPartition_spec {P : Type} {G : Geom P (Rat × Rat)} (hG : G.Lawful) {poly : Sides → P}
    (hP : Plane G poly) {le : P → P → Bool} (hle : ∀ a b, G.den a ⊆ G.den b → le a b = true)
    {w : World} {A : Arr} (hw : w.W = some A) (hr : 0 < A.rows) (hc : 0 < A.cols) {side : Rat × Rat}
    (h1 : 0 < side.1) (h2 : 0 < side.2) (offset : Rat × Rat) (nonbool : Bool) :
    ∃ p, dumpPartition G le poly w side offset nonbool = .ok p ∧ p.regions.length = A.rows * A.cols ∧
      (∀ r ∈ p.regions, ∃ k, Inside A k ∧ ∀ q, q ∈ r.props ↔ q = cellProp w nonbool k) ∧
      (∀ k, Inside A k → ∃ r ∈ p.regions, (∀ q, q ∈ r.props ↔ q = cellProp w nonbool k) ∧
        G.den r.poly ⊆ rect A side offset k ∧ G.null (rect A side offset k \ G.den r.poly)) ∧
      G.den p.domain = {z | offset.1 ≤ z.1 ∧ z.1 ≤ offset.1 + A.cols * side.1 ∧
        offset.2 ≤ z.2 ∧ z.2 ≤ offset.2 + A.rows * side.2} ∧
      ∀ n q, p.propRegions.get? n = some q → ∃ k, Inside A k ∧ n = cellProp w nonbool k ∧
        G.den q = rect A side offset k := by
  have hin : ∀ k, k ∈ indices A.rows A.cols ↔ Inside A k := fun k => mem_indices _ _ _
  have hrect : ∀ k, G.den (poly (cellSides A side offset k)) = rect A side offset k := by
    intro k
    rw [hP.den]
    ext z
    simp only [cellSides, rect, Set.mem_ofPred_eq]
    constructor
    · rintro ⟨a, b, c, d⟩
      exact ⟨by linarith, by linarith, by linarith, by linarith⟩
    · rintro ⟨a, b, c, d⟩
      exact ⟨by linarith, by linarith, by linarith, by linarith⟩
  have hdom : G.den (poly (domainSides A side offset)) = {z | offset.1 ≤ z.1 ∧
      z.1 ≤ offset.1 + A.cols * side.1 ∧ offset.2 ≤ z.2 ∧ z.2 ≤ offset.2 + A.rows * side.2} := by
    rw [hP.den]
    ext z
    simp only [domainSides, Set.mem_ofPred_eq]
    constructor
    · rintro ⟨a, b, c, d⟩
      exact ⟨by linarith, by linarith, by linarith, by linarith⟩
    · rintro ⟨a, b, c, d⟩
      exact ⟨by linarith, by linarith, by linarith, by linarith⟩
  obtain ⟨d, hd, hwf, hget⟩ := cellLoop_spec poly hw side offset nonbool (indices A.rows A.cols)
    (fun k hk => (hin k).1 hk) (indices_nodup _ _) [] (by simp [Dict.Wf, Dict.keys]) (fun _ _ => rfl)
  have hget' : ∀ n q, d.get? n = some q ↔ ∃ k ∈ indices A.rows A.cols, n = cellProp w nonbool k ∧
      q = poly (cellSides A side offset k) := by
    intro n q
    rw [hget]
    exact ⟨fun h => h.resolve_left (by intro h; cases h), Or.inr⟩
  obtain ⟨p, hp, hpd, hpp, hcl⟩ := prop2part_spec hG hle (poly (domainSides A side offset)) hwf
  have ht := tiles hG hP.full (indices_nodup _ _) (by
      intro e
      have := (hin (0, 0)).2 ⟨le_refl _, by simpa using hr, le_refl _, by simpa using hc⟩
      rw [e] at this
      cases this) hget' (fun k _ k' _ e => cellProp_inj e) ?_ ?_ ?_ ?_ hcl
  · refine ⟨p, ?_, ?_, ?_, ?_, ?_, ?_⟩
    · rw [dumpPartition, hw]
      simp only [hd, ok_bind, hp]
    · rw [ht.1, length_indices]
    · intro r hr'
      obtain ⟨k, hk, hq⟩ := ht.2.1 r hr'
      exact ⟨k, (hin k).1 hk, hq⟩
    · intro k hk
      obtain ⟨r, hr', hq, hs, hn⟩ := ht.2.2 k ((hin k).2 hk)
      rw [hrect] at hs hn
      exact ⟨r, hr', hq, hs, hn⟩
    · rw [hpd, hdom]
    · intro n q hq
      rw [hpp] at hq
      obtain ⟨k, hk, rfl, rfl⟩ := (hget' n q).1 hq
      exact ⟨k, (hin k).1 hk, rfl, hrect k⟩
  · intro z hz
    rw [hdom] at hz
    obtain ⟨a, b, c, e⟩ := hz
    obtain ⟨j, hj, hj1, hj2⟩ := slot h1 A.cols (z.1 - offset.1) hc (by linarith) (by linarith)
    obtain ⟨i, hi, hi1, hi2⟩ := slot h2 A.rows (z.2 - offset.2) hr (by linarith) (by linarith)
    refine ⟨((A.rows : Int) - 1 - i, j), (hin _).2 ⟨by omega, by omega, by omega, by omega⟩, ?_⟩
    rw [hrect]
    simp only [rect, Set.mem_ofPred_eq]
    push_cast
    exact ⟨by linarith, by linarith, by linarith, by linarith⟩
  · intro k hk z hz
    rw [hrect] at hz
    rw [hdom]
    obtain ⟨a, b, c, e⟩ := hz
    obtain ⟨k1, k2, k3, k4⟩ := (hin k).1 hk
    have e1 : (0 : Rat) ≤ k.1 := by exact_mod_cast k1
    have e2 : (k.1 : Rat) + 1 ≤ A.rows := by exact_mod_cast k2
    have e3 : (0 : Rat) ≤ k.2 := by exact_mod_cast k3
    have e4 : (k.2 : Rat) + 1 ≤ A.cols := by exact_mod_cast k4
    have m1 := mul_le_mul_of_nonneg_right e2 h2.le
    have m2 := mul_le_mul_of_nonneg_right e4 h1.le
    have m3 := mul_nonneg e1 h2.le
    have m4 := mul_nonneg e3 h1.le
    exact ⟨by linarith, by linarith, by linarith, by linarith⟩
  · intro k _ k' _ hkk
    rw [hrect, hrect]
    have step : ∀ {x y : Int} {S : Rat}, 0 < S → x < y → ((x : Rat) + 1) * S ≤ y * S := by
      intro x y S hS hxy
      have : (x : Rat) + 1 ≤ y := by exact_mod_cast hxy
      exact mul_le_mul_of_nonneg_right this hS.le
    by_cases e : k.2 = k'.2
    · have e' : k.1 ≠ k'.1 := fun e' => hkk (Prod.ext e' e)
      rcases lt_or_gt_of_ne e' with hlt | hlt
      · refine hG.null_mono ?_ (hP.row (offset.2 + (A.rows - k'.1) * side.2))
        rintro z ⟨⟨_, _, a, _⟩, ⟨_, _, _, b⟩⟩
        have := step h2 hlt
        exact le_antisymm b (by linarith)
      · refine hG.null_mono ?_ (hP.row (offset.2 + (A.rows - k.1) * side.2))
        rintro z ⟨⟨_, _, _, a⟩, ⟨_, _, b, _⟩⟩
        have := step h2 hlt
        exact le_antisymm a (by linarith)
    · rcases lt_or_gt_of_ne e with hlt | hlt
      · refine hG.null_mono ?_ (hP.column (offset.1 + k'.2 * side.1))
        rintro z ⟨⟨_, a, _, _⟩, ⟨b, _, _, _⟩⟩
        have := step h1 hlt
        exact le_antisymm (by linarith) b
      · refine hG.null_mono ?_ (hP.column (offset.1 + k.2 * side.1))
        rintro z ⟨⟨a, _, _, _⟩, ⟨_, b, _, _⟩⟩
        have := step h1 hlt
        exact le_antisymm (by linarith) a
  · intro k _
    rw [hrect]
    exact hP.thick _ _ _ _ (by linarith) (by linarith)

/-- **C111.** A world without a grid has no partition. -/
theorem dumpPartition_empty {P : Type} (G : Geom P (Rat × Rat)) (le : P → P → Bool) (poly : Sides → P)
    {w : World} (hw : w.W = none) (side offset : Rat × Rat) (nonbool : Bool) :
    dumpPartition G le poly w side offset nonbool = .error .valueError := by
  rw [dumpPartition, hw]

/-! ## The hypotheses can be met -/

/-- The subset of finitely many lines that are parallel to an axis. -/
def Thin (S : Set (Rat × Rat)) : Prop :=
  ∃ xs ys : Finset Rat, ∀ z ∈ S, z.1 ∈ xs ∨ z.2 ∈ ys

open Classical in
/-- Sets of points. -/
noncomputable def setGeom : Geom (Set (Rat × Rat)) (Rat × Rat) where
  den := id
  null := Thin
  inter := fun a b => a ∩ b
  diff := fun a b => a \ b
  fulldim := fun a => decide (¬ Thin a)

/-- The rectangle with these sides. -/
def setPoly (b : Sides) : Set (Rat × Rat) := {z | -z.2 ≤ b.down ∧ z.2 ≤ b.up ∧ -z.1 ≤ b.left ∧ z.1 ≤ b.right}

theorem setGeom_lawful : setGeom.Lawful := by
  have hm : ∀ {A B : Set (Rat × Rat)}, A ⊆ B → Thin B → Thin A := by
    rintro A B h ⟨xs, ys, hB⟩
    exact ⟨xs, ys, fun z hz => hB z (h hz)⟩
  have he : Thin ∅ := ⟨∅, ∅, fun z hz => hz.elim⟩
  refine ⟨he, hm, ?_, ?_, ?_, ?_, ?_, ?_, ?_⟩
  · rintro A B ⟨xs, ys, hA⟩ ⟨xs', ys', hB⟩
    classical
    refine ⟨xs ∪ xs', ys ∪ ys', fun z hz => ?_⟩
    simp only [Finset.mem_union]
    rcases hz with hz | hz
    · rcases hA z hz with h | h
      · exact Or.inl (Or.inl h)
      · exact Or.inr (Or.inl h)
    · rcases hB z hz with h | h
      · exact Or.inl (Or.inr h)
      · exact Or.inr (Or.inr h)
  · intro a b; exact fun x hx => hx
  · intro a b; exact hm (fun x hx => hx.2 hx.1) he
  · intro a b; exact fun x hx => hx.1
  · intro a b; exact hm (fun x hx => hx.1.2 hx.2) he
  · intro a b; exact hm (fun x hx => hx.2 hx.1) he
  · intro a ha
    have : ¬ ¬ Thin a := by simpa [setGeom] using ha
    exact not_not.1 this

theorem setGeom_plane : Plane setGeom setPoly := by
  refine ⟨fun b => rfl, fun c => ⟨{c}, ∅, fun z hz => Or.inl (by simpa using hz)⟩,
    fun c => ⟨∅, {c}, fun z hz => Or.inr (by simpa using hz)⟩, ?_, ?_⟩
  · rintro x x' y y' hx hy ⟨xs, ys, h⟩
    obtain ⟨a, ha, ha'⟩ := (Set.Ioo_infinite hx).exists_notMem_finset xs
    obtain ⟨b, hb, hb'⟩ := (Set.Ioo_infinite hy).exists_notMem_finset ys
    rcases h (a, b) ⟨ha.1.le, ha.2.le, hb.1.le, hb.2.le⟩ with h | h
    · exact ha' h
    · exact hb' h
  · intro a ha
    simpa [setGeom] using ha

open Classical in
/-- A world of two rows and three columns. -/
example := dumpPartition_spec setGeom_lawful setGeom_plane (le := fun a b => decide (a ⊆ b))
  (fun a b h => by simpa [setGeom] using h)
  (w := ⟨some ⟨2, 3, fun i j => if i = 1 ∧ j = 1 then 1 else 0⟩, [], [], c!"Y", (0, 0)⟩) rfl
  (by decide) (by decide) (side := (2, 1)) (by decide) (by decide) (-1, 5)

/-- **C111, what fails.** The names of the cells ignore the offset of the world if `nonbool` is false, although
those that `self[i, j]` returns do not. -/
theorem cellProp_counterexample :
    ∃ (w : World) (A : Arr) (k : Int × Int), w.W = some A ∧ Inside A k ∧
      cellProp w false k = "Y_0_0" ∧ (getitem w k false false).toOption = some c!"Y_5_7" :=
  ⟨⟨some ⟨1, 1, fun _ _ => 0⟩, [], [], c!"Y", (5, 7)⟩, ⟨1, 1, fun _ _ => 0⟩, (0, 0), rfl,
    ⟨by decide, by decide, by decide, by decide⟩, by decide +kernel, by decide +kernel⟩

end Gw
end Tulip
