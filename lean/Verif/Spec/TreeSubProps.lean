import Verif.Spec.TreeGraphProps

/-!
# Graphs of syntax trees: `sub_values` and `sub_constants`

C126. Both are shown to be the functions on recursive syntax trees of `Verif/Spec/Transform.lean`, with the
same exceptions.
-/

namespace Tulip
namespace TreeG

/-! ### Rewriting of terminals that depends on what is above -/

/-- What is above the operands of a node (see `Above`). -/
def childCtx (ctx : Above) : Ast → List Above
  | .un _ _ => [ctx]
  | .bin _ x y | .cmp _ x y | .ar _ x y => [some (x, y, false), some (x, y, true)]
  | .trunc x n => [some (x, .num n, false), some (x, .num n, true)]
  | .ite _ _ _ => [ctx, ctx, ctx]
  | _ => []

/-- A function applied to formulas with what is above them. -/
def mapCtx (rec : Above → Ast → Except PyErr Ast) : List Above → List Ast → Except PyErr (List Ast)
  | c :: cs, t :: ts => do
    let t' ← rec c t
    let ts' ← mapCtx rec cs ts
    .ok (t' :: ts')
  | _, _ => .ok []

/-- The relation holds for the entries of three lists of the same length. -/
inductive AllK (K : Above → Nat → Ast → Prop) : List Above → List Nat → List Ast → Prop
  | nil : AllK K [] [] []
  | cons {c : Above} {cs : List Above} {u : Nat} {us : List Nat} {t : Ast} {ts : List Ast} (head : K c u t)
      (tail : AllK K cs us ts) : AllK K (c :: cs) (u :: us) (t :: ts)

/-- A function `rec` on formulas that replaces the terminals with `leaf` and goes below the others. -/
structure Rewrites (rec : Above → Ast → Except PyErr Ast) (leaf : Ast → Bool) : Prop where
  below : ∀ c t, leaf t = false →
    (∃ cs t', mapCtx rec (childCtx c t) t.children = .ok cs ∧ rec c t = .ok t' ∧ headOf t' = headOf t ∧
      t'.children = cs) ∨ ∃ e, mapCtx rec (childCtx c t) t.children = .error e ∧ rec c t = .error e
  terminal : ∀ t, leaf t = true → t.children = []

/-- The loop over objects `f` does to an object what `rec` does to the formula, if `K` tells what is above. -/
structure LoopOf (h : List Obj) (l : List Nat) (rec : Above → Ast → Except PyErr Ast) (leaf : Ast → Bool)
    (f : Nat → Except PyErr (Option Obj)) (K : Above → Nat → Ast → Prop) : Prop where
  skip : ∀ c u t ids, u ∈ l → K c u t → h[u]? = some ⟨headOf t, ids⟩ → leaf t = false → f u = .ok none
  hit : ∀ c u t ids, u ∈ l → K c u t → h[u]? = some ⟨headOf t, ids⟩ → leaf t = true →
    (∃ o t', f u = .ok (some o) ∧ rec c t = .ok t' ∧ headOf t' = o.head ∧ t'.children = [] ∧ o.operands = []) ∨
    ∃ e, f u = .error e ∧ rec c t = .error e
  down : ∀ c u t ids l', u ∈ l → K c u t → h[u]? = some ⟨headOf t, ids⟩ → Lay h ids t.children l' → (∀ v ∈ l', v ∈ l) →
    AllK K (childCtx c t) ids t.children

theorem scan_lay {h : List Obj} {l : List Nat} {rec : Above → Ast → Except PyErr Ast} {leaf : Ast → Bool}
    {f : Nat → Except PyErr (Option Obj)} {K : Above → Nat → Ast → Prop} (R : Rewrites rec leaf)
    (L : LoopOf h l rec leaf f K) {us : List Nat} {ts : List Ast} {l' : List Nat} (H : Lay h us ts l') :
    (∀ v ∈ l', v ∈ l) → ∀ cs, AllK K cs us ts →
    (scan f l' = .ok () ∧ ∃ ts', mapCtx rec cs ts = .ok ts') ∨
      ∃ e, scan f l' = .error e ∧ mapCtx rec cs ts = .error e := by
  induction H with
  | nil => intro _ cs hk; cases hk; exact .inl ⟨rfl, [], rfl⟩
  | @cons u us t ts ids l1 l2 obj below rest ih1 ih2 =>
    intro hsub cs hk
    cases hk with
    | @cons c cs _ _ _ _ hd tl =>
      have hul : u ∈ l := hsub u (by simp)
      have hsub1 : ∀ v ∈ l1, v ∈ l := fun v hv => hsub v (by simp [hv])
      have hrest := ih2 (fun v hv => hsub v (by simp [hv])) cs tl
      simp only [scan, scan_append, mapCtx]
      cases hleaf : leaf t
      · rw [L.skip c u t ids hul hd obj hleaf]
        simp only [ok_bind]
        have hb := ih1 hsub1 _ (L.down c u t ids l1 hul hd obj below hsub1)
        rcases R.below c t hleaf with ⟨cs', t', r1, r2, -, -⟩ | ⟨e, r1, r2⟩
        · rcases hb with ⟨h1, -⟩ | ⟨e, -, h2⟩
          · rw [h1, r2]
            simp only [ok_bind]
            rcases hrest with ⟨h3, ts', h4⟩ | ⟨e, h3, h4⟩
            · exact .inl ⟨h3, t' :: ts', by rw [h4, ok_bind]⟩
            · exact .inr ⟨e, h3, by rw [h4, error_bind]⟩
          · rw [r1] at h2; cases h2
        · rcases hb with ⟨-, ts', h2⟩ | ⟨e', h1, h2⟩
          · rw [r1] at h2; cases h2
          · rw [r1] at h2
            cases h2
            exact .inr ⟨e, by rw [h1, error_bind], by rw [r2, error_bind]⟩
      · have hc := R.terminal t hleaf
        rw [hc] at below
        cases below
        rcases L.hit c u t [] hul hd obj hleaf with ⟨o, t', h1, h2, -⟩ | ⟨e, h1, h2⟩
        · rw [h1, h2]
          simp only [ok_bind, scan]
          rcases hrest with ⟨h3, ts', h4⟩ | ⟨e, h3, h4⟩
          · exact .inl ⟨h3, t' :: ts', by rw [h4, ok_bind]⟩
          · exact .inr ⟨e, h3, by rw [h4, error_bind]⟩
        · exact .inr ⟨e, by rw [h1, error_bind], by rw [h2, error_bind]⟩

theorem all3_of_mapCtx {h : List Obj} {l : List Nat} {K : Above → Nat → Ast → Prop}
    {rec : Above → Ast → Except PyErr Ast} {us : List Nat} {ts : List Ast} {l' : List Nat} (H : Lay h us ts l') :
    (∀ w ∈ l', w ∈ l) → ∀ {cs : List Above} {ts' : List Ast}, AllK K cs us ts → mapCtx rec cs ts = .ok ts' →
    All3 (fun v a a' => ∃ c l', K c v a ∧ Lay h [v] [a] l' ∧ (∀ w ∈ l', w ∈ l) ∧ rec c a = .ok a') us ts ts' := by
  induction H with
  | nil => intro _ cs ts' hk h; cases hk; simp only [mapCtx] at h; cases h; exact .nil
  | @cons u us t ts ids l1 l2 obj below rest ih1 ih2 =>
    intro hsub cs ts' hk h
    cases hk with
    | @cons c cs _ _ _ _ hd tl =>
      simp only [mapCtx] at h
      cases h1 : rec c t with
      | error e => rw [h1] at h; simp only [error_bind] at h; cases h
      | ok t' =>
        rw [h1] at h
        simp only [ok_bind] at h
        cases h2 : mapCtx rec cs ts with
        | error e => rw [h2] at h; simp only [error_bind] at h; cases h
        | ok r =>
          rw [h2] at h
          simp only [ok_bind] at h
          cases h
          refine .cons ⟨c, _, hd, .cons obj below .nil, fun w hw => hsub w ?_, h1⟩
            (ih2 (fun w hw => hsub w (by simp [hw])) tl h2)
          simp only [List.append_nil, List.mem_cons] at hw
          rcases hw with rfl | hw
          · simp
          · simp [hw]

/-- The whole: the loop over objects does what the function on formulas does, except that the root is not replaced. -/
theorem replaceNodes_rec {h : List Obj} {u : Nat} {t : Ast} {l : List Nat} {T : Tree} (G : IsGraph h u t l T)
    {rec : Above → Ast → Except PyErr Ast} {leaf : Ast → Bool} {f : Nat → Except PyErr (Option Obj)}
    {K : Above → Nat → Ast → Prop} (R : Rewrites rec leaf) (L : LoopOf h l rec leaf f K) (hleaf : ∀ v ∈ l, ∀ o,
      f v = .ok (some o) → o.operands = [] ∧ ∃ o', h[v]? = some o' ∧ o'.operands = []) (hK : K none u t) {n : Nat}
    (hn : t.len ≤ n) (hlen : ∀ t', rec none t = .ok t' → t'.len ≤ n) :
    (∃ t' h' T', rec none t = .ok t' ∧ replaceNodes f h T = .ok (h', T') ∧ h <+: h' ∧
      T'.toAst h' n = .ok (if leaf t then t else t')) ∨
    ∃ e, rec none t = .error e ∧ replaceNodes f h T = .error e := by
  rcases scan_lay R L G.lay (fun v hv => hv) [none] (.cons hK .nil) with ⟨h1, ts', h2⟩ | ⟨e, h1, h2⟩
  · left
    simp only [mapCtx] at h2
    cases h3 : rec none t with
    | error e => rw [h3] at h2; simp only [error_bind] at h2; cases h2
    | ok t' =>
      have hroot : u ∈ l := by obtain ⟨l', rfl⟩ := G.root_mem; simp
      have hobj : ∃ ids, h[u]? = some ⟨headOf t, ids⟩ := by
        have := G.lay
        cases this with
        | cons obj _ _ => exact ⟨_, obj⟩
      obtain ⟨ids, hobj⟩ := hobj
      obtain ⟨h', T', r1, r2, r3, r4, r5⟩ := replaceNodes_spec G h1 hleaf
        (Q := fun v a a' => ∃ c l', K c v a ∧ Lay h [v] [a] l' ∧ (∀ w ∈ l', w ∈ l) ∧ rec c a = .ok a') (t' := t') (by
          rintro v hv a a' ids ⟨c, l1, hc, hlay1, hsub1, ha⟩ hobj hlen
          cases hl : leaf a
          · refine ⟨fun hf => ?_, fun o ho => ?_⟩
            · obtain ⟨l', hlay, hsub⟩ : ∃ l', Lay h ids a.children l' ∧ ∀ w ∈ l', w ∈ l :=
                by
                  cases hlay1 with
                  | cons obj' below _ =>
                    rw [hobj] at obj'
                    cases obj'
                    exact ⟨_, below, fun w hw => hsub1 w (by simp [hw])⟩
              have hk := L.down c v a ids l' hv hc hobj hlay hsub
              rcases R.below c a hl with ⟨cs, t'', q1, q2, q3, q4⟩ | ⟨e, q1, q2⟩
              · rw [ha] at q2
                cases q2
                exact ⟨q3, by rw [q4]; exact all3_of_mapCtx hlay hsub hk q1⟩
              · rw [ha] at q2; cases q2
            · rw [L.skip c v a ids hv hc hobj hl] at ho
              cases ho
          · rcases L.hit c v a ids hv hc hobj hl with ⟨o, t'', q1, q2, q3, q4, -⟩ | ⟨e, q1, q2⟩
            · rw [ha] at q2
              cases q2
              refine ⟨fun hf => (by rw [q1] at hf; cases hf), fun o' ho => ?_⟩
              rw [q1] at ho
              cases ho
              exact ⟨q3, q4⟩
            · rw [ha] at q2; cases q2) ⟨none, l, hK, G.lay, fun w hw => hw, h3⟩
      refine ⟨t', h', T', rfl, r1, r2, ?_⟩
      cases hl : leaf t
      · refine toAst_spells ?_ (by simpa using hlen t' h3)
        rw [r3]
        simpa using r4 (L.skip none u t ids hroot hK hobj hl)
      · refine toAst_spells ?_ (by simpa using hn)
        rw [r3]
        have : f u ≠ .ok none := by
          rcases L.hit none u t ids hroot hK hobj hl with ⟨o, t'', q1, -⟩ | ⟨e, q1, -⟩ <;> rw [q1] <;> simp
        simpa using r5 this
  · right
    have hrec : rec none t = .error e := by
      simp only [mapCtx] at h2
      cases h3 : rec none t with
      | error e' => rw [h3, error_bind] at h2; cases h2; rfl
      | ok t' => rw [h3] at h2; simp [ok_bind] at h2
    refine ⟨e, hrec, ?_⟩
    unfold replaceNodes
    rw [G.nodes]
    rcases collect_scan f l h with ⟨h3, -⟩ | ⟨e', h3, h4⟩
    · rw [h1] at h3; cases h3
    · rw [h1] at h3
      cases h3
      rw [h4, error_bind]

/-! ### `sub_values` -/

/-- The formula is a variable. -/
def isVar : Ast → Bool
  | .var _ => true
  | _ => false

theorem subValues_rewrites (values : Dict String PyConst) :
    Rewrites (fun _ t => subValuesRec values t) isVar := by
  refine ⟨fun c t ht => ?_, fun t ht => ?_⟩
  · cases t with
    | var x => cases ht
    | bool b => exact .inl ⟨[], _, rfl, rfl, rfl, rfl⟩
    | num b => exact .inl ⟨[], _, rfl, rfl, rfl, rfl⟩
    | str b => exact .inl ⟨[], _, rfl, rfl, rfl, rfl⟩
    | un op x =>
      simp only [childCtx, Ast.children, mapCtx, subValuesRec]
      cases subValuesRec values x with
      | error e => exact .inr ⟨e, rfl, rfl⟩
      | ok x' => exact .inl ⟨[x'], _, rfl, rfl, rfl, rfl⟩
    | bin op x y =>
      simp only [childCtx, Ast.children, mapCtx, subValuesRec]
      cases subValuesRec values x with
      | error e => exact .inr ⟨e, rfl, rfl⟩
      | ok x' =>
        cases subValuesRec values y with
        | error e => exact .inr ⟨e, rfl, rfl⟩
        | ok y' => exact .inl ⟨[x', y'], _, rfl, rfl, rfl, rfl⟩
    | cmp op x y =>
      simp only [childCtx, Ast.children, mapCtx, subValuesRec]
      cases subValuesRec values x with
      | error e => exact .inr ⟨e, rfl, rfl⟩
      | ok x' =>
        cases subValuesRec values y with
        | error e => exact .inr ⟨e, rfl, rfl⟩
        | ok y' => exact .inl ⟨[x', y'], _, rfl, rfl, rfl, rfl⟩
    | ar op x y =>
      simp only [childCtx, Ast.children, mapCtx, subValuesRec]
      cases subValuesRec values x with
      | error e => exact .inr ⟨e, rfl, rfl⟩
      | ok x' =>
        cases subValuesRec values y with
        | error e => exact .inr ⟨e, rfl, rfl⟩
        | ok y' => exact .inl ⟨[x', y'], _, rfl, rfl, rfl, rfl⟩
    | trunc x n =>
      simp only [childCtx, Ast.children, mapCtx, subValuesRec]
      cases subValuesRec values x with
      | error e => exact .inr ⟨e, rfl, rfl⟩
      | ok x' => exact .inl ⟨[x', .num n], _, rfl, rfl, rfl, rfl⟩
    | ite a x y =>
      simp only [childCtx, Ast.children, mapCtx, subValuesRec]
      cases subValuesRec values a with
      | error e => exact .inr ⟨e, rfl, rfl⟩
      | ok a' =>
        cases subValuesRec values x with
        | error e => exact .inr ⟨e, rfl, rfl⟩
        | ok x' =>
          cases subValuesRec values y with
          | error e => exact .inr ⟨e, rfl, rfl⟩
          | ok y' => exact .inl ⟨[a', x', y'], _, rfl, rfl, rfl, rfl⟩
  · cases t with
    | var x => rfl
    | _ => cases ht

/-- The formula is a string constant. -/
def isStr : Ast → Bool
  | .str _ => true
  | _ => false

theorem subConstants_rewrites (D : Dict String (List String)) : Rewrites (subConstants D) isStr := by
  refine ⟨fun c t ht => ?_, fun t ht => ?_⟩
  · cases t with
    | str x => cases ht
    | bool b => exact .inl ⟨[], _, rfl, rfl, rfl, rfl⟩
    | num b => exact .inl ⟨[], _, rfl, rfl, rfl, rfl⟩
    | var b => exact .inl ⟨[], _, rfl, rfl, rfl, rfl⟩
    | un op x =>
      simp only [childCtx, Ast.children, mapCtx, subConstants]
      cases subConstants D c x with
      | error e => exact .inr ⟨e, rfl, rfl⟩
      | ok x' => exact .inl ⟨[x'], _, rfl, rfl, rfl, rfl⟩
    | bin op x y =>
      simp only [childCtx, Ast.children, mapCtx, subConstants]
      cases subConstants D (some (x, y, false)) x with
      | error e => exact .inr ⟨e, rfl, rfl⟩
      | ok x' =>
        cases subConstants D (some (x, y, true)) y with
        | error e => exact .inr ⟨e, rfl, rfl⟩
        | ok y' => exact .inl ⟨[x', y'], _, rfl, rfl, rfl, rfl⟩
    | cmp op x y =>
      simp only [childCtx, Ast.children, mapCtx, subConstants]
      cases subConstants D (some (x, y, false)) x with
      | error e => exact .inr ⟨e, rfl, rfl⟩
      | ok x' =>
        cases subConstants D (some (x, y, true)) y with
        | error e => exact .inr ⟨e, rfl, rfl⟩
        | ok y' => exact .inl ⟨[x', y'], _, rfl, rfl, rfl, rfl⟩
    | ar op x y =>
      simp only [childCtx, Ast.children, mapCtx, subConstants]
      cases subConstants D (some (x, y, false)) x with
      | error e => exact .inr ⟨e, rfl, rfl⟩
      | ok x' =>
        cases subConstants D (some (x, y, true)) y with
        | error e => exact .inr ⟨e, rfl, rfl⟩
        | ok y' => exact .inl ⟨[x', y'], _, rfl, rfl, rfl, rfl⟩
    | trunc x n =>
      simp only [childCtx, Ast.children, mapCtx, subConstants]
      cases subConstants D (some (x, .num n, false)) x with
      | error e => exact .inr ⟨e, rfl, rfl⟩
      | ok x' => exact .inl ⟨[x', .num n], _, rfl, rfl, rfl, rfl⟩
    | ite a x y =>
      simp only [childCtx, Ast.children, mapCtx, subConstants]
      cases subConstants D c a with
      | error e => exact .inr ⟨e, rfl, rfl⟩
      | ok a' =>
        cases subConstants D c x with
        | error e => exact .inr ⟨e, rfl, rfl⟩
        | ok x' =>
          cases subConstants D c y with
          | error e => exact .inr ⟨e, rfl, rfl⟩
          | ok y' => exact .inl ⟨[a', x', y'], _, rfl, rfl, rfl, rfl⟩
  · cases t with
    | str x => rfl
    | _ => cases ht

theorem allK_true : ∀ (cs : List Above) (us : List Nat) (ts : List Ast), cs.length = us.length → us.length = ts.length →
    AllK (fun _ _ _ => True) cs us ts
  | [], [], [], _, _ => .nil
  | c :: cs, u :: us, t :: ts, h1, h2 => .cons trivial (allK_true cs us ts (by simpa using h1) (by simpa using h2))

theorem childCtx_length (c : Above) (t : Ast) : (childCtx c t).length = t.children.length := by
  cases t <;> rfl

theorem len_eq_of_rewrites {rec : Above → Ast → Except PyErr Ast} {leaf : Ast → Bool} (R : Rewrites rec leaf)
    (hl : ∀ c t t', leaf t = true → rec c t = .ok t' → t'.children = []) : ∀ (n : Nat) (c : Above) (t t' : Ast),
    t.len ≤ n → rec c t = .ok t' → t'.len = t.len := by
  intro n
  induction n with
  | zero => intro c t t' h; rw [lens_children] at h; omega
  | succ n ih =>
    intro c t t' hn h
    rw [lens_children] at hn
    cases hleaf : leaf t
    · rcases R.below c t hleaf with ⟨cs, t'', h1, h2, h3, h4⟩ | ⟨e, h1, h2⟩
      · rw [h] at h2
        cases h2
        rw [lens_children t', lens_children t, h4]
        congr 1
        have hlen := childCtx_length c t
        clear h4 h3 h
        generalize childCtx c t = ctxs at h1 hlen
        have hn' : lens t.children ≤ n := by omega
        generalize t.children = ts at h1 hlen hn'
        induction ts generalizing ctxs cs with
        | nil =>
          cases ctxs with
          | nil => simp only [mapCtx] at h1; cases h1; rfl
          | cons c' ctxs => cases hlen
        | cons a ts ih2 =>
          cases ctxs with
          | nil => cases hlen
          | cons c' ctxs =>
            simp only [mapCtx] at h1
            simp only [lens] at hn'
            cases ha : rec c' a with
            | error e => rw [ha, error_bind] at h1; cases h1
            | ok a' =>
              rw [ha, ok_bind] at h1
              cases hr : mapCtx rec ctxs ts with
              | error e => rw [hr, error_bind] at h1; cases h1
              | ok r =>
                rw [hr, ok_bind] at h1
                cases h1
                simp only [lens]
                rw [ih c' a a' (by omega) ha, ih2 _ ctxs hr (by simpa using hlen) (by omega)]
      · rw [h] at h2; cases h2
    · have h1 := R.terminal t hleaf
      have h2 := hl c t t' hleaf h
      rw [lens_children t', lens_children t, h1, h2]

/-- **C126**. `sub_values` on the graph of a formula, read back, gives what C125 is about, with the same exceptions. -/
theorem subValuesTree_spec {h : List Obj} {u : Nat} {t : Ast} {l : List Nat} (H : IsTree h u t l) {n : Nat}
    (hn : t.len ≤ n) (values : Dict String PyConst) :
    (do let T ← fromRec h n u
        let r ← subValuesTree h values T
        r.2.toAst r.1 n) = subValues values t := by
  obtain ⟨T, h1, G⟩ := H.graph hn
  rw [h1, ok_bind]
  have hobj : ∀ v ids a, h[v]? = some ⟨headOf a, ids⟩ → isVar a = false → valueOf h values v = .ok none := by
    intro v ids a ho ha
    unfold valueOf
    rw [ho]
    cases a <;> first | rfl | cases ha
  have hR := subValues_rewrites values
  have hL : LoopOf h l (fun _ t => subValuesRec values t) isVar (valueOf h values) (fun _ _ _ => True) := by
    refine ⟨fun c v a ids _ _ ho ha => hobj v ids a ho ha, fun c v a ids _ _ ho ha => ?_,
      fun c v a ids l' _ _ ho hlay _ => allK_true _ _ _ (by rw [childCtx_length, hlay.length]) hlay.length⟩
    cases a with
    | var x =>
      unfold valueOf
      rw [ho]
      simp only [headOf, subValuesRec]
      cases values.get? x with
      | none => exact .inr ⟨_, rfl, rfl⟩
      | some w =>
        cases w with
        | str s => exact .inl ⟨_, _, rfl, rfl, rfl, rfl, rfl⟩
        | _ => exact .inr ⟨_, rfl, rfl⟩
    | _ => cases ha
  have hlen : ∀ t', subValuesRec values t = .ok t' → t'.len ≤ n := by
    intro t' ht'
    rw [len_eq_of_rewrites hR (by
      intro c a a' ha haa
      cases a with
      | var x =>
        simp only [subValuesRec] at haa
        split at haa <;> first | cases haa; rfl | cases haa
      | _ => cases ha) t.len none t t' (Nat.le_refl _) ht']
    exact hn
  rcases replaceNodes_rec G hR hL (by
    intro v hv o ho
    unfold valueOf at ho
    split at ho
    · rename_i x ids hobj
      split at ho <;> first | (cases ho; exact ⟨rfl, _, hobj, G.lay.leaf hv hobj rfl⟩) | cases ho
    · cases ho) trivial hn hlen with ⟨t', h', T', r1, r2, -, r4⟩ | ⟨e, r1, r2⟩
  · unfold subValuesTree subValues
    rw [r2, r1, ok_bind, ok_bind]
    dsimp only
    rw [r4]
    cases t <;> rfl
  · unfold subValuesTree subValues
    rw [r2, r1]
    rfl

/-! ### `sub_constants` -/

/-- The edges from a node are its operands, in order. -/
theorem IsGraph.out {h : List Obj} {u : Nat} {t : Ast} {l : List Nat} {T : Tree} (G : IsGraph h u t l T) {v : Nat}
    (hv : v ∈ l) {o : Obj} (ho : h[v]? = some o) :
    T.edges.filter (·.1 == v) = o.operands.zipIdx.map fun p => (v, p.1, p.2) := by
  have hmem : ∀ w k, (v, w, k) ∈ T.edges ↔ o.operands[k]? = some w := by
    intro w k
    rw [G.mem]
    simp [Operand, ho, hv]
  apply List.Perm.eq_of_pairwise (le := fun a b : Nat × Nat × Nat => a.2.2 ≤ b.2.2)
  · rintro ⟨a, b, c⟩ ⟨a', b', c'⟩ h1 h2 h3 h4
    rw [List.mem_filter] at h1
    rw [List.mem_map] at h2
    obtain ⟨q, hq, hqe⟩ := h2
    simp only [Prod.mk.injEq] at hqe
    obtain ⟨rfl, rfl, rfl⟩ := hqe
    have ha : a = v := by simpa using h1.2
    subst ha
    have hc : c = q.2 := Nat.le_antisymm h3 h4
    have := (hmem b c).1 h1.1
    rw [List.mem_zipIdx_iff_getElem?] at hq
    rw [hc, hq] at this
    injection this with this
    rw [hc, this]
  · have := G.ordered
    unfold Ordered at this
    refine List.Pairwise.imp_of_mem ?_ (this.filter _)
    intro a b ha hb hab
    simp only [List.mem_filter, beq_iff_eq] at ha hb
    exact Nat.le_of_lt (hab (ha.2.trans hb.2.symm))
  · rw [List.pairwise_map]
    have := List.pairwise_lt_range' (s := 0) (n := o.operands.length) (step := 1)
    rw [← List.zipIdx_map_snd 0 o.operands, List.pairwise_map] at this
    exact this.imp (fun h => Nat.le_of_lt h)
  · rw [List.perm_ext_iff_of_nodup (G.edges_nodup.filter _)]
    · rintro ⟨a, b, c⟩
      simp only [List.mem_filter, List.mem_map, beq_iff_eq, Prod.mk.injEq]
      constructor
      · rintro ⟨h1, rfl⟩
        exact ⟨(b, c), List.mem_zipIdx_iff_getElem?.2 ((hmem b c).1 h1), rfl, rfl, rfl⟩
      · rintro ⟨⟨x, y⟩, hq, rfl, rfl, rfl⟩
        exact ⟨(hmem _ _).2 (List.mem_zipIdx_iff_getElem?.1 hq), rfl⟩
    · refine List.Nodup.map_on ?_ ?_
      · rintro ⟨a, b⟩ _ ⟨a', b'⟩ _ he
        simpa using he
      · have := List.nodup_range' (s := 0) (n := o.operands.length) (step := 1)
        rw [← List.zipIdx_map_snd 0 o.operands] at this
        exact List.Nodup.of_map _ this

/-- The loop that goes down ends at the first terminal of the formula. -/
theorem pairDown_spec {h : List Obj} {u : Nat} {t : Ast} {l : List Nat} {T : Tree} (G : IsGraph h u t l T) : ∀ (n : Nat)
    {v : Nat} {a : Ast} {l' : List Nat}, Lay h [v] [a] l' → (∀ w ∈ l', w ∈ l) → a.len ≤ n →
    ∃ o, h[pairDown T n v]? = some o ∧ o.head = headOf (downFirst a) := by
  intro n
  induction n with
  | zero => intro v a l' _ _ hn; rw [lens_children] at hn; omega
  | succ n ih =>
    intro v a l' hlay hsub hn
    cases hlay with
    | @cons _ _ _ _ ids l1 l2 obj below rest =>
      have hout := G.out (hsub v (by simp)) obj
      dsimp only at hout
      have hfind : T.edges.find? (·.1 == v) = (ids.zipIdx.map fun p => (v, p.1, p.2)).head? := by
        rw [← hout, List.head?_filter]
      rw [pairDown]
      cases hc : a.children with
      | nil =>
        have hids : ids = [] := by
          have := below.length
          rw [hc] at this
          exact List.length_eq_zero_iff.1 this
        subst hids
        rw [hfind]
        refine ⟨_, obj, ?_⟩
        cases a <;> first | rfl | (simp [Ast.children] at hc)
      | cons b bs =>
        rw [hc] at below
        cases below with
        | @cons i is _ _ ids1 m1 m2 obj1 below1 rest1 =>
          rw [hfind]
          simp only [List.zipIdx_cons, List.map_cons, List.head?_cons]
          have hlen : b.len ≤ n := by
            rw [lens_children, hc] at hn
            simp only [lens] at hn
            omega
          obtain ⟨o, ho1, ho2⟩ := ih (v := i) (a := b) (.cons obj1 below1 .nil)
            (fun w hw => hsub w (by
              simp only [List.append_nil, List.mem_cons] at hw
              rcases hw with rfl | hw
              · simp
              · simp [hw])) hlen
          refine ⟨o, ho1, ?_⟩
          rw [ho2]
          cases a with
          | var _ | bool _ | num _ | str _ => simp [Ast.children] at hc
          | un _ x | bin _ x _ | cmp _ x _ | ar _ x _ | trunc x _ | ite x _ _ =>
            simp only [Ast.children, List.cons.injEq] at hc
            rw [← hc.1]
            rfl

/-- What is above the object `v` in the graph is what `ctx` says. -/
def CtxIs (h : List Obj) (T : Tree) (l : List Nat) (n : Nat) (ctx : Above) (v : Nat) (a : Ast) : Prop :=
  ∃ d, d + a.len ≤ n ∧
    match ctx with
    | none => ∀ m, d < m → pairUp h T m v = .error .stopIteration
    | some (p, q, second) => ∃ c ip iq hd lp lq, c ∈ l ∧ h[c]? = some ⟨hd, [ip, iq]⟩ ∧ Lay h [ip] [p] lp ∧
        Lay h [iq] [q] lq ∧ (∀ w ∈ lp, w ∈ l) ∧ (∀ w ∈ lq, w ∈ l) ∧ p.len ≤ n ∧ q.len ≤ n ∧
        ∀ m, d < m → pairUp h T m v = .ok (c, if second then iq else ip)

theorem ctx_root {h : List Obj} {u : Nat} {t : Ast} {l : List Nat} {T : Tree} (G : IsGraph h u t l T) {n : Nat}
    (hn : t.len ≤ n) : CtxIs h T l n none u t := by
  refine ⟨0, by omega, fun m hm => ?_⟩
  obtain ⟨m, rfl⟩ : ∃ m', m = m' + 1 := ⟨m - 1, by omega⟩
  have hroot : u ∈ l := by obtain ⟨l', rfl⟩ := G.root_mem; simp
  have hnone : T.edges.find? (·.2.1 == u) = none := by
    rw [List.find?_eq_none]
    intro e he
    rcases G.parent hroot with ⟨-, h1⟩ | ⟨h1, -⟩
    · simpa using h1 e he
    · exact absurd rfl h1
  rw [pairUp, hnone]

theorem pairUp_child {h : List Obj} {u : Nat} {t : Ast} {l : List Nat} {T : Tree} (G : IsGraph h u t l T) {v : Nat}
    (hv : v ∈ l) {o : Obj} (ho : h[v]? = some o) {k w : Nat} (hk : o.operands[k]? = some w) (m : Nat) :
    pairUp h T (m + 1) w = if o.operands.length = 2 then .ok (v, w) else pairUp h T m v := by
  have hmem : (v, w, k) ∈ T.edges := (G.mem _).2 ⟨hv, o, ho, hk⟩
  have hfind : T.edges.find? (·.2.1 == w) = some (v, w, k) := by
    cases hf : T.edges.find? (·.2.1 == w) with
    | none =>
      rw [List.find?_eq_none] at hf
      exact absurd (by simp) (hf _ hmem)
    | some e =>
      have h1 := List.mem_of_find?_eq_some hf
      have h2 := List.find?_some hf
      rw [G.unique h1 hmem (by simpa using h2)]
  rw [pairUp, hfind]
  dsimp only
  rw [ho]

theorem ctx_child_one {h : List Obj} {u : Nat} {t : Ast} {l : List Nat} {T : Tree} (G : IsGraph h u t l T) {n : Nat}
    {ctx : Above} {v : Nat} {a : Ast} (hv : v ∈ l) (K : CtxIs h T l n ctx v a) {o : Obj} (ho : h[v]? = some o)
    (h2 : o.operands.length ≠ 2) {k w : Nat} (hk : o.operands[k]? = some w) {b : Ast} (hb : b.len + 1 ≤ a.len) :
    CtxIs h T l n ctx w b := by
  obtain ⟨d, hd, hK⟩ := K
  refine ⟨d + 1, by omega, ?_⟩
  have hstep : ∀ m, d + 1 < m → ∃ m', d < m' ∧ pairUp h T m w = pairUp h T m' v := by
    intro m hm
    obtain ⟨m, rfl⟩ : ∃ m', m = m' + 1 := ⟨m - 1, by omega⟩
    refine ⟨m, by omega, ?_⟩
    rw [pairUp_child G hv ho hk, if_neg h2]
  cases ctx with
  | none =>
    intro m hm
    obtain ⟨m', h3, h4⟩ := hstep m hm
    rw [h4]
    exact hK m' h3
  | some r =>
    obtain ⟨p, q, second⟩ := r
    obtain ⟨c, ip, iq, hd', lp, lq, a1, a2, a3, a4, a5, a6, a7, a8, a9⟩ := hK
    refine ⟨c, ip, iq, hd', lp, lq, a1, a2, a3, a4, a5, a6, a7, a8, fun m hm => ?_⟩
    obtain ⟨m', h3, h4⟩ := hstep m hm
    rw [h4]
    exact a9 m' h3

theorem ctx_child_two {h : List Obj} {u : Nat} {t : Ast} {l : List Nat} {T : Tree} (G : IsGraph h u t l T) {n : Nat}
    {ctx : Above} {v : Nat} {a : Ast} (hv : v ∈ l) (K : CtxIs h T l n ctx v a) {hd : Head} {ip iq : Nat}
    (ho : h[v]? = some ⟨hd, [ip, iq]⟩) {p q : Ast} {l' : List Nat} (hlay : Lay h [ip, iq] [p, q] l')
    (hsub : ∀ w ∈ l', w ∈ l) (ha : a.len = 1 + (p.len + q.len)) :
    AllK (CtxIs h T l n) [some (p, q, false), some (p, q, true)] [ip, iq] [p, q] := by
  obtain ⟨d, hd', -⟩ := K
  cases hlay with
  | @cons _ _ _ _ ids1 l1 m1 obj1 below1 rest1 =>
    cases rest1 with
    | @cons _ _ _ _ ids2 l2 m2 obj2 below2 rest2 =>
      cases rest2
      have hp : p.len ≥ 1 := by rw [lens_children]; omega
      have hq : q.len ≥ 1 := by rw [lens_children]; omega
      have L1 : Lay h [ip] [p] (ip :: (l1 ++ [])) := .cons obj1 below1 .nil
      have L2 : Lay h [iq] [q] (iq :: (l2 ++ [])) := .cons obj2 below2 .nil
      have s1 : ∀ w ∈ ip :: (l1 ++ []), w ∈ l := by
        intro w hw
        refine hsub w ?_
        simp only [List.append_nil, List.mem_cons, List.mem_append] at hw ⊢
        rcases hw with rfl | hw
        · simp
        · simp [hw]
      have s2 : ∀ w ∈ iq :: (l2 ++ []), w ∈ l := by
        intro w hw
        refine hsub w ?_
        simp only [List.append_nil, List.mem_cons, List.mem_append] at hw ⊢
        rcases hw with rfl | hw
        · simp
        · simp [hw]
      refine .cons ⟨d + 1, by omega, v, ip, iq, hd, _, _, hv, ho, L1, L2, s1, s2, by omega, by omega, fun m hm => ?_⟩
        (.cons ⟨d + 1, by omega, v, ip, iq, hd, _, _, hv, ho, L1, L2, s1, s2, by omega, by omega, fun m hm => ?_⟩ .nil)
      · obtain ⟨m, rfl⟩ : ∃ m', m = m' + 1 := ⟨m - 1, by omega⟩
        rw [pairUp_child G hv ho (k := 0) (w := ip) rfl]
        rfl
      · obtain ⟨m, rfl⟩ : ∃ m', m = m' + 1 := ⟨m - 1, by omega⟩
        rw [pairUp_child G hv ho (k := 1) (w := iq) rfl]
        rfl

theorem ctx_down {h : List Obj} {u : Nat} {t : Ast} {l : List Nat} {T : Tree} (G : IsGraph h u t l T) {n : Nat}
    {ctx : Above} {v : Nat} {a : Ast} {ids l' : List Nat} (hv : v ∈ l) (K : CtxIs h T l n ctx v a)
    (ho : h[v]? = some ⟨headOf a, ids⟩) (hlay : Lay h ids a.children l') (hsub : ∀ w ∈ l', w ∈ l) :
    AllK (CtxIs h T l n) (childCtx ctx a) ids a.children := by
  have hlen := hlay.length
  cases a with
  | var _ | bool _ | num _ | str _ =>
    rw [List.length_eq_zero_iff.1 hlen]
    exact .nil
  | un op x =>
    match ids, hlen with
    | [i], _ =>
      exact .cons (ctx_child_one G hv K ho (by simp) (k := 0) rfl (by simp [Ast.len]; omega)) .nil
  | bin op x y =>
    match ids, hlen with
    | [i, j], _ => exact ctx_child_two G hv K ho hlay hsub (by simp [Ast.len])
  | cmp op x y =>
    match ids, hlen with
    | [i, j], _ => exact ctx_child_two G hv K ho hlay hsub (by simp [Ast.len])
  | ar op x y =>
    match ids, hlen with
    | [i, j], _ => exact ctx_child_two G hv K ho hlay hsub (by simp [Ast.len])
  | trunc x k =>
    match ids, hlen with
    | [i, j], _ => exact ctx_child_two G hv K ho hlay hsub (by simp [Ast.len])
  | ite c x y =>
    match ids, hlen with
    | [i, j, k], _ =>
      exact .cons (ctx_child_one G hv K ho (by simp) (k := 0) rfl (by simp [Ast.len]; omega))
        (.cons (ctx_child_one G hv K ho (by simp) (k := 1) rfl (by simp [Ast.len]; omega))
        (.cons (ctx_child_one G hv K ho (by simp) (k := 2) rfl (by simp [Ast.len]; omega)) .nil))

theorem nodeEq_head (p q : Ast) : nodeEq q p = ((headOf q).isTerm && headOf q == headOf p) := by
  cases q <;> cases p <;> simp [nodeEq, headOf, Head.isTerm]

theorem downFirst_text (a : Ast) : (headOf (downFirst a)).text = terminalText (downFirst a) := by
  induction a with
  | bool b => cases b <;> rfl
  | un _ x ih => simpa [downFirst] using ih
  | bin _ x y ih _ => simpa [downFirst] using ih
  | cmp _ x y ih _ => simpa [downFirst] using ih
  | ar _ x y ih _ => simpa [downFirst] using ih
  | trunc x n ih => simpa [downFirst] using ih
  | ite c x y ih _ _ => simpa [downFirst] using ih
  | _ => rfl

/-- Pairing a constant with a variable gives what `pairVar` gives. -/
theorem pairTree_spec {h : List Obj} {u : Nat} {t : Ast} {l : List Nat} {T : Tree} (G : IsGraph h u t l T) {n : Nat}
    {ctx : Above} {v : Nat} {a : Ast} (K : CtxIs h T l n ctx v a) :
    (∃ w b o, pairTree h T n v = .ok w ∧ pairVar ctx = .ok b ∧ h[w]? = some o ∧ o.head.text = terminalText b) ∨
    ∃ e, pairTree h T n v = .error e ∧ pairVar ctx = .error e := by
  obtain ⟨d, hd, hK⟩ := K
  have hdn : d < n := by rw [lens_children] at hd; omega
  cases ctx with
  | none =>
    right
    exact ⟨_, by rw [pairTree, hK n hdn, error_bind], rfl⟩
  | some r =>
    obtain ⟨p, q, second⟩ := r
    obtain ⟨c, ip, iq, hd', lp, lq, a1, a2, a3, a4, a5, a6, a7, a8, a9⟩ := hK
    left
    have hout := G.out a1 a2
    simp only [List.zipIdx_cons, List.zipIdx_nil, List.map_cons, List.map_nil] at hout
    have hne : ip ≠ iq := by
      intro he
      have e1 : (c, ip, 0) ∈ T.edges := (G.mem _).2 ⟨a1, _, a2, rfl⟩
      have e2 : (c, iq, 1) ∈ T.edges := (G.mem _).2 ⟨a1, _, a2, rfl⟩
      have := G.unique e1 e2 he
      simp at this
    have hs : T.successors c = [ip, iq] := by
      rw [Tree.successors, hout]
      simp [Ne.symm hne]
    have hsame : sameNode h iq (if second then iq else ip) = (second || nodeEq q p) := by
      have hq : ∃ ids, h[iq]? = some ⟨headOf q, ids⟩ := by cases a4 with | cons obj _ _ => exact ⟨_, obj⟩
      have hp : ∃ ids, h[ip]? = some ⟨headOf p, ids⟩ := by cases a3 with | cons obj _ _ => exact ⟨_, obj⟩
      obtain ⟨i1, hq⟩ := hq
      obtain ⟨i2, hp⟩ := hp
      cases second
      · have hne' : (iq == ip) = false := by simpa using Ne.symm hne
        simp only [sameNode, Bool.false_eq_true, if_false, hq, hp, hne', Bool.false_or, nodeEq_head]
      · simp [sameNode]
    have hpair : pairTree h T n v = .ok (pairDown T n (if second || nodeEq q p then ip else iq)) := by
      rw [pairTree, a9 n hdn, ok_bind]
      dsimp only
      rw [hs]
      dsimp only
      rw [hsame]
    have hw : ∃ o, h[pairDown T n (if second || nodeEq q p then ip else iq)]? = some o ∧
        o.head = headOf (downFirst (if second || nodeEq q p then p else q)) := by
      cases second || nodeEq q p
      · simpa using pairDown_spec G n a4 a6 a8
      · simpa using pairDown_spec G n a3 a5 a7
    obtain ⟨o, ho1, ho2⟩ := hw
    exact ⟨_, _, o, hpair, rfl, ho1, by rw [ho2, downFirst_text]⟩

/-- **C126**. `sub_constants` on the graph of a formula, read back, gives what C38 is about, with the same exceptions: a
string constant is paired with the same variable. -/
theorem subConstantsTree_spec {h : List Obj} {u : Nat} {t : Ast} {l : List Nat} (H : IsTree h u t l) {n : Nat}
    (hn : t.len ≤ n) (D : Dict String (List String)) :
    (do let T ← fromRec h n u
        let r ← subConstantsTree h n D T
        r.2.toAst r.1 n) = subConstants D none t := by
  obtain ⟨T, h1, G⟩ := H.graph hn
  rw [h1, ok_bind]
  have hR := subConstants_rewrites D
  have hL : LoopOf h l (subConstants D) isStr (constOf h T n D) (CtxIs h T l n) := by
    refine ⟨fun c v a ids _ _ ho ha => ?_, fun c v a ids _ K ho ha => ?_,
      fun c v a ids l' hv K ho hlay hsub => ctx_down G hv K ho hlay hsub⟩
    · unfold constOf
      rw [ho]
      cases a <;> first | rfl | cases ha
    · cases a with
      | str s =>
        unfold constOf
        rw [ho]
        simp only [headOf, subConstants]
        rcases pairTree_spec G K with ⟨w, b, o, p1, p2, p3, p4⟩ | ⟨e, p1, p2⟩
        · rw [p1, p2]
          simp only [ok_bind, p3, p4]
          cases D.get? (terminalText b) with
          | none => exact .inr ⟨_, rfl, rfl⟩
          | some dom =>
            dsimp only
            by_cases hs : s ∈ dom
            · rw [if_pos hs, if_pos hs]
              exact .inl ⟨_, _, rfl, rfl, rfl, rfl, rfl⟩
            · rw [if_neg hs, if_neg hs]
              exact .inr ⟨_, rfl, rfl⟩
        · rw [p1, p2]
          exact .inr ⟨e, rfl, rfl⟩
      | _ => cases ha
  have hleafc : ∀ c a a', isStr a = true → subConstants D c a = .ok a' → a'.children = [] := by
    intro c a a' ha haa
    cases a with
    | str s =>
      simp only [subConstants] at haa
      cases hp : pairVar c with
      | error e => rw [hp, error_bind] at haa; cases haa
      | ok b =>
        rw [hp, ok_bind] at haa
        cases hg : D.get? (terminalText b) with
        | none => rw [hg] at haa; cases haa
        | some dom =>
          rw [hg] at haa
          dsimp only at haa
          by_cases hs : s ∈ dom
          · rw [if_pos hs] at haa; cases haa; rfl
          · rw [if_neg hs] at haa; cases haa
    | _ => cases ha
  have hlen : ∀ t', subConstants D none t = .ok t' → t'.len ≤ n := by
    intro t' ht'
    rw [len_eq_of_rewrites hR hleafc t.len none t t' (Nat.le_refl _) ht']
    exact hn
  rcases replaceNodes_rec G hR hL (by
    intro v hv o ho
    unfold constOf at ho
    split at ho
    · rename_i s ids hobj
      refine ⟨?_, _, hobj, G.lay.leaf hv hobj rfl⟩
      cases hp : pairTree h T n v with
      | error e => rw [hp, error_bind] at ho; cases ho
      | ok w =>
        rw [hp, ok_bind] at ho
        cases hw : h[w]? with
        | none => rw [hw] at ho; cases ho
        | some o' =>
          rw [hw] at ho
          dsimp only at ho
          cases hg : D.get? o'.head.text with
          | none => rw [hg] at ho; cases ho
          | some dom =>
            rw [hg] at ho
            dsimp only at ho
            by_cases hs : s ∈ dom
            · rw [if_pos hs] at ho; cases ho; rfl
            · rw [if_neg hs] at ho; cases ho
    · cases ho) (ctx_root G hn) hn hlen with ⟨t', h', T', r1, r2, -, r4⟩ | ⟨e, r1, r2⟩
  · have hstr : isStr t = false := by
      cases t with
      | str s => simp [subConstants, pairVar, error_bind] at r1
      | _ => rfl
    unfold subConstantsTree
    rw [r2, r1, ok_bind]
    dsimp only
    rw [r4, hstr]
    rfl
  · unfold subConstantsTree
    rw [r2, r1]
    rfl

end TreeG
end Tulip
