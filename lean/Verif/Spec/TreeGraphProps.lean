import Verif.Spec.TreeGraph
import Mathlib.Data.List.Nodup
import Mathlib.Data.List.Perm.Basic

/-!
# Graphs of syntax trees: properties

C126. Specification: `Lay` says that objects in memory are given formulas, and lists all the objects below
them. A formula in memory is a tree of objects, if no object occurs twice in this list.
-/

namespace Tulip
namespace TreeG

/-! ## Specification -/

/-- The class of the topmost node of a formula, with its value or operator. -/
def headOf : Ast → Head
  | .var x => .var x
  | .bool b => .bool b
  | .num n => .num n
  | .str s => .str s
  | .un op _ => .un op
  | .bin op _ _ => .bin op
  | .cmp op _ _ => .cmp op
  | .ar op _ _ => .ar op
  | .trunc _ _ => .trunc
  | .ite _ _ _ => .ite

/-- The objects `us` of the memory are the formulas `ts`; `l` lists these objects and those below them, each before
its operands and from left to right. -/
inductive Lay (h : List Obj) : List Nat → List Ast → List Nat → Prop
  | nil : Lay h [] [] []
  | cons {u : Nat} {us : List Nat} {t : Ast} {ts : List Ast} {ids l m : List Nat}
      (obj : h[u]? = some ⟨headOf t, ids⟩) (below : Lay h ids t.children l) (rest : Lay h us ts m) :
      Lay h (u :: us) (t :: ts) (u :: (l ++ m))

/-- The object `u` is the formula `t`, as a tree of the distinct objects `l`. -/
def IsTree (h : List Obj) (u : Nat) (t : Ast) (l : List Nat) : Prop := Lay h [u] [t] l ∧ l.Nodup

/-! ## Lemmas -/

theorem build_head (t : Ast) : (headOf t).build t.children = some t := by cases t <;> rfl

theorem term_children {t : Ast} (h : (headOf t).isTerm = true) : t.children = [] := by
  cases t <;> first | rfl | (simp [headOf, Head.isTerm] at h)

theorem op_children {t : Ast} (h : (headOf t).isTerm = false) : t.children ≠ [] := by
  cases t <;> first | (simp [headOf, Head.isTerm] at h; done) | simp [Ast.children]

theorem Lay.length {h : List Obj} {us : List Nat} {ts : List Ast} {l : List Nat} (H : Lay h us ts l) :
    us.length = ts.length := by
  induction H with
  | nil => rfl
  | cons _ _ _ _ ih => simp [ih]

/-- The sum of the lengths. -/
def lens : List Ast → Nat
  | [] => 0
  | t :: ts => t.len + lens ts

theorem lens_children (t : Ast) : t.len = 1 + lens t.children := by
  cases t <;> (simp [Ast.len, Ast.children, lens]; try omega)

theorem Lay.size {h : List Obj} {us : List Nat} {ts : List Ast} {l : List Nat} (H : Lay h us ts l) :
    l.length = lens ts := by
  induction H with
  | nil => rfl
  | cons _ _ _ ih1 ih2 => simp only [List.length_cons, List.length_append, lens, ih1, ih2, lens_children]; omega

theorem Lay.roots {h : List Obj} {us : List Nat} {ts : List Ast} {l : List Nat} (H : Lay h us ts l) :
    ∀ u ∈ us, u ∈ l := by
  induction H with
  | nil => simp
  | cons _ _ _ _ ih2 =>
    intro u hu
    rcases List.mem_cons.1 hu with rfl | hu
    · simp
    · simp [ih2 u hu]

/-- The edges of the graph of a forest below `p`, whose first operand has the number `k`. -/
inductive LayE (h : List Obj) : Nat → Nat → List Nat → List Ast → List Nat → List (Nat × Nat × Nat) → Prop
  | nil {p k : Nat} : LayE h p k [] [] [] []
  | cons {p k u : Nat} {us : List Nat} {t : Ast} {ts : List Ast} {ids l m : List Nat} {es fs : List (Nat × Nat × Nat)}
      (obj : h[u]? = some ⟨headOf t, ids⟩) (below : LayE h u 0 ids t.children l es)
      (rest : LayE h p (k + 1) us ts m fs) :
      LayE h p k (u :: us) (t :: ts) (u :: (l ++ m)) ((p, u, k) :: (es ++ fs))

theorem Lay.edges {h : List Obj} {us : List Nat} {ts : List Ast} {l : List Nat} (H : Lay h us ts l) :
    ∀ p k, ∃ es, LayE h p k us ts l es := by
  induction H with
  | nil => exact fun p k => ⟨[], .nil⟩
  | @cons u us t ts ids l m obj _ _ ih1 ih2 =>
    intro p k
    obtain ⟨es, h1⟩ := ih1 u 0
    obtain ⟨fs, h2⟩ := ih2 p (k + 1)
    exact ⟨_, .cons obj h1 h2⟩

theorem LayE.targets {h : List Obj} {p k : Nat} {us : List Nat} {ts : List Ast} {l : List Nat}
    {es : List (Nat × Nat × Nat)} (H : LayE h p k us ts l es) : es.map (·.2.1) = l := by
  induction H with
  | nil => rfl
  | cons _ _ _ ih1 ih2 => simp [ih1, ih2]

/-- There is an operand `v` with number `k` of the object `u`. -/
def Operand (h : List Obj) (e : Nat × Nat × Nat) : Prop :=
  ∃ o, h[e.1]? = some o ∧ o.operands[e.2.2]? = some e.2.1

theorem LayE.mem {h : List Obj} {p k : Nat} {us : List Nat} {ts : List Ast} {l : List Nat}
    {es : List (Nat × Nat × Nat)} (H : LayE h p k us ts l es) (e : Nat × Nat × Nat) :
    e ∈ es ↔ (e.1 = p ∧ k ≤ e.2.2 ∧ us[e.2.2 - k]? = some e.2.1) ∨ (e.1 ∈ l ∧ Operand h e) := by
  induction H with
  | nil => simp
  | @cons p k u us t ts ids l m es fs obj _ _ ih1 ih2 =>
    simp only [List.mem_cons, List.mem_append, ih1, ih2]
    obtain ⟨a, b, j⟩ := e
    simp only [Prod.mk.injEq]
    have hop : Operand h (u, b, j) ↔ ids[j]? = some b := by
      simp [Operand, obj]
    constructor
    · rintro (⟨rfl, rfl, rfl⟩ | (⟨rfl, _, h3⟩ | ⟨h1, h2⟩) | (⟨rfl, h2, h3⟩ | ⟨h1, h2⟩))
      · left; simp
      · right; exact ⟨.inl rfl, hop.2 (by simpa using h3)⟩
      · right; exact ⟨.inr (.inl h1), h2⟩
      · left
        refine ⟨rfl, by omega, ?_⟩
        have : j - k = (j - (k + 1)) + 1 := by omega
        rw [this]; simpa using h3
      · right; exact ⟨.inr (.inr h1), h2⟩
    · rintro (⟨rfl, h2, h3⟩ | ⟨rfl | h1 | h1, h2⟩)
      · rcases Nat.eq_or_lt_of_le h2 with rfl | hlt
        · left; simpa [eq_comm] using h3
        · right; right; left
          have : j - k = (j - (k + 1)) + 1 := by omega
          rw [this] at h3
          exact ⟨rfl, by omega, by simpa using h3⟩
      · right; left; left; exact ⟨rfl, by omega, by simpa using hop.1 h2⟩
      · right; left; right; exact ⟨h1, h2⟩
      · right; right; right; exact ⟨h1, h2⟩

/-- The edges from a node are listed in the order of their keys. -/
def Ordered (es : List (Nat × Nat × Nat)) : Prop := es.Pairwise fun a b => a.1 = b.1 → a.2.2 < b.2.2

theorem LayE.ordered {h : List Obj} {p k : Nat} {us : List Nat} {ts : List Ast} {l : List Nat}
    {es : List (Nat × Nat × Nat)} (H : LayE h p k us ts l es) : (p :: l).Nodup → Ordered es := by
  induction H with
  | nil => intro _; exact List.Pairwise.nil
  | @cons p k u us t ts ids l m es fs obj below rest ih1 ih2 =>
    intro hnd
    simp only [List.nodup_cons, List.mem_cons, List.mem_append, not_or, List.nodup_append] at hnd
    obtain ⟨⟨hpu, hpl, hpm⟩, ⟨hul, hum⟩, hl, hm, hlm⟩ := hnd
    unfold Ordered
    rw [List.pairwise_cons, List.pairwise_append]
    refine ⟨fun b hb hpb => ?_, ih1 (by simp [hul, hl]), ih2 (by simp [hpm, hm]), fun a ha b hb hab => ?_⟩
    · dsimp only at hpb ⊢
      rcases List.mem_append.1 hb with hb | hb
      · rcases (below.mem b).1 hb with ⟨h1, -⟩ | ⟨h1, -⟩
        · exact absurd (hpb.trans h1) hpu
        · exact absurd h1 (hpb ▸ hpl)
      · rcases (rest.mem b).1 hb with ⟨-, h2, -⟩ | ⟨h1, -⟩
        · omega
        · exact absurd h1 (hpb ▸ hpm)
    · exfalso
      rcases (below.mem a).1 ha with ⟨h1, -⟩ | ⟨h1, -⟩ <;> rcases (rest.mem b).1 hb with ⟨h2, -⟩ | ⟨h2, -⟩
      · exact hpu (by rw [← h2, ← hab, h1])
      · exact hum (by rw [← h1, hab]; exact h2)
      · exact hpl (by rw [← h2, ← hab]; exact h1)
      · exact hlm _ h1 _ h2 hab

/-! ### `from_recursive_ast` -/

theorem addEdge_new {T : Tree} {p u k : Nat} (hp : p ∈ T.nodes) (hu : u ∉ T.nodes)
    (ht : ∀ e ∈ T.edges, e.2.1 ∈ T.nodes) :
    T.addEdge p u k = ⟨T.nodes ++ [u], T.edges ++ [(p, u, k)], T.root⟩ := by
  have he : (p, u, k) ∉ T.edges := fun h => hu (ht _ h)
  simp [Tree.addEdge, Tree.addNode, hp, hu, he]

theorem recurse_lay {h : List Obj} {p k : Nat} {us : List Nat} {ts : List Ast} {l : List Nat}
    {es : List (Nat × Nat × Nat)} (H : LayE h p k us ts l es) : ∀ (n : Nat) (T : Tree), l.length ≤ n → l.Nodup →
    p ∈ T.nodes → (∀ u ∈ l, u ∉ T.nodes) → (∀ e ∈ T.edges, e.2.1 ∈ T.nodes) →
    (us.zipIdx k).foldlM (fun T (vi : Nat × Nat) => recurse h n vi.1 (T.addEdge p vi.1 vi.2)) T =
      .ok ⟨T.nodes ++ l, T.edges ++ es, T.root⟩ := by
  induction H with
  | nil => intro n T _ _ _ _ _; simp [pure_eq_ok]
  | @cons p k u us t ts ids l m es fs obj below _ ih1 ih2 =>
    intro n T hn hnd hp hdis ht
    have hu : u ∉ T.nodes := hdis u (by simp)
    rw [List.nodup_cons, List.nodup_append] at hnd
    obtain ⟨hnu, hl, hm, hlm⟩ := hnd
    simp only [List.zipIdx_cons, List.foldlM_cons]
    rw [addEdge_new hp hu ht]
    obtain ⟨n, rfl⟩ : ∃ n', n = n' + 1 := ⟨n - 1, by simp at hn; omega⟩
    have hlen : l.length + m.length ≤ n := by simpa using hn
    have hrec : recurse h (n + 1) u ⟨T.nodes ++ [u], T.edges ++ [(p, u, k)], T.root⟩ =
        .ok ⟨T.nodes ++ [u] ++ l, T.edges ++ [(p, u, k)] ++ es, T.root⟩ := by
      rw [recurse, obj]
      dsimp only
      cases hterm : (headOf t).isTerm
      · simp only [Bool.false_eq_true, if_false]
        refine ih1 n _ (by omega) hl (by simp) ?_ ?_
        · intro x hx
          simp only [List.mem_append, List.mem_singleton, not_or]
          exact ⟨hdis x (by simp [hx]), fun h => hnu (by simp [← h, hx])⟩
        · intro e he
          rcases List.mem_append.1 he with he | he
          · simp [ht e he]
          · simp only [List.mem_singleton] at he; simp [he]
      · have hc := term_children hterm
        rw [hc] at below
        cases below
        simp [Tree.addNode]
    rw [hrec]
    simp only [ok_bind]
    rw [ih2 (n + 1) _ (by omega) hm (by simp [hp])]
    · simp
    · intro x hx
      simp only [List.mem_append, List.mem_singleton, not_or]
      exact ⟨⟨hdis x (by simp [hx]), fun h => hnu (by simp [← h, hx])⟩, fun h => hlm x h x hx rfl⟩
    · intro e he
      simp only [List.mem_append, List.mem_singleton] at he
      rcases he with (he | rfl) | he
      · simp [ht e he]
      · simp
      · have : e.2.1 ∈ l := by
          rw [← LayE.targets below]
          exact List.mem_map_of_mem he
        simp [this]

/-- What `from_recursive_ast` gives for a tree of objects. -/
theorem fromRec_lay {h : List Obj} {u : Nat} {t : Ast} {l : List Nat} (H : IsTree h u t l) {n : Nat} (hn : t.len ≤ n) :
    ∃ es, fromRec h n u = .ok ⟨l, es, u⟩ ∧ es.map (·.2.1) = l.tail ∧ Ordered es ∧
      ∀ e, e ∈ es ↔ e.1 ∈ l ∧ Operand h e := by
  obtain ⟨H, hnd⟩ := H
  have hsize := H.size
  rcases H with _ | ⟨obj, below, rest⟩
  rename_i ids l m
  cases rest
  simp only [List.append_nil] at hnd hsize ⊢
  obtain ⟨es, hes⟩ := below.edges u 0
  obtain ⟨n, rfl⟩ : ∃ n', n = n' + 1 := ⟨n - 1, by rw [lens_children] at hn; omega⟩
  have hl : l.length ≤ n := by
    simp only [lens, Nat.add_zero, List.length_cons] at hsize; omega
  cases hterm : (headOf t).isTerm
  · cases hc : t.children with
    | nil => exact absurd hc (op_children hterm)
    | cons t1 ts =>
      rw [hc] at hes
      cases hes with
      | cons obj1 below1 rest1 =>
        rename_i v vs ids1 l1 m1 es1 fs1
        have H' : LayE h u 0 (v :: vs) (t1 :: ts) (v :: (l1 ++ m1)) ((u, v, 0) :: (es1 ++ fs1)) := .cons obj1 below1 rest1
        have hnd' := List.nodup_cons.1 hnd
        have hone : fromRec h (n + 1) u = .ok ⟨u :: (v :: (l1 ++ m1)), (u, v, 0) :: (es1 ++ fs1), u⟩ := by
          have hstart : (⟨[], [], u⟩ : Tree).addEdge u v 0 = (⟨[u], [], u⟩ : Tree).addEdge u v 0 := by
            simp [Tree.addEdge, Tree.addNode]
          have := recurse_lay H' n ⟨[u], [], u⟩ hl hnd'.2 (by simp) (by
            intro x hx
            simp only [List.mem_singleton]
            exact fun h => hnd'.1 (h ▸ hx)) (by simp)
          rw [fromRec, recurse, obj]
          simp only [hterm, Bool.false_eq_true, if_false]
          rw [List.zipIdx_cons, List.foldlM_cons] at this ⊢
          rw [hstart]
          simpa using this
        refine ⟨_, hone, by simpa using H'.targets, H'.ordered hnd, fun e => ?_⟩
        rw [H'.mem e]
        simp only [Nat.zero_le, true_and, Nat.sub_zero, List.mem_cons (a := e.1) (b := u)]
        constructor
        · rintro (⟨h1, h2⟩ | ⟨h1, h2⟩)
          · exact ⟨.inl h1, _, by rw [h1]; exact obj, h2⟩
          · exact ⟨.inr h1, h2⟩
        · rintro ⟨h1 | h1, h2⟩
          · left
            obtain ⟨o, ho, hk⟩ := h2
            rw [h1, obj] at ho
            cases ho
            exact ⟨h1, hk⟩
          · exact .inr ⟨h1, h2⟩
  · have hc := term_children hterm
    rw [hc] at hes
    cases hes
    refine ⟨[], ?_, by simp, List.Pairwise.nil, ?_⟩
    · rw [fromRec, recurse, obj]
      simp [hterm, Tree.addNode]
    · intro e
      simp only [List.not_mem_nil, List.mem_singleton, false_iff, not_and]
      rintro h1 ⟨o, ho, hk⟩
      rw [h1, obj] at ho
      cases ho
      simp at hk

/-! ### `to_recursive_ast` -/

/-- Read from the nodes `us` along its edges, the graph spells the formulas `ts`. -/
inductive Spells (h : List Obj) (T : Tree) : List Nat → List Ast → Prop
  | nil : Spells h T [] []
  | cons {u : Nat} {us : List Nat} {t : Ast} {ts : List Ast} {ops : List Nat}
      (obj : h[u]? = some ⟨headOf t, ops⟩) (len : ops.length = t.children.length)
      (below : Spells h T (T.succs u) t.children) (rest : Spells h T us ts) : Spells h T (u :: us) (t :: ts)

theorem Spells.length {h : List Obj} {T : Tree} {us : List Nat} {ts : List Ast} (H : Spells h T us ts) :
    us.length = ts.length := by
  induction H with
  | nil => rfl
  | cons _ _ _ _ _ ih => simp [ih]

theorem toRec_spells {h : List Obj} {T : Tree} {us : List Nat} {ts : List Ast} (H : Spells h T us ts) :
    ∀ n, lens ts ≤ n → us.mapM (toRec h T n) = .ok ts := by
  induction H with
  | nil => intro n _; rfl
  | @cons u us t ts ops obj len below rest ih1 ih2 =>
    intro n hn
    simp only [lens, lens_children t] at hn
    obtain ⟨n, rfl⟩ : ∃ n', n = n' + 1 := ⟨n - 1, by omega⟩
    have h1 := ih1 n (by omega)
    have h2 := ih2 (n + 1) (by omega)
    have : toRec h T (n + 1) u = .ok t := by
      rw [toRec, obj]
      dsimp only
      cases hs : T.succs u with
      | nil =>
        have hc : t.children = [] := by
          have := below.length
          rw [hs] at this
          exact List.length_eq_zero_iff.1 this.symm
        have hterm : (headOf t).isTerm = true := by
          by_contra hne
          exact op_children (by simpa using hne) hc
        have := build_head t
        rw [hc] at this
        simp [hterm, this]
      | cons v vs =>
        rw [hs] at h1
        have hc : t.children ≠ [] := by
          intro hc
          have := below.length
          rw [hs, hc] at this
          simp at this
        have hterm : (headOf t).isTerm = false := by
          by_contra hne
          exact hc (term_children (by simpa using hne))
        simp only [h1, ok_bind, hterm, Bool.false_eq_true, if_false, len, if_true, build_head]
    rw [List.mapM_cons, this, h2]
    rfl

theorem toAst_spells {h : List Obj} {T : Tree} {t : Ast} (H : Spells h T [T.root] [t]) {n : Nat} (hn : t.len ≤ n) :
    T.toAst h n = .ok t := by
  have := toRec_spells H n (by simpa [lens] using hn)
  rw [List.mapM_cons] at this
  unfold Tree.toAst
  cases hr : toRec h T n T.root with
  | error e => rw [hr] at this; simp [error_bind] at this
  | ok a =>
    rw [hr] at this
    simp only [ok_bind, List.mapM_nil, pure_eq_ok] at this
    injection this with this
    injection this with this
    rw [this]

/-- The sorted successors, from what the edges are. -/
theorem succs_eq {T : Tree} (hnd : T.edges.Nodup) {u : Nat} {ids : List Nat}
    (h : ∀ v k, (u, v, k) ∈ T.edges ↔ ids[k]? = some v) : T.succs u = ids := by
  have key : (T.edges.filter (·.1 == u)).mergeSort (fun a b => decide (a.2.2 ≤ b.2.2)) =
      ids.zipIdx.map fun p => (u, p.1, p.2) := by
    apply List.Perm.eq_of_pairwise (le := fun a b : Nat × Nat × Nat => a.2.2 ≤ b.2.2)
    · rintro ⟨a, b, c⟩ ⟨a', b', c'⟩ h1 h2 h3 h4
      rw [List.mem_mergeSort, List.mem_filter] at h1
      rw [List.mem_map] at h2
      obtain ⟨q, hq, hqe⟩ := h2
      simp only [Prod.mk.injEq] at hqe
      obtain ⟨rfl, rfl, rfl⟩ := hqe
      have ha : a = u := by simpa using h1.2
      subst ha
      have hc : c = q.2 := Nat.le_antisymm h3 h4
      have := (h b c).1 h1.1
      rw [List.mem_zipIdx_iff_getElem?] at hq
      rw [hc, hq] at this
      injection this with this
      rw [hc, this]
    · have := List.pairwise_mergeSort (le := fun a b : Nat × Nat × Nat => decide (a.2.2 ≤ b.2.2))
        (by intro a b c; simp; omega) (by intro a b; simp; omega) (T.edges.filter (·.1 == u))
      exact this.imp (by simp)
    · rw [List.pairwise_map]
      have := List.pairwise_lt_range' (s := 0) (n := ids.length) (step := 1)
      rw [← List.zipIdx_map_snd 0 ids, List.pairwise_map] at this
      exact this.imp (fun h => Nat.le_of_lt h)
    · refine (List.mergeSort_perm _ _).trans ?_
      rw [List.perm_ext_iff_of_nodup (hnd.filter _)]
      · rintro ⟨a, b, c⟩
        simp only [List.mem_filter, List.mem_map, beq_iff_eq, Prod.mk.injEq]
        constructor
        · rintro ⟨h1, rfl⟩
          exact ⟨(b, c), List.mem_zipIdx_iff_getElem?.2 ((h b c).1 h1), rfl, rfl, rfl⟩
        · rintro ⟨⟨x, y⟩, hq, rfl, rfl, rfl⟩
          exact ⟨(h _ _).2 (List.mem_zipIdx_iff_getElem?.1 hq), rfl⟩
      · refine List.Nodup.map_on ?_ ?_
        · rintro ⟨a, b⟩ _ ⟨a', b'⟩ _ he
          simpa using he
        · have := List.nodup_range' (s := 0) (n := ids.length) (step := 1)
          rw [← List.zipIdx_map_snd 0 ids] at this
          exact List.Nodup.of_map _ this
  rw [Tree.succs, key, List.map_map]
  have : ((fun e : Nat × Nat × Nat => e.2.1) ∘ fun p : Nat × Nat => (u, p.1, p.2)) = Prod.fst := rfl
  rw [this, List.zipIdx_map_fst]

/-! ### Substitution in general -/

/-- The relation holds for the entries of three lists of the same length. -/
inductive All3 (Q : Nat → Ast → Ast → Prop) : List Nat → List Ast → List Ast → Prop
  | nil : All3 Q [] [] []
  | cons {u : Nat} {us : List Nat} {t : Ast} {ts : List Ast} {t' : Ast} {ts' : List Ast} (head : Q u t t')
      (tail : All3 Q us ts ts') : All3 Q (u :: us) (t :: ts) (t' :: ts')

theorem Spells.one {h : List Obj} {T : Tree} {u : Nat} {t : Ast} {us : List Nat} {ts : List Ast}
    (H : Spells h T [u] [t]) (R : Spells h T us ts) : Spells h T (u :: us) (t :: ts) := by
  cases H with
  | cons obj len below _ => exact .cons obj len below R

theorem spells_subst {h h' : List Obj} {T' : Tree} {Q : Nat → Ast → Ast → Prop} {φ : Nat → Nat} {us : List Nat}
    {ts : List Ast} {l : List Nat} (H : Lay h us ts l) :
    (∀ u ∈ l, ∀ t t' ids, Q u t t' → h[u]? = some ⟨headOf t, ids⟩ → ids.length = t.children.length →
      (headOf t' = headOf t ∧ φ u = u ∧ h'[u]? = h[u]? ∧ T'.succs u = ids.map φ ∧ All3 Q ids t.children t'.children) ∨
      Spells h' T' [φ u] [t']) →
    ∀ ts', All3 Q us ts ts' → Spells h' T' (us.map φ) ts' := by
  induction H with
  | nil => intro _ ts' h3; cases h3; exact .nil
  | @cons u us t ts ids l m obj below rest ih1 ih2 =>
    intro hQ ts' h3
    cases h3 with
    | @cons _ _ _ _ t' ts' hd tl =>
      have hr := ih2 (fun v hv => hQ v (by simp [hv])) ts' tl
      rw [List.map_cons]
      rcases hQ u (by simp) t t' ids hd obj below.length with ⟨a1, a2, a3, a4, a5⟩ | hB
      · have hb := ih1 (fun v hv => hQ v (by simp [hv])) _ a5
        rw [a2]
        refine .cons (ops := ids) (by rw [a3, obj, a1]) ?_ (by rw [a4]; exact hb) hr
        have := hb.length
        simpa using this
      · exact hB.one hr

/-- A graph that has exactly the operands of the memory as edges from these objects spells their formulas. -/
theorem Lay.spells {h h' : List Obj} {T : Tree} {us : List Nat} {ts : List Ast} {l : List Nat} (H : Lay h us ts l) :
    (∀ u ∈ l, h'[u]? = h[u]?) → (∀ u ∈ l, ∀ o, h[u]? = some o → T.succs u = o.operands) → Spells h' T us ts := by
  induction H with
  | nil => intro _ _; exact .nil
  | @cons u us t ts ids l m obj below rest ih1 ih2 =>
    intro hh hs
    refine .cons (ops := ids) (by rw [hh u (by simp), obj]) below.length ?_
      (ih2 (fun v hv => hh v (by simp [hv])) fun v hv => hs v (by simp [hv]))
    rw [hs u (by simp) _ obj]
    exact ih1 (fun v hv => hh v (by simp [hv])) fun v hv => hs v (by simp [hv])

/-- The graph of a formula. -/
structure IsGraph (h : List Obj) (u : Nat) (t : Ast) (l : List Nat) (T : Tree) : Prop where
  lay : Lay h [u] [t] l
  nodup : l.Nodup
  nodes : T.nodes = l
  root : T.root = u
  targets : T.edges.map (·.2.1) = l.tail
  ordered : Ordered T.edges
  mem : ∀ e, e ∈ T.edges ↔ e.1 ∈ l ∧ Operand h e

theorem IsTree.graph {h : List Obj} {u : Nat} {t : Ast} {l : List Nat} (H : IsTree h u t l) {n : Nat} (hn : t.len ≤ n) :
    ∃ T, fromRec h n u = .ok T ∧ IsGraph h u t l T := by
  obtain ⟨es, h1, h2, h3, h4⟩ := fromRec_lay H hn
  exact ⟨_, h1, H.1, H.2, rfl, rfl, h2, h3, h4⟩

theorem IsGraph.edges_nodup {h : List Obj} {u : Nat} {t : Ast} {l : List Nat} {T : Tree} (G : IsGraph h u t l T) :
    T.edges.Nodup := by
  have := G.nodup.tail
  rw [← G.targets] at this
  exact List.Nodup.of_map _ this

theorem IsGraph.unique {h : List Obj} {u : Nat} {t : Ast} {l : List Nat} {T : Tree} (G : IsGraph h u t l T)
    {e e' : Nat × Nat × Nat} (he : e ∈ T.edges) (he' : e' ∈ T.edges) (hee : e.2.1 = e'.2.1) : e = e' := by
  have := G.nodup.tail
  rw [← G.targets] at this
  exact List.inj_on_of_nodup_map this he he' hee

theorem IsGraph.root_mem {h : List Obj} {u : Nat} {t : Ast} {l : List Nat} {T : Tree} (G : IsGraph h u t l T) :
    ∃ l', l = u :: l' := by
  have := G.lay
  cases this with
  | cons _ _ rest => exact ⟨_, rfl⟩

theorem IsGraph.parent {h : List Obj} {u : Nat} {t : Ast} {l : List Nat} {T : Tree} (G : IsGraph h u t l T) {v : Nat}
    (hv : v ∈ l) : (v = u ∧ ∀ e ∈ T.edges, e.2.1 ≠ v) ∨ (v ≠ u ∧ ∃ e ∈ T.edges, e.2.1 = v) := by
  obtain ⟨l', hl⟩ := G.root_mem
  have ht := G.targets
  have hnd := G.nodup
  rw [hl] at ht hnd hv
  rw [List.tail_cons] at ht
  have hnu := (List.nodup_cons.1 hnd).1
  rcases List.mem_cons.1 hv with rfl | hv
  · left
    refine ⟨rfl, fun e he hev => hnu ?_⟩
    rw [← ht, ← hev]
    exact List.mem_map_of_mem he
  · right
    refine ⟨fun h => hnu (h ▸ hv), ?_⟩
    rw [← ht] at hv
    exact List.mem_map.1 hv

theorem IsGraph.target_mem {h : List Obj} {u : Nat} {t : Ast} {l : List Nat} {T : Tree} (G : IsGraph h u t l T)
    {e : Nat × Nat × Nat} (he : e ∈ T.edges) : e.2.1 ∈ l := by
  have := List.mem_map_of_mem (f := fun e : Nat × Nat × Nat => e.2.1) he
  rw [G.targets] at this
  exact List.mem_of_mem_tail this

theorem Lay.obj {h : List Obj} {us : List Nat} {ts : List Ast} {l : List Nat} (H : Lay h us ts l) :
    ∀ u ∈ l, ∃ t ids, h[u]? = some ⟨headOf t, ids⟩ ∧ ids.length = t.children.length := by
  induction H with
  | nil => simp
  | @cons u us t ts ids l m obj below rest ih1 ih2 =>
    intro v hv
    rcases List.mem_cons.1 hv with rfl | hv
    · exact ⟨t, ids, obj, below.length⟩
    · rcases List.mem_append.1 hv with hv | hv
      · exact ih1 v hv
      · exact ih2 v hv

/-- A terminal has no operands. -/
theorem Lay.leaf {h : List Obj} {us : List Nat} {ts : List Ast} {l : List Nat} (H : Lay h us ts l) {u : Nat} (hu : u ∈ l)
    {o : Obj} (ho : h[u]? = some o) (hterm : o.head.isTerm = true) : o.operands = [] := by
  obtain ⟨t, ids, h1, h2⟩ := H.obj u hu
  rw [h1] at ho
  cases ho
  rw [term_children hterm] at h2
  exact List.length_eq_zero_iff.1 h2

theorem IsGraph.spells {h : List Obj} {u : Nat} {t : Ast} {l : List Nat} {T : Tree} (G : IsGraph h u t l T) :
    Spells h T [u] [t] := by
  refine G.lay.spells (fun _ _ => rfl) fun v hv o ho => succs_eq G.edges_nodup fun w k => ?_
  rw [G.mem]
  simp [Operand, ho, hv]

/-! ### The round trip -/

/-- **C126**. Converting a formula to a graph and back gives the same formula, for every formula whose objects in memory
form a tree, if the recursion may be as deep as the formula is long. -/
theorem roundTrip {h : List Obj} {u : Nat} {t : Ast} {l : List Nat} (H : IsTree h u t l) {n : Nat} (hn : t.len ≤ n) :
    (do let T ← fromRec h n u
        T.toAst h n) = .ok t := by
  obtain ⟨T, h1, G⟩ := H.graph hn
  rw [h1, ok_bind]
  refine toAst_spells ?_ hn
  rw [G.root]
  exact G.spells

/-! ### `add_subtree` -/

theorem addEdge_mem (T : Tree) (u v k : Nat) (e : Nat × Nat × Nat) :
    e ∈ (T.addEdge u v k).edges ↔ e ∈ T.edges ∨ e = (u, v, k) := by
  have : (T.addEdge u v k).edges = if (u, v, k) ∈ T.edges then T.edges else T.edges ++ [(u, v, k)] := rfl
  rw [this]
  by_cases h : (u, v, k) ∈ T.edges
  · rw [if_pos h]
    exact ⟨.inl, fun h' => h'.elim id (· ▸ h)⟩
  · rw [if_neg h]
    simp

theorem addEdge_nodup {T : Tree} (u v k : Nat) (h : T.edges.Nodup) : (T.addEdge u v k).edges.Nodup := by
  have : (T.addEdge u v k).edges = if (u, v, k) ∈ T.edges then T.edges else T.edges ++ [(u, v, k)] := rfl
  rw [this]
  by_cases hn : (u, v, k) ∈ T.edges
  · rw [if_pos hn]
    exact h
  · rw [if_neg hn]
    exact List.nodup_append.2 ⟨h, by simp, by
      intro a ha b hb hab
      simp only [List.mem_singleton] at hb
      exact hn (hb ▸ hab ▸ ha)⟩

theorem addNode_nodes {T : Tree} {u v : Nat} (h : v ∈ T.nodes) : v ∈ (T.addNode u).nodes := by
  simp only [Tree.addNode]
  split
  · exact h
  · simp [h]

theorem addEdge_nodes {T : Tree} {u v k w : Nat} (h : w ∈ T.nodes) : w ∈ (T.addEdge u v k).nodes := by
  have : (T.addEdge u v k).nodes = ((T.addNode u).addNode v).nodes := rfl
  rw [this]
  exact addNode_nodes (addNode_nodes h)

theorem addEdges_spec (es : List (Nat × Nat × Nat)) : ∀ T : Tree,
    (∀ e, e ∈ (es.foldl (fun T e => T.addEdge e.1 e.2.1 e.2.2) T).edges ↔ e ∈ T.edges ∨ e ∈ es) ∧
    (T.edges.Nodup → (es.foldl (fun T e => T.addEdge e.1 e.2.1 e.2.2) T).edges.Nodup) ∧
    (∀ w ∈ T.nodes, w ∈ (es.foldl (fun T e => T.addEdge e.1 e.2.1 e.2.2) T).nodes) ∧
    (es.foldl (fun T e => T.addEdge e.1 e.2.1 e.2.2) T).root = T.root := by
  induction es with
  | nil => intro T; simp
  | cons e es ih =>
    intro T
    obtain ⟨h1, h2, h3, h4⟩ := ih (T.addEdge e.1 e.2.1 e.2.2)
    simp only [List.foldl_cons]
    refine ⟨fun e' => ?_, fun h => h2 (addEdge_nodup _ _ _ h), fun w hw => h3 w (addEdge_nodes hw), h4⟩
    rw [h1, addEdge_mem, List.mem_cons, or_assoc]

theorem filter_one {α : Type} {p : α → Bool} {l : List α} (hnd : l.Nodup) {a : α}
    (h : ∀ x, x ∈ l ∧ p x = true ↔ x = a) : l.filter p = [a] := by
  have hnd' := hnd.filter p
  have hm : ∀ x, x ∈ l.filter p ↔ x = a := by simpa [List.mem_filter] using h
  match hl : l.filter p with
  | [] => exact absurd ((hm a).2 rfl) (by simp [hl])
  | [b] => rw [(hm b).1 (by simp [hl])]
  | b :: c :: r =>
    rw [hl] at hnd' hm
    have hb := (hm b).1 (by simp)
    have hc := (hm c).1 (by simp)
    simp [hb, hc] at hnd'

/-- Where a node has gone, if the nodes in `P` have been replaced. -/
def movedTo (h : List Obj) (D : Dict String Tree) (P : List Nat) (v : Nat) : Nat :=
  if v ∈ P then (match subOf h D v with | some S => S.root | none => v) else v

/-- What the loop of `sub_bool_with_subtree` keeps true, after it has visited the nodes in `P`. -/
structure SubInv (h : List Obj) (D : Dict String Tree) (l : List Nat) (u : Nat) (T0 : Tree) (P : List Nat) (T : Tree) :
    Prop where
  nodup : T.edges.Nodup
  mem : ∀ e, e ∈ T.edges ↔ (∃ e0 ∈ T0.edges, e = (e0.1, movedTo h D P e0.2.1, e0.2.2)) ∨
    ∃ v ∈ P, ∃ S, subOf h D v = some S ∧ e ∈ S.edges
  root : T.root = movedTo h D P u
  nodes : ∀ v ∈ l, v ∉ P → v ∈ T.nodes

theorem movedTo_self {h : List Obj} {D : Dict String Tree} {P : List Nat} {v : Nat} (hv : v ∉ P) :
    movedTo h D P v = v := by simp [movedTo, hv]

theorem movedTo_append {h : List Obj} {D : Dict String Tree} {P : List Nat} {v w : Nat} (hv : v ∉ P) :
    movedTo h D (P ++ [v]) w = if w = v then (match subOf h D v with | some S => S.root | none => v)
      else movedTo h D P w := by
  unfold movedTo
  by_cases hw : w = v
  · subst hw; simp
  · simp [hw]

/-- The trees that are put in are made of other objects. -/
structure Apart (h : List Obj) (D : Dict String Tree) (l : List Nat) : Prop where
  root : ∀ v S, subOf h D v = some S → S.root ∉ l
  source : ∀ v S, subOf h D v = some S → ∀ e ∈ S.edges, e.1 ∉ l
  target : ∀ v S, subOf h D v = some S → ∀ e ∈ S.edges, e.2.1 ∉ l

theorem subOf_var {h : List Obj} {D : Dict String Tree} {v : Nat} {S : Tree} (hs : subOf h D v = some S) :
    ∃ x ids, h[v]? = some ⟨.var x, ids⟩ ∧ D.get? x = some S := by
  unfold subOf at hs
  split at hs
  · rename_i x ids he
    exact ⟨x, ids, he, hs⟩
  · cases hs

theorem addSubtree_inv {h : List Obj} {D : Dict String Tree} {l : List Nat} {u : Nat} {t : Ast} {T0 : Tree}
    (G : IsGraph h u t l T0) (hA : Apart h D l) {P : List Nat} {T : Tree} (I : SubInv h D l u T0 P T) {v : Nat}
    (hv : v ∈ l) (hvP : v ∉ P) {S : Tree} (hS : subOf h D v = some S) :
    ∃ T', T.addSubtree v S = .ok T' ∧ SubInv h D l u T0 (P ++ [v]) T' := by
  obtain ⟨x, ids, hobj, -⟩ := subOf_var hS
  have hleaf : ids = [] := G.lay.leaf hv hobj rfl
  subst hleaf
  have hno : ∀ e ∈ T0.edges, e.1 ≠ v := by
    intro e he hev
    obtain ⟨-, o, ho, hk⟩ := (G.mem e).1 he
    rw [hev, hobj] at ho
    cases ho
    simp at hk
  have hmoved : ∀ w, movedTo h D P w = v ↔ w = v := by
    intro w
    constructor
    · intro hw
      unfold movedTo at hw
      split at hw
      · split at hw
        · rename_i S' hS'
          exact absurd hv (hw ▸ hA.root w S' hS')
        · exact hw
      · exact hw
    · rintro rfl; exact movedTo_self hvP
  have hout : T.edges.any (·.1 == v) = false := by
    rw [List.any_eq_false]
    intro e he
    simp only [beq_iff_eq]
    rcases (I.mem e).1 he with ⟨e0, h0, rfl⟩ | ⟨w, _, S', hS', heS⟩
    · exact hno e0 h0
    · exact fun hev => hA.source w S' hS' e heS (hev ▸ hv)
  obtain ⟨a1, a2, a3, a4⟩ := addEdges_spec S.edges T
  have hin : ∀ e, e ∈ (S.edges.foldl (fun T e => T.addEdge e.1 e.2.1 e.2.2) T).edges ∧ (e.2.1 == v) = true ↔
      e ∈ T0.edges ∧ e.2.1 = v := by
    intro e
    rw [a1, I.mem, beq_iff_eq]
    constructor
    · rintro ⟨(⟨e0, h0, rfl⟩ | ⟨w, _, S', hS', heS⟩) | heS, hev⟩
      · have := (hmoved _).1 hev
        have he0 : (e0.1, movedTo h D P e0.2.1, e0.2.2) = e0 := by
          rw [this, movedTo_self hvP, ← this]
        rw [he0]
        exact ⟨h0, this⟩
      · exact absurd hv (hev ▸ hA.target w S' hS' e heS)
      · exact absurd hv (hev ▸ hA.target v S hS e heS)
    · rintro ⟨h0, hev⟩
      refine ⟨.inl (.inl ⟨e, h0, ?_⟩), hev⟩
      rw [hev, movedTo_self hvP, ← hev]
  have hvn : v ∈ (S.edges.foldl (fun T e => T.addEdge e.1 e.2.1 e.2.2) T).nodes := a3 v (I.nodes v hv hvP)
  have hmemP : ∀ e, (∃ w ∈ P ++ [v], ∃ S', subOf h D w = some S' ∧ e ∈ S'.edges) ↔
      (∃ w ∈ P, ∃ S', subOf h D w = some S' ∧ e ∈ S'.edges) ∨ e ∈ S.edges := by
    intro e
    constructor
    · rintro ⟨w, hw, S', hS', he⟩
      rcases List.mem_append.1 hw with hw | hw
      · exact .inl ⟨w, hw, S', hS', he⟩
      · rw [List.mem_singleton.1 hw, hS] at hS'
        cases hS'
        exact .inr he
    · rintro (⟨w, hw, S', hS', he⟩ | he)
      · exact ⟨w, by simp [hw], S', hS', he⟩
      · exact ⟨v, by simp, S, hS, he⟩
  unfold Tree.addSubtree
  rw [hout]
  simp only [Bool.false_eq_true, if_false]
  rcases G.parent hv with ⟨rfl, hnone⟩ | ⟨hvu, e0, h0, h0v⟩
  · have hf : (S.edges.foldl (fun T e => T.addEdge e.1 e.2.1 e.2.2) T).edges.filter (·.2.1 == v) = [] := by
      rw [List.filter_eq_nil_iff]
      intro e he hev
      have := (hin e).1 ⟨he, hev⟩
      exact hnone e this.1 this.2
    rw [hf]
    simp only [Tree.removeNode, hvn, if_true]
    refine ⟨_, rfl, ⟨(a2 I.nodup).filter _, fun e => ?_, ?_, ?_⟩⟩
    · simp only [List.mem_filter, a1, I.mem, hmemP, Bool.and_eq_true, decide_eq_true_eq]
      have hmv : ∀ e0 ∈ T0.edges, movedTo h D (P ++ [v]) e0.2.1 = movedTo h D P e0.2.1 := by
        intro e0 h0
        rw [movedTo_append hvP, if_neg (hnone e0 h0)]
      constructor
      · rintro ⟨(⟨e0, h0, rfl⟩ | hS') | heS, _⟩
        · exact .inl ⟨e0, h0, by rw [hmv e0 h0]⟩
        · exact .inr (.inl hS')
        · exact .inr (.inr heS)
      · rintro (⟨e0, h0, rfl⟩ | hS' | heS)
        · rw [hmv e0 h0]
          refine ⟨.inl (.inl ⟨e0, h0, rfl⟩), hno e0 h0, fun hev => hnone e0 h0 ((hmoved _).1 hev)⟩
        · obtain ⟨w, hw, S', hS', heS⟩ := hS'
          exact ⟨.inl (.inr ⟨w, hw, S', hS', heS⟩), fun hev => hA.source w S' hS' e heS (hev ▸ hv),
            fun hev => hA.target w S' hS' e heS (hev ▸ hv)⟩
        · exact ⟨.inr heS, fun hev => hA.source v S hS e heS (hev ▸ hv),
            fun hev => hA.target v S hS e heS (hev ▸ hv)⟩
    · rw [movedTo_append hvP, if_pos rfl, hS]
    · intro w hw hwP
      simp only [List.mem_append, List.mem_singleton, not_or] at hwP
      simp only [List.mem_filter, decide_eq_true_eq]
      exact ⟨a3 w (I.nodes w hw hwP.1), hwP.2⟩
  · have hf : (S.edges.foldl (fun T e => T.addEdge e.1 e.2.1 e.2.2) T).edges.filter (·.2.1 == v) = [e0] := by
      refine filter_one (a2 I.nodup) fun e => ?_
      rw [hin]
      constructor
      · rintro ⟨he, hev⟩
        exact G.unique he h0 (by rw [hev, h0v])
      · rintro rfl; exact ⟨h0, h0v⟩
    rw [hf]
    have hvn' : v ∈ ((S.edges.foldl (fun T e => T.addEdge e.1 e.2.1 e.2.2) T).addEdge e0.1 S.root e0.2.2).nodes :=
      addEdge_nodes hvn
    simp only [Tree.removeNode, hvn', if_true]
    refine ⟨_, rfl, ⟨(addEdge_nodup _ _ _ (a2 I.nodup)).filter _, fun e => ?_, ?_, ?_⟩⟩
    · simp only [List.mem_filter, addEdge_mem, a1, I.mem, hmemP, Bool.and_eq_true, decide_eq_true_eq]
      have hmv : ∀ e1 ∈ T0.edges, e1 ≠ e0 → movedTo h D (P ++ [v]) e1.2.1 = movedTo h D P e1.2.1 := by
        intro e1 h1 hne
        rw [movedTo_append hvP, if_neg fun hev => hne (G.unique h1 h0 (by rw [hev, h0v]))]
      have hm0 : movedTo h D (P ++ [v]) e0.2.1 = S.root := by
        rw [movedTo_append hvP, if_pos h0v, hS]
      constructor
      · rintro ⟨((⟨e1, h1, rfl⟩ | hS') | heS) | rfl, -, hne⟩
        · have hne' : e1 ≠ e0 := by
            rintro rfl
            exact hne ((hmoved _).2 h0v)
          exact .inl ⟨e1, h1, by rw [hmv e1 h1 hne']⟩
        · exact .inr (.inl hS')
        · exact .inr (.inr heS)
        · exact .inl ⟨e0, h0, by rw [hm0]⟩
      · rintro (⟨e1, h1, rfl⟩ | hS' | heS)
        · by_cases hne : e1 = e0
          · subst hne
            rw [hm0]
            refine ⟨.inr rfl, hno e1 h1, fun hev => hA.root v S hS ?_⟩
            have : S.root = v := hev
            rw [this]
            exact hv
          · rw [hmv e1 h1 hne]
            refine ⟨.inl (.inl (.inl ⟨e1, h1, rfl⟩)), hno e1 h1, fun hev => hne (G.unique h1 h0 ?_)⟩
            rw [(hmoved _).1 hev, h0v]
        · obtain ⟨w, hw, S', hS', heS⟩ := hS'
          exact ⟨.inl (.inl (.inr ⟨w, hw, S', hS', heS⟩)), fun hev => hA.source w S' hS' e heS (hev ▸ hv),
            fun hev => hA.target w S' hS' e heS (hev ▸ hv)⟩
        · exact ⟨.inl (.inr heS), fun hev => hA.source v S hS e heS (hev ▸ hv),
            fun hev => hA.target v S hS e heS (hev ▸ hv)⟩
    · change (S.edges.foldl (fun T e => T.addEdge e.1 e.2.1 e.2.2) T).root = _
      rw [a4, I.root, movedTo_append hvP, if_neg (Ne.symm hvu)]
    · intro w hw hwP
      simp only [List.mem_append, List.mem_singleton, not_or] at hwP
      simp only [List.mem_filter, decide_eq_true_eq]
      exact ⟨addEdge_nodes (a3 w (I.nodes w hw hwP.1)), hwP.2⟩

theorem subLoop_inv {h : List Obj} {D : Dict String Tree} {l : List Nat} {u : Nat} {t : Ast} {T0 : Tree}
    (G : IsGraph h u t l T0) (hA : Apart h D l) : ∀ (ns P : List Nat) (T : Tree), SubInv h D l u T0 P T →
    (P ++ ns).Nodup → (∀ w ∈ P ++ ns, w ∈ l) →
    ∃ T', ns.foldlM (subStep h D) T = .ok T' ∧ SubInv h D l u T0 (P ++ ns) T' := by
  intro ns
  induction ns with
  | nil => intro P T I _ _; exact ⟨T, rfl, by simpa using I⟩
  | cons v ns ih =>
    intro P T I hnd hsub
    have hvP : v ∉ P := fun hv => (List.nodup_append.1 hnd).2.2 v hv v (by simp) rfl
    have hv : v ∈ l := hsub v (by simp)
    have happ : P ++ v :: ns = (P ++ [v]) ++ ns := by simp
    rw [happ] at hnd hsub ⊢
    rw [List.foldlM_cons, subStep]
    cases hs : subOf h D v with
    | some S =>
      obtain ⟨T1, h1, I1⟩ := addSubtree_inv G hA I hv hvP hs
      dsimp only
      rw [h1, ok_bind]
      exact ih (P ++ [v]) T1 I1 hnd hsub
    | none =>
      dsimp only
      rw [ok_bind]
      have hmv : ∀ w, movedTo h D (P ++ [v]) w = movedTo h D P w := by
        intro w
        rw [movedTo_append hvP]
        split
        · rename_i hw
          rw [hs, hw, movedTo_self hvP]
        · rfl
      refine ih (P ++ [v]) T ⟨I.nodup, fun e => ?_, by rw [hmv, I.root], fun w hw hwP => I.nodes w hw ?_⟩ hnd hsub
      · rw [I.mem]
        simp only [hmv]
        refine or_congr Iff.rfl ⟨?_, ?_⟩
        · rintro ⟨w, hw, r⟩; exact ⟨w, by simp [hw], r⟩
        · rintro ⟨w, hw, S, hS, he⟩
          rcases List.mem_append.1 hw with hw | hw
          · exact ⟨w, hw, S, hS, he⟩
          · rw [List.mem_singleton.1 hw, hs] at hS; cases hS
      · exact fun hw' => hwP (by simp [hw'])

/-- The table `D` of formulas is in memory: the tree that the table of graphs `DT` has for a variable is the graph of its
formula, whose objects are not among `l`. -/
def TableIn (h : List Obj) (n : Nat) (l : List Nat) (D : Dict String Ast) (DT : Dict String Tree) : Prop :=
  ∀ x, (D.get? x = none ∧ DT.get? x = none) ∨ ∃ s S v m, D.get? x = some s ∧ DT.get? x = some S ∧ IsTree h v s m ∧
    s.len ≤ n ∧ fromRec h n v = .ok S ∧ ∀ w ∈ m, w ∉ l

/-- **C126**. `sub_bool_with_subtree` on the graph of a formula replaces each occurrence of a variable by its formula, at
once and however often the variable occurs: read back, the graph is the formula that C39 is about. -/
theorem subBoolTree_spec {h : List Obj} {u : Nat} {t : Ast} {l : List Nat} (H : IsTree h u t l) {n : Nat}
    (hn : t.len ≤ n) {D : Dict String Ast} {DT : Dict String Tree} (hD : TableIn h n l D DT) {n' : Nat}
    (hn' : (subBool D t).len ≤ n') :
    (do let T ← fromRec h n u
        let T' ← subBoolTree h DT T
        T'.toAst h n') = .ok (subBool D t) := by
  obtain ⟨T0, h1, G⟩ := H.graph hn
  rw [h1, ok_bind]
  have hS : ∀ v S, subOf h DT v = some S → ∃ x ids s w m, h[v]? = some ⟨.var x, ids⟩ ∧ D.get? x = some s ∧
      IsGraph h w s m S ∧ ∀ w ∈ m, w ∉ l := by
    intro v S hs
    obtain ⟨x, ids, hobj, hget⟩ := subOf_var hs
    rcases hD x with ⟨_, h2⟩ | ⟨s, S', w, m, g1, g2, g3, g4, g5, g6⟩
    · rw [h2] at hget; cases hget
    · rw [g2] at hget
      cases hget
      obtain ⟨S'', k1, k2⟩ := g3.graph g4
      rw [g5] at k1
      cases k1
      exact ⟨x, ids, s, w, m, hobj, g1, k2, g6⟩
  have hA : Apart h DT l := by
    refine ⟨fun v S hs => ?_, fun v S hs e he => ?_, fun v S hs e he => ?_⟩
    · obtain ⟨x, ids, s, w, m, -, -, G', hm⟩ := hS v S hs
      obtain ⟨m', rfl⟩ := G'.root_mem
      rw [G'.root]
      exact hm w (by simp)
    · obtain ⟨x, ids, s, w, m, -, -, G', hm⟩ := hS v S hs
      exact hm _ ((G'.mem e).1 he).1
    · obtain ⟨x, ids, s, w, m, -, -, G', hm⟩ := hS v S hs
      exact hm _ (G'.target_mem he)
  have I0 : SubInv h DT l u T0 [] T0 := by
    refine ⟨G.edges_nodup, fun e => ?_, ?_, fun v hv _ => by rw [G.nodes]; exact hv⟩
    · constructor
      · intro he
        exact .inl ⟨e, he, by simp [movedTo]⟩
      · rintro (⟨e0, h0, rfl⟩ | ⟨v, hv, _⟩)
        · simpa [movedTo] using h0
        · cases hv
    · simp [movedTo, G.root]
  obtain ⟨T', h2, I⟩ := subLoop_inv G hA T0.nodes [] T0 I0 (by simpa [G.nodes] using G.nodup)
    (by simp [G.nodes])
  unfold subBoolTree
  rw [h2, ok_bind]
  rw [List.nil_append, G.nodes] at I
  refine toAst_spells ?_ hn'
  rw [I.root]
  have hgone : ∀ v S, subOf h DT v = some S → v ∈ l → ∀ x ids s w m, h[v]? = some ⟨.var x, ids⟩ → D.get? x = some s →
      IsGraph h w s m S → (∀ w ∈ m, w ∉ l) → Spells h T' [S.root] [s] := by
    intro v S hs hv x ids s w m _ _ G' hm
    rw [G'.root]
    refine G'.lay.spells (fun _ _ => rfl) fun y hy o ho => succs_eq I.nodup fun z k => ?_
    rw [I.mem]
    constructor
    · rintro (⟨e0, h0, he⟩ | ⟨v', hv', S', hs', he⟩)
      · injection he with he _
        exact absurd ((G.mem e0).1 h0).1 (he ▸ hm y hy)
      · obtain ⟨_, _, _, _, _, -, -, G'', -⟩ := hS v' S' hs'
        obtain ⟨-, o', ho', hk⟩ := (G''.mem _).1 he
        rw [ho] at ho'
        cases ho'
        exact hk
    · intro hk
      exact .inr ⟨v, hv, S, hs, (G'.mem _).2 ⟨hy, o, ho, hk⟩⟩
  have key := spells_subst (h' := h) (T' := T') (Q := fun _ t t' => t' = subBool D t) (φ := movedTo h DT l) G.lay ?_
    [subBool D t] (.cons rfl .nil)
  · simpa using key
  · intro v hv a a' ids ha hobj hlen
    subst ha
    cases hs : subOf h DT v with
    | some S =>
      right
      obtain ⟨x, ids', s, w, m, k1, k2, G', hm⟩ := hS v S hs
      have := hgone v S hs hv x ids' s w m k1 k2 G' hm
      rw [hobj] at k1
      have ha : a = .var x := by
        cases a <;> simp_all [headOf]
      subst ha
      simp only [movedTo, hv, if_true, hs, subBool, k2, Option.getD_some]
      exact this
    | none =>
      left
      have hvar : ∀ x, a = .var x → subBool D a = a := by
        rintro x rfl
        simp only [subOf, hobj, headOf] at hs
        rcases hD x with ⟨g1, -⟩ | ⟨s, S', w, m, g1, g2, -⟩
        · simp [subBool, g1]
        · rw [g2] at hs; cases hs
      have hhead : headOf (subBool D a) = headOf a := by
        cases a with
        | var x => rw [hvar x rfl]
        | _ => rfl
      have hch : (subBool D a).children = a.children.map (subBool D) := by
        cases a with
        | var x => rw [hvar x rfl]; rfl
        | _ => rfl
      refine ⟨hhead, by simp [movedTo, hs], rfl, succs_eq I.nodup fun z k => ?_, ?_⟩
      · rw [I.mem]
        constructor
        · rintro (⟨⟨e1, e2, e3⟩, h0, he⟩ | ⟨v', hv', S', hs', he⟩)
          · simp only [Prod.mk.injEq] at he
            obtain ⟨rfl, rfl, rfl⟩ := he
            obtain ⟨-, o, ho, hk⟩ := (G.mem _).1 h0
            dsimp only at ho hk
            rw [hobj] at ho
            cases ho
            simp only [List.getElem?_map, hk, Option.map_some]
          · exact absurd hv (hA.source v' S' hs' _ he)
        · intro hk
          rw [List.getElem?_map, Option.map_eq_some_iff] at hk
          obtain ⟨w, hw, rfl⟩ := hk
          exact .inl ⟨(v, w, k), (G.mem _).2 ⟨hv, _, hobj, hw⟩, rfl⟩
      · rw [hch]
        clear hobj
        generalize a.children = cs at hlen
        induction cs generalizing ids with
        | nil => rw [List.length_eq_zero_iff.1 hlen]; exact .nil
        | cons c cs ih =>
          match ids, hlen with
          | i :: ids, hlen => exact .cons rfl (ih ids (by simpa using hlen))

/-! ### Relabeling -/

/-- The first exception of the loop. -/
def scan (f : Nat → Except PyErr (Option Obj)) : List Nat → Except PyErr Unit
  | [] => .ok ()
  | u :: us => do
    let _ ← f u
    scan f us

theorem scan_append (f : Nat → Except PyErr (Option Obj)) (l m : List Nat) :
    scan f (l ++ m) = (do scan f l; scan f m) := by
  induction l with
  | nil => rfl
  | cons u l ih =>
    simp only [List.cons_append, scan]
    cases f u with
    | error e => rfl
    | ok a => simp only [ok_bind, ih]

theorem collect_scan (f : Nat → Except PyErr (Option Obj)) : ∀ (us : List Nat) (h : List Obj),
    (scan f us = .ok () ∧ ∃ r, collect f us h = .ok r) ∨ ∃ e, scan f us = .error e ∧ collect f us h = .error e := by
  intro us
  induction us with
  | nil => intro h; exact .inl ⟨rfl, _, rfl⟩
  | cons u us ih =>
    intro h
    simp only [scan, collect]
    cases hf : f u with
    | error e => exact .inr ⟨e, rfl, rfl⟩
    | ok a =>
      simp only [ok_bind]
      cases a with
      | none => exact ih h
      | some o =>
        rcases ih (h ++ [o]) with ⟨h1, r, hr⟩ | ⟨e, h1, hr⟩
        · exact .inl ⟨h1, (r.1, (u, h.length) :: r.2), by simp only [hr, ok_bind]⟩
        · exact .inr ⟨e, h1, by simp only [hr, error_bind]⟩

/-- The mapping that the loop collects. -/
structure Collected (f : Nat → Except PyErr (Option Obj)) (us : List Nat) (h h' : List Obj) (m : List (Nat × Nat)) :
    Prop where
  ext : h <+: h'
  new : ∀ p ∈ m, p.1 ∈ us ∧ h.length ≤ p.2 ∧ ∃ o, f p.1 = .ok (some o) ∧ h'[p.2]? = some o
  all : ∀ u ∈ us, (f u = .ok none ∧ ∀ p ∈ m, p.1 ≠ u) ∨ ∃ v, (u, v) ∈ m
  fst : (m.map (·.1)).Nodup
  snd : (m.map (·.2)).Nodup

theorem collect_ok {f : Nat → Except PyErr (Option Obj)} : ∀ (us : List Nat) (h h' : List Obj) (m : List (Nat × Nat)),
    us.Nodup → collect f us h = .ok (h', m) → Collected f us h h' m := by
  intro us
  induction us with
  | nil =>
    intro h h' m _ hc
    simp only [collect] at hc
    cases hc
    exact ⟨List.prefix_refl _, by simp, by simp, by simp, by simp⟩
  | cons u us ih =>
    intro h h' m hnd hc
    rw [List.nodup_cons] at hnd
    simp only [collect] at hc
    cases hf : f u with
    | error e => rw [hf] at hc; cases hc
    | ok a =>
      rw [hf] at hc
      simp only [ok_bind] at hc
      cases a with
      | none =>
        have C := ih h h' m hnd.2 hc
        refine ⟨C.ext, fun p hp => ?_, fun v hv => ?_, C.fst, C.snd⟩
        · obtain ⟨h1, h2⟩ := C.new p hp
          exact ⟨by simp [h1], h2⟩
        · rcases List.mem_cons.1 hv with rfl | hv
          · exact .inl ⟨hf, fun p hp hpu => hnd.1 (hpu ▸ (C.new p hp).1)⟩
          · exact C.all v hv
      | some o =>
        cases hr : collect f us (h ++ [o]) with
        | error e => simp only [hr, error_bind] at hc; cases hc
        | ok r =>
          obtain ⟨h'', m'⟩ := r
          simp only [hr, ok_bind] at hc
          cases hc
          have C := ih (h ++ [o]) h' m' hnd.2 hr
          have hpre : h <+: h' := (List.prefix_append h [o]).trans C.ext
          have hlen : ∀ p ∈ m', h.length < p.2 := by
            intro p hp
            have := (C.new p hp).2.1
            simp at this
            omega
          refine ⟨hpre, fun p hp => ?_, fun v hv => ?_, ?_, ?_⟩
          · rcases List.mem_cons.1 hp with rfl | hp
            · refine ⟨by simp, Nat.le_refl _, o, hf, ?_⟩
              obtain ⟨r, hr⟩ := C.ext
              rw [← hr]
              simp
            · obtain ⟨h1, h2, h3⟩ := C.new p hp
              exact ⟨by simp [h1], Nat.le_of_lt (hlen p hp), h3⟩
          · rcases List.mem_cons.1 hv with rfl | hv
            · exact .inr ⟨h.length, by simp⟩
            · rcases C.all v hv with ⟨h1, h2⟩ | ⟨w, hw⟩
              · refine .inl ⟨h1, fun p hp => ?_⟩
                rcases List.mem_cons.1 hp with rfl | hp
                · exact fun (hvu : u = v) => hnd.1 (by rw [hvu]; exact hv)
                · exact h2 p hp
              · exact .inr ⟨w, by simp [hw]⟩
          · rw [List.map_cons, List.nodup_cons]
            refine ⟨fun hm => ?_, C.fst⟩
            obtain ⟨p, hp, (hpu : p.1 = u)⟩ := List.mem_map.1 hm
            exact hnd.1 (hpu ▸ (C.new p hp).1)
          · rw [List.map_cons, List.nodup_cons]
            refine ⟨fun hm => ?_, C.snd⟩
            obtain ⟨p, hp, hpu⟩ := List.mem_map.1 hm
            have := hlen p hp
            simp only at hpu
            omega

/-- The new name of a node. -/
def renamed (m : List (Nat × Nat)) (v : Nat) : Nat := m.foldl (fun v p => if v = p.1 then p.2 else v) v

theorem renamed_not {m : List (Nat × Nat)} {v : Nat} (h : ∀ p ∈ m, p.1 ≠ v) : renamed m v = v := by
  induction m with
  | nil => rfl
  | cons p m ih =>
    have h1 : ¬ v = p.1 := fun hv => h p (by simp) hv.symm
    simp only [renamed, List.foldl_cons, h1, if_false]
    exact ih fun q hq => h q (by simp [hq])

theorem renamed_mem {m : List (Nat × Nat)} {u v : Nat} (hm : (u, v) ∈ m) (hf : (m.map (·.1)).Nodup)
    (hd : ∀ p ∈ m, ∀ q ∈ m, p.2 ≠ q.1) : renamed m u = v := by
  induction m with
  | nil => cases hm
  | cons p m ih =>
    rw [List.map_cons, List.nodup_cons] at hf
    rcases List.mem_cons.1 hm with rfl | hm'
    · simp only [renamed, List.foldl_cons, if_true]
      exact renamed_not fun q hq h => hd (u, v) (by simp) q (by simp [hq]) h.symm
    · have hu : ¬ u = p.1 := fun h => hf.1 (h ▸ List.mem_map_of_mem (f := fun p : Nat × Nat => p.1) hm')
      simp only [renamed, List.foldl_cons, hu, if_false]
      exact ih hm' hf.2 fun q hq r hr => hd q (by simp [hq]) r (by simp [hr])

theorem relabelOne_mem {T : Tree} {p : Nat × Nat} (hs : ∀ e ∈ T.edges, e.1 ≠ p.1) (e : Nat × Nat × Nat) :
    e ∈ (T.relabelOne p).edges ↔
      ∃ e0 ∈ T.edges, e = (e0.1, (if e0.2.1 = p.1 then p.2 else e0.2.1), e0.2.2) := by
  simp only [Tree.relabelOne, List.mem_append, List.mem_filter, List.mem_map, Bool.and_eq_true, decide_eq_true_eq,
    beq_iff_eq]
  constructor
  · rintro ((⟨h1, h2, h3⟩ | ⟨e0, ⟨h1, h2⟩, rfl⟩) | ⟨e0, ⟨h1, h2⟩, rfl⟩)
    · exact ⟨e, h1, by rw [if_neg h3]⟩
    · exact absurd h2 (hs e0 h1)
    · exact ⟨e0, h1, by rw [if_pos h2]⟩
  · rintro ⟨e0, h1, rfl⟩
    by_cases h2 : e0.2.1 = p.1
    · rw [if_pos h2]
      exact .inr ⟨e0, ⟨h1, h2⟩, rfl⟩
    · rw [if_neg h2]
      exact .inl (.inl ⟨h1, hs e0 h1, h2⟩)

theorem relabelOne_nodup {T : Tree} {p : Nat × Nat} (hnd : T.edges.Nodup) (hs : ∀ e ∈ T.edges, e.1 ≠ p.1)
    (hn : ∀ e ∈ T.edges, e.2.1 ≠ p.2) : (T.relabelOne p).edges.Nodup := by
  have h0 : T.edges.filter (·.1 == p.1) = [] := by
    rw [List.filter_eq_nil_iff]
    intro e he
    simpa using hs e he
  simp only [Tree.relabelOne, h0, List.map_nil, List.append_nil]
  refine List.nodup_append.2 ⟨hnd.filter _, ?_, ?_⟩
  · refine List.Nodup.map_on ?_ (hnd.filter _)
    rintro ⟨a, b, c⟩ h1 ⟨a', b', c'⟩ h2 he
    simp only [List.mem_filter, beq_iff_eq] at h1 h2
    simp only [Prod.mk.injEq, true_and] at he
    rw [h1.2, h2.2, he.1, he.2]
  · intro a ha b hb hab
    obtain ⟨e0, h0, rfl⟩ := List.mem_map.1 hb
    rw [hab] at ha
    exact hn _ (List.mem_filter.1 ha).1 rfl

theorem relabel_spec : ∀ (m : List (Nat × Nat)) {T : Tree}, T.edges.Nodup →
    (∀ p ∈ m, ∀ e ∈ T.edges, e.1 ≠ p.1) → (∀ p ∈ m, ∀ e ∈ T.edges, e.2.1 ≠ p.2) → (m.map (·.2)).Nodup →
    (T.relabel m).edges.Nodup ∧ (T.relabel m).root = T.root ∧
    ∀ e, e ∈ (T.relabel m).edges ↔ ∃ e0 ∈ T.edges, e = (e0.1, renamed m e0.2.1, e0.2.2) := by
  intro m
  induction m with
  | nil => intro T hnd _ _ _; exact ⟨hnd, rfl, fun e => by simp [Tree.relabel, renamed]⟩
  | cons p m ih =>
    intro T hnd hs hn hsnd
    rw [List.map_cons, List.nodup_cons] at hsnd
    have hm1 := relabelOne_mem (hs p (by simp))
    obtain ⟨h1, h2, h3⟩ := ih (relabelOne_nodup hnd (hs p (by simp)) (hn p (by simp))) (by
      intro q hq e he
      obtain ⟨e0, h0, rfl⟩ := (hm1 e).1 he
      exact hs q (by simp [hq]) e0 h0) (by
      intro q hq e he
      obtain ⟨e0, h0, rfl⟩ := (hm1 e).1 he
      dsimp only
      split
      · exact fun h => hsnd.1 (h ▸ List.mem_map_of_mem (f := fun p : Nat × Nat => p.2) hq)
      · exact hn q (by simp [hq]) e0 h0) hsnd.2
    refine ⟨h1, h2, fun e => ?_⟩
    have : T.relabel (p :: m) = (T.relabelOne p).relabel m := rfl
    rw [this, h3]
    constructor
    · rintro ⟨e1, he1, rfl⟩
      obtain ⟨e0, h0, rfl⟩ := (hm1 e1).1 he1
      exact ⟨e0, h0, rfl⟩
    · rintro ⟨e0, h0, rfl⟩
      exact ⟨_, (hm1 _).2 ⟨e0, h0, rfl⟩, rfl⟩

theorem Lay.lt {h : List Obj} {us : List Nat} {ts : List Ast} {l : List Nat} (H : Lay h us ts l) :
    ∀ v ∈ l, v < h.length := by
  intro v hv
  obtain ⟨t, ids, h1, -⟩ := H.obj v hv
  exact (List.getElem?_eq_some_iff.1 h1).1

/-- What the loop followed by the relabeling gives: the old formula if the root is to be replaced, and otherwise the formula
with the terminals replaced. The old objects stay as they are. -/
theorem replaceNodes_spec {h : List Obj} {u : Nat} {t : Ast} {l : List Nat} {T : Tree} (G : IsGraph h u t l T)
    {f : Nat → Except PyErr (Option Obj)} (hscan : scan f l = .ok ())
    (hterm : ∀ v ∈ l, ∀ o, f v = .ok (some o) → o.operands = [] ∧ ∃ o', h[v]? = some o' ∧ o'.operands = [])
    {Q : Nat → Ast → Ast → Prop} (hQ : ∀ v ∈ l, ∀ a a' ids, Q v a a' → h[v]? = some ⟨headOf a, ids⟩ →
      ids.length = a.children.length →
      (f v = .ok none → headOf a' = headOf a ∧ All3 Q ids a.children a'.children) ∧
      (∀ o, f v = .ok (some o) → headOf a' = o.head ∧ a'.children = [])) {t' : Ast} (ht : Q u t t') :
    ∃ h' T', replaceNodes f h T = .ok (h', T') ∧ h <+: h' ∧ T'.root = u ∧
      (f u = .ok none → Spells h' T' [u] [t']) ∧ (f u ≠ .ok none → Spells h' T' [u] [t]) := by
  unfold replaceNodes
  rw [G.nodes]
  rcases collect_scan f l h with ⟨-, ⟨h', m⟩, hc⟩ | ⟨e, he, -⟩
  swap
  · rw [he] at hscan; cases hscan
  have C := collect_ok l h h' m G.nodup hc
  rw [hc]
  simp only [ok_bind]
  have hlt := G.lay.lt
  have hpre : ∀ v ∈ l, h'[v]? = h[v]? := by
    intro v hv
    obtain ⟨r, rfl⟩ := C.ext
    exact List.getElem?_append_left (hlt v hv)
  have hout : ∀ p ∈ m, ∀ e ∈ T.edges, e.1 ≠ p.1 := by
    intro p hp e he hep
    obtain ⟨h1, -, o, h3, -⟩ := C.new p hp
    obtain ⟨-, o', ho', hops⟩ := hterm _ h1 o h3
    obtain ⟨-, o'', h4, hk⟩ := (G.mem e).1 he
    rw [hep, ho'] at h4
    cases h4
    rw [hops] at hk
    simp at hk
  obtain ⟨r1, r2, r3⟩ := relabel_spec m G.edges_nodup hout (by
    intro p hp e he hep
    have := hlt _ (G.target_mem he)
    have := (C.new p hp).2.1
    omega) C.snd
  have hmv : ∀ v ∈ l, f v = .ok none → renamed m v = v := by
    intro v hv hfv
    rcases C.all v hv with ⟨-, h2⟩ | ⟨w, hw⟩
    · exact renamed_not h2
    · obtain ⟨-, -, o, ho, -⟩ := C.new _ hw
      dsimp only at ho
      rw [hfv] at ho
      cases ho
  have hsuccs : ∀ v ∈ l, ∀ o, h[v]? = some o → (T.relabel m).succs v = o.operands.map (renamed m) := by
    intro v hv o ho
    refine succs_eq r1 fun z k => ?_
    rw [r3]
    constructor
    · rintro ⟨⟨a, b, c⟩, h0, he⟩
      simp only [Prod.mk.injEq] at he
      obtain ⟨rfl, rfl, rfl⟩ := he
      obtain ⟨-, o', ho', hk⟩ := (G.mem _).1 h0
      dsimp only at ho' hk
      rw [ho] at ho'
      cases ho'
      simp only [List.getElem?_map, hk, Option.map_some]
    · intro hk
      rw [List.getElem?_map, Option.map_eq_some_iff] at hk
      obtain ⟨w, hw, rfl⟩ := hk
      exact ⟨(v, w, k), (G.mem _).2 ⟨hv, o, ho, hw⟩, rfl⟩
  have hroot : u ∈ l := by obtain ⟨l', rfl⟩ := G.root_mem; simp
  refine ⟨h', T.relabel m, rfl, C.ext, by rw [r2, G.root], fun hfu => ?_, fun hfu => ?_⟩
  · have key := spells_subst (h' := h') (T' := T.relabel m) (Q := Q) (φ := renamed m) G.lay ?_ [t'] (.cons ht .nil)
    · simpa [hmv u hroot hfu] using key
    · intro v hv a a' ids ha hobj hlen
      obtain ⟨q1, q2⟩ := hQ v hv a a' ids ha hobj hlen
      rcases C.all v hv with ⟨h1, -⟩ | ⟨w, hw⟩
      · left
        obtain ⟨q3, q4⟩ := q1 h1
        exact ⟨q3, hmv v hv h1, hpre v hv, hsuccs v hv _ hobj, q4⟩
      · right
        obtain ⟨-, hge, o, ho, hnew⟩ := C.new _ hw
        obtain ⟨q3, q4⟩ := q2 o ho
        have hops := (hterm v hv o ho).1
        rw [renamed_mem hw C.fst fun p hp q hq h => by
          have h1 := (C.new p hp).2.1
          have h2 := hlt _ (C.new q hq).1
          omega]
        refine .cons (ops := []) ?_ (by rw [q4]; rfl) ?_ .nil
        · rw [hnew, q3]
          cases o
          simp only at hops
          rw [hops]
        · have : (T.relabel m).succs w = [] := succs_eq r1 fun z k => by
            rw [r3]
            simp only [List.getElem?_nil, reduceCtorEq, iff_false]
            rintro ⟨e0, h0, he⟩
            injection he with he _
            have := hlt _ ((G.mem e0).1 h0).1
            dsimp only at hge
            omega
          rw [this, q4]
          exact .nil
  · rcases C.all u hroot with ⟨h1, -⟩ | ⟨w, hw⟩
    · exact absurd h1 hfu
    · obtain ⟨-, -, o, ho, -⟩ := C.new _ hw
      obtain ⟨-, o', ho', hops⟩ := hterm u hroot o ho
      have hlay := G.lay
      cases hlay with
      | cons obj below _ =>
        rw [obj] at ho'
        cases ho'
        dsimp only at hops
        subst hops
        have hc : t.children = [] := by
          have := below.length
          exact List.length_eq_zero_iff.1 this.symm
        refine .cons (ops := []) (by rw [hpre u hroot, obj]) (by rw [hc]; rfl) ?_ .nil
        rw [hsuccs u hroot _ obj, hc]
        exact .nil

/-! ### `infer_constants` -/

/-- What `infer_constants` makes of a formula (see `inferConstants`). -/
def inferred (vars : List String) : Ast → Ast
  | .var x => .var x
  | t => quoteConstants vars t

/-- The model of `infer_constants` on text prints this formula. -/
theorem inferConstants_eq (f : List Char) (vars : List String) :
    inferConstants f vars = (parse f).bind fun t => flatten (inferred vars t) := by
  unfold inferConstants
  cases parse f with
  | none => rfl
  | some t => cases t <;> rfl

theorem quote_len (vars : List String) (t : Ast) : (quoteConstants vars t).len = t.len := by
  induction t with
  | var x => simp only [quoteConstants]; split <;> rfl
  | _ => simp_all [quoteConstants, Ast.len]

theorem scan_quote (h : List Obj) (vars : List String) : ∀ l, scan (quoteOf h vars) l = .ok () := by
  intro l
  induction l with
  | nil => rfl
  | cons u l ih =>
    have : ∃ r, quoteOf h vars u = .ok r := by
      unfold quoteOf
      split
      · split <;> exact ⟨_, rfl⟩
      · exact ⟨_, rfl⟩
    obtain ⟨r, hr⟩ := this
    simp only [scan, hr, ok_bind, ih]

theorem all3_map {Q : Nat → Ast → Ast → Prop} (r : Ast → Ast) (hQ : ∀ v a, Q v a (r a)) : ∀ {ids : List Nat}
    {cs : List Ast}, ids.length = cs.length → All3 Q ids cs (cs.map r) := by
  intro ids cs
  induction cs generalizing ids with
  | nil => intro h; rw [List.length_eq_zero_iff.1 h]; exact .nil
  | cons c cs ih =>
    intro h
    match ids, h with
    | i :: ids, h => exact .cons (hQ i c) (ih (by simpa using h))

/-- **C126**. The substitution of `infer_constants` on the graph of a formula gives the formula that C67 is about: with all
names that are not variables quoted, unless the formula is a single name. The memory of the given formula is not changed. -/
theorem quoteTree_spec {h : List Obj} {u : Nat} {t : Ast} {l : List Nat} (H : IsTree h u t l) {n : Nat}
    (hn : t.len ≤ n) (vars : List String) :
    ∃ T h' T', fromRec h n u = .ok T ∧ quoteTree h vars T = .ok (h', T') ∧ h <+: h' ∧
      T'.toAst h' n = .ok (inferred vars t) := by
  obtain ⟨T, h1, G⟩ := H.graph hn
  have hroot : u ∈ l := by obtain ⟨l', rfl⟩ := G.root_mem; simp
  obtain ⟨h', T', r1, r2, r3, r4, r5⟩ := replaceNodes_spec G (f := quoteOf h vars) (scan_quote h vars l)
    (Q := fun _ a a' => a' = quoteConstants vars a) (t' := quoteConstants vars t) (by
      intro v hv o ho
      unfold quoteOf at ho
      split at ho
      · rename_i x ids hobj
        split at ho
        · cases ho
        · cases ho
          exact ⟨rfl, _, hobj, G.lay.leaf hv hobj rfl⟩
      · cases ho) (by
      rintro v hv a a' ids rfl hobj hlen
      constructor
      · intro hf
        have hvar : ∀ x, a = .var x → quoteConstants vars a = a := by
          rintro x rfl
          simp only [quoteOf, hobj, headOf] at hf
          split at hf
          · rename_i hx; simp [quoteConstants, hx]
          · cases hf
        have hhead : headOf (quoteConstants vars a) = headOf a := by
          cases a with
          | var x => rw [hvar x rfl]
          | _ => rfl
        have hch : (quoteConstants vars a).children = a.children.map (quoteConstants vars) := by
          cases a with
          | var x => rw [hvar x rfl]; rfl
          | _ => rfl
        exact ⟨hhead, by rw [hch]; exact all3_map (Q := fun _ a a' => a' = quoteConstants vars a) _ (fun _ _ => rfl) hlen⟩
      · intro o ho
        unfold quoteOf at ho
        split at ho
        · rename_i x ids' hobj'
          rw [hobj] at hobj'
          have ha : a = .var x := by cases a <;> simp_all [headOf]
          subst ha
          split at ho
          · cases ho
          · rename_i hx
            cases ho
            simp [quoteConstants, hx, headOf, Ast.children]
        · cases ho) rfl
  refine ⟨T, h', T', h1, r1, r2, ?_⟩
  have hobj : ∃ ids, h[u]? = some ⟨headOf t, ids⟩ := by
    have := G.lay
    cases this with
    | cons obj _ _ => exact ⟨_, obj⟩
  obtain ⟨ids, hobj⟩ := hobj
  by_cases hvar : ∃ x, t = .var x
  · obtain ⟨x, rfl⟩ := hvar
    rw [inferred]
    refine toAst_spells ?_ hn
    rw [r3]
    by_cases hx : x ∈ vars
    · have := r4 (by simp [quoteOf, hobj, headOf, hx])
      simpa [quoteConstants, hx] using this
    · exact r5 (by simp [quoteOf, hobj, headOf, hx])
  · have hf : quoteOf h vars u = .ok none := by
      unfold quoteOf
      split
      · rename_i x ids' ho
        rw [hobj] at ho
        exact absurd ⟨x, by cases t <;> simp_all [headOf]⟩ hvar
      · rfl
    have : inferred vars t = quoteConstants vars t := by
      cases t with
      | var x => exact absurd ⟨x, rfl⟩ hvar
      | _ => rfl
    rw [this]
    refine toAst_spells ?_ (by rw [quote_len]; exact hn)
    rw [r3]
    exact r4 hf

end TreeG
end Tulip
