import Verif.Abstract.PlotArrows
import Verif.Transys.GraphQueryProps
import Verif.Synth.StrategyProps

/-!
# C127: the transitions that are drawn over a partition
-/

namespace Tulip
namespace Plot

open LGraph

variable {ν V P : Type} [DecidableEq ν] [DecidableEq V]

/-! ## Specification -/

/-- The transition has the desired label: every transition if none is given, and one without label always (see C08). -/
def Wanted (ts : LGraph ν V) (label : Attr V) (e : ν × ν × Attr V) : Prop :=
  label = [] ∨ e.2.2 = [] ∨ Matches ts.edgeTypes e.2.2 label

/-- The arrow for a transition goes from the region of its first state to the region of its second one, and it is left out
if only adjacent regions are wanted and these are not adjacent. -/
def ArrowOf (regions : List P) (adj : Nat → Nat → Bool) (ppp2ts : List ν) (onlyAdjacent : Bool) (e : ν × ν × Attr V)
    (r : List (P × P)) : Prop :=
  ∃ (i j : Nat), ppp2ts[i]? = some e.1 ∧ ppp2ts[j]? = some e.2.1 ∧
    (if onlyAdjacent = true ∧ adj i j = false then r = []
     else ∃ p q, regions[i]? = some p ∧ regions[j]? = some q ∧ r = [(p, q)])

/-! ## The index of a state -/

theorem tsIndex_get (l : List ν) (hl : l.Nodup) (x : ν) :
    (∀ (i : Nat), (tsIndex l).get? x = some i ↔ l[i]? = some x) := by
  have key : ∀ (l : List ν) (k : Nat) (d : Dict ν Nat), l.Nodup →
      ∀ i, ((l.zipIdx k).foldl (fun d p => Dict.set d p.1 p.2) d).get? x = some i ↔
        (∃ j, l[j]? = some x ∧ i = k + j) ∨ (x ∉ l ∧ d.get? x = some i) := by
    intro l
    induction l with
    | nil => intro k d _ i; simp
    | cons y l ih =>
      intro k d hd i
      rw [List.nodup_cons] at hd
      rw [List.zipIdx_cons, List.foldl_cons, ih (k + 1) _ hd.2, Dict.get?_set]
      constructor
      · rintro (⟨j, hj, rfl⟩ | ⟨hx, h⟩)
        · exact .inl ⟨j + 1, by simpa using hj, by omega⟩
        · by_cases hy : x = y
          · subst hy
            simp at h
            exact .inl ⟨0, by simp, by omega⟩
          · rw [if_neg (by simpa using fun e => hy e.symm)] at h
            exact .inr ⟨by simp [hy, hx], h⟩
      · rintro (⟨j, hj, rfl⟩ | ⟨hx, h⟩)
        · cases j with
          | zero =>
            simp at hj
            subst hj
            exact .inr ⟨hd.1, by simp⟩
          | succ j => exact .inl ⟨j, by simpa using hj, by omega⟩
        · simp only [List.mem_cons, not_or] at hx
          exact .inr ⟨hx.2, by rw [if_neg (by simpa using fun e => hx.1 e.symm)]; exact h⟩
  intro i
  unfold tsIndex
  rw [key l 0 [] hl i]
  simp [Dict.get?]

theorem tsIndex_none {l : List ν} (hl : l.Nodup) {x : ν} : (tsIndex l).get? x = none ↔ x ∉ l := by
  constructor
  · intro h hx
    obtain ⟨i, hi⟩ := List.getElem?_of_mem hx
    rw [(tsIndex_get l hl x i).2 hi] at h
    cases h
  · intro h
    cases hg : (tsIndex l).get? x with
    | none => rfl
    | some i => exact absurd (List.mem_of_getElem? ((tsIndex_get l hl x i).1 hg)) h

/-! ## Arrows -/

omit [DecidableEq V] in
theorem arrow_ok {regions : List P} {adj : Nat → Nat → Bool} {ppp2ts : List ν} (hn : ppp2ts.Nodup)
    (hlen : regions.length = ppp2ts.length) (only : Bool) {e : ν × ν × Attr V} (h1 : e.1 ∈ ppp2ts) (h2 : e.2.1 ∈ ppp2ts) :
    ∃ r, arrow regions (some adj) (tsIndex ppp2ts) only e = .ok r ∧ ArrowOf regions adj ppp2ts only e r := by
  obtain ⟨i, hi⟩ := List.getElem?_of_mem h1
  obtain ⟨j, hj⟩ := List.getElem?_of_mem h2
  have li : i < regions.length := by rw [hlen]; exact (List.getElem?_eq_some_iff.1 hi).1
  have lj : j < regions.length := by rw [hlen]; exact (List.getElem?_eq_some_iff.1 hj).1
  have e1 : look (tsIndex ppp2ts) e.1 = .ok i := by rw [look, (tsIndex_get _ hn _ _).2 hi]
  have e2 : look (tsIndex ppp2ts) e.2.1 = .ok j := by rw [look, (tsIndex_get _ hn _ _).2 hj]
  have e3 : skips regions.length (some adj) only i j = .ok (only && !adj i j) := by
    unfold skips
    cases only
    · rfl
    · simp [li, lj]
  unfold arrow
  rw [e1, ok_bind, e2, ok_bind, e3, ok_bind]
  by_cases hs : only = true ∧ adj i j = false
  · refine ⟨[], ?_, i, j, hi, hj, by rw [if_pos hs]⟩
    rw [if_pos (by rw [hs.1, hs.2]; rfl)]
  · refine ⟨[(regions[i], regions[j])], ?_, i, j, hi, hj, ?_⟩
    · have : (only && !adj i j) = false := by
        cases only <;> cases h : adj i j <;> simp_all
      rw [if_neg (by simp [this]), List.getElem?_eq_getElem li, List.getElem?_eq_getElem lj]
    · rw [if_neg hs]
      exact ⟨_, _, List.getElem?_eq_getElem li, List.getElem?_eq_getElem lj, rfl⟩

open Classical in
/-- **C127**. If all states of transitions with the desired label are listed, then `plot_ts_on_partition` draws one arrow for each
such transition, in their order, from the region of its first state to that of its second state; if only adjacent ones are
wanted, then those between regions that are not adjacent are left out, and nothing else. -/
theorem plotTs_spec {ts : LGraph ν V} (hg : ts.Ok) (hk : ts.KeysTyped) {regions : List P} {adj : Nat → Nat → Bool}
    {ppp2ts : List ν} (hn : ppp2ts.Nodup) (hlen : regions.length = ppp2ts.length) (label : Attr V) (only : Bool)
    (hs : ∀ e ∈ ts.edges, Wanted ts label e → e.1 ∈ ppp2ts ∧ e.2.1 ∈ ppp2ts) :
    ∃ rs : List (List (P × P)), plotTs regions (some adj) ts ppp2ts label only = .ok rs.flatten ∧
      List.Forall₂ (ArrowOf regions adj ppp2ts only) (ts.edges.filter fun e => decide (Wanted ts label e)) rs := by
  unfold plotTs
  rw [findEdges_spec hg hk]
  simp only [reduceCtorEq, false_implies, implies_true, true_and, ok_bind]
  have key : ∀ es : List (ν × ν × Attr V), (∀ e ∈ es, e.1 ∈ ppp2ts ∧ e.2.1 ∈ ppp2ts) →
      ∃ rs : List (List (P × P)), arrows regions (some adj) (tsIndex ppp2ts) only es = .ok rs.flatten ∧
        List.Forall₂ (ArrowOf regions adj ppp2ts only) es rs := by
    intro es
    induction es with
    | nil => exact fun _ => ⟨[], rfl, .nil⟩
    | cons e es ih =>
      intro h
      obtain ⟨rs, h1, h2⟩ := ih fun e he => h e (by simp [he])
      obtain ⟨r, h3, h4⟩ := arrow_ok (P := P) (regions := regions) (adj := adj) hn hlen only (h e (by simp)).1 (h e (by simp)).2
      exact ⟨r :: rs, by rw [arrows, h3, ok_bind, h1, ok_bind]; rfl, .cons h4 h2⟩
  obtain ⟨rs, h1, h2⟩ := key (ts.edges.filter fun e => decide (Wanted ts label e)) fun e he => by
    rw [List.mem_filter] at he
    exact hs e he.1 (by simpa using he.2)
  refine ⟨rs, ?_, h2⟩
  rw [← h1]
  congr 1
  exact List.filter_congr fun e _ => decide_eq_decide.2 Iff.rfl

/-- **C127**. A transition with the desired label between states of which one is not listed is a `KeyError`. -/
theorem plotTs_missing {ts : LGraph ν V} (hg : ts.Ok) (hk : ts.KeysTyped) {regions : List P} {adj : Nat → Nat → Bool}
    {ppp2ts : List ν} (hn : ppp2ts.Nodup) (hlen : regions.length = ppp2ts.length) {label : Attr V} (only : Bool)
    {e : ν × ν × Attr V} (he : e ∈ ts.edges) (hw : Wanted ts label e) (hm : e.1 ∉ ppp2ts ∨ e.2.1 ∉ ppp2ts) :
    plotTs regions (some adj) ts ppp2ts label only = .error .keyError := by
  classical
  unfold plotTs
  rw [findEdges_spec hg hk]
  simp only [reduceCtorEq, false_implies, implies_true, true_and, ok_bind]
  have key : ∀ es : List (ν × ν × Attr V), e ∈ es →
      arrows regions (some adj) (tsIndex ppp2ts) only es = .error .keyError := by
    intro es
    induction es with
    | nil => intro h; cases h
    | cons x es ih =>
      intro h
      rw [arrows]
      by_cases h1 : x.1 ∈ ppp2ts
      · by_cases h2 : x.2.1 ∈ ppp2ts
        · obtain ⟨r, h3, -⟩ := arrow_ok (P := P) (regions := regions) (adj := adj) hn hlen only h1 h2
          have hx : e ∈ es := by
            rcases List.mem_cons.1 h with rfl | h
            · rcases hm with hm | hm
              · exact absurd h1 hm
              · exact absurd h2 hm
            · exact h
          rw [h3, ok_bind, ih hx]
          rfl
        · obtain ⟨i, hi⟩ := List.getElem?_of_mem h1
          have e1 : look (tsIndex ppp2ts) x.1 = .ok i := by rw [look, (tsIndex_get _ hn _ _).2 hi]
          have e2 : look (tsIndex ppp2ts) x.2.1 = .error .keyError := by rw [look, (tsIndex_none hn).2 h2]
          rw [arrow, e1, ok_bind, e2]
          rfl
      · have e1 : look (tsIndex ppp2ts) x.1 = .error .keyError := by rw [look, (tsIndex_none hn).2 h1]
        rw [arrow, e1]
        rfl
  exact key _ (by
    rw [List.mem_filter]
    exact ⟨he, by simpa [Wanted] using hw⟩)

/-- **C127**. Without a matrix of adjacency, a drawing of the adjacent transitions only is a `TypeError`, if there is a transition to
draw between listed states; a drawing of all of them is not affected. -/
theorem plotTs_no_matrix {ts : LGraph ν V} (hg : ts.Ok) (hk : ts.KeysTyped) {regions : List P} (adj : Nat → Nat → Bool)
    {ppp2ts : List ν} (hn : ppp2ts.Nodup) {label : Attr V} :
    plotTs regions none ts ppp2ts label false = plotTs regions (some adj) ts ppp2ts label false ∧
    ((∀ e ∈ ts.edges, Wanted ts label e → e.1 ∈ ppp2ts ∧ e.2.1 ∈ ppp2ts) → (∃ e ∈ ts.edges, Wanted ts label e) →
      plotTs regions none ts ppp2ts label true = .error .typeError) := by
  classical
  constructor
  · unfold plotTs
    have : ∀ es : List (ν × ν × Attr V), arrows regions none (tsIndex ppp2ts) false es =
        arrows regions (some adj) (tsIndex ppp2ts) false es := by
      intro es
      induction es with
      | nil => rfl
      | cons e es ih => rw [arrows, arrows, ih]; rfl
    simp only [this]
  · rintro hs ⟨e, he, hw⟩
    unfold plotTs
    rw [findEdges_spec hg hk]
    simp only [reduceCtorEq, false_implies, implies_true, true_and, ok_bind]
    cases hf : ts.edges.filter fun e => decide (label = [] ∨ e.2.2 = [] ∨ Matches ts.edgeTypes e.2.2 label) with
    | nil =>
      have := List.filter_eq_nil_iff.1 hf e he
      exact absurd hw (by simpa [Wanted] using this)
    | cons x xs =>
      have hx : x ∈ ts.edges ∧ Wanted ts label x := by
        have : x ∈ ts.edges.filter fun e => decide (label = [] ∨ e.2.2 = [] ∨ Matches ts.edgeTypes e.2.2 label) := by
          rw [hf]; simp
        rw [List.mem_filter] at this
        exact ⟨this.1, by simpa [Wanted] using this.2⟩
      obtain ⟨h1, h2⟩ := hs x hx.1 hx.2
      obtain ⟨i, hi⟩ := List.getElem?_of_mem h1
      obtain ⟨j, hj⟩ := List.getElem?_of_mem h2
      have e1 : look (tsIndex ppp2ts) x.1 = .ok i := by rw [look, (tsIndex_get _ hn _ _).2 hi]
      have e2 : look (tsIndex ppp2ts) x.2.1 = .ok j := by rw [look, (tsIndex_get _ hn _ _).2 hj]
      rw [arrows, arrow, e1, ok_bind, e2, ok_bind]
      rfl

/-! ## The matrix of a strategy -/

theorem findEdges_all (m : LGraph ν V) : m.findEdges none none [] = .ok m.edges := by
  unfold findEdges
  dsimp only
  induction m.edges with
  | nil => rfl
  | cons e es ih => rw [filterM', ih]; rfl

/-- The state `u` has the location `i`, among `n` regions. -/
def AtLoc (n : Nat) (num : V → Option Int) (m : LGraph ν V) (u : ν) (i : Nat) : Prop :=
  ∃ a x z, m.nodes.get? u = some a ∧ a.get? "loc" = some x ∧ num x = some z ∧ i < n ∧ (z = i ∨ z = (i : Int) - n)

theorem position_ok {n : Nat} {o : Option Int} {i : Nat} :
    position n o = .ok i ↔ ∃ z, o = some z ∧ i < n ∧ (z = i ∨ z = (i : Int) - n) := by
  cases o with
  | none => simp [position]
  | some z =>
    simp only [position, Option.some.injEq, exists_eq_left']
    by_cases h1 : 0 ≤ z ∧ z < n
    · rw [if_pos h1, Except.ok.injEq]
      omega
    · rw [if_neg h1]
      by_cases h2 : z < 0 ∧ 0 ≤ z + n
      · rw [if_pos h2, Except.ok.injEq]
        omega
      · rw [if_neg h2]
        simp only [reduceCtorEq, false_iff, not_and]
        omega

omit [DecidableEq V] in
theorem projectLoop_mem {n : Nat} {num : V → Option Int} {m : LGraph ν V} {es : List (ν × ν × Attr V)}
    {r : List (Nat × Nat)} (h : projectLoop n num m es = .ok r) (i j : Nat) :
    (i, j) ∈ r ↔ ∃ e ∈ es, AtLoc n num m e.1 i ∧ AtLoc n num m e.2.1 j := by
  induction es generalizing r with
  | nil => cases h; simp
  | cons e es ih =>
    rw [projectLoop] at h
    cases h1 : projectStep n num m e with
    | error x => rw [h1] at h; cases h
    | ok a =>
      rw [h1, ok_bind] at h
      cases h2 : projectLoop n num m es with
      | error x => rw [h2] at h; cases h
      | ok as =>
        rw [h2] at h
        cases h
        rw [List.mem_append, List.exists_mem_cons_iff, ih h2]
        refine or_congr ?_ Iff.rfl
        unfold projectStep at h1
        split at h1
        · rename_i x y hx hy
          split at h1
          · rename_i p q hp hq
            cases hi : position n (num p) with
            | error t => rw [hi] at h1; cases h1
            | ok i' =>
              rw [hi, ok_bind] at h1
              cases hj : position n (num q) with
              | error t => rw [hj] at h1; cases h1
              | ok j' =>
                rw [hj] at h1
                cases h1
                have e1 : AtLoc n num m e.1 i ↔ position n (num p) = .ok i := by
                  rw [position_ok]
                  unfold AtLoc
                  simp [hx, hp]
                have e2 : AtLoc n num m e.2.1 j ↔ position n (num q) = .ok j := by
                  rw [position_ok]
                  unfold AtLoc
                  simp [hy, hq]
                rw [e1, e2, hi, hj]
                simp [eq_comm]
          · rename_i hno
            cases h1
            constructor
            · intro h; cases h
            · rintro ⟨⟨a1, x1, z1, g1, g2, -⟩, a2, x2, z2, g3, g4, -⟩
              rw [hx] at g1
              rw [hy] at g3
              cases g1
              cases g3
              exact absurd g4 (hno x1 x2 g2)
        · cases h1

/-- **C127**. The matrix of `project_strategy_on_partition` has a one at `(i, j)` exactly if a transition of the machine joins a
state that is labeled with the location `i` and one labeled with `j` (negative locations count from the end). -/
theorem projectStrategy_spec {n : Nat} {num : V → Option Int} {m : LGraph ν V} {r : List (Nat × Nat)}
    (h : projectStrategy n num m = .ok r) (i j : Nat) :
    (i, j) ∈ r ↔ ∃ e ∈ m.edges, AtLoc n num m e.1 i ∧ AtLoc n num m e.2.1 j := by
  unfold projectStrategy at h
  rw [findEdges_all, ok_bind] at h
  exact projectLoop_mem h i j

/-- The matrix can be computed if the states that have a location have an integer in the range. -/
theorem projectStrategy_returns {n : Nat} {num : V → Option Int} {m : LGraph ν V} (hg : m.Ok)
    (hl : ∀ u a x, m.nodes.get? u = some a → a.get? "loc" = some x → ∃ z, num x = some z ∧ -(n : Int) ≤ z ∧ z < n) :
    ∃ r, projectStrategy n num m = .ok r := by
  unfold projectStrategy
  rw [findEdges_all, ok_bind]
  have key : ∀ es : List (ν × ν × Attr V), (∀ e ∈ es, e ∈ m.edges) → ∃ r, projectLoop n num m es = .ok r := by
    intro es
    induction es with
    | nil => exact fun _ => ⟨[], rfl⟩
    | cons e es ih =>
      intro h
      obtain ⟨r, hr⟩ := ih fun x hx => h x (by simp [hx])
      have hnode := And.intro (hg.source e.1 e.2.1 e.2.2 (h e (by simp))) (hg.target e.1 e.2.1 e.2.2 (h e (by simp)))
      have get : ∀ u, m.hasNode u = true → ∃ a, m.nodes.get? u = some a := by
        intro u hu
        unfold hasNode at hu
        rw [has_eq] at hu
        exact Option.isSome_iff_exists.1 hu
      obtain ⟨a, ha⟩ := get _ hnode.1
      obtain ⟨b, hb⟩ := get _ hnode.2
      have hs : ∃ s, projectStep n num m e = .ok s := by
        unfold projectStep
        rw [ha, hb]
        dsimp only
        split
        · rename_i x y hx hy
          obtain ⟨z, h1, h2, h3⟩ := hl _ _ _ ha hx
          obtain ⟨w, h4, h5, h6⟩ := hl _ _ _ hb hy
          have p1 : ∃ i, position n (num x) = .ok i := by
            refine ⟨(if 0 ≤ z then z else z + n).toNat, position_ok.2 ⟨z, h1, ?_⟩⟩
            split <;> omega
          have p2 : ∃ i, position n (num y) = .ok i := by
            refine ⟨(if 0 ≤ w then w else w + n).toNat, position_ok.2 ⟨w, h4, ?_⟩⟩
            split <;> omega
          obtain ⟨i, hi⟩ := p1
          obtain ⟨j, hj⟩ := p2
          rw [hi, ok_bind, hj, ok_bind]
          exact ⟨_, rfl⟩
        · exact ⟨_, rfl⟩
      obtain ⟨s, hs⟩ := hs
      exact ⟨s ++ r, by rw [projectLoop, hs, ok_bind, hr]; rfl⟩
  exact key _ fun e he => he

open Mach Synth

/-- **C127**. The states of a machine that is made from a strategy have no labels, so its matrix has no entry: the
projection of a synthesized Mealy machine is always empty. -/
theorem projectStrategy_empty {A : Strategy ν} {env sys : Dict String Dom} {isInit : Attr Synth.Elem → Except PyErr Bool}
    {sinit : ν} {m : Machine ν Synth.Elem} (h : strategy2mealy A env sys isInit sinit = .ok m) (hg : m.graph.Ok) (n : Nat)
    (num : Synth.Elem → Option Int) : projectStrategy n num m.graph = .ok [] := by
  have hnode : ∀ u a, m.graph.nodes.get? u = some a → a = [] := by
    unfold strategy2mealy at h
    split at h
    · cases h
    · obtain ⟨g0, h0, h⟩ := bind_ok h
      dsimp only at h
      split at h
      · cases h
      obtain ⟨g1, h1, h⟩ := bind_ok h
      obtain ⟨g2, h2, h⟩ := bind_ok h
      obtain ⟨g3, h3, h⟩ := bind_ok h
      obtain ⟨g4, h4, h⟩ := bind_ok h
      split at h
      · cases h
      cases h
      let Q : LGraph ν Synth.Elem → Prop := fun g => g.nodeDefaults = [] ∧ ∀ u a, g.nodes.get? u = some a → a = []
      have add : ∀ (g g' : LGraph ν Synth.Elem) (u : ν), Q g → g.addNode u [] = .ok g' → Q g' := by
        intro g g' u hQ hh
        unfold addNode at hh
        rw [hQ.1] at hh
        obtain ⟨t, ht, hh⟩ := bind_ok hh
        split at hh
        · cases hh
        cases hh
        have : t = [] := by cases ht; rfl
        subst this
        refine ⟨rfl, fun v a hv => ?_⟩
        rw [Dict.get?_set] at hv
        split at hv
        · cases hv
          cases hx : g.nodes.get? u with
          | none => rfl
          | some b => rw [hQ.2 u b hx]; rfl
        · exact hQ.2 v a hv
      have q0 : Q g0 := by
        have : ∀ (l : List (ν × Attr Synth.Elem)) (g : LGraph ν Synth.Elem), Q g →
            toExcept (g.addNodesFrom (l.map fun p => (p.1, []))) = .ok g0 → Q g0 := by
          intro l
          induction l with
          | nil => intro g hQ hh; cases hh; exact hQ
          | cons p l ih =>
            intro g hQ hh
            unfold addNodesFrom at hh ih
            rw [List.map_cons, seqM] at hh
            cases hx : g.addNode p.1 [] true with
            | error e => rw [hx] at hh; cases hh
            | ok g' => rw [hx] at hh; exact ih g' (add g g' p.1 hQ hx) hh
        exact this _ _ ⟨rfl, fun u a hu => by cases hu⟩ h0
      have q1 : Q g1 := by
        refine foldE_inv (P := Q) ?_ q0 h1
        intro s e s' hs hh
        unfold addStrategyEdge at hh
        obtain ⟨st, -, hh⟩ := bind_ok hh
        obtain ⟨d, -, hh⟩ := bind_ok hh
        obtain ⟨_, _, _, _, _, h3⟩ := addEdge_inv hh
        rcases h3 with ⟨_, rfl⟩ | ⟨_, _, rfl⟩ <;> exact hs
      have q2 := add _ _ _ q1 h2
      have q3 : Q g3 := by
        unfold addInitial at h3
        split at h3
        · cases h3; exact q2
        · cases h3
      intro u a hu
      rw [addInitEdges_nodes h4] at hu
      exact q3.2 u a hu
  obtain ⟨r, hr⟩ := projectStrategy_returns (n := n) (num := num) hg fun u a x hu hx => by
    rw [hnode u a hu] at hx
    cases hx
  rw [hr]
  cases r with
  | nil => rfl
  | cons p r =>
    obtain ⟨e, -, ⟨a, x, z, h1, h2, -⟩, -⟩ := (projectStrategy_spec hr p.1 p.2).1 (by simp)
    rw [hnode _ _ h1] at h2
    cases h2

/-! ## Examples -/

/-- Two regions that are not adjacent and a third one. -/
def threeTs : LGraph Nat Synth.Elem :=
  run [] [] [] [] [.addNode 5 [] true, .addNode 6 [] true, .addNode 7 [] true, .addEdge 5 6 [] true,
    .addEdge 5 7 [] true, .addEdge 7 7 [] true]

def nextTo (i j : Nat) : Bool := i == j || (i == 0 && j == 2) || (i == 2 && j == 0)

example : (plotTs ["p", "q", "r"] (some nextTo) threeTs [6, 5, 7] [] true).toOption = some [("r", "r")] := by decide +kernel

example : (plotTs ["p", "q", "r"] (some nextTo) threeTs [6, 5, 7] [] false).toOption =
    some [("q", "p"), ("q", "r"), ("r", "r")] := by decide +kernel

example : plotTs ["p", "q"] (some nextTo) threeTs [6, 5] [] false = .error .keyError := rfl

example : plotTs ["p", "q", "r"] none threeTs [6, 5, 7] [] true = .error .typeError := rfl

theorem threeTs_ok : threeTs.Ok ∧ threeTs.KeysTyped :=
  run_keysTyped [] [] [] [] _ (by simp [GOp.Wf, Dict.Wf, Dict.keys]) (by simp [GOp.Checked])

/-- The theorem applies to it. -/
example : ∃ rs : List (List (String × String)), plotTs ["p", "q", "r"] (some nextTo) threeTs [6, 5, 7] [] true = .ok rs.flatten ∧
    List.Forall₂ (ArrowOf ["p", "q", "r"] nextTo [6, 5, 7] true) threeTs.edges rs := by
  classical
  have h := plotTs_spec (P := String) threeTs_ok.1 threeTs_ok.2 (regions := ["p", "q", "r"]) (adj := nextTo)
    (ppp2ts := [6, 5, 7]) (by decide) rfl [] true (by
      intro e he _
      have : ∀ e ∈ threeTs.edges, e.1 ∈ [6, 5, 7] ∧ e.2.1 ∈ [6, 5, 7] := by decide +kernel
      exact this e he)
  simpa [Wanted] using h

/-- A machine whose states have locations. -/
def located : LGraph Nat Synth.Elem :=
  { nodes := [(0, [("loc", .int 1)]), (1, [("loc", .int (-1))]), (2, [])],
    edges := [(0, 1, []), (1, 2, []), (1, 1, [])] }

def numOf : Synth.Elem → Option Int
  | .int z => some z
  | .str _ => none

example : (projectStrategy 3 numOf located).toOption = some [(1, 2), (2, 2)] := by decide +kernel

/-- The strategy `relay` has a machine, whose matrix is empty. -/
example : ∃ m, strategy2mealy relay [("x", .boolean)] [("a", .strs ["go", "stop"])] relayInit 9 = .ok m ∧
    m.graph.Ok ∧ m.graph.edges ≠ [] ∧ projectStrategy 3 numOf m.graph = .ok [] := by
  obtain ⟨m, hm, he⟩ : ∃ m, strategy2mealy relay [("x", .boolean)] [("a", .strs ["go", "stop"])] relayInit 9 = .ok m ∧
    m.graph.edges ≠ [] := ⟨_, rfl, by decide +kernel⟩
  have ok := (strategy2mealy_spec relay_ok.1 relay_ok.2.1 relay_ok.2.2 hm).2.2.2.2.2.1
  exact ⟨m, hm, ok, he, projectStrategy_empty hm ok _ _⟩

end Plot
end Tulip
