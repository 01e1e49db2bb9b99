import Verif.Transys.ShortestPath
import Mathlib.Algebra.Order.Monoid.Defs
import Mathlib.Algebra.Order.Monoid.Unbundled.Basic
import Mathlib.Tactic.Tauto

/-!
# C13: shortest paths
-/

namespace Tulip

variable {ν C : Type} [DecidableEq ν]

/-- `Walk edges s t path c`: the states of `path` lead from `s` to `t` along edges whose costs add up
to `c`. -/
inductive Walk [Add C] [Zero C] (edges : List (ν × ν × C)) (s : ν) : ν → List ν → C → Prop
  | nil : Walk edges s s [s] 0
  | snoc {v w : ν} {p : List ν} {c k : C} (h : Walk edges s v p c) (e : (v, w, k) ∈ edges) :
      Walk edges s w (p ++ [w]) (k + c)

/-- What is required of `heappop`: it fails only on an empty heap, and otherwise returns an entry
of least cost and leaves the other entries. How ties are broken is not fixed. -/
def HeapPop [LT C]
    (pop : List (HeapEntry ν C) → Option (HeapEntry ν C × List (HeapEntry ν C))) : Prop :=
  (∀ q, pop q = none → q = []) ∧
  ∀ q e rest, pop q = some (e, rest) → q.Perm (e :: rest) ∧ ∀ x ∈ q, ¬ x.cost < e.cost

variable [AddCommMonoid C] [LinearOrder C] [IsOrderedAddMonoid C]

/-- The invariant of the search. `fin` gives the least cost of each visited node. -/
structure DInv (edges : List (ν × ν × C)) (source : ν) (targets : ν → Bool) (fin : ν → C)
    (s : DState ν C) : Prop where
  entry : ∀ e ∈ s.queue, Walk edges source e.node (e.path ++ [e.node]) e.cost
  start : source ∉ s.visited → ∃ e ∈ s.queue, e.node = source ∧ e.cost ≤ 0
  dist : ∀ v d, s.dist.get? v = some d → v ∉ s.visited → ∃ e ∈ s.queue, e.node = v ∧ e.cost ≤ d
  least : ∀ v ∈ s.visited, ∀ p c, Walk edges source v p c → fin v ≤ c
  edge : ∀ v ∈ s.visited, ∀ w k, (v, w, k) ∈ edges → w ∈ s.visited ∨
    ∃ e ∈ s.queue, e.node = w ∧ e.cost ≤ k + fin v
  target : ∀ v ∈ s.visited, targets v = false

/-- Any walk to a node not yet visited is at least as costly as some entry. -/
theorem DInv.entry_le {edges : List (ν × ν × C)} {source : ν} {targets : ν → Bool} {fin : ν → C}
    {s : DState ν C} (h : DInv edges source targets fin s)
    (hnn : ∀ e ∈ edges, 0 ≤ e.2.2) {t : ν} {p : List ν} {c : C} (hw : Walk edges source t p c)
    (ht : t ∉ s.visited) : ∃ e ∈ s.queue, e.cost ≤ c := by
  induction hw with
  | nil =>
    obtain ⟨e, h1, _, h2⟩ := h.start ht
    exact ⟨e, h1, h2⟩
  | @snoc v w p c k hv he ih =>
    by_cases hvis : v ∈ s.visited
    · rcases h.edge v hvis w k he with h1 | ⟨e, h1, _, h2⟩
      · exact absurd h1 ht
      · exact ⟨e, h1, h2.trans (add_le_add_right (h.least v hvis p c hv) k)⟩
    · obtain ⟨e, h1, h2⟩ := ih hvis
      have hk : 0 ≤ k := hnn (v, w, k) he
      exact ⟨e, h1, h2.trans (le_add_of_nonneg_left hk)⟩

/-- The invariant between two steps of the inner loop: the edges in `done` of the node `u` have been
relaxed. -/
structure RInv (edges : List (ν × ν × C)) (source : ν) (targets : ν → Bool) (fin : ν → C) (u : ν)
    (done : List (ν × ν × C)) (s : DState ν C) : Prop where
  entry : ∀ e ∈ s.queue, Walk edges source e.node (e.path ++ [e.node]) e.cost
  start : source ∉ s.visited → ∃ e ∈ s.queue, e.node = source ∧ e.cost ≤ 0
  dist : ∀ v d, s.dist.get? v = some d → v ∉ s.visited → ∃ e ∈ s.queue, e.node = v ∧ e.cost ≤ d
  least : ∀ v ∈ s.visited, ∀ p c, Walk edges source v p c → fin v ≤ c
  edge : ∀ v ∈ s.visited, ∀ w k, (v, w, k) ∈ edges → (v = u → (v, w, k) ∈ done) → w ∈ s.visited ∨
    ∃ e ∈ s.queue, e.node = w ∧ e.cost ≤ k + fin v
  target : ∀ v ∈ s.visited, targets v = false

theorem relax_inv {edges : List (ν × ν × C)} {source : ν} {targets : ν → Bool} {fin : ν → C} {u : ν}
    {falsy : C → Bool} {path : List ν} (hp : Walk edges source u path (fin u))
    {done : List (ν × ν × C)} {e : ν × ν × C} (he : e ∈ edges) (heu : e.1 = u) {s : DState ν C}
    (h : RInv edges source targets fin u done s) :
    RInv edges source targets fin u (e :: done) (relax falsy (fin u) path s e) ∧
      (relax falsy (fin u) path s e).visited = s.visited ∧
      (relax falsy (fin u) path s e).queue.length ≤ s.queue.length + 1 := by
  obtain ⟨eu, v, k⟩ := e
  simp only at heu
  subst heu
  -- covering the edge `e` suffices when the queue only grows
  have grow : ∀ s' : DState ν C, s'.visited = s.visited → (∀ x ∈ s.queue, x ∈ s'.queue) →
      (∀ x ∈ s'.queue, Walk edges source x.node (x.path ++ [x.node]) x.cost) →
      (∀ w d, s'.dist.get? w = some d → w ∉ s.visited → ∃ x ∈ s'.queue, x.node = w ∧ x.cost ≤ d) →
      (v ∈ s.visited ∨ ∃ x ∈ s'.queue, x.node = v ∧ x.cost ≤ k + fin eu) →
      RInv edges source targets fin eu ((eu, v, k) :: done) s' := by
    intro s' hv hq hw hd hc
    refine ⟨hw, ?_, ?_, ?_, ?_, ?_⟩
    · rw [hv]; intro hs
      obtain ⟨x, h1, h2⟩ := h.start hs
      exact ⟨x, hq x h1, h2⟩
    · rw [hv]; exact hd
    · rw [hv]; exact h.least
    · rw [hv]
      intro a ha w kk hm hdone
      by_cases hcase : (a, w, kk) = (eu, v, k)
      · cases hcase; exact hc
      · rcases h.edge a ha w kk hm (fun e => by
          have := hdone e
          rcases List.mem_cons.1 this with h1 | h1
          · exact absurd h1 hcase
          · exact h1) with h1 | ⟨x, h1, h2⟩
        · exact Or.inl h1
        · exact Or.inr ⟨x, hq x h1, h2⟩
    · rw [hv]; exact h.target
  unfold relax
  simp only
  split
  · rename_i hvis
    exact ⟨grow s rfl (fun _ h => h) h.entry h.dist (Or.inl hvis), rfl, by omega⟩
  · rename_i hvis
    have push : RInv edges source targets fin eu ((eu, v, k) :: done)
        { s with dist := s.dist.set v (k + fin eu), queue := s.queue ++ [⟨k + fin eu, v, path⟩] } := by
      refine grow _ rfl (fun x hx => by simp [hx]) ?_ ?_ (Or.inr ⟨⟨k + fin eu, v, path⟩, by simp, rfl, le_refl _⟩)
      · intro x hx
        rcases List.mem_append.1 hx with hx | hx
        · exact h.entry x hx
        · rw [List.mem_singleton] at hx
          subst hx
          exact hp.snoc he
      · intro w d hd hw
        simp only [Dict.get?_set] at hd
        split at hd
        · rename_i hwv
          simp only [Option.some.injEq] at hd
          exact ⟨⟨k + fin eu, v, path⟩, by simp, by simp [hwv], by simp [hd]⟩
        · obtain ⟨x, h1, h2⟩ := h.dist w d hd hw
          exact ⟨x, by simp [h1], h2⟩
    cases hdv : s.dist.get? v with
    | none =>
      simp only [↓reduceIte]
      exact ⟨push, by trivial, by simp⟩
    | some d =>
      simp only
      split
      · exact ⟨push, rfl, by simp⟩
      · rename_i hb
        simp only [Bool.or_eq_true, decide_eq_true_eq, not_or, not_lt] at hb
        obtain ⟨x, h1, h2, h3⟩ := h.dist v d hdv hvis
        exact ⟨grow s rfl (fun _ h => h) h.entry h.dist (Or.inr ⟨x, h1, h2, h3.trans hb.2⟩), rfl,
          by omega⟩

theorem relax_fold {edges : List (ν × ν × C)} {source : ν} {targets : ν → Bool} {fin : ν → C}
    {u : ν} {falsy : C → Bool} {path : List ν} (hp : Walk edges source u path (fin u))
    (l : List (ν × ν × C)) (hl : ∀ e ∈ l, e ∈ edges ∧ e.1 = u) {done : List (ν × ν × C)}
    {s : DState ν C} (h : RInv edges source targets fin u done s) :
    (∃ done', (∀ e, e ∈ l ∨ e ∈ done → e ∈ done') ∧
      RInv edges source targets fin u done' (l.foldl (relax falsy (fin u) path) s)) ∧
      (l.foldl (relax falsy (fin u) path) s).visited = s.visited ∧
      (l.foldl (relax falsy (fin u) path) s).queue.length ≤ s.queue.length + l.length := by
  induction l generalizing done s with
  | nil => exact ⟨⟨done, by simp, h⟩, rfl, by simp⟩
  | cons e l ih =>
    obtain ⟨he, heu⟩ := hl e (by simp)
    obtain ⟨h1, h2, h3⟩ := relax_inv (falsy := falsy) hp he heu h
    obtain ⟨⟨done', h4, h5⟩, h6, h7⟩ := ih (fun x hx => hl x (by simp [hx])) h1
    refine ⟨⟨done', fun x hx => h4 x ?_, h5⟩, h6.trans h2, ?_⟩
    · simp only [List.mem_cons] at hx ⊢; tauto
    · simp only [List.foldl_cons, List.length_cons]; omega

/-- The number of edges that leave nodes not visited. -/
def unvisitedEdges (edges : List (ν × ν × C)) (visited : List ν) : Nat :=
  (edges.filter fun e => decide (e.1 ∉ visited)).length

omit [AddCommMonoid C] [LinearOrder C] [IsOrderedAddMonoid C] in
theorem unvisitedEdges_cons (edges : List (ν × ν × C)) (visited : List ν) (u : ν)
    (hu : u ∉ visited) :
    unvisitedEdges edges (u :: visited) + (edges.filter fun e => e.1 == u).length =
      unvisitedEdges edges visited := by
  unfold unvisitedEdges
  induction edges with
  | nil => rfl
  | cons e edges ih =>
    simp only [List.filter_cons, List.mem_cons, not_or, decide_not] at ih ⊢
    by_cases h1 : e.1 = u
    · have : e.1 ∉ visited := by rw [h1]; exact hu
      simp [h1, hu] at ih ⊢
      omega
    · by_cases h2 : e.1 ∈ visited
      · simp [h1, h2] at ih ⊢; omega
      · simp [h1, h2] at ih ⊢; omega

/-- What a search result claims. -/
def SearchOk (edges : List (ν × ν × C)) (source : ν) (targets : ν → Bool) : Search ν C → Prop
  | .found c p => (∃ t, targets t = true ∧ Walk edges source t p c) ∧
      ∀ t q d, targets t = true → Walk edges source t q d → c ≤ d
  | .unreachable => ∀ t q d, targets t = true → ¬ Walk edges source t q d
  | .outOfFuel => False

theorem dijkstraLoop_spec {edges : List (ν × ν × C)} {source : ν} {targets : ν → Bool}
    {falsy : C → Bool} {pop : List (HeapEntry ν C) → Option (HeapEntry ν C × List (HeapEntry ν C))}
    (hpop : HeapPop pop) (hnn : ∀ e ∈ edges, 0 ≤ e.2.2) (fuel : Nat) {fin : ν → C}
    {s : DState ν C} (h : DInv edges source targets fin s)
    (hf : s.queue.length + unvisitedEdges edges s.visited < fuel) :
    SearchOk edges source targets (dijkstraLoop edges targets falsy pop fuel s) := by
  induction fuel generalizing s fin with
  | zero => omega
  | succ fuel ih =>
    simp only [dijkstraLoop]
    cases hq : pop s.queue with
    | none =>
      have hemp := hpop.1 _ hq
      intro t q d ht hw
      have hvis : t ∈ s.visited := by
        by_contra hc
        obtain ⟨e, h1, _⟩ := h.entry_le hnn hw hc
        rw [hemp] at h1; simp at h1
      rw [h.target t hvis] at ht; cases ht
    | some r =>
      obtain ⟨e, rest⟩ := r
      obtain ⟨hperm, hmin⟩ := hpop.2 _ _ _ hq
      have hmem : ∀ x, x ∈ s.queue ↔ x = e ∨ x ∈ rest := fun x => by
        rw [hperm.mem_iff, List.mem_cons]
      have hlen : s.queue.length = rest.length + 1 := by rw [hperm.length_eq, List.length_cons]
      have he : e ∈ s.queue := (hmem e).2 (Or.inl rfl)
      simp only
      split
      · -- an obsolete entry
        rename_i hvis
        refine ih (fin := fin) ⟨fun x hx => h.entry x ((hmem x).2 (Or.inr hx)), ?_, ?_, h.least, ?_,
          h.target⟩ (by simp only; omega)
        · intro hs
          obtain ⟨x, h1, h2, h3⟩ := h.start hs
          rcases (hmem x).1 h1 with rfl | h1
          · exact absurd (h2 ▸ hvis) hs
          · exact ⟨x, h1, h2, h3⟩
        · intro v d hd hv
          obtain ⟨x, h1, h2, h3⟩ := h.dist v d hd hv
          rcases (hmem x).1 h1 with rfl | h1
          · exact absurd (h2 ▸ hvis) hv
          · exact ⟨x, h1, h2, h3⟩
        · intro v hv w k hm
          rcases h.edge v hv w k hm with h1 | ⟨x, h1, h2, h3⟩
          · exact Or.inl h1
          · rcases (hmem x).1 h1 with rfl | h1
            · exact Or.inl (h2 ▸ hvis)
            · exact Or.inr ⟨x, h1, h2, h3⟩
      · rename_i hvis
        have hwalk := h.entry e he
        -- the entry has the least cost of all walks to unvisited nodes
        have hle : ∀ t p c, t ∉ s.visited → Walk edges source t p c → e.cost ≤ c := by
          intro t p c ht hw
          obtain ⟨x, h1, h2⟩ := h.entry_le hnn hw ht
          exact (not_lt.1 (hmin x h1)).trans h2
        split
        · rename_i htar
          refine ⟨⟨e.node, htar, hwalk⟩, fun t q d ht hw => ?_⟩
          refine hle t q d (fun hv => ?_) hw
          rw [h.target t hv] at ht; cases ht
        · rename_i htar
          let fin' : ν → C := fun v => if v = e.node then e.cost else fin v
          have hfe : fin' e.node = e.cost := by simp [fin']
          have hfv : ∀ v ∈ s.visited, fin' v = fin v := fun v hv => by
            have : v ≠ e.node := fun hh => hvis (hh ▸ hv)
            simp [fin', this]
          have hR : RInv edges source targets fin' e.node []
              { s with queue := rest, visited := e.node :: s.visited } := by
            refine ⟨fun x hx => h.entry x ((hmem x).2 (Or.inr hx)), ?_, ?_, ?_, ?_, ?_⟩
            · intro hs
              simp only [List.mem_cons, not_or] at hs
              obtain ⟨x, h1, h2, h3⟩ := h.start hs.2
              rcases (hmem x).1 h1 with rfl | h1
              · exact absurd h2.symm hs.1
              · exact ⟨x, h1, h2, h3⟩
            · intro v d hd hv
              simp only [List.mem_cons, not_or] at hv
              obtain ⟨x, h1, h2, h3⟩ := h.dist v d hd hv.2
              rcases (hmem x).1 h1 with rfl | h1
              · exact absurd h2.symm hv.1
              · exact ⟨x, h1, h2, h3⟩
            · intro v hv p c hw
              rcases List.mem_cons.1 hv with rfl | hv
              · rw [hfe]; exact hle _ p c hvis hw
              · rw [hfv v hv]; exact h.least v hv p c hw
            · intro v hv w k hm hdone
              rcases List.mem_cons.1 hv with rfl | hv
              · have := hdone rfl; simp at this
              · rw [hfv v hv]
                rcases h.edge v hv w k hm with h1 | ⟨x, h1, h2, h3⟩
                · exact Or.inl (by simp [h1])
                · rcases (hmem x).1 h1 with rfl | h1
                  · exact Or.inl (by simp [h2])
                  · exact Or.inr ⟨x, h1, h2, h3⟩
            · intro v hv
              rcases List.mem_cons.1 hv with rfl | hv
              · simpa using htar
              · exact h.target v hv
          have hwalk' : Walk edges source e.node (e.path ++ [e.node]) (fin' e.node) := by
            rw [hfe]; exact hwalk
          obtain ⟨⟨done, h1, h2⟩, h3, h4⟩ := relax_fold (falsy := falsy) hwalk'
            (edges.filter fun x => x.1 == e.node)
            (fun x hx => by
              rw [List.mem_filter] at hx
              exact ⟨hx.1, by simpa using hx.2⟩) hR
          rw [hfe] at h2 h3 h4
          refine ih (fin := fin') ⟨h2.entry, h2.start, h2.dist, h2.least, ?_, h2.target⟩ ?_
          · intro v hv w k hm
            refine h2.edge v hv w k hm fun hvu => h1 _ (Or.inl ?_)
            rw [List.mem_filter]
            exact ⟨hm, by simp [hvu]⟩
          · rw [h3]
            simp only at h4 ⊢
            have := unvisitedEdges_cons edges s.visited e.node hvis
            omega

/-- **C13.** With nonnegative costs the search returns a path of the graph from the source to a
target whose cost is the returned one and which is cheapest among all walks to all targets; it
returns infinite cost and the empty path only if no target can be reached; it always terminates.
This holds for every way of breaking ties in the heap. -/
theorem dijkstra_correct (edges : List (ν × ν × C)) (source : ν) (targets : ν → Bool)
    (falsy : C → Bool)
    (pop : List (HeapEntry ν C) → Option (HeapEntry ν C × List (HeapEntry ν C)))
    (hpop : HeapPop pop) (hnn : ∀ e ∈ edges, 0 ≤ e.2.2) :
    SearchOk edges source targets (dijkstra edges source targets falsy pop) := by
  refine dijkstraLoop_spec hpop hnn _ (fin := fun _ => 0)
    (s := ⟨[(source, 0)], [], [⟨0, source, []⟩]⟩) ⟨?_, ?_, ?_, by simp, by simp, by simp⟩ ?_
  · intro e he
    rw [List.mem_singleton] at he
    subst he
    exact Walk.nil
  · intro _; exact ⟨⟨0, source, []⟩, by simp, rfl, le_refl _⟩
  · intro v d hd _
    simp only [Dict.get?_cons, Dict.get?_nil] at hd
    split at hd
    · rename_i hv
      simp only [Option.some.injEq] at hd
      exact ⟨⟨0, source, []⟩, by simp, hv, by simp [hd]⟩
    · cases hd
  · have : unvisitedEdges edges [] ≤ edges.length := List.length_filter_le _ _
    simp only [List.length_singleton]
    omega

/-- Best over several sources. -/
def SearchManyOk (edges : List (ν × ν × C)) (sources : ν → Prop) (targets : ν → Bool) :
    Search ν C → Prop
  | .found c p => (∃ s t, sources s ∧ targets t = true ∧ Walk edges s t p c) ∧
      ∀ s t q d, sources s → targets t = true → Walk edges s t q d → c ≤ d
  | .unreachable => ∀ s t q d, sources s → targets t = true → ¬ Walk edges s t q d
  | .outOfFuel => False

/-- **C13.** The search from several sources is best over all sources. -/
theorem dijkstraMany_correct (edges : List (ν × ν × C)) (sources : List ν) (targets : ν → Bool)
    (falsy : C → Bool)
    (pop : List (HeapEntry ν C) → Option (HeapEntry ν C × List (HeapEntry ν C)))
    (hpop : HeapPop pop) (hnn : ∀ e ∈ edges, 0 ≤ e.2.2) :
    SearchManyOk edges (· ∈ sources) targets
      (dijkstraMany edges targets falsy pop sources .unreachable) := by
  have key : ∀ (l done : List ν) (best : Search ν C),
      SearchManyOk edges (· ∈ done) targets best →
      SearchManyOk edges (fun s => s ∈ done ∨ s ∈ l) targets
        (dijkstraMany edges targets falsy pop l best) := by
    intro l
    induction l with
    | nil => intro done best h; simpa [dijkstraMany] using h
    | cons s l ih =>
      intro done best h
      have hs := dijkstra_correct edges s targets falsy pop hpop hnn
      simp only [dijkstraMany]
      have := ih (s :: done) (betterOf (dijkstra edges s targets falsy pop) best) ?_
      · have e : (fun x => x ∈ done ∨ x ∈ s :: l) = fun x => x ∈ s :: done ∨ x ∈ l := by
          funext x; simp only [List.mem_cons, eq_iff_iff]; tauto
        rw [e]; exact this
      · cases hd : dijkstra edges s targets falsy pop with
        | outOfFuel => rw [hd] at hs; exact hs.elim
        | unreachable =>
          rw [hd] at hs
          simp only [betterOf]
          cases best with
          | outOfFuel => exact h
          | unreachable =>
            intro x t q d hx ht hw
            rcases List.mem_cons.1 hx with rfl | hx
            · exact hs t q d ht hw
            · exact h x t q d hx ht hw
          | found b q =>
            obtain ⟨⟨x, t, h1, h2⟩, h3⟩ := h
            refine ⟨⟨x, t, by simp [h1], h2⟩, fun x t q d hx ht hw => ?_⟩
            rcases List.mem_cons.1 hx with rfl | hx
            · exact absurd hw (hs t q d ht)
            · exact h3 x t q d hx ht hw
        | found c p =>
          rw [hd] at hs
          obtain ⟨⟨t, h1, h2⟩, h3⟩ := hs
          simp only [betterOf]
          cases best with
          | outOfFuel => exact h.elim
          | unreachable =>
            refine ⟨⟨s, t, by simp, h1, h2⟩, fun x t q d hx ht hw => ?_⟩
            rcases List.mem_cons.1 hx with rfl | hx
            · exact h3 t q d ht hw
            · exact absurd hw (h x t q d hx ht)
          | found b q =>
            obtain ⟨⟨x, t', h4, h5⟩, h6⟩ := h
            by_cases hcb : c < b
            · simp only [if_pos hcb]
              refine ⟨⟨s, t, by simp, h1, h2⟩, fun x t q d hx ht hw => ?_⟩
              rcases List.mem_cons.1 hx with rfl | hx
              · exact h3 t q d ht hw
              · exact hcb.le.trans (h6 x t q d hx ht hw)
            · simp only [if_neg hcb]
              refine ⟨⟨x, t', by simp [h4], h5⟩, fun x t q d hx ht hw => ?_⟩
              rcases List.mem_cons.1 hx with rfl | hx
              · exact (not_lt.1 hcb).trans (h3 t q d ht hw)
              · exact h6 x t q d hx ht hw
  have := key sources [] .unreachable (by intro s t q d hs; simp at hs)
  simpa using this

/-! The hypotheses are met: a heap that pops the first least entry. -/

/-- The first least entry and the others. -/
def firstLeast : List (HeapEntry ν C) → Option (HeapEntry ν C × List (HeapEntry ν C))
  | [] => none
  | e :: q => match firstLeast q with
    | none => some (e, [])
    | some (m, r) => if m.cost < e.cost then some (m, e :: r) else some (e, q)

omit [DecidableEq ν] [AddCommMonoid C] [IsOrderedAddMonoid C] in
theorem heapPop_firstLeast : HeapPop (firstLeast (ν := ν) (C := C)) := by
  have h1 : ∀ q : List (HeapEntry ν C), firstLeast q = none → q = [] := by
    intro q
    cases q with
    | nil => simp
    | cons e q =>
      simp only [firstLeast]
      split
      · simp
      · split <;> simp
  refine ⟨h1, ?_⟩
  intro q
  induction q with
  | nil => intro e rest h; simp [firstLeast] at h
  | cons e q ih =>
    intro m rest h
    simp only [firstLeast] at h
    split at h
    · rename_i hq
      simp only [Option.some.injEq, Prod.mk.injEq] at h
      obtain ⟨rfl, rfl⟩ := h
      rw [h1 q hq]
      exact ⟨List.Perm.refl _, by simp⟩
    · rename_i m' r hq
      obtain ⟨h2, h3⟩ := ih m' r hq
      split at h
      · rename_i hlt
        simp only [Option.some.injEq, Prod.mk.injEq] at h
        obtain ⟨rfl, rfl⟩ := h
        refine ⟨(List.Perm.cons e h2).trans (List.Perm.swap _ _ _), fun x hx => ?_⟩
        rcases List.mem_cons.1 hx with rfl | hx
        · exact not_lt.2 hlt.le
        · exact h3 x hx
      · rename_i hlt
        simp only [Option.some.injEq, Prod.mk.injEq] at h
        obtain ⟨rfl, rfl⟩ := h
        refine ⟨List.Perm.refl _, fun x hx => ?_⟩
        rcases List.mem_cons.1 hx with rfl | hx
        · exact lt_irrefl _
        · exact not_lt.2 ((not_lt.1 hlt).trans (not_lt.1 (h3 x hx)))

/-- A graph with a detour, parallel edges and an edge of cost zero. -/
def sampleEdges : List (Nat × Nat × Nat) :=
  [(0, 1, 5), (0, 2, 1), (2, 1, 1), (1, 3, 2), (0, 3, 9), (2, 2, 0), (2, 1, 7)]

example : (∀ e ∈ sampleEdges, 0 ≤ e.2.2) ∧
    (match dijkstra sampleEdges 0 (· == 3) (· == 0) firstLeast with
      | .found c p => c = 4 ∧ p = [0, 2, 1, 3]
      | _ => False) ∧
    (match dijkstra sampleEdges 3 (· == 0) (· == 0) firstLeast with
      | .unreachable => True
      | _ => False) := by
  refine ⟨by decide, ?_, ?_⟩
  · have : dijkstra sampleEdges 0 (· == 3) (· == 0) firstLeast = .found 4 [0, 2, 1, 3] := by rfl
    rw [this]; simp
  · have : dijkstra sampleEdges 3 (· == 0) (· == 0) firstLeast = .unreachable := by rfl
    rw [this]; trivial

end Tulip
