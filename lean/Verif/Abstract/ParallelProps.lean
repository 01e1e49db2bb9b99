import Verif.Abstract.Parallel
import Verif.Abstract.SwitchedProps
import Verif.Abstract.DiscretizeTermProps

/-!
# Parallel abstraction of switched systems: theorems
-/

namespace Tulip

namespace Abs

open LGraph

set_option linter.unusedSectionVars false

variable {P X M R : Type} [DecidableEq M]

/-! ## Workers and the queue, for every schedule -/

namespace Pool

/-- The modes that are not lost: those whose worker is running or has written its result. -/
def known (s : Pool M R) : List M := s.running ++ (s.queue.map (·.1) ++ s.got.map (·.1))

/-- What holds after each schedule. -/
structure Inv (f : M → Except PyErr R) (modes : List M) (s : Pool M R) : Prop where
  nodup : s.known.Nodup
  sub : ∀ m ∈ s.known, m ∈ modes
  res : ∀ p ∈ s.queue ++ s.got, f p.1 = .ok p.2
  all : ∀ m ∈ modes, (∃ r, f m = .ok r) → m ∈ s.known
  count : s.left + s.got.length = modes.length

theorem start_inv (f : M → Except PyErr R) {modes : List M} (h : modes.Nodup) :
    Inv f modes (Pool.start modes) := by
  constructor <;> simp_all [Pool.start, known]

theorem set_fresh {d : Dict M R} {m : M} (r : R) (h : m ∉ d.map (·.1)) : d.set m r = d ++ [(m, r)] := by
  induction d with
  | nil => rfl
  | cons p d ih =>
    obtain ⟨k, v⟩ := p
    simp only [List.map_cons, List.mem_cons, not_or] at h
    simp only [Dict.set, if_neg (Ne.symm h.1), ih h.2, List.cons_append]

theorem get?_of_mem {d : Dict M R} {m : M} {r : R} (hw : (d.map (·.1)).Nodup) (h : (m, r) ∈ d) :
    d.get? m = some r := by
  induction d with
  | nil => cases h
  | cons q d ih =>
    rw [List.map_cons, List.nodup_cons] at hw
    rw [Dict.get?_cons]
    rcases List.mem_cons.1 h with rfl | h
    · rw [if_pos rfl]
    · rw [if_neg, ih hw.2 h]
      intro he
      exact hw.1 (by rw [he]; exact List.mem_map_of_mem h)

theorem step_inv {f : M → Except PyErr R} {modes : List M} {s s' : Pool M R} {e : Event M}
    (h : Inv f modes s) (hs : s.step f e = some s') : Inv f modes s' := by
  cases e with
  | worker m =>
    simp only [step] at hs
    split at hs
    · rename_i hm
      have hperm : s.running.Perm (m :: s.running.erase m) := List.perm_cons_erase hm
      split at hs
      · rename_i r hr
        cases hs
        have hk : (known { s with running := s.running.erase m, queue := s.queue ++ [(m, r)] }).Perm
            s.known := by
          unfold known
          simp only [List.map_append, List.map_cons, List.map_nil, List.append_assoc]
          refine List.Perm.trans ?_ (hperm.symm.append_right _)
          rw [List.cons_append, List.cons_append, List.nil_append]
          refine List.Perm.trans ?_ List.perm_middle
          refine List.Perm.append_left _ ?_
          exact List.perm_middle
        refine ⟨hk.nodup_iff.2 h.nodup, fun x hx => h.sub x (hk.subset hx), ?_,
          fun x hx hr => hk.symm.subset (h.all x hx hr), h.count⟩
        intro p hp
        simp only [List.append_assoc, List.mem_append, List.mem_singleton] at hp
        rcases hp with hp | rfl | hp
        · exact h.res p (List.mem_append_left _ hp)
        · exact hr
        · exact h.res p (List.mem_append_right _ hp)
      · rename_i er hr
        cases hs
        have hk : s.known.Perm (m :: known { s with running := s.running.erase m }) := by
          unfold known
          exact hperm.append_right _
        have hnd := hk.nodup_iff.1 h.nodup
        refine ⟨(List.nodup_cons.1 hnd).2, fun x hx => h.sub x (hk.symm.subset (List.mem_cons_of_mem _ hx)),
          h.res, ?_, h.count⟩
        intro x hx hok
        rcases List.mem_cons.1 (hk.subset (h.all x hx hok)) with rfl | hx'
        · obtain ⟨r, hr'⟩ := hok
          rw [hr] at hr'
          cases hr'
        · exact hx'
    · cases hs
  | parent =>
    simp only [step] at hs
    split at hs
    · rename_i k m r q hl hq
      cases hs
      have hfresh : m ∉ s.got.map (·.1) := by
        have := h.nodup
        unfold known at this
        rw [hq, List.map_cons, List.cons_append] at this
        have h2 := (List.nodup_append.1 this).2.1
        rw [List.nodup_cons, List.mem_append, not_or] at h2
        exact h2.1.2
      have hset := set_fresh r hfresh
      have hk : (known { s with queue := q, got := s.got.set m r, left := k }).Perm s.known := by
        unfold known
        rw [hset, hq]
        simp only [List.map_append, List.map_cons, List.map_nil]
        refine List.Perm.append_left _ ?_
        rw [← List.append_assoc, List.cons_append]
        exact List.perm_append_singleton _ _
      refine ⟨hk.nodup_iff.2 h.nodup, fun x hx => h.sub x (hk.subset hx), ?_,
        fun x hx hr => hk.symm.subset (h.all x hx hr), ?_⟩
      · intro p hp
        refine h.res p ?_
        rw [hq]
        rw [hset] at hp
        simp only [List.mem_append, List.mem_cons, List.not_mem_nil, or_false] at hp ⊢
        tauto
      · have := h.count
        rw [hset, List.length_append]
        simp only [List.length_cons, List.length_nil]
        omega
    · cases hs

theorem run_inv {f : M → Except PyErr R} {modes : List M} :
    ∀ (es : List (Event M)) {s s' : Pool M R}, Inv f modes s → s.run f es = some s' → Inv f modes s' := by
  intro es
  induction es with
  | nil =>
    intro s s' h hs
    cases hs
    exact h
  | cons e es ih =>
    intro s s' h hs
    simp only [run] at hs
    split at hs
    · rename_i s1 h1
      exact ih (step_inv h h1) hs
    · cases hs

theorem run_append {f : M → Except PyErr R} : ∀ (es es' : List (Event M)) (s : Pool M R),
    s.run f (es ++ es') = (s.run f es).bind fun s' => s'.run f es' := by
  intro es
  induction es with
  | nil => intro es' s; rfl
  | cons e es ih =>
    intro es' s
    simp only [List.cons_append, run]
    cases s.step f e with
    | none => rfl
    | some s1 => exact ih es' s1

/-- Each event reduces what is left to do. -/
theorem step_size {f : M → Except PyErr R} {s s' : Pool M R} {e : Event M}
    (hs : s.step f e = some s') :
    2 * s'.running.length + s'.queue.length < 2 * s.running.length + s.queue.length := by
  cases e with
  | worker m =>
    simp only [step] at hs
    split at hs
    · rename_i hm
      have hp : 0 < s.running.length := List.length_pos_of_mem hm
      split at hs
      · cases hs
        simp only [List.length_erase_of_mem hm, List.length_append, List.length_cons, List.length_nil]
        omega
      · cases hs
        simp only [List.length_erase_of_mem hm]
        omega
    · cases hs
  | parent =>
    simp only [step] at hs
    split at hs
    · rename_i hq
      cases hs
      rw [hq]
      simp
    · cases hs

theorem run_size {f : M → Except PyErr R} : ∀ (es : List (Event M)) {s s' : Pool M R},
    s.run f es = some s' →
    2 * s'.running.length + s'.queue.length + es.length ≤ 2 * s.running.length + s.queue.length := by
  intro es
  induction es with
  | nil => intro s s' h; cases h; simp
  | cons e es ih =>
    intro s s' h
    simp only [run] at h
    split at h
    · rename_i s1 h1
      have := ih h
      have := step_size h1
      simp only [List.length_cons]
      omega
    · cases h

/-- When all results have been read, each mode has the result of its own worker, and no worker runs. -/
theorem done {f : M → Except PyErr R} {modes : List M} (hnd : modes.Nodup) {s : Pool M R}
    (h : Inv f modes s) (h0 : s.left = 0) :
    s.got.keys.Perm modes ∧ s.running = [] ∧ ∀ m ∈ modes, ∃ r, f m = .ok r ∧ s.got.get? m = some r := by
  have hn := h.nodup
  unfold known at hn
  rw [← List.append_assoc] at hn
  have hg : (s.got.map (·.1)).Nodup := (List.nodup_append.1 hn).2.1
  have hperm : (s.got.map (·.1)).Perm modes := by
    refine List.Subperm.perm_of_length_le (List.subperm_of_subset hg ?_) ?_
    · intro m hm
      exact h.sub m (by unfold known; simp only [List.mem_append]; tauto)
    · have := h.count
      rw [List.length_map]
      omega
  refine ⟨hperm, ?_, ?_⟩
  · cases hr : s.running with
    | nil => rfl
    | cons m l =>
      exfalso
      have hm : m ∈ modes := h.sub m (by unfold known; rw [hr]; simp)
      have hm' := hperm.symm.subset hm
      rw [hr] at hn
      exact (List.nodup_append.1 hn).2.2 m (by simp) m hm' rfl
  · intro m hm
    obtain ⟨⟨m', r⟩, hp, rfl⟩ := List.mem_map.1 (hperm.symm.subset hm)
    refine ⟨r, h.res _ (List.mem_append_right _ hp), ?_⟩
    exact get?_of_mem hg hp

/-- **C110**. While the parent waits and no worker raises, something can happen. -/
theorem progress {f : M → Except PyErr R} {modes : List M} (hf : ∀ m ∈ modes, ∃ r, f m = .ok r)
    (hnd : modes.Nodup) {s : Pool M R} (h : Inv f modes s) (h0 : s.left ≠ 0) :
    ∃ e s', s.step f e = some s' := by
  cases hq : s.queue with
  | cons p q =>
    obtain ⟨m, r⟩ := p
    obtain ⟨k, hk⟩ := Nat.exists_eq_succ_of_ne_zero h0
    refine ⟨.parent, { s with queue := q, got := s.got.set m r, left := k }, ?_⟩
    simp only [step, hk, hq]
  | nil =>
    cases hr : s.running with
    | cons m l =>
      obtain ⟨r, hok⟩ := hf m (h.sub m (by unfold known; rw [hr]; simp))
      refine ⟨.worker m, { s with running := s.running.erase m, queue := s.queue ++ [(m, r)] }, ?_⟩
      simp only [step, hok]
      rw [if_pos (by rw [hr]; simp)]
    | nil =>
      exfalso
      have : modes.Subperm (s.got.map (·.1)) := by
        refine List.subperm_of_subset hnd ?_
        intro m hm
        have := h.all m hm (hf m hm)
        unfold known at this
        rw [hr, hq] at this
        simpa using this
      have hl := this.length_le
      rw [List.length_map] at hl
      have := h.count
      omega

/-- **C110**. If a worker raises, then the parent never gets all results. -/
theorem never {f : M → Except PyErr R} {modes : List M} (hnd : modes.Nodup) {m : M} (hm : m ∈ modes)
    {e : PyErr} (he : f m = .error e) {s : Pool M R} (h : Inv f modes s) : s.left ≠ 0 := by
  intro h0
  obtain ⟨_, _, h3⟩ := done hnd h h0
  obtain ⟨r, hr, _⟩ := h3 m hm
  rw [he] at hr
  cases hr

/-- Each order of arrival is possible. -/
theorem orders {f : M → Except PyErr R} {r : M → R} {modes l : List M} (hf : ∀ m ∈ modes, f m = .ok (r m))
    (hnd : modes.Nodup) (hl : l.Perm modes) :
    (Pool.start modes).run f (l.map Event.worker ++ List.replicate l.length Event.parent) =
      some ⟨[], [], l.map fun m => (m, r m), 0⟩ := by
  have h1 : ∀ (l rn : List M) (q : List (M × R)) (g : Dict M R) (k : Nat), l.Perm rn →
      (∀ m ∈ l, f m = .ok (r m)) →
      Pool.run f ⟨rn, q, g, k⟩ (l.map Event.worker) = some ⟨[], q ++ l.map (fun m => (m, r m)), g, k⟩ := by
    intro l
    induction l with
    | nil =>
      intro rn q g k h _
      rw [List.nil_perm.1 h]
      simp [Pool.run]
    | cons m l ih =>
      intro rn q g k h hf
      have hm : m ∈ rn := h.subset (by simp)
      simp only [List.map_cons, Pool.run, step, if_pos hm, hf m (by simp)]
      rw [ih (rn.erase m) (q ++ [(m, r m)]) g k ((List.cons_perm_iff_perm_erase.1 h).2)
        (fun x hx => hf x (by simp [hx]))]
      simp
  have h2 : ∀ (q : List (M × R)) (g : Dict M R), ((g ++ q).map (·.1)).Nodup →
      Pool.run f ⟨[], q, g, q.length⟩ (List.replicate q.length Event.parent) = some ⟨[], [], g ++ q, 0⟩ := by
    intro q
    induction q with
    | nil => intro g _; simp [run]
    | cons p q ih =>
      intro g hn
      obtain ⟨m, x⟩ := p
      simp only [List.length_cons, List.replicate_succ, Pool.run, step]
      have hfresh : m ∉ g.map (·.1) := by
        rw [List.map_append, List.nodup_append] at hn
        intro hm
        exact hn.2.2 m hm m (by simp) rfl
      rw [set_fresh x hfresh, ih (g ++ [(m, x)]) (by simpa using hn)]
      simp
  have hln : l.Nodup := hl.nodup_iff.2 hnd
  rw [run_append]
  unfold start
  rw [h1 l modes [] [] _ hl (fun m hm => hf m (hl.subset hm))]
  simp only [Option.bind_some, List.nil_append]
  have := h2 (l.map fun m => (m, r m)) [] (by simpa [Function.comp_def] using hln)
  rw [List.length_map] at this
  rw [← hl.length_eq]
  simpa using this

end Pool

/-! ## Two common refinements of the same partitions are equal up to the numbering -/

/-- Two sets are equal up to a negligible set. -/
def SameSet (G : Geom P X) (p q : P) : Prop :=
  G.null (G.den p \ G.den q) ∧ G.null (G.den q \ G.den p)

/-- `σ` renumbers `0, ..., n - 1` as `0, ..., n' - 1`. -/
structure Renumbers (n n' : Nat) (σ : Nat → Nat) : Prop where
  range : ∀ i < n, σ i < n'
  inj : ∀ i < n, ∀ j < n, σ i = σ j → i = j
  surj : ∀ j < n', ∃ i < n, σ i = j

/-- A set that meets each of finitely many sets in a negligible set is negligible up to what they do not
cover. -/
theorem null_of_parts {G : Geom P X} (hG : G.Lawful) {S : Set X} :
    ∀ (l : List (Region P)), G.null (S \ {x | ∃ r ∈ l, x ∈ G.den r.poly}) →
      (∀ r ∈ l, G.null (S ∩ G.den r.poly)) → G.null S := by
  intro l
  induction l with
  | nil =>
    intro h _
    refine hG.null_mono ?_ h
    intro x hx
    exact ⟨hx, by simp⟩
  | cons r l ih =>
    intro h hl
    refine ih (hG.null_of_sub ?_ h (hl r (by simp))) (fun r' hr' => hl r' (by simp [hr']))
    rintro x ⟨hx, hn⟩
    by_cases hr : x ∈ G.den r.poly
    · exact Or.inr ⟨hx, hr⟩
    · refine Or.inl ⟨hx, ?_⟩
      rintro ⟨r', hr', hx'⟩
      rcases List.mem_cons.1 hr' with rfl | hr'
      · exact hr hx'
      · exact hn ⟨r', hr', hx'⟩

theorem Refinement.matched {G : Geom P X} (hG : G.Lawful) {dom dom' : P} {props props' : Dict String P}
    {modes modes' : List M} {cells cells' : M → List (Region P)} {regs regs' : List (Region P)}
    {par par' : M → Nat → Option Nat} (h : Refinement G dom props modes cells regs par)
    (h' : Refinement G dom' props' modes' cells' regs' par') (hdom : G.den dom = G.den dom')
    (hm : ∀ m, m ∈ modes ↔ m ∈ modes') (hne : modes ≠ []) (hc : ∀ m ∈ modes, cells m = cells' m)
    (hdis : ∀ m ∈ modes, (cells m).Pairwise fun r s => G.null (G.den r.poly ∩ G.den s.poly))
    (hthick : ∀ r ∈ regs, ¬ G.null (G.den r.poly)) {i : Nat} {r : Region P} (hr : regs[i]? = some r) :
    ∃ (j : Nat) (r' : Region P), regs'[j]? = some r' ∧ (∀ m, par m i = par' m j) ∧
      SameSet G r.poly r'.poly ∧ ∀ a, a ∈ r.props ↔ a ∈ r'.props := by
  have hmem := List.mem_of_getElem? hr
  have hex : ∃ r' ∈ regs', ¬ G.null (G.den r.poly ∩ G.den r'.poly) := by
    by_contra hno
    push Not at hno
    refine hthick r hmem (null_of_parts hG regs' (hG.null_mono ?_ h'.preserving.cover) hno)
    rintro x ⟨hx, hn⟩
    exact ⟨hdom ▸ h.preserving.inside r hmem hx, hn⟩
  obtain ⟨r', hr', hnn⟩ := hex
  obtain ⟨j, hj⟩ := List.mem_iff_getElem?.1 hr'
  have hpar : ∀ m ∈ modes, ∃ (p : Nat) (q : Region P), par m i = some p ∧ par' m j = some p ∧
      (cells m)[p]? = some q ∧ G.den r.poly ⊆ G.den q.poly ∧ (∀ a, a ∈ r.props ↔ a ∈ q.props) ∧
      G.den r'.poly ⊆ G.den q.poly ∧ ∀ a, a ∈ r'.props ↔ a ∈ q.props := by
    intro m hmm
    obtain ⟨p, q, k1, k2, k3, k4⟩ := h.parent m hmm i r hr
    obtain ⟨p', q', l1, l2, l3, l4⟩ := h'.parent m ((hm m).1 hmm) j r' hj
    rw [← hc m hmm] at l2
    have hpp : p = p' := by
      by_contra hpp
      have hnull : G.null (G.den q.poly ∩ G.den q'.poly) := by
        obtain ⟨hp, hp2⟩ := List.getElem?_eq_some_iff.1 k2
        obtain ⟨hp', hp2'⟩ := List.getElem?_eq_some_iff.1 l2
        have hpw := List.pairwise_iff_getElem.1 (hdis m hmm)
        rcases Nat.lt_or_gt_of_ne hpp with hlt | hlt
        · have := hpw p p' hp hp' hlt
          rw [hp2, hp2'] at this
          exact this
        · have := hpw p' p hp' hp hlt
          rw [hp2, hp2', Set.inter_comm] at this
          exact this
      exact hnn (hG.null_mono (Set.inter_subset_inter k3 l3) hnull)
    subst hpp
    rw [k2] at l2
    cases l2
    exact ⟨p, q, k1, l1, k2, k3, k4, l3, l4⟩
  have hsame : ∀ m, par m i = par' m j := by
    intro m
    by_cases hmm : m ∈ modes
    · obtain ⟨p, q, k1, k2, _⟩ := hpar m hmm
      rw [k1, k2]
    · rw [h.only m i (Or.inr hmm), h'.only m j (Or.inr fun hc => hmm ((hm m).2 hc))]
  refine ⟨j, r', hj, hsame, ⟨?_, ?_⟩, ?_⟩
  · refine hG.null_mono ?_ (h'.meet j r' hj)
    rintro x ⟨hx, hn⟩
    refine ⟨?_, hn⟩
    intro m hmm p q hp hq
    have hmm' := (hm m).2 hmm
    obtain ⟨p', q', k1, k2, k3, k4, _⟩ := hpar m hmm'
    rw [k2] at hp
    cases hp
    rw [← hc m hmm', k3] at hq
    cases hq
    exact k4 hx
  · refine hG.null_mono ?_ (h.meet i r hr)
    rintro x ⟨hx, hn⟩
    refine ⟨?_, hn⟩
    intro m hmm p q hp hq
    obtain ⟨p', q', k1, k2, k3, k4, _, k5, _⟩ := hpar m hmm
    rw [k1] at hp
    cases hp
    rw [k3] at hq
    cases hq
    exact k5 hx
  · intro a
    obtain ⟨m, hmm⟩ := List.exists_mem_of_ne_nil _ hne
    obtain ⟨p, q, _, _, _, _, k4, _, k5⟩ := hpar m hmm
    rw [k4, k5]

/-- Two common refinements of the same partitions have the same regions, up to the numbering and up to
negligible sets, with the same labels and parents. -/
theorem Refinement.unique {G : Geom P X} (hG : G.Lawful) {dom dom' : P} {props props' : Dict String P}
    {modes modes' : List M} {cells cells' : M → List (Region P)} {regs regs' : List (Region P)}
    {par par' : M → Nat → Option Nat} (h : Refinement G dom props modes cells regs par)
    (h' : Refinement G dom' props' modes' cells' regs' par') (hdom : G.den dom = G.den dom')
    (hm : ∀ m, m ∈ modes ↔ m ∈ modes') (hne : modes ≠ []) (hc : ∀ m ∈ modes, cells m = cells' m)
    (hdis : ∀ m ∈ modes, (cells m).Pairwise fun r s => G.null (G.den r.poly ∩ G.den s.poly))
    (hthick : ∀ r ∈ regs, ¬ G.null (G.den r.poly)) (hthick' : ∀ r ∈ regs', ¬ G.null (G.den r.poly)) :
    ∃ σ, Renumbers regs.length regs'.length σ ∧ ∀ (i : Nat) (r : Region P), regs[i]? = some r →
      (∀ m, par m i = par' m (σ i)) ∧ ∃ r', regs'[σ i]? = some r' ∧ SameSet G r.poly r'.poly ∧
        ∀ a, a ∈ r.props ↔ a ∈ r'.props := by
  have hex : ∀ i, ∃ j, ∀ r, regs[i]? = some r → (∀ m, par m i = par' m j) ∧
      ∃ r', regs'[j]? = some r' ∧ SameSet G r.poly r'.poly ∧ ∀ a, a ∈ r.props ↔ a ∈ r'.props := by
    intro i
    cases hr : regs[i]? with
    | none => exact ⟨0, by simp⟩
    | some r =>
      obtain ⟨j, r', k1, k2, k3, k4⟩ := h.matched hG h' hdom hm hne hc hdis hthick hr
      refine ⟨j, ?_⟩
      rintro _ ⟨⟩
      exact ⟨k2, r', k1, k3, k4⟩
  choose σ hσ using hex
  have hget : ∀ i (hi : i < regs.length), (∀ m, par m i = par' m (σ i)) ∧ σ i < regs'.length := by
    intro i hi
    obtain ⟨k1, r', k2, _⟩ := hσ i _ (List.getElem?_eq_getElem hi)
    exact ⟨k1, (List.getElem?_eq_some_iff.1 k2).1⟩
  refine ⟨σ, ⟨fun i hi => (hget i hi).2, ?_, ?_⟩, hσ⟩
  · intro i hi j hj he
    by_contra hij
    obtain ⟨m, _, hmm⟩ := h.distinct i j hi hj hij
    exact hmm (by rw [(hget i hi).1, (hget j hj).1, he])
  · intro j hj
    have hne' : modes' ≠ [] := by
      obtain ⟨m, hmm⟩ := List.exists_mem_of_ne_nil _ hne
      exact List.ne_nil_of_mem ((hm m).1 hmm)
    obtain ⟨i, r, k1, k2, _⟩ := h'.matched hG h hdom.symm (fun m => (hm m).symm) hne'
      (fun m hmm => (hc m ((hm m).2 hmm)).symm)
      (fun m hmm => by rw [← hc m ((hm m).2 hmm)]; exact hdis m ((hm m).2 hmm)) hthick'
      (List.getElem?_eq_getElem hj)
    have hi := (List.getElem?_eq_some_iff.1 k1).1
    refine ⟨i, hi, ?_⟩
    by_contra hij
    obtain ⟨m, _, hmm⟩ := h'.distinct (σ i) j (hget i hi).2 hj hij
    exact hmm (by rw [← (hget i hi).1, k2])

/-! ## Adjacency and transitions do not depend on the numbering -/

theorem walk_renumber {n n' : Nat} {adj adj' : Nat → Nat → Bool} {σ : Nat → Nat} (hσ : Renumbers n n' σ)
    (h : ∀ i < n, ∀ j < n, adj i j = adj' (σ i) (σ j)) : ∀ (k : Nat) {a b : Nat}, a < n → b < n →
      (Walk n adj k a b ↔ Walk n' adj' k (σ a) (σ b)) := by
  intro k
  induction k with
  | zero =>
    intro a b ha hb
    unfold Walk
    rw [h a ha b hb]
  | succ k ih =>
    intro a b ha hb
    unfold Walk
    constructor
    · rintro ⟨c, hc, h1, h2⟩
      exact ⟨σ c, hσ.range c hc, (ih ha hc).1 h1, by rw [← h c hc b hb]; exact h2⟩
    · rintro ⟨c', hc', h1, h2⟩
      obtain ⟨c, hc, rfl⟩ := hσ.surj c' hc'
      exact ⟨c, hc, (ih ha hc).2 h1, by rw [h c hc b hb]; exact h2⟩

theorem touching_same {abs abs' : Dict M (ModeAbs P)} {par par' : M → Nat → Option Nat}
    (hp : ∀ q, q ∈ abs ↔ q ∈ abs') {i j i' j' : Nat} (hi : ∀ m, par m i = par' m i')
    (hj : ∀ m, par m j = par' m j') : touching abs par i j = touching abs' par' i' j' := by
  unfold touching
  rw [Bool.eq_iff_iff]
  simp only [List.any_eq_true, hi, hj, hp]

theorem touching_symm {abs : Dict M (ModeAbs P)} {par : M → Nat → Option Nat}
    (hs : ∀ q ∈ abs, ∀ i j, q.2.adj i j = q.2.adj j i) (i j : Nat) :
    touching abs par i j = touching abs par j i := by
  have key : ∀ i j, touching abs par i j = true → touching abs par j i = true := by
    intro i j h
    unfold touching at h ⊢
    rw [List.any_eq_true] at h ⊢
    obtain ⟨q, hq, h⟩ := h
    refine ⟨q, hq, ?_⟩
    cases hi : par q.1 i with
    | none => rw [hi] at h; cases h
    | some pi =>
      cases hj : par q.1 j with
      | none => rw [hi, hj] at h; cases h
      | some pj =>
        rw [hi, hj] at h
        simp only [Bool.or_eq_true, beq_iff_eq] at h ⊢
        rw [hs q hq pj pi]
        exact h.imp id Eq.symm
  rw [Bool.eq_iff_iff]
  exact ⟨key i j, key j i⟩

theorem mergedAdj_same {O : MergeOps P} {G : Geom P X} {abs abs' : Dict M (ModeAbs P)} {s s' : MState P M}
    {σ : Nat → Nat} (hσ : Renumbers s.regions.length s'.regions.length σ)
    (hp : ∀ q, q ∈ abs ↔ q ∈ abs') (hs : ∀ q ∈ abs, ∀ i j, q.2.adj i j = q.2.adj j i)
    (hadj : ∀ p q, O.adjacent p q = O.adjacent q p)
    (hresp : ∀ p p' q q', SameSet G p p' → SameSet G q q' → O.adjacent p q = O.adjacent p' q')
    (hreg : ∀ (i : Nat) (r : Region P), s.regions[i]? = some r → (∀ m, s.parents m i = s'.parents m (σ i)) ∧
      ∃ r', s'.regions[σ i]? = some r' ∧ SameSet G r.poly r'.poly ∧ ∀ a, a ∈ r.props ↔ a ∈ r'.props)
    {i j : Nat} (hi : i < s.regions.length) (hj : j < s.regions.length) :
    mergedAdj O abs s i j = mergedAdj O abs' s' (σ i) (σ j) := by
  obtain ⟨i1, ri, i2, i3, _⟩ := hreg i _ (List.getElem?_eq_getElem hi)
  obtain ⟨j1, rj, j2, j3, _⟩ := hreg j _ (List.getElem?_eq_getElem hj)
  have key : ∀ (abs : Dict M (ModeAbs P)) (s : MState P M), (∀ q ∈ abs, ∀ i j, q.2.adj i j = q.2.adj j i) →
      ∀ (i j : Nat) (a b : Region P), s.regions[i]? = some a → s.regions[j]? = some b →
      mergedAdj O abs s i j =
        if i = j then true else touching abs s.parents i j && O.adjacent a.poly b.poly := by
    intro abs s hs i j a b ha hb
    unfold mergedAdj
    rw [ha, hb]
    dsimp only
    split
    · rfl
    · split
      · rfl
      · rw [touching_symm hs j i, hadj b.poly a.poly]
  rw [key abs s hs i j _ _ (List.getElem?_eq_getElem hi) (List.getElem?_eq_getElem hj),
    key abs' s' (fun q hq => hs q ((hp q).2 hq)) _ _ _ _ i2 j2, touching_same hp i1 j1,
    hresp _ _ _ _ i3 j3]
  by_cases hij : i = j
  · rw [if_pos hij, if_pos (by rw [hij])]
  · rw [if_neg hij, if_neg fun he => hij (hσ.inj i hi j hj he)]

/-! ## The abstractions of the modes -/

/-- What is assumed of the abstractions `ab m` of the modes: each is a proposition-preserving partition
of the same domain into cells that are not negligible, with a symmetric adjacency. -/
structure GoodModes (O : MergeOps P) (G : Geom P X) (modes : List M) (ab : M → ModeAbs P) : Prop where
  preserving : ∀ m ∈ modes,
    Preserving G (ab m).ppp.domain (ab m).ppp.propRegions (ab m).ppp.regions
  labeled : ∀ m ∈ modes, (ab m).Labeled
  homed : ∀ m ∈ modes, (ab m).Homed G
  same : ∀ m ∈ modes, ∀ m' ∈ modes,
    sameRegions O.eqv (ab m).ppp.propRegions (ab m').ppp.propRegions = true ∧
    O.sameDomain (ab m).ppp.domain (ab m').ppp.domain = true
  domain : ∀ m ∈ modes, ¬ G.null (G.den (ab m).ppp.domain)
  thick : ∀ m ∈ modes, ∀ r ∈ (ab m).ppp.regions, ¬ G.null (G.den r.poly)
  symm : ∀ m ∈ modes, ∀ i j, (ab m).adj i j = (ab m).adj j i

/-- The abstractions of all modes, in some order. -/
def AllOf (modes : List M) (ab : M → ModeAbs P) (d : Dict M (ModeAbs P)) : Prop :=
  (Dict.keys d).Perm modes ∧ ∀ m ∈ modes, d.get? m = some (ab m)

theorem get?_mem' {d : Dict M R} {m : M} {r : R} (h : d.get? m = some r) : (m, r) ∈ d := by
  unfold Dict.get? at h
  rw [Option.map_eq_some_iff] at h
  obtain ⟨q, hq, rfl⟩ := h
  have := List.find?_some hq
  simp only [beq_iff_eq] at this
  rw [← this]
  exact List.mem_of_find?_eq_some hq

theorem AllOf.mem {modes : List M} {ab : M → ModeAbs P} {d : Dict M (ModeAbs P)} (hnd : modes.Nodup)
    (h : AllOf modes ab d) (q : M × ModeAbs P) : q ∈ d ↔ q.1 ∈ modes ∧ q.2 = ab q.1 := by
  constructor
  · intro hq
    have hk : q.1 ∈ modes := h.1.subset (List.mem_map_of_mem hq)
    refine ⟨hk, ?_⟩
    have h1 := Pool.get?_of_mem (m := q.1) (r := q.2) (h.1.nodup_iff.2 hnd) hq
    rw [h.2 _ hk] at h1
    exact (Option.some.inj h1).symm
  · rintro ⟨h1, h2⟩
    have := get?_mem' (h.2 _ h1)
    rw [← h2] at this
    exact this

theorem Refinement.congr {G : Geom P X} {dom dom' : P} {props props' : Dict String P}
    {modes modes' : List M} {cells cells' : M → List (Region P)} {regs : List (Region P)}
    {par : M → Nat → Option Nat} (h : Refinement G dom props modes cells regs par)
    (hp : Preserving G dom' props' regs) (hm : ∀ m, m ∈ modes ↔ m ∈ modes')
    (hc : ∀ m ∈ modes, cells m = cells' m) : Refinement G dom' props' modes' cells' regs par := by
  refine ⟨hp, ?_, ?_, ?_, ?_⟩
  · intro m hmm i r hr
    have hm1 := (hm m).2 hmm
    rw [← hc m hm1]
    exact h.parent m hm1 i r hr
  · intro m i hi
    refine h.only m i (hi.imp id fun hn hmm => hn ((hm m).1 hmm))
  · intro i r hr
    have := h.meet i r hr
    have he : {x | ∀ m ∈ modes', ∀ (p : Nat) (q : Region P), par m i = some p →
        (cells' m)[p]? = some q → x ∈ G.den q.poly} = {x | ∀ m ∈ modes, ∀ (p : Nat) (q : Region P),
          par m i = some p → (cells m)[p]? = some q → x ∈ G.den q.poly} := by
      ext x
      constructor
      · intro hx m hmm p q k1 k2
        rw [hc m hmm] at k2
        exact hx m ((hm m).1 hmm) p q k1 k2
      · intro hx m hmm p q k1 k2
        rw [← hc m ((hm m).2 hmm)] at k2
        exact hx m ((hm m).2 hmm) p q k1 k2
    rw [he]
    exact this
  · intro i j hi hj hij
    obtain ⟨m, h1, h2⟩ := h.distinct i j hi hj hij
    exact ⟨m, (hm m).1 h1, h2⟩

/-- No region of the merged partition is negligible. -/
theorem mergePartitions_thick {O : MergeOps P} {G : Geom P X} (hO : O.Sound G)
    {abs : Dict M (ModeAbs P)} {order : List M} {A : Merged P M}
    (h : mergePartitions O abs order = .ok (some A))
    (ht : ∀ q ∈ abs, ∀ r ∈ q.2.ppp.regions, ¬ G.null (G.den r.poly)) :
    ∀ r ∈ A.ppp.regions, ¬ G.null (G.den r.poly) := by
  have hpair : ∀ (old : MState P M) (ab2 : ModeAbs P) (cur : M) (prev : List M) (s : MState P M),
      mergePair O old ab2 cur prev = .ok s → ∀ r ∈ s.regions, ¬ G.null (G.den r.poly) := by
    intro old ab2 cur prev s hs
    unfold mergePair at hs
    refine loopE_inv (Q := fun _ (s : MState P M) => ∀ r ∈ s.regions, ¬ G.null (G.den r.poly)) _ [] _ _
      (by simp) ?_ hs
    intro done x rest s s' _ hQ hs
    unfold mergeCell at hs
    obtain ⟨a, _, hs⟩ := bindE_ok hs
    obtain ⟨b, _, hs⟩ := bindE_ok hs
    dsimp only at hs
    split at hs
    · cases hs
      exact hQ
    · rename_i hk
      obtain ⟨par, _, hs⟩ := bindE_ok hs
      obtain ⟨l1, _, hs⟩ := bindE_ok hs
      obtain ⟨l2, _, hs⟩ := bindE_ok hs
      split at hs
      · cases hs
      · cases hs
        intro r hr
        simp only [List.mem_append, List.mem_singleton] at hr
        rcases hr with hr | rfl
        · exact hQ r hr
        · exact hO.thick _ (by simpa using hk)
  have hloop : ∀ (order prev : List M) (s s' : MState P M), (∀ r ∈ s.regions, ¬ G.null (G.den r.poly)) →
      mergeLoop O abs order prev s = .ok s' → ∀ r ∈ s'.regions, ¬ G.null (G.den r.poly) := by
    intro order
    induction order with
    | nil =>
      intro prev s s' h hs
      cases hs
      exact h
    | cons cur rest ih =>
      intro prev s s' _ hs
      unfold mergeLoop at hs
      split at hs
      · cases hs
      · obtain ⟨s1, h1, hs⟩ := bindE_ok hs
        exact ih _ s1 s' (hpair _ _ _ _ _ h1) hs
  unfold mergePartitions at h
  split at h
  · cases h
  · rename_i m0 ab0 rest
    split at h
    · cases h
    · obtain ⟨s, h1, h⟩ := bindE_ok h
      obtain ⟨ppp, h2, h⟩ := bindE_ok h
      cases h
      have hreg : ppp.regions = s.regions := by
        unfold Partition.make at h2
        split at h2
        · cases h2
        · split at h2
          · cases h2
          · cases h2
            rfl
      show ∀ r ∈ ppp.regions, _
      rw [hreg]
      exact hloop _ _ _ _ (ht (m0, ab0) (by simp)) h1

/-- Merging the abstractions in any order, and computing the transitions of a mode. -/
theorem merge_any_order {O : MergeOps P} {G : Geom P X} (hG : G.Lawful) (hO : O.Sound G)
    {m1 : M} {ms : List M} (hnd : (m1 :: ms).Nodup) {ab : M → ModeAbs P}
    (hab : GoodModes O G (m1 :: ms) ab) {d : Dict M (ModeAbs P)} (hd : AllOf (m1 :: ms) ab d)
    {order : List M} (hord : order.Perm (d.keys.drop 1)) :
    ∃ A, mergePartitions O d order = .ok (some A) ∧
      Refinement G (ab m1).ppp.domain (ab m1).ppp.propRegions (m1 :: ms) (fun m => (ab m).ppp.regions)
        A.ppp.regions A.parents ∧
      A.adj = mergedAdj O d ⟨A.ppp.regions, A.parents, A.labels⟩ ∧
      (∀ r ∈ A.ppp.regions, ¬ G.null (G.den r.poly)) ∧
      ∀ m ∈ m1 :: ms, ∀ (feas : P → P → Nat → P → Except PyErr Bool),
        (∀ p q sys c, ∃ b, feas p q sys c = .ok b) → ∀ len, ∃ t, getTransitions feas A m (ab m) len = .ok t := by
  have hmem := hd.mem hnd
  cases hdd : d with
  | nil =>
    rw [hdd] at hd
    have := hd.2 m1 (by simp)
    cases this
  | cons q0 rest =>
    obtain ⟨m0, ab0⟩ := q0
    have hq : ∀ q ∈ (m0, ab0) :: rest, q.1 ∈ m1 :: ms ∧ q.2 = ab q.1 := by
      rw [← hdd]
      exact fun q hq => (hmem q).1 hq
    have hab0 : m0 ∈ m1 :: ms ∧ ab0 = ab m0 := hq (m0, ab0) (by simp)
    have hwf : Dict.Wf ((m0, ab0) :: rest) := by
      rw [← hdd]
      exact hd.1.nodup_iff.2 hnd
    have hord' : order.Perm (Dict.keys rest) := by
      rw [hdd] at hord
      exact hord
    obtain ⟨A, h1, h2, h3, h4, h5, h6⟩ := mergePartitions_spec hG hO hwf
      (fun q h => by rw [(hq q h).2]; exact hab.preserving _ (hq q h).1)
      (fun q h => by rw [(hq q h).2]; exact hab.labeled _ (hq q h).1)
      (fun q h r h' => by rw [(hq q h).2, (hq r h').2]; exact hab.same _ (hq q h).1 _ (hq r h').1) hord'
    have hmm : ∀ m, m ∈ m0 :: order ↔ m ∈ m1 :: ms := by
      intro m
      have e1 : (m0 :: order).Perm (Dict.keys d) := by
        rw [hdd]
        exact hord'.cons m0
      exact (e1.trans hd.1).mem_iff
    have hcell : ∀ m ∈ m0 :: order, cellsOf ((m0, ab0) :: rest) m = (ab m).ppp.regions := by
      intro m hm
      unfold cellsOf
      rw [← hdd, hd.2 m ((hmm m).1 hm)]
    have hR := h4.congr (dom' := (ab m1).ppp.domain) (props' := (ab m1).ppp.propRegions)
      (modes' := m1 :: ms) (cells' := fun m => (ab m).ppp.regions) (by
        obtain ⟨s1, s2⟩ := hab.same m0 hab0.1 m1 (by simp)
        obtain ⟨t1, t2⟩ := sameRegions_den hO s1
        rw [hab0.2] at h4
        exact h4.preserving.congr (hO.sameDomain _ _ s2) t1 t2) hmm hcell
    have hpos := hR.nonempty (hab.domain m1 (by simp))
    have hrefl : ∀ i < A.ppp.regions.length, A.adj i i = true := by
      intro i hi
      rw [h6]
      exact mergedAdj_refl _ _ _ hi
    refine ⟨A, h1, hR, h6, mergePartitions_thick hO h1 (fun q h => by
      rw [(hq q h).2]; exact hab.thick _ (hq q h).1), ?_⟩
    intro m hm feas hf len
    refine getTransitions_ok hf ?_ ⟨0, 0, hpos, hpos, reachableWithin_refl hrefl hpos⟩
    intro i hi
    obtain ⟨p, q, k1, k2, _⟩ := hR.parent m hm i _ (List.getElem?_eq_getElem hi)
    exact modeCell_some (hab.homed m hm) k1 k2

/-! ## The result, for every schedule -/

/-- The specification: the states are the regions of a common refinement of the partitions of the modes,
with their labels; there is a transition from `i` to `j` with the label of a mode iff the regions are
within reach in the adjacency graph and the solver finds that `j` can be reached from each point of `i` in
that mode. -/
structure SwitchedAbs (O : MergeOps P) (G : Geom P X) (dom : P) (props : Dict String P)
    (modes : List (Act × Act)) (ab : Act × Act → ModeAbs P)
    (feas : Act × Act → P → P → Nat → P → Except PyErr Bool) (lens : Act × Act → Nat) (nums : Nat × Nat)
    (A : Merged P (Act × Act)) (g : LGraph Nat Lab) : Prop where
  refines : Refinement G dom props modes (fun m => (ab m).ppp.regions) A.ppp.regions A.parents
  adj : ∀ i j, A.adj i j =
    mergedAdj O (modes.map fun m => (m, ab m)) ⟨A.ppp.regions, A.parents, A.labels⟩ i j
  thick : ∀ r ∈ A.ppp.regions, ¬ G.null (G.den r.poly)
  states : g.nodes = swNodes A.ppp.regions
  edges : ∀ i j a, HasEdge g i j a ↔ ∃ m ∈ modes, SameAttr a (modeLabel nums m) ∧
    reachableWithin A.ppp.regions.length (lens m) A.adj A.adj j i = true ∧
    ∃ (si sj : Region P) (c : P) (sys : Nat), A.ppp.regions[i]? = some si ∧
      A.ppp.regions[j]? = some sj ∧ modeCell A m (ab m) i = .ok (c, sys) ∧
      feas m si.poly sj.poly sys c = .ok true

theorem mergedAdj_perm {O : MergeOps P} {abs abs' : Dict M (ModeAbs P)} (h : ∀ q, q ∈ abs ↔ q ∈ abs')
    (s : MState P M) (i j : Nat) : mergedAdj O abs s i j = mergedAdj O abs' s i j := by
  unfold mergedAdj
  rw [touching_same h (fun _ => rfl) (fun _ => rfl), touching_same h (fun _ => rfl) (fun _ => rfl)]

theorem mem_zipped {modes : List M} {ab : M → ModeAbs P} (q : M × ModeAbs P) :
    q ∈ modes.map (fun m => (m, ab m)) ↔ q.1 ∈ modes ∧ q.2 = ab q.1 := by
  obtain ⟨m, x⟩ := q
  simp only [List.mem_map, Prod.mk.injEq]
  constructor
  · rintro ⟨m', h, rfl, rfl⟩
    exact ⟨h, rfl⟩
  · rintro ⟨h, rfl⟩
    exact ⟨m, h, rfl, rfl⟩

/-- Building the transition system from transitions of the modes. -/
theorem switchedAbs_of {O : MergeOps P} {G : Geom P X} {m1 : Act × Act} {ms : List (Act × Act)}
    {ab : Act × Act → ModeAbs P} {A : Merged P (Act × Act)} {d : Dict (Act × Act) (ModeAbs P)}
    (hnd : (m1 :: ms).Nodup) (hd : AllOf (m1 :: ms) ab d)
    (hR : Refinement G (ab m1).ppp.domain (ab m1).ppp.propRegions (m1 :: ms) (fun m => (ab m).ppp.regions)
      A.ppp.regions A.parents) (hadj : A.adj = mergedAdj O d ⟨A.ppp.regions, A.parents, A.labels⟩)
    (hthick : ∀ r ∈ A.ppp.regions, ¬ G.null (G.den r.poly))
    {feas : Act × Act → P → P → Nat → P → Except PyErr Bool} {lens : Act × Act → Nat}
    {nums : Nat × Nat} (hdec : Declared nums (m1 :: ms)) {t : Act × Act → Nat → Nat → Bool}
    (ht : ∀ m ∈ m1 :: ms, getTransitions (feas m) A m (ab m) (lens m) = .ok (t m)) :
    ∃ g, mergeAbstractions A.ppp.regions t (ab m1).ppp.propRegions.keys (m1 :: ms) nums = (g, none) ∧
      SwitchedAbs O G (ab m1).ppp.domain (ab m1).ppp.propRegions (m1 :: ms) ab feas lens nums A g := by
  obtain ⟨g, g1, g2, _, g4⟩ := mergeAbstractions_spec A.ppp.regions t
    (aps := (ab m1).ppp.propRegions.keys) (modes := m1 :: ms) (nums := nums) (by simp) hdec (by
      intro r hr p hp
      obtain ⟨q, hq, _⟩ := hR.preserving.holds r hr p hp
      exact (Dict.mem_keys_iff _ _).2 ⟨q, hq⟩)
  refine ⟨g, g1, hR, ?_, hthick, g2, ?_⟩
  · intro i j
    rw [hadj]
    exact mergedAdj_perm (fun q => by rw [hd.mem hnd, mem_zipped]) _ i j
  · intro i j a
    rw [g4]
    constructor
    · rintro ⟨_, _, m, hm, hs, h⟩
      exact ⟨m, hm, hs, (getTransitions_spec (ht m hm) i j).1 h⟩
    · rintro ⟨m, hm, hs, h⟩
      have h' := (getTransitions_spec (ht m hm) i j).2 h
      obtain ⟨_, si, sj, _, _, k1, k2, _⟩ := h
      exact ⟨(List.getElem?_eq_some_iff.1 k1).1, (List.getElem?_eq_some_iff.1 k2).1, m, hm, hs, h'⟩

/-- What `feas` and `lens` are in the workers. -/
def parFeas (feas : Act × Act → Nat → Bool → P → P → Nat → P → Except PyErr Bool)
    (params : Act × Act → ModeParams) (m : Act × Act) : P → P → Nat → P → Except PyErr Bool :=
  feas m ((params m).n.getD 10) ((params m).closedLoop.getD true)

def parLens (params : Act × Act → ModeParams) (m : Act × Act) : Nat := (params m).transLength.getD 1

theorem allOf_done {disc : M → Except PyErr (ModeAbs P)} {ab : M → ModeAbs P} {modes : List M}
    (hdisc : ∀ m ∈ modes, disc m = .ok (ab m)) (hnd : modes.Nodup) {es : List (Event M)}
    {s : Pool M (ModeAbs P)} (hs : (Pool.start modes).run disc es = some s) (h0 : s.left = 0) :
    AllOf modes ab s.got := by
  obtain ⟨h1, _, h3⟩ := Pool.done hnd (Pool.run_inv es (Pool.start_inv disc hnd) hs) h0
  refine ⟨h1, ?_⟩
  intro m hm
  obtain ⟨r, k1, k2⟩ := h3 m hm
  rw [hdisc m hm] at k1
  cases k1
  exact k2

/-- **C110**. `multiproc_discretize_switched`, for every schedule of the workers and every order in which
sets are iterated, if no worker raises: the number of events is bounded; it does not raise; while it
waits, something else can happen (so it does not deadlock, and it returns after at most `4 n` events
for `n` modes); when it returns, the result is the abstraction of the switched system. -/
theorem parSwitched_spec {O : MergeOps P} {G : Geom P X} (hG : G.Lawful) (hO : O.Sound G)
    {m1 : Act × Act} {ms : List (Act × Act)} (hnd : (m1 :: ms).Nodup) {ab : Act × Act → ModeAbs P}
    (hab : GoodModes O G (m1 :: ms) ab) {disc : Act × Act → Except PyErr (ModeAbs P)}
    (hdisc : ∀ m ∈ m1 :: ms, disc m = .ok (ab m))
    {feas : Act × Act → Nat → Bool → P → P → Nat → P → Except PyErr Bool}
    (hfeas : ∀ m n b p q sys c, ∃ x, feas m n b p q sys c = .ok x) {params : Act × Act → ModeParams}
    (hparams : ∀ m ∈ m1 :: ms, (params m).others = []) {nums : Nat × Nat}
    (hdec : Declared nums (m1 :: ms)) {order : List (Act × Act) → List (Act × Act)}
    (hord : ∀ l, (order l).Perm l) (es1 es2 : List (Event (Act × Act)))
    {x : Call (Merged P (Act × Act) × LGraph Nat Lab)}
    (hx : parSwitched O disc feas params (m1 :: ms) nums (ab m1).ppp.propRegions.keys order es1 es2 =
      some x) :
    es1.length + es2.length ≤ 4 * (m1 :: ms).length ∧
    ((x = .waiting ∧ ∃ e, es2 = [] ∧ (parSwitched O disc feas params (m1 :: ms) nums
          (ab m1).ppp.propRegions.keys order (es1 ++ [e]) []).isSome = true ∨
        (parSwitched O disc feas params (m1 :: ms) nums (ab m1).ppp.propRegions.keys order es1
          (es2 ++ [e])).isSome = true) ∨
      ∃ A g, x = .returned (A, g) ∧ SwitchedAbs O G (ab m1).ppp.domain (ab m1).ppp.propRegions (m1 :: ms) ab
        (parFeas feas params) (parLens params) nums A g) := by
  have hnone : ∀ es2 : List (Event (Act × Act)), ∀ y, (if es2.isEmpty then some y else none) =
      (some x : Option (Call (Merged P (Act × Act) × LGraph Nat Lab))) → es2 = [] ∧ x = y := by
    intro es2 y h
    split at h
    · rename_i he
      cases h
      exact ⟨by simpa using he, rfl⟩
    · cases h
  unfold parSwitched at hx
  cases hs : (Pool.start (m1 :: ms)).run disc es1 with
  | none => rw [hs] at hx; cases hx
  | some s =>
    have hinv := Pool.run_inv es1 (Pool.start_inv disc hnd) hs
    have hlen1 := Pool.run_size es1 hs
    simp only [Pool.start, List.length_nil] at hlen1
    rw [hs] at hx
    dsimp only at hx
    by_cases h0 : s.left = 0
    · have hall := allOf_done hdisc hnd hs h0
      have hrun := (Pool.done hnd hinv h0).2.1
      rw [if_pos ⟨h0, hrun⟩] at hx
      obtain ⟨A, a1, a2, a3, a4, a5⟩ := merge_any_order hG hO hnd hab hall (hord (s.got.keys.drop 1))
      rw [a1] at hx
      dsimp only at hx
      have hok : ∀ m ∈ m1 :: ms, ∃ t, parTrans feas params s.got A m = .ok t := by
        intro m hm
        unfold parTrans
        rw [if_pos (by rw [hparams m hm]; rfl), hall.2 m hm]
        exact a5 m hm _ (hfeas m _ _) _
      have hval : ∀ m ∈ m1 :: ms, ∀ t, parTrans feas params s.got A m = .ok t →
          getTransitions (parFeas feas params m) A m (ab m) (parLens params m) = .ok t := by
        intro m hm t ht
        unfold parTrans at ht
        rw [if_pos (by rw [hparams m hm]; rfl), hall.2 m hm] at ht
        exact ht
      have hsecond : ∀ es, parSwitched O disc feas params (m1 :: ms) nums (ab m1).ppp.propRegions.keys
          order es1 es = parSecond feas params (m1 :: ms) nums (ab m1).ppp.propRegions.keys s.got A es := by
        intro es
        unfold parSwitched
        rw [hs]
        dsimp only
        rw [if_pos ⟨h0, hrun⟩, a1]
      simp only [hsecond]
      unfold parSecond at hx
      cases hs2 : (Pool.start (m1 :: ms)).run (parTrans feas params s.got A) es2 with
      | none => rw [hs2] at hx; cases hx
      | some s2 =>
        have hinv2 := Pool.run_inv es2 (Pool.start_inv (parTrans feas params s.got A) hnd) hs2
        have hlen2 := Pool.run_size es2 hs2
        simp only [Pool.start, List.length_nil] at hlen2
        refine ⟨by omega, ?_⟩
        rw [hs2] at hx
        dsimp only at hx
        by_cases h02 : s2.left = 0
        · obtain ⟨d1, _, d3⟩ := Pool.done hnd hinv2 h02
          right
          rw [if_pos h02, if_pos (by
            rw [List.all_eq_true]
            intro m hm
            obtain ⟨r, _, hr⟩ := d3 m hm
            exact (Dict.has_iff _ _).2 ⟨r, hr⟩)] at hx
          obtain ⟨g, g1, g2⟩ := switchedAbs_of (O := O) (G := G) (feas := parFeas feas params)
            (lens := parLens params) hnd hall a2 a3 a4 hdec
            (t := fun m => (s2.got.get? m).getD fun _ _ => false) (by
              intro m hm
              obtain ⟨r, k1, k2⟩ := d3 m hm
              rw [k2]
              exact hval m hm r k1)
          rw [g1] at hx
          cases hx
          exact ⟨A, g, rfl, g2⟩
        · left
          rw [if_neg h02] at hx
          cases hx
          refine ⟨rfl, ?_⟩
          obtain ⟨e, s', he⟩ := Pool.progress hok hnd hinv2 h02
          refine ⟨e, Or.inr ?_⟩
          unfold parSecond
          rw [Pool.run_append, hs2]
          simp only [Option.bind_some, Pool.run, he]
          split
          · split
            · split <;> rfl
            · rfl
          · rfl
    · rw [if_neg fun h => h0 h.1] at hx
      obtain ⟨rfl, rfl⟩ := hnone es2 _ hx
      refine ⟨by simp only [List.length_nil]; omega, Or.inl ⟨rfl, ?_⟩⟩
      obtain ⟨e, s', he⟩ := Pool.progress (fun m hm => ⟨_, hdisc m hm⟩) hnd hinv h0
      refine ⟨e, Or.inl ⟨rfl, ?_⟩⟩
      unfold parSwitched
      rw [Pool.run_append, hs]
      simp only [Option.bind_some, Pool.run, he]
      split
      · split
        · rfl
        · rfl
        · unfold parSecond
          simp only [Pool.run]
          split
          · split
            · split <;> rfl
            · rfl
          · rfl
      · rfl

/-- **C110**. If `discretize` raises in some worker, then the parent waits forever: whatever happens, it
neither returns nor raises. -/
theorem parSwitched_lost {O : MergeOps P} {modes : List (Act × Act)} (hnd : modes.Nodup)
    {disc : Act × Act → Except PyErr (ModeAbs P)} {m : Act × Act} (hm : m ∈ modes) {e : PyErr}
    (he : disc m = .error e) {feas : Act × Act → Nat → Bool → P → P → Nat → P → Except PyErr Bool}
    {params : Act × Act → ModeParams} {nums : Nat × Nat} {aps : List String}
    {order : List (Act × Act) → List (Act × Act)} (es1 es2 : List (Event (Act × Act)))
    {x : Call (Merged P (Act × Act) × LGraph Nat Lab)}
    (hx : parSwitched O disc feas params modes nums aps order es1 es2 = some x) : x = .waiting := by
  unfold parSwitched at hx
  split at hx
  · cases hx
  · rename_i s hs
    rw [if_neg fun h => Pool.never hnd hm he (Pool.run_inv es1 (Pool.start_inv disc hnd) hs) h.1] at hx
    split at hx
    · cases hx
      rfl
    · cases hx

/-- **C110**. A parameter that `discretize` accepts and `get_transitions` does not (such as
`min_cell_volume`), in any mode: the parent waits forever. -/
theorem parSwitched_unknown {O : MergeOps P} {G : Geom P X} (hG : G.Lawful) (hO : O.Sound G)
    {m1 : Act × Act} {ms : List (Act × Act)} (hnd : (m1 :: ms).Nodup) {ab : Act × Act → ModeAbs P}
    (hab : GoodModes O G (m1 :: ms) ab) {disc : Act × Act → Except PyErr (ModeAbs P)}
    (hdisc : ∀ m ∈ m1 :: ms, disc m = .ok (ab m))
    {feas : Act × Act → Nat → Bool → P → P → Nat → P → Except PyErr Bool} {params : Act × Act → ModeParams}
    {m : Act × Act} (hm : m ∈ m1 :: ms) (hparams : (params m).others ≠ []) {nums : Nat × Nat}
    {aps : List String} {order : List (Act × Act) → List (Act × Act)}
    (hord : ∀ l, (order l).Perm l) (es1 es2 : List (Event (Act × Act)))
    {x : Call (Merged P (Act × Act) × LGraph Nat Lab)}
    (hx : parSwitched O disc feas params (m1 :: ms) nums aps order es1 es2 = some x) : x = .waiting := by
  unfold parSwitched at hx
  split at hx
  · cases hx
  · rename_i s hs
    split at hx
    · rename_i h0
      obtain ⟨A, a1, _⟩ := merge_any_order hG hO hnd hab (allOf_done hdisc hnd hs h0.1)
        (hord (s.got.keys.drop 1))
      rw [a1] at hx
      dsimp only at hx
      unfold parSecond at hx
      split at hx
      · cases hx
      · rename_i s2 hs2
        have he : parTrans feas params s.got A m = .error .typeError := by
          unfold parTrans
          rw [if_neg (by simpa using hparams)]
        rw [if_neg (Pool.never hnd hm he (Pool.run_inv es2 (Pool.start_inv _ hnd) hs2))] at hx
        cases hx
        rfl
    · split at hx
      · cases hx
        rfl
      · cases hx

/-! ## The result does not depend on the schedule, and is that of `discretize_switched` -/

/-- Two abstractions of a switched system are the same up to the numbering of the states: the states
stand for the same sets of points (up to negligible sets), with the same labels, in the same cells of the
modes, and have the same transitions. -/
structure SameAbs (G : Geom P X) (A A' : Merged P (Act × Act)) (g g' : LGraph Nat Lab) (σ : Nat → Nat) :
    Prop where
  numbers : Renumbers A.ppp.regions.length A'.ppp.regions.length σ
  cells : ∀ (i : Nat) (r : Region P), A.ppp.regions[i]? = some r →
    (∀ m, A.parents m i = A'.parents m (σ i)) ∧ ∃ r', A'.ppp.regions[σ i]? = some r' ∧
      SameSet G r.poly r'.poly ∧ ∀ a, a ∈ r.props ↔ a ∈ r'.props
  edges : ∀ i < A.ppp.regions.length, ∀ j < A.ppp.regions.length, ∀ a,
    HasEdge g i j a ↔ HasEdge g' (σ i) (σ j) a

theorem SwitchedAbs.unique {O : MergeOps P} {G : Geom P X} (hG : G.Lawful) {dom : P}
    {props : Dict String P} {modes : List (Act × Act)} {ab : Act × Act → ModeAbs P}
    (hne : modes ≠ []) (hab : GoodModes O G modes ab)
    (hadj : ∀ p q, O.adjacent p q = O.adjacent q p)
    (hresp : ∀ p p' q q', SameSet G p p' → SameSet G q q' → O.adjacent p q = O.adjacent p' q')
    {feas : Act × Act → P → P → Nat → P → Except PyErr Bool}
    (hfresp : ∀ m p p' q q' sys c, SameSet G p p' → SameSet G q q' →
      feas m p q sys c = feas m p' q' sys c)
    {lens : Act × Act → Nat} {nums : Nat × Nat} {A A' : Merged P (Act × Act)} {g g' : LGraph Nat Lab}
    (h : SwitchedAbs O G dom props modes ab feas lens nums A g)
    (h' : SwitchedAbs O G dom props modes ab feas lens nums A' g') : ∃ σ, SameAbs G A A' g g' σ := by
  obtain ⟨σ, h1, h2⟩ := h.refines.unique hG h'.refines rfl (fun _ => Iff.rfl) hne (fun _ _ => rfl)
    (fun m hm => (hab.preserving m hm).disjoint) h.thick h'.thick
  have hA : ∀ i < A.ppp.regions.length, ∀ j < A.ppp.regions.length, A.adj i j = A'.adj (σ i) (σ j) := by
    intro i hi j hj
    rw [h.adj, h'.adj]
    exact mergedAdj_same (s := ⟨A.ppp.regions, A.parents, A.labels⟩)
      (s' := ⟨A'.ppp.regions, A'.parents, A'.labels⟩) h1 (fun _ => Iff.rfl) (fun q hq => by
        obtain ⟨hq1, hq2⟩ := (mem_zipped q).1 hq
        rw [hq2]
        exact hab.symm _ hq1) hadj hresp h2 hi hj
  refine ⟨σ, h1, h2, ?_⟩
  intro i hi j hj a
  obtain ⟨pi, ri, i1, i2, _⟩ := h2 i _ (List.getElem?_eq_getElem hi)
  obtain ⟨pj, rj, j1, j2, _⟩ := h2 j _ (List.getElem?_eq_getElem hj)
  rw [h.edges, h'.edges]
  have hreach : ∀ m, reachableWithin A.ppp.regions.length (lens m) A.adj A.adj j i = true ↔
      reachableWithin A'.ppp.regions.length (lens m) A'.adj A'.adj (σ j) (σ i) = true := by
    intro m
    rw [reachableWithin_walk, reachableWithin_walk]
    exact walk_renumber h1 hA _ hj hi
  have hcell : ∀ m, modeCell A m (ab m) i = modeCell A' m (ab m) (σ i) := by
    intro m
    unfold modeCell getKey
    rw [pi m]
  constructor
  · rintro ⟨m, hm, hs, hr, si, sj, c, sys, k1, k2, k3, k4⟩
    rw [List.getElem?_eq_getElem hi] at k1
    rw [List.getElem?_eq_getElem hj] at k2
    cases k1
    cases k2
    exact ⟨m, hm, hs, (hreach m).1 hr, ri, rj, c, sys, i1, j1, (hcell m) ▸ k3,
      (hfresp m _ _ _ _ sys c i2 j2) ▸ k4⟩
  · rintro ⟨m, hm, hs, hr, si, sj, c, sys, k1, k2, k3, k4⟩
    rw [i1] at k1
    rw [j1] at k2
    cases k1
    cases k2
    exact ⟨m, hm, hs, (hreach m).2 hr, _, _, c, sys, List.getElem?_eq_getElem hi,
      List.getElem?_eq_getElem hj, (hcell m).trans k3, (hfresp m _ _ _ _ sys c i2 j2).trans k4⟩

theorem loopE_dict {f : M → Except PyErr R} {r : M → R} : ∀ (modes : List M) (d : Dict M R),
    (∀ m ∈ modes, f m = .ok (r m)) → (d.map (·.1) ++ modes).Nodup →
    loopE (fun (d : Dict M R) m => do
      let x ← f m
      .ok (d.set m x)) modes d = .ok (d ++ modes.map fun m => (m, r m)) := by
  intro modes
  induction modes with
  | nil => intro d _ _; simp [loopE]
  | cons m ms ih =>
    intro d hf hn
    have hfresh : m ∉ d.map (·.1) := by
      intro hm
      exact (List.nodup_append.1 hn).2.2 m hm m (by simp) rfl
    unfold loopE
    simp only [hf m (by simp), ok_bind]
    rw [Pool.set_fresh (r m) hfresh, ih _ (fun m' hm' => hf m' (by simp [hm'])) (by simpa using hn)]
    simp

theorem get?_zipped {modes : List M} {r : M → R} (hnd : modes.Nodup) {m : M} (hm : m ∈ modes) :
    Dict.get? (modes.map fun m => (m, r m)) m = some (r m) :=
  Pool.get?_of_mem (by simpa [Function.comp_def] using hnd) (List.mem_map_of_mem hm)

/-- `discretize_switched` returns the abstraction of the switched system. -/
theorem seqSwitched_spec {O : MergeOps P} {G : Geom P X} (hG : G.Lawful) (hO : O.Sound G)
    {m1 : Act × Act} {ms : List (Act × Act)} (hnd : (m1 :: ms).Nodup) {ab : Act × Act → ModeAbs P}
    (hab : GoodModes O G (m1 :: ms) ab) {disc : Act × Act → Except PyErr (ModeAbs P)}
    (hdisc : ∀ m ∈ m1 :: ms, disc m = .ok (ab m))
    {feas : Act × Act → Nat → Bool → P → P → Nat → P → Except PyErr Bool}
    (hfeas : ∀ m n b p q sys c, ∃ x, feas m n b p q sys c = .ok x) {params : Act × Act → ModeParams}
    {n l : Act × Act → Nat} (hn : ∀ m ∈ m1 :: ms, (params m).n = some (n m))
    (hl : ∀ m ∈ m1 :: ms, (params m).transLength = some (l m)) {nums : Nat × Nat}
    (hdec : Declared nums (m1 :: ms)) {order : List (Act × Act) → List (Act × Act)}
    (hord : ∀ l, (order l).Perm l) :
    ∃ A g, seqSwitched O disc feas params (m1 :: ms) nums (ab m1).ppp.propRegions.keys order = .ok (A, g) ∧
      SwitchedAbs O G (ab m1).ppp.domain (ab m1).ppp.propRegions (m1 :: ms) ab
        (fun m => feas m (n m) true) l nums A g := by
  have hkeys : Dict.keys ((m1 :: ms).map fun m => (m, ab m)) = m1 :: ms := by
    simp [Dict.keys, Function.comp_def]
  have hall : AllOf (m1 :: ms) ab ((m1 :: ms).map fun m => (m, ab m)) :=
    ⟨by rw [hkeys], fun m hm => get?_zipped hnd hm⟩
  obtain ⟨A, a1, a2, a3, a4, a5⟩ := merge_any_order hG hO hnd hab hall
    (hord ((Dict.keys ((m1 :: ms).map fun m => (m, ab m))).drop 1))
  have htrans : ∃ t, loopE (fun (t : Act × Act → Nat → Nat → Bool) (p : (Act × Act) × ModeAbs P) => do
        let t' ← getTransitions (feas p.1 ((((Dict.get? ((m1 :: ms).map fun m => (m, (n m, l m))) p.1).getD
          (0, 0)).1)) true) A p.1 p.2
          ((((Dict.get? ((m1 :: ms).map fun m => (m, (n m, l m))) p.1).getD (0, 0)).2))
        .ok fun m => if m = p.1 then t' else t m) ((m1 :: ms).map fun m => (m, ab m))
        (fun _ _ _ => false) = .ok t ∧
      ∀ m ∈ m1 :: ms, getTransitions (feas m (n m) true) A m (ab m) (l m) = .ok (t m) := by
    obtain ⟨t, t1, t2⟩ := transLoop_ok (f := fun m ab => getTransitions
        (feas m ((((Dict.get? ((m1 :: ms).map fun m => (m, (n m, l m))) m).getD (0, 0)).1)) true) A m ab
        ((((Dict.get? ((m1 :: ms).map fun m => (m, (n m, l m))) m).getD (0, 0)).2)))
      ((m1 :: ms).map fun m => (m, ab m)) [] (fun _ _ _ => false)
      (by simpa [Function.comp_def] using hnd) (by
        intro q hq
        obtain ⟨hq1, hq2⟩ := (mem_zipped q).1 hq
        rw [hq2]
        exact a5 q.1 hq1 _ (hfeas q.1 _ _) _) (by simp)
    refine ⟨t, t1, ?_⟩
    intro m hm
    have := t2 (m, ab m) (by simp only [List.nil_append]; exact List.mem_map_of_mem hm)
    rw [get?_zipped (r := fun m => (n m, l m)) hnd hm] at this
    exact this
  obtain ⟨t, t1, t2⟩ := htrans
  obtain ⟨g, g1, g2⟩ := switchedAbs_of (O := O) (G := G) (feas := fun m => feas m (n m) true) (lens := l)
    hnd hall a2 a3 a4 hdec t2
  refine ⟨A, g, ?_, g2⟩
  unfold seqSwitched
  rw [loopE_dict (f := disc) (r := ab) (m1 :: ms) [] hdisc (by simpa using hnd)]
  have hps : loopE (fun (d : Dict (Act × Act) (Nat × Nat)) m => do
      let n ← reqParam (params m).n
      let l ← reqParam (params m).transLength
      .ok (d.set m (n, l))) (m1 :: ms) [] = .ok ((m1 :: ms).map fun m => (m, (n m, l m))) := by
    have := loopE_dict (f := fun m => do
        let n ← reqParam (params m).n
        let l ← reqParam (params m).transLength
        .ok (n, l)) (r := fun m => (n m, l m)) (m1 :: ms) [] (by
          intro m hm
          simp [hn m hm, hl m hm, reqParam]) (by simpa using hnd)
    rw [List.nil_append] at this
    rw [← this]
    congr 1
    funext d m
    cases (params m).n <;> cases (params m).transLength <;> rfl
  simp only [ok_bind, List.nil_append]
  rw [hps]
  simp only [ok_bind]
  unfold abstractSwitched
  rw [a1]
  simp only [ok_bind]
  rw [t1]
  simp only [ok_bind]
  rw [hkeys, g1]

theorem loopE_fails {α σ : Type} {f : σ → α → Except PyErr σ} {e : PyErr}
    (hf : ∀ s a, (∃ s', f s a = .ok s') ∨ f s a = .error e) : ∀ (l : List α) (s : σ),
    (∃ a ∈ l, ∀ s, f s a = .error e) → loopE f l s = .error e := by
  intro l
  induction l with
  | nil => intro s h; obtain ⟨a, ha, _⟩ := h; cases ha
  | cons b l ih =>
    intro s h
    rcases hf s b with ⟨s', hs'⟩ | hb
    · simp only [loopE, hs', ok_bind]
      apply ih
      obtain ⟨a, ha, hae⟩ := h
      rcases List.mem_cons.1 ha with rfl | ha
      · rw [hae s] at hs'; cases hs'
      · exact ⟨a, ha, hae⟩
    · simp only [loopE, hb, error_bind]

/-- **C110**. `discretize_switched` raises a `KeyError` if the parameters of some mode lack the number of
steps or the least length of transitions, and each mode can be discretized. (See `seqSwitched`: that the
partitions can be merged is needed in the program.) -/
theorem seqSwitched_missing {O : MergeOps P} {modes : List (Act × Act)} (hnd : modes.Nodup)
    {ab : Act × Act → ModeAbs P} {disc : Act × Act → Except PyErr (ModeAbs P)}
    (hdisc : ∀ m ∈ modes, disc m = .ok (ab m))
    {feas : Act × Act → Nat → Bool → P → P → Nat → P → Except PyErr Bool}
    {params : Act × Act → ModeParams} {m : Act × Act} (hm : m ∈ modes)
    (h : (params m).n = none ∨ (params m).transLength = none) {nums : Nat × Nat} {aps : List String}
    {order : List (Act × Act) → List (Act × Act)} :
    seqSwitched O disc feas params modes nums aps order = .error .keyError := by
  unfold seqSwitched
  rw [loopE_dict (f := disc) (r := ab) modes [] hdisc (by simpa using hnd)]
  simp only [ok_bind]
  rw [loopE_fails (e := .keyError) _ modes [] ⟨m, hm, _⟩]
  · rfl
  · intro s a
    cases (params a).n <;> cases (params a).transLength
    · exact .inr rfl
    · exact .inr rfl
    · exact .inr rfl
    · exact .inl ⟨_, rfl⟩
  · intro s
    rcases h with h | h
    · rw [h]; rfl
    · rw [h]; cases (params m).n <;> rfl

/-- **C110**. `multiproc_discretize_switched` returns what `discretize_switched` returns, up to the
numbering of the states, for every schedule and every order in which sets are iterated, if the parameters
are those that both use, and if the answers of the solver and of the test of adjacency depend only on the
sets of points (up to negligible sets). -/
theorem parSwitched_seq {O : MergeOps P} {G : Geom P X} (hG : G.Lawful) (hO : O.Sound G)
    (hadj : ∀ p q, O.adjacent p q = O.adjacent q p)
    (hresp : ∀ p p' q q', SameSet G p p' → SameSet G q q' → O.adjacent p q = O.adjacent p' q')
    {m1 : Act × Act} {ms : List (Act × Act)} (hnd : (m1 :: ms).Nodup) {ab : Act × Act → ModeAbs P}
    (hab : GoodModes O G (m1 :: ms) ab) {disc : Act × Act → Except PyErr (ModeAbs P)}
    (hdisc : ∀ m ∈ m1 :: ms, disc m = .ok (ab m))
    {feas : Act × Act → Nat → Bool → P → P → Nat → P → Except PyErr Bool}
    (hfeas : ∀ m n b p q sys c, ∃ x, feas m n b p q sys c = .ok x)
    (hfresp : ∀ m n b p p' q q' sys c, SameSet G p p' → SameSet G q q' →
      feas m n b p q sys c = feas m n b p' q' sys c)
    {params : Act × Act → ModeParams} {n l : Act × Act → Nat}
    (hparams : ∀ m ∈ m1 :: ms, params m = ⟨some (n m), none, some (l m), []⟩ ∨
      params m = ⟨some (n m), some true, some (l m), []⟩) {nums : Nat × Nat}
    (hdec : Declared nums (m1 :: ms)) {order order' : List (Act × Act) → List (Act × Act)}
    (hord : ∀ l, (order l).Perm l) (hord' : ∀ l, (order' l).Perm l) (es1 es2 : List (Event (Act × Act)))
    {A : Merged P (Act × Act)} {g : LGraph Nat Lab}
    (hx : parSwitched O disc feas params (m1 :: ms) nums (ab m1).ppp.propRegions.keys order es1 es2 =
      some (.returned (A, g))) :
    ∃ A' g', seqSwitched O disc feas params (m1 :: ms) nums (ab m1).ppp.propRegions.keys order' =
      .ok (A', g') ∧ ∃ σ, SameAbs G A A' g g' σ := by
  have ho : ∀ m ∈ m1 :: ms, (params m).others = [] := by
    intro m hm
    rcases hparams m hm with h | h <;> rw [h]
  obtain ⟨A', g', h1, h2⟩ := seqSwitched_spec hG hO hnd hab hdisc hfeas (params := params) (n := n) (l := l)
    (fun m hm => by rcases hparams m hm with h | h <;> rw [h])
    (fun m hm => by rcases hparams m hm with h | h <;> rw [h]) hdec hord'
  refine ⟨A', g', h1, ?_⟩
  obtain ⟨_, h | ⟨A1, g1, h3, h4⟩⟩ := parSwitched_spec hG hO hnd hab hdisc hfeas ho hdec hord es1 es2 hx
  · cases h.1
  · cases h3
    refine SwitchedAbs.unique hG (by simp) hab hadj hresp (feas := fun m => feas m (n m) true) (lens := l)
      (fun m p p' q q' sys c => hfresp m _ _ p p' q q' sys c) ?_ h2
    refine ⟨h4.refines, h4.adj, h4.thick, h4.states, ?_⟩
    intro i j a
    rw [h4.edges]
    refine exists_congr fun m => and_congr_right fun hm => ?_
    unfold parFeas parLens
    rcases hparams m hm with h | h <;> rw [h] <;> rfl

/-! ## Examples -/

/-- A partition of the line from `0` to `4` where `a` holds up to `2`, split at `3`. -/
def lineModeB : ModeAbs (List (Int × Bool)) where
  ppp := ⟨line 0 4, [⟨line 2 3, []⟩, ⟨line 3 4, []⟩, ⟨line 0 2, ["a"]⟩], [("a", line 0 2)]⟩
  adj i j := decide (i = j ∨ i + j = 1 ∨ i + j = 2)
  aps := [[], [], ["a"]]
  ppp2pwa := [1, 1, 0]
  pwaPpp := [⟨line 0 2, ["a"]⟩, ⟨line 2 4, []⟩]
  ppp2sys := none

theorem lineModeB_preserving : Preserving cells lineModeB.ppp.domain lineModeB.ppp.propRegions
    lineModeB.ppp.regions := by
  have h1 : ∀ r ∈ lineModeB.ppp.regions, ∀ x ∈ r.poly, x ∈ line 0 4 := by decide +kernel
  have h2 : ∀ x ∈ line 0 4, ∃ r ∈ lineModeB.ppp.regions, x ∈ r.poly := by decide +kernel
  have h3 : lineModeB.ppp.regions.Pairwise fun r s => ∀ x ∈ r.poly, x ∈ s.poly → x.2 = false := by
    decide +kernel
  have h4 : ∀ r ∈ lineModeB.ppp.regions, ∀ p ∈ r.props, p = "a" ∧ ∀ x ∈ r.poly, x ∈ line 0 2 := by
    decide +kernel
  have h5 : ∀ r ∈ lineModeB.ppp.regions, "a" ∉ r.props → ∀ x ∈ r.poly, x ∈ line 0 2 → x.2 = false := by
    decide +kernel
  have hget : ∀ p q, Dict.get? lineModeB.ppp.propRegions p = some q → p = "a" ∧ q = line 0 2 := by
    intro p q h
    simp only [lineModeB, Dict.get?_cons, Dict.get?_nil] at h
    split at h
    · rename_i he
      cases h
      exact ⟨he.symm, rfl⟩
    · cases h
  refine ⟨h1, ?_, ?_, ?_, ?_⟩
  · rintro x ⟨hx, hn⟩
    exact absurd (h2 x hx) hn
  · exact h3.imp fun h x hx => h x hx.1 hx.2
  · intro r hr p hp
    obtain ⟨rfl, h⟩ := h4 r hr p hp
    exact ⟨line 0 2, rfl, h⟩
  · intro r hr p q hq hp
    obtain ⟨rfl, rfl⟩ := hget p q hq
    exact fun x hx => h5 r hr hp x hx.1 hx.2

theorem lineModeB_homed : lineModeB.Homed cells := by
  have hin : (∀ x ∈ line 2 3, x ∈ line 2 4) ∧ (∀ x ∈ line 3 4, x ∈ line 2 4) ∧
      ∀ x ∈ line 0 2, x ∈ line 0 2 := by decide +kernel
  intro p r hr
  have hp : p < 3 := (List.getElem?_eq_some_iff.1 hr).1
  obtain rfl | rfl | rfl : p = 0 ∨ p = 1 ∨ p = 2 := by omega
  · cases hr
    exact ⟨_, _, rfl, rfl, hin.1, by intro l hl; cases hl⟩
  · cases hr
    exact ⟨_, _, rfl, rfl, hin.2.1, by intro l hl; cases hl⟩
  · cases hr
    exact ⟨_, _, rfl, rfl, hin.2.2, by intro l hl; cases hl⟩

theorem lineModeB_labeled : lineModeB.Labeled := by
  refine ⟨rfl, ?_⟩
  intro j b l hb hl p
  have hj : j < 3 := (List.getElem?_eq_some_iff.1 hb).1
  obtain rfl | rfl | rfl : j = 0 ∨ j = 1 ∨ j = 2 := by omega
  all_goals
    cases hb
    cases hl
    exact Iff.rfl

def parM1 : Act × Act := (.str "e", .str "0")

def parM2 : Act × Act := (.str "e", .str "1")

def parAb (m : Act × Act) : ModeAbs (List (Int × Bool)) := if m = parM1 then lineMode 1 else lineModeB

theorem parAb_good : GoodModes lineMerge cells [parM1, parM2] parAb := by
  have hM : parM2 ≠ parM1 := by decide +kernel
  have e1 : parAb parM1 = lineMode 1 := if_pos rfl
  have e2 : parAb parM2 = lineModeB := if_neg hM
  have hall : ∀ (Q : ModeAbs (List (Int × Bool)) → Prop), Q (lineMode 1) → Q lineModeB →
      ∀ m ∈ [parM1, parM2], Q (parAb m) := by
    intro Q h1 h2 m hm
    simp only [List.mem_cons, List.not_mem_nil, or_false] at hm
    rcases hm with rfl | rfl
    · rw [e1]; exact h1
    · rw [e2]; exact h2
  have hdom : ¬ cells.null (cells.den (line 0 4)) := by
    intro h
    have := h (0, true) (by show (0, true) ∈ line 0 4; decide +kernel)
    cases this
  have hthick : ∀ r : Region (List (Int × Bool)), (r.poly.any (·.2)) = true →
      ¬ cells.null (cells.den r.poly) := by
    intro r hr hn
    rw [List.any_eq_true] at hr
    obtain ⟨x, hx, hx'⟩ := hr
    rw [hn x hx] at hx'
    cases hx'
  refine ⟨hall (fun b => Preserving cells b.ppp.domain b.ppp.propRegions b.ppp.regions)
      (lineMode_preserving 1 (by simp)) lineModeB_preserving,
    hall (fun b => b.Labeled) (lineMode_labeled 1) lineModeB_labeled,
    hall (fun b => b.Homed cells) (lineMode_homed 1 (by simp)) lineModeB_homed, ?_,
    hall (fun b => ¬ cells.null (cells.den b.ppp.domain)) hdom hdom,
    hall (fun b => ∀ r ∈ b.ppp.regions, ¬ cells.null (cells.den r.poly)) ?_ ?_,
    hall (fun b => ∀ i j, b.adj i j = b.adj j i) ?_ ?_⟩
  · refine hall (fun b => ∀ m' ∈ [parM1, parM2], sameRegions lineMerge.eqv b.ppp.propRegions
      (parAb m').ppp.propRegions = true ∧ lineMerge.sameDomain b.ppp.domain (parAb m').ppp.domain = true)
      ?_ ?_
    · exact hall (fun c => sameRegions lineMerge.eqv (lineMode 1).ppp.propRegions c.ppp.propRegions = true ∧
        lineMerge.sameDomain (lineMode 1).ppp.domain c.ppp.domain = true)
        ⟨by decide +kernel, by decide +kernel⟩ ⟨by decide +kernel, by decide +kernel⟩
    · exact hall (fun c => sameRegions lineMerge.eqv lineModeB.ppp.propRegions c.ppp.propRegions = true ∧
        lineMerge.sameDomain lineModeB.ppp.domain c.ppp.domain = true)
        ⟨by decide +kernel, by decide +kernel⟩ ⟨by decide +kernel, by decide +kernel⟩
  · intro r hr
    refine hthick r ?_
    revert r
    decide +kernel
  · intro r hr
    refine hthick r ?_
    revert r
    decide +kernel
  · intro i j
    simp only [lineMode]
    congr 1
    exact propext And.comm
  · intro i j
    simp only [lineModeB]
    congr 1
    rw [Nat.add_comm i j, eq_comm (a := i)]

/-- The solver finds that the target can be reached iff it contains the inside of an even cell. -/
def parSolver (_ : Act × Act) (_ : Nat) (_ : Bool) (_ q : List (Int × Bool)) (_ : Nat)
    (_ : List (Int × Bool)) : Except PyErr Bool :=
  .ok (q.any fun x => x.2 && x.1 % 2 == 0)

theorem parSolver_respects (m : Act × Act) (n : Nat) (b : Bool) (p p' q q' : List (Int × Bool)) (sys : Nat)
    (c : List (Int × Bool)) (_ : SameSet cells p p') (hq : SameSet cells q q') :
    parSolver m n b p q sys c = parSolver m n b p' q' sys c := by
  have key : ∀ q q' : List (Int × Bool), cells.null (cells.den q \ cells.den q') →
      (q.any fun x => x.2 && x.1 % 2 == 0) = true → (q'.any fun x => x.2 && x.1 % 2 == 0) = true := by
    intro q q' h hq
    rw [List.any_eq_true] at hq ⊢
    obtain ⟨x, hx, hx'⟩ := hq
    refine ⟨x, ?_, hx'⟩
    by_contra hn
    rw [Bool.and_eq_true] at hx'
    have := h x ⟨hx, hn⟩
    rw [hx'.1] at this
    cases this
  unfold parSolver
  congr 1
  rw [Bool.eq_iff_iff]
  exact ⟨key q q' hq.1, key q' q hq.2⟩

def parParams (_ : Act × Act) : ModeParams := ⟨some 5, none, some 1, []⟩

/-- The call of the examples. -/
def parCall (params : Act × Act → ModeParams) (es1 es2 : List (Event (Act × Act))) :=
  parSwitched lineMerge (fun m => .ok (parAb m)) parSolver params [parM1, parM2] (1, 2) ["a"] id es1 es2

/-- The regions of a result, for the examples. -/
def regionsOf : Option (Call (Merged (List (Int × Bool)) (Act × Act) × LGraph Nat Lab)) →
    List (List Int)
  | some (.returned (A, _)) => A.ppp.regions.map fun r => (r.poly.filter (·.2)).map (·.1)
  | _ => []

/-- Both workers write, then the parent reads. -/
def inOrder (m m' : Act × Act) : List (Event (Act × Act)) := [.worker m, .worker m', .parent, .parent]

/-- The number of a state depends on the schedule. -/
theorem parSwitched_numbering_counterexample :
    regionsOf (parCall parParams (inOrder parM1 parM2) (inOrder parM1 parM2)) = [[0], [1], [2], [3]] ∧
    regionsOf (parCall parParams (inOrder parM2 parM1) (inOrder parM1 parM2)) = [[2], [3], [0], [1]] := by
  decide +kernel

/-- The hypotheses of the theorems are met. -/
example {A : Merged (List (Int × Bool)) (Act × Act)} {g : LGraph Nat Lab}
    (es1 es2 : List (Event (Act × Act))) (hx : parCall parParams es1 es2 = some (.returned (A, g))) :
    ∃ A' g', seqSwitched lineMerge (fun m => .ok (parAb m)) parSolver parParams [parM1, parM2] (1, 2) ["a"]
      id = .ok (A', g') ∧ ∃ σ, SameAbs cells A A' g g' σ :=
  parSwitched_seq cells_lawful lineMerge_sound (fun _ _ => rfl) (fun _ _ _ _ _ _ => rfl)
    (by decide +kernel) parAb_good (fun _ _ => rfl) (fun _ _ _ _ _ _ _ => ⟨_, rfl⟩) parSolver_respects
    (n := fun _ => 5) (l := fun _ => 1) (fun _ _ => Or.inl rfl) (Or.inr (Or.inr (by decide +kernel)))
    (fun _ => List.Perm.refl _) (fun _ => List.Perm.refl _) es1 es2 hx

/-- With `min_cell_volume` among the parameters `discretize_switched` returns, and
`multiproc_discretize_switched` waits forever. -/
theorem parSwitched_unknown_counterexample (es1 es2 : List (Event (Act × Act))) :
    (∃ A g, seqSwitched lineMerge (fun m => .ok (parAb m)) parSolver
      (fun _ => ⟨some 5, none, some 1, ["min_cell_volume"]⟩) [parM1, parM2] (1, 2) ["a"] id = .ok (A, g)) ∧
    ∀ x, parCall (fun _ => ⟨some 5, none, some 1, ["min_cell_volume"]⟩) es1 es2 = some x → x = .waiting := by
  constructor
  · obtain ⟨A, g, h, _⟩ := seqSwitched_spec cells_lawful lineMerge_sound (m1 := parM1) (ms := [parM2])
      (by decide +kernel) parAb_good (disc := fun m => .ok (parAb m)) (fun _ _ => rfl) (feas := parSolver)
      (fun _ _ _ _ _ _ _ => ⟨_, rfl⟩)
      (params := fun _ => ⟨some 5, none, some 1, ["min_cell_volume"]⟩) (n := fun _ => 5) (l := fun _ => 1)
      (fun _ _ => rfl) (fun _ _ => rfl) (nums := (1, 2)) (Or.inr (Or.inr (by decide +kernel)))
      (order := id) (fun _ => List.Perm.refl _)
    exact ⟨A, g, h⟩
  · intro x hx
    exact parSwitched_unknown cells_lawful lineMerge_sound (m1 := parM1) (ms := [parM2])
      (by decide +kernel) parAb_good (disc := fun m => .ok (parAb m)) (fun _ _ => rfl) (m := parM1) (by simp)
      (by simp) (fun _ => List.Perm.refl _) es1 es2 hx

end Abs

end Tulip
