import Verif.Hybrid

/-!
# Properties of the constructors of hybrid systems (C63, C73)
-/

namespace Tulip

namespace Hyb

open Abs

variable {P X : Type}

/-! ### Specification -/

/-- Acceptable time data: known semantics, no timestep with discrete semantics, and a timestep is a positive
number of type `int` or `float` (or the `float` that is not a number). -/
structure Time.Valid (t : Time) : Prop where
  semantics : t.semantics = none ∨ t.semantics = some "sampled" ∨ t.semantics = some "discrete"
  discrete : t.semantics = some "discrete" → t.step = none
  step : ∀ s, t.step = some s → s = .nan ∨ ∃ q, s = .num q ∧ 0 < q

/-- The numeric value of a timestep. -/
def Step.value : Step → Option Rat
  | .num q => some q
  | .otherNum q => some q
  | _ => none

/-- Two timesteps (or `None`) are equal: both absent, the same number, or the same text. -/
def SameStep (a b : Option Step) : Prop :=
  (a = none ∧ b = none) ∨
  (∃ s t q, a = some s ∧ b = some t ∧ s.value = some q ∧ t.value = some q) ∨
  ∃ s, a = some (.text s) ∧ b = some (.text s)

/-- The time data of two systems agree. -/
def Agree (a b : Time) : Prop := SameStep a.step b.step ∧ a.semantics = b.semantics

theorem stepNe_iff (a b : Option Step) : stepNe a b = false ↔ SameStep a b := by
  unfold SameStep
  rcases a with _ | a <;> rcases b with _ | b <;> simp only [stepNe]
  · simp
  · simp
  · simp
  · cases a <;> cases b <;> simp only [Step.ne, Step.value, bne_eq_false_iff_eq]
    all_goals try simp
    all_goals exact @eq_comm _ _ _

theorem Agree.symm {a b : Time} (h : Agree a b) : Agree b a := by
  refine ⟨?_, h.2.symm⟩
  rcases h.1 with h | ⟨s, t, q, h1, h2, h3, h4⟩ | ⟨s, h⟩
  · exact Or.inl ⟨h.2, h.1⟩
  · exact Or.inr (Or.inl ⟨t, s, q, h2, h1, h4, h3⟩)
  · exact Or.inr (Or.inr ⟨s, h.2, h.1⟩)

theorem Agree.trans {a b c : Time} (h : Agree a b) (h' : Agree b c) : Agree a c := by
  refine ⟨?_, h.2.trans h'.2⟩
  rcases h.1 with h1 | ⟨s, t, q, h1, h2, h3, h4⟩ | ⟨s, h1, h2⟩
  · rcases h'.1 with k | ⟨s, t, q, k1, k2, k3, k4⟩ | ⟨s, k1, k2⟩
    · exact Or.inl ⟨h1.1, k.2⟩
    · rw [h1.2] at k1; cases k1
    · rw [h1.2] at k1; cases k1
  · rcases h'.1 with k | ⟨s', t', q', k1, k2, k3, k4⟩ | ⟨s', k1, k2⟩
    · rw [h2] at k; cases k.1
    · rw [h2] at k1
      cases k1
      rw [h4] at k3
      cases k3
      exact Or.inr (Or.inl ⟨s, t', q, h1, k2, h3, k4⟩)
    · rw [h2] at k1
      cases k1
      cases h4
  · rcases h'.1 with k | ⟨s', t', q', k1, k2, k3, k4⟩ | ⟨s', k1, k2⟩
    · rw [h2] at k; cases k.1
    · rw [h2] at k1
      cases k1
      cases k3
    · rw [h2] at k1
      cases k1
      exact Or.inr (Or.inr ⟨s, h1, k2⟩)

/-! ### Time data -/

/-- **C63.** The test of the time data accepts exactly the valid ones. -/
theorem checkTimeData_spec (t : Time) : checkTimeData t = .ok () ↔ t.Valid := by
  unfold checkTimeData
  constructor
  · intro h
    split at h
    · cases h
    · rename_i hs
      split at h
      · cases h
      · rename_i hd
        refine ⟨?_, ?_, ?_⟩
        · by_cases h1 : t.semantics = none
          · exact Or.inl h1
          · by_cases h2 : t.semantics = some "sampled"
            · exact Or.inr (Or.inl h2)
            · refine Or.inr (Or.inr ?_)
              by_contra h3
              exact hs ⟨h2, h3, h1⟩
        · intro h1
          by_contra h2
          exact hd ⟨h1, h2⟩
        · intro s hs
          rw [hs] at h
          cases s with
          | num q =>
            simp only at h
            split at h
            · cases h
            · exact Or.inr ⟨q, rfl, by rename_i hq; exact not_le.1 hq⟩
          | nan => exact Or.inl rfl
          | otherNum q =>
            simp only at h
            split at h <;> cases h
          | text s => cases h
  · intro h
    rw [if_neg (by
      rintro ⟨h1, h2, h3⟩
      rcases h.semantics with h | h | h
      · exact h3 h
      · exact h1 h
      · exact h2 h),
      if_neg (by rintro ⟨h1, h2⟩; exact h2 (h.discrete h1))]
    cases hs : t.step with
    | none => rfl
    | some s =>
      rcases h.step s hs with rfl | ⟨q, rfl, hq⟩
      · rfl
      · simp only
        rw [if_neg (not_le.2 hq)]

theorem checkAdjacent_ok {a : Time} {l : List Time} (h : checkAdjacent (a :: l) = .ok ()) :
    ∀ b ∈ l, Agree a b := by
  induction l generalizing a with
  | nil => simp
  | cons b l ih =>
    unfold checkAdjacent at h
    split at h
    · cases h
    · rename_i hs
      split at h
      · cases h
      · rename_i hm
        have hab : Agree a b := ⟨(stepNe_iff _ _).1 (by simpa using hs), by simpa using hm⟩
        intro c hc
        rcases List.mem_cons.1 hc with rfl | hc
        · exact hab
        · exact hab.trans (ih h c hc)

theorem checkAdjacent_of {t : Time} {l : List Time} (h : ∀ b ∈ l, Agree b t) :
    checkAdjacent l = .ok () := by
  induction l with
  | nil => rfl
  | cons a l ih =>
    cases l with
    | nil => rfl
    | cons b l =>
      have hab : Agree a b := (h a (by simp)).trans (h b (by simp)).symm
      unfold checkAdjacent
      rw [(stepNe_iff _ _).2 hab.1]
      simp only [Bool.false_eq_true, if_false, hab.2, ne_eq, not_true_eq_false]
      exact ih fun c hc => h c (by simp [hc])

/-- **C63.** The consistency test accepts exactly the nonempty lists of systems that all agree with the given
time data. -/
theorem checkTimeConsistency_spec (l : List Time) (t : Time) :
    checkTimeConsistency l t = .ok () ↔ l ≠ [] ∧ ∀ a ∈ l, Agree a t := by
  unfold checkTimeConsistency
  constructor
  · intro h
    cases hc : checkAdjacent l with
    | error e => rw [hc] at h; cases h
    | ok u =>
      rw [hc] at h
      cases l with
      | nil => cases h
      | cons a l =>
        refine ⟨by simp, ?_⟩
        simp only [ok_bind] at h
        split at h
        · cases h
        · rename_i hs
          split at h
          · cases h
          · rename_i hm
            have hat : Agree a t := ⟨(stepNe_iff _ _).1 (by simpa using hs), by simpa using hm⟩
            intro b hb
            rcases List.mem_cons.1 hb with rfl | hb
            · exact hat
            · exact (checkAdjacent_ok hc b hb).symm.trans hat
  · rintro ⟨hne, h⟩
    rw [checkAdjacent_of h]
    cases l with
    | nil => exact absurd rfl hne
    | cons a l =>
      have hat := h a (by simp)
      simp only [ok_bind]
      rw [(stepNe_iff _ _).2 hat.1]
      simp [hat.2]

theorem write_get (h : Heap) (i j : Nat) (t : Time) :
    h.write i t j = if j = i then t else h j := rfl

theorem pushLti_get (h : Heap) (l : List (Lti P)) (t : Time) (i : Nat) :
    pushLti h l t i = if i ∈ l.map (·.id) then t else h i := by
  unfold pushLti
  induction l generalizing h with
  | nil => simp
  | cons s l ih =>
    rw [List.foldl_cons, ih, write_get]
    by_cases h1 : i ∈ l.map (·.id)
    · simp [h1]
    · by_cases h2 : i = s.id <;> simp [h1, h2]

/-- The identities of a piecewise-affine system and its subsystems. -/
def Pwa.ids (s : Pwa P) : List Nat := s.id :: s.subs.map (·.id)

theorem pushPwa_get (h : Heap) (l : List (Pwa P)) (t : Time) (i : Nat) :
    pushPwa h l t i = if i ∈ l.flatMap Pwa.ids then t else h i := by
  unfold pushPwa
  induction l generalizing h with
  | nil => simp
  | cons s l ih =>
    rw [List.foldl_cons, ih, pushLti_get, write_get]
    by_cases h1 : i ∈ l.flatMap Pwa.ids
    · simp [h1]
    · by_cases h2 : i = s.id <;> by_cases h3 : i ∈ s.subs.map (·.id) <;>
        simp [h1, h2, h3, Pwa.ids]

/-! ### Piecewise-affine systems -/

/-- The requirement on the domains of the subsystems, up to negligible sets: same dimensions, the domains cover
the given domain, and no two overlap. -/
structure WellDefined (G : Geom P X) (subs : List (Lti P)) (dom : P) : Prop where
  dims : ∀ s ∈ subs, ∀ s' ∈ subs, s.n = s'.n ∧ s.m = s'.m ∧ s.p = s'.p
  cover : G.null (G.den dom \ {x | ∃ s ∈ subs, x ∈ G.den s.domain})
  exclusive : subs.Pairwise fun s s' => G.null (G.den s.domain ∩ G.den s'.domain)

theorem coverLoop_ok {G : Geom P X} (hG : G.Lawful) {n m p : Nat} (l : List (Lti P)) {a r : P}
    (h : coverLoop G n m p l a = .ok r) :
    (∀ s ∈ l, n = s.n ∧ m = s.m ∧ p = s.p) ∧
    G.null ((G.den a \ {x | ∃ s ∈ l, x ∈ G.den s.domain}) \ G.den r) ∧ G.den r ⊆ G.den a ∧
    G.null (G.den r ∩ {x | ∃ s ∈ l, x ∈ G.den s.domain}) := by
  induction l generalizing a with
  | nil =>
    cases h
    refine ⟨by simp, hG.null_mono ?_ hG.null_empty, fun x hx => hx, hG.null_mono ?_ hG.null_empty⟩
    · rintro x ⟨⟨h1, _⟩, h2⟩; exact absurd h1 h2
    · rintro x ⟨_, s, hs, _⟩; cases hs
  | cons s l ih =>
    unfold coverLoop at h
    simp only at h
    split at h
    · cases h
    · rename_i hd
      obtain ⟨h1, h2, h3, h4⟩ := ih h
      refine ⟨?_, ?_, fun x hx => hG.diff_sub _ _ (h3 hx), ?_⟩
      · intro s' hs'
        rcases List.mem_cons.1 hs' with rfl | hs'
        · simp only [not_or, ne_eq, not_not] at hd
          exact hd
        · exact h1 s' hs'
      · refine hG.null_of_sub ?_ (hG.diff_cover a s.domain) h2
        rintro x ⟨⟨hx, hn⟩, hr⟩
        have hns : x ∉ G.den s.domain := fun h => hn ⟨s, by simp, h⟩
        by_cases hd : x ∈ G.den (G.diff a s.domain)
        · refine Or.inr ⟨⟨hd, ?_⟩, hr⟩
          rintro ⟨s', hs', h⟩
          exact hn ⟨s', by simp [hs'], h⟩
        · exact Or.inl ⟨⟨hx, hns⟩, hd⟩
      · refine hG.null_of_sub ?_ (hG.diff_null a s.domain) h4
        rintro x ⟨hr, s', hs', hx⟩
        rcases List.mem_cons.1 hs' with rfl | hs'
        · exact Or.inl ⟨h3 hr, hx⟩
        · exact Or.inr ⟨hr, s', hs', hx⟩

theorem coverLoop_total (G : Geom P X) {n m p : Nat} (l : List (Lti P)) (a : P)
    (h : ∀ s ∈ l, n = s.n ∧ m = s.m ∧ p = s.p) : ∃ r, coverLoop G n m p l a = .ok r := by
  induction l generalizing a with
  | nil => exact ⟨a, rfl⟩
  | cons s l ih =>
    unfold coverLoop
    obtain ⟨h1, h2, h3⟩ := h s (by simp)
    simp only
    rw [if_neg (by simp [h1, h2, h3])]
    exact ih _ fun s' hs' => h s' (by simp [hs'])

theorem overlapping_false {G : Geom P X} {l : List (Lti P)} :
    overlapping G l = false ↔
      l.Pairwise fun s s' => G.fulldim (G.inter s.domain s'.domain) = false := by
  induction l with
  | nil => simp [overlapping]
  | cons s l ih =>
    rw [List.pairwise_cons, ← ih]
    simp only [overlapping, Bool.or_eq_false_iff, List.any_eq_false, Bool.not_eq_true]

/-- **C73.** If the checks of the domains pass, then the system is well defined: the subsystems have the same
dimensions, their domains cover the domain and are mutually exclusive (up to negligible sets). -/
theorem checkDomains_sound {G : Geom P X} (hG : G.Lawful) {isEmpty : P → Bool}
    (hE : ∀ a, isEmpty a = true → G.null (G.den a)) {subs : List (Lti P)} {domain : Option P}
    (h : checkDomains G isEmpty subs domain = .ok ()) (hne : subs ≠ []) :
    ∃ dom, domain = some dom ∧ WellDefined G subs dom := by
  cases subs with
  | nil => exact absurd rfl hne
  | cons s l =>
    cases domain with
    | none => cases h
    | some dom =>
      refine ⟨dom, rfl, ?_⟩
      simp only [checkDomains] at h
      cases hc : coverLoop G s.n s.m s.p (s :: l) dom with
      | error e => rw [hc] at h; cases h
      | ok r =>
        rw [hc] at h
        simp only [ok_bind] at h
        split at h
        · cases h
        · rename_i he
          split at h
          · cases h
          · rename_i ho
            obtain ⟨h1, h2, _, _⟩ := coverLoop_ok hG _ hc
            have he : G.null (G.den r) := hE r (by simpa using he)
            refine ⟨?_, ?_, ?_⟩
            · intro a ha b hb
              obtain ⟨a1, a2, a3⟩ := h1 a ha
              obtain ⟨b1, b2, b3⟩ := h1 b hb
              exact ⟨a1.symm.trans b1, a2.symm.trans b2, a3.symm.trans b3⟩
            · refine hG.null_of_sub ?_ h2 he
              intro x hx
              by_cases hr : x ∈ G.den r
              · exact Or.inr hr
              · exact Or.inl ⟨hx, hr⟩
            · refine (overlapping_false.1 (by simpa using ho)).imp ?_
              intro a b hab
              refine hG.null_of_sub ?_ (hG.inter_null a.domain b.domain) (hG.thin _ hab)
              intro x hx
              by_cases hi : x ∈ G.den (G.inter a.domain b.domain)
              · exact Or.inr hi
              · exact Or.inl ⟨hx, hi⟩

/-- **C73.** Conversely, if `is_empty` and `is_fulldim` decide negligibility exactly, then the checks reject only
systems that are not well defined. -/
theorem checkDomains_complete {G : Geom P X} (hG : G.Lawful) {isEmpty : P → Bool}
    (hE : ∀ a, isEmpty a = true ↔ G.null (G.den a))
    (hF : ∀ a, G.fulldim a = true → ¬ G.null (G.den a)) {subs : List (Lti P)} {dom : P}
    (h : WellDefined G subs dom) : checkDomains G isEmpty subs (some dom) = .ok () := by
  cases subs with
  | nil => rfl
  | cons s l =>
    have hd : ∀ a ∈ s :: l, s.n = a.n ∧ s.m = a.m ∧ s.p = a.p := fun a ha => h.dims s (by simp) a ha
    obtain ⟨r, hr⟩ := coverLoop_total G (s :: l) dom hd
    simp only [checkDomains, hr, ok_bind]
    obtain ⟨_, _, hsub, hov⟩ := coverLoop_ok hG _ hr
    have he : isEmpty r = true := by
      rw [hE]
      refine hG.null_of_sub ?_ h.cover hov
      intro x hx
      by_cases hs : x ∈ {x | ∃ s' ∈ s :: l, x ∈ G.den s'.domain}
      · exact Or.inr ⟨hx, hs⟩
      · exact Or.inl ⟨hsub hx, hs⟩
    have ho : overlapping G (s :: l) = false := by
      rw [overlapping_false]
      refine h.exclusive.imp ?_
      intro a b hab
      cases hf : G.fulldim (G.inter a.domain b.domain) with
      | false => rfl
      | true => exact absurd (hG.null_mono (hG.inter_sub _ _) hab) (hF _ hf)
    simp [he, ho]

/-- **C63.** The time data after constructing a piecewise-affine system. The construction succeeds if and only if
the domains are accepted, the time data are valid and, unless they are overwritten, there are subsystems and
they all agree with the time data. Afterwards the system has the given time data; if overwritten, each
subsystem has them too; and no other object changes. -/
theorem newPwa_time (G : Geom P X) (isEmpty : P → Bool) (h : Heap) (self : Nat) (subs : List (Lti P))
    (domain : Option P) (t : Time) (overwrite : Bool) :
    ((∃ r, newPwa G isEmpty h self subs domain t overwrite = .ok r) ↔
      checkDomains G isEmpty subs domain = .ok () ∧ t.Valid ∧
      (overwrite = false → subs ≠ [] ∧ ∀ s ∈ subs, Agree (h s.id) t)) ∧
    ∀ h' s, newPwa G isEmpty h self subs domain t overwrite = .ok (h', s) →
      s = ⟨self, subs, domain⟩ ∧ h' self = t ∧
      (overwrite = true → ∀ a ∈ subs, h' a.id = t) ∧
      (∀ i, i ≠ self → (overwrite = false ∨ i ∉ subs.map (·.id)) → h' i = h i) := by
  unfold newPwa
  cases hd : checkDomains G isEmpty subs domain with
  | error e => simp
  | ok u =>
    simp only [ok_bind, true_and]
    cases ht : checkTimeData t with
    | error e =>
      have hn : ¬ t.Valid := fun hv => by
        rw [← checkTimeData_spec, ht] at hv; cases hv
      simp [hn]
    | ok u =>
      have hv : t.Valid := (checkTimeData_spec t).1 ht
      simp only [ok_bind, hv, true_and]
      cases overwrite with
      | true =>
        simp only [if_true, ok_bind, Except.ok.injEq, Bool.true_eq_false, false_implies, iff_true,
          Prod.mk.injEq, forall_const, false_or]
        refine ⟨⟨_, rfl⟩, ?_⟩
        rintro h' s ⟨rfl, rfl⟩
        refine ⟨rfl, by simp [write_get], ?_, ?_⟩
        · intro a ha
          rw [write_get, pushLti_get]
          have : a.id ∈ subs.map (·.id) := List.mem_map.2 ⟨a, ha, rfl⟩
          simp [this]
        · intro i hi hni
          rw [write_get, if_neg hi, pushLti_get, if_neg hni]
      | false =>
        simp only [Bool.false_eq_true, if_false, forall_const, false_implies, true_and, true_or]
        have hcs := checkTimeConsistency_spec (subs.map fun s => h s.id) t
        cases hc : checkTimeConsistency (subs.map fun s => h s.id) t with
        | error e =>
          have hn : ¬ (subs ≠ [] ∧ ∀ s ∈ subs, Agree (h s.id) t) := by
            intro hh
            have := hcs.2 ⟨by simpa using hh.1, by simpa using hh.2⟩
            rw [hc] at this; cases this
          simp [hn, Except.map]
        | ok u =>
          have hh := hcs.1 hc
          simp only [Except.map, ok_bind, Except.ok.injEq, Prod.mk.injEq]
          refine ⟨⟨fun _ => ⟨by simpa using hh.1, by simpa using hh.2⟩, fun _ => ⟨_, rfl⟩⟩, ?_⟩
          rintro h' s ⟨rfl, rfl⟩
          refine ⟨rfl, by simp [write_get], ?_⟩
          intro i hi
          rw [write_get, if_neg hi]

/-- **C73.** A constructed piecewise-affine system with subsystems is well defined. -/
theorem newPwa_wellDefined {G : Geom P X} (hG : G.Lawful) {isEmpty : P → Bool}
    (hE : ∀ a, isEmpty a = true → G.null (G.den a)) {h h' : Heap} {self : Nat}
    {subs : List (Lti P)} {domain : Option P} {t : Time} {overwrite : Bool} {s : Pwa P}
    (hok : newPwa G isEmpty h self subs domain t overwrite = .ok (h', s)) :
    s.subs = subs ∧ (s.subs ≠ [] → ∃ dom, s.domain = some dom ∧ WellDefined G s.subs dom) := by
  obtain ⟨h1, h2⟩ := newPwa_time G isEmpty h self subs domain t overwrite
  obtain ⟨rfl, _⟩ := h2 h' s hok
  exact ⟨rfl, checkDomains_sound hG hE (h1.1 ⟨_, hok⟩).1⟩

/-- The subsystems of a piecewise-affine system have its time data. -/
def Homogeneous (h : Heap) (s : Pwa P) : Prop :=
  ∀ a ∈ s.subs, h a.id = h s.id ∨ Agree (h a.id) (h s.id)

/-- **C63.** A constructed piecewise-affine system is homogeneous, if the new object is not one of its own
subsystems. -/
theorem newPwa_homogeneous {G : Geom P X} {isEmpty : P → Bool} {h h' : Heap} {self : Nat}
    {subs : List (Lti P)} {domain : Option P} {t : Time} {overwrite : Bool} {s : Pwa P}
    (hfresh : self ∉ subs.map (·.id))
    (hok : newPwa G isEmpty h self subs domain t overwrite = .ok (h', s)) : Homogeneous h' s := by
  obtain ⟨h1, h2⟩ := newPwa_time G isEmpty h self subs domain t overwrite
  obtain ⟨rfl, h3, h4, h5⟩ := h2 h' s hok
  intro a ha
  simp only
  rw [h3]
  cases overwrite with
  | true => exact Or.inl (h4 rfl a ha)
  | false =>
    right
    rw [h5 a.id (fun e => hfresh (e ▸ List.mem_map.2 ⟨a, ha, rfl⟩)) (Or.inl rfl)]
    exact ((h1.1 ⟨_, hok⟩).2.2 rfl).2 a ha

/-- The construction of a system leaves every other system homogeneous, if it does not overwrite the time
data or shares no object with it. -/
theorem newPwa_keeps {G : Geom P X} {isEmpty : P → Bool} {h h' : Heap} {self : Nat}
    {subs : List (Lti P)} {domain : Option P} {t : Time} {overwrite : Bool} {s s' : Pwa P}
    (hok : newPwa G isEmpty h self subs domain t overwrite = .ok (h', s))
    (hfresh : self ∉ s'.ids)
    (hshare : overwrite = true → ∀ i ∈ s'.ids, i ∉ subs.map (·.id))
    (hs : Homogeneous h s') : Homogeneous h' s' := by
  obtain ⟨_, h2⟩ := newPwa_time G isEmpty h self subs domain t overwrite
  obtain ⟨rfl, _, _, h5⟩ := h2 h' s hok
  have hsame : ∀ i ∈ s'.ids, h' i = h i := by
    intro i hi
    refine h5 i (fun e => hfresh (e ▸ hi)) ?_
    cases overwrite with
    | true => exact Or.inr (hshare rfl i hi)
    | false => exact Or.inl rfl
  intro a ha
  rw [hsame a.id (by simp only [Pwa.ids, List.mem_cons, List.mem_map]; exact Or.inr ⟨a, ha, rfl⟩),
    hsame s'.id (by simp [Pwa.ids])]
  exact hs a ha

/-! ### Switched systems -/

/-- The labels of the modes: the given ones, or the numbers below the size. -/
def GivenOrNumbers (n : Nat) (given : Option (List Lbl)) (l : List Lbl) : Prop :=
  (given = some l ∧ l.length = n) ∨ (given = none ∧ l = (List.range n).map .num)

theorem checkLabels_spec (n : Nat) (given : Option (List Lbl)) :
    (∀ g, checkLabels n given = .ok g → g = given ∧ GivenOrNumbers n given (labelsOr n g)) ∧
    ((∃ g, checkLabels n given = .ok g) ↔ ∀ l, given = some l → l.length = n) := by
  unfold checkLabels GivenOrNumbers labelsOr
  cases given with
  | none => simp
  | some l =>
    by_cases h : l.length = n
    · simp [h]
    · simp [h]

theorem mem_allModes (env sys : List Lbl) (m : Lbl × Lbl) :
    m ∈ allModes env sys ↔ m.1 ∈ env ∧ m.2 ∈ sys := by
  obtain ⟨a, b⟩ := m
  simp only [allModes, List.mem_flatMap, List.mem_map, Prod.mk.injEq]
  constructor
  · rintro ⟨a', ha, b', hb, rfl, rfl⟩; exact ⟨ha, hb⟩
  · rintro ⟨ha, hb⟩; exact ⟨a, ha, b, hb, rfl, rfl⟩

theorem pwaValues_spec (l : List ((Lbl × Lbl) × Value P)) :
    (∀ r, pwaValues l = some r → l = r.map fun kv => (kv.1, Value.pwa kv.2)) ∧
    (pwaValues l = none ↔ ∃ kv ∈ l, kv.2 = Value.other) := by
  induction l with
  | nil => simp [pwaValues]
  | cons kv l ih =>
    obtain ⟨k, v⟩ := kv
    cases v with
    | other => simp [pwaValues, Value.toPwa]
    | pwa s =>
      simp only [pwaValues, Value.toPwa]
      cases hr : pwaValues l with
      | none =>
        refine ⟨by simp, ?_⟩
        obtain ⟨kv, h1, h2⟩ := ih.2.1 hr
        simp only [true_iff]
        exact ⟨kv, by simp [h1], h2⟩
      | some r =>
        have hn : ¬ ∃ kv ∈ l, kv.2 = Value.other := fun h => by rw [ih.2.2 h] at hr; cases hr
        refine ⟨?_, ?_⟩
        · rintro _ ⟨rfl⟩
          rw [ih.1 r hr]; rfl
        · simp only [reduceCtorEq, false_iff]
          rintro ⟨kv, h1, h2⟩
          rcases List.mem_cons.1 h1 with rfl | h1
          · cases h2
          · exact hn ⟨kv, h1, h2⟩

/-- **C63.** A list of labels of another length than the number of modes is refused, and so are dynamics for a pair
that is not a mode; a dynamics that is not piecewise affine is a `TypeError`. -/
theorem newSwitched_raises (h : Heap) (self : Nat) (size : Nat × Nat) (dynamics : Dict (Lbl × Lbl) (Value P))
    (env sys : Option (List Lbl)) (t : Time) (overwrite : Bool) :
    ((∃ l, env = some l ∧ l.length ≠ size.1) ∨ (∃ l, sys = some l ∧ l.length ≠ size.2) →
      newSwitched h self size dynamics env sys t overwrite = .error .valueError) ∧
    ∀ l₁ l₂, GivenOrNumbers size.1 env l₁ → GivenOrNumbers size.2 sys l₂ →
      ((∃ kv ∈ dynamics, kv.1.1 ∉ l₁ ∨ kv.1.2 ∉ l₂) →
        newSwitched h self size dynamics env sys t overwrite = .error .valueError) ∧
      ((∀ kv ∈ dynamics, kv.1.1 ∈ l₁ ∧ kv.1.2 ∈ l₂) → (∃ kv ∈ dynamics, kv.2 = .other) →
        newSwitched h self size dynamics env sys t overwrite = .error .typeError) := by
  constructor
  · have key : ∀ (n : Nat) (g : Option (List Lbl)), (∃ l, g = some l ∧ l.length ≠ n) →
        checkLabels n g = .error .valueError := by
      rintro n _ ⟨l, rfl, hl⟩
      simp [checkLabels, hl]
    have ok : ∀ (n : Nat) (g : Option (List Lbl)), checkLabels n g = .error .valueError ∨ ∃ x, checkLabels n g = .ok x := by
      intro n g
      unfold checkLabels
      split
      · exact .inr ⟨_, rfl⟩
      · split
        · exact .inr ⟨_, rfl⟩
        · exact .inl rfl
    rintro (h1 | h1)
    · simp only [newSwitched, key _ _ h1, bind, Except.bind]
    · rcases ok size.1 env with h2 | ⟨x, h2⟩
      · simp only [newSwitched, h2, bind, Except.bind]
      · simp only [newSwitched, h2, key _ _ h1, bind, Except.bind]
  · intro l₁ l₂ h1 h2
    have lab : ∀ (n : Nat) (g : Option (List Lbl)) (l : List Lbl), GivenOrNumbers n g l →
        ∃ x, checkLabels n g = .ok x ∧ labelsOr n x = l := by
      rintro n g l (⟨rfl, hl⟩ | ⟨rfl, rfl⟩)
      · exact ⟨some l, by simp [checkLabels, hl], rfl⟩
      · exact ⟨none, rfl, rfl⟩
    obtain ⟨x, hx, rfl⟩ := lab _ _ _ h1
    obtain ⟨y, hy, rfl⟩ := lab _ _ _ h2
    constructor
    · rintro ⟨kv, hm, hn⟩
      have : dynamics.any (fun kv => !(allModes (labelsOr size.1 x) (labelsOr size.2 y)).contains kv.1) = true := by
        rw [List.any_eq_true]
        refine ⟨kv, hm, ?_⟩
        rw [Bool.not_eq_true', List.contains_eq_mem, decide_eq_false_iff_not, mem_allModes]
        rintro ⟨k1, k2⟩
        exact hn.elim (absurd k1) (absurd k2)
      simp only [newSwitched, hx, hy, bind, Except.bind, this, if_true]
    · intro hall ho
      have : ¬ dynamics.any (fun kv => !(allModes (labelsOr size.1 x) (labelsOr size.2 y)).contains kv.1) = true := by
        rw [List.any_eq_true]
        rintro ⟨kv, hm, hn⟩
        rw [Bool.not_eq_true', List.contains_eq_mem, decide_eq_false_iff_not, mem_allModes] at hn
        exact hn (hall kv hm)
      simp only [newSwitched, hx, hy, bind, Except.bind, if_neg this, (pwaValues_spec _).2.2 ho]

/-- **C63.** Constructing a switched system. If it succeeds then the size is the given one,
the labels are the given ones or numbers, every mode of the dynamics is a pair of labels, the dynamics are the given ones, the time data are valid and the new
system has them. If the time data are overwritten, then every piecewise-affine system and every subsystem of it
has them. Otherwise there are dynamics, and every piecewise-affine system agrees with them. No other object
changes. -/
theorem newSwitched_time {h h' : Heap} {self : Nat} {size : Nat × Nat}
    {dynamics : Dict (Lbl × Lbl) (Value P)} {env sys : Option (List Lbl)} {t : Time}
    {overwrite : Bool} {s : Switched P}
    (hok : newSwitched h self size dynamics env sys t overwrite = .ok (h', s)) :
    GivenOrNumbers size.1 env s.env ∧ GivenOrNumbers size.2 sys s.sys ∧
    dynamics = s.dynamics.map (fun kv => (kv.1, Value.pwa kv.2)) ∧
    (∀ kv ∈ s.dynamics, kv.1.1 ∈ s.env ∧ kv.1.2 ∈ s.sys) ∧
    (s.id = self ∧ s.size = size) ∧ t.Valid ∧ h' self = t ∧
    (overwrite = true → ∀ kv ∈ s.dynamics, ∀ i ∈ kv.2.ids, h' i = t) ∧
    (overwrite = false → s.dynamics ≠ [] ∧ ∀ kv ∈ s.dynamics, Agree (h kv.2.id) t) ∧
    (∀ i, i ≠ self → (overwrite = false ∨ ∀ kv ∈ s.dynamics, i ∉ kv.2.ids) → h' i = h i) := by
  unfold newSwitched at hok
  obtain ⟨e1, _⟩ := checkLabels_spec size.1 env
  obtain ⟨e2, _⟩ := checkLabels_spec size.2 sys
  cases hc1 : checkLabels size.1 env with
  | error e => rw [hc1] at hok; cases hok
  | ok g1 =>
    cases hc2 : checkLabels size.2 sys with
    | error e => rw [hc1, hc2] at hok; cases hok
    | ok g2 =>
      rw [hc1, hc2] at hok
      obtain ⟨_, l1⟩ := e1 g1 hc1
      obtain ⟨_, l2⟩ := e2 g2 hc2
      simp only [ok_bind] at hok
      split at hok
      · cases hok
      · rename_i hmodes
        split at hok
        · cases hok
        · rename_i dyn hdyn
          have hd := (pwaValues_spec dynamics).1 dyn hdyn
          cases ht : checkTimeData t with
          | error e => rw [ht] at hok; cases hok
          | ok u =>
            rw [ht] at hok
            have hv : t.Valid := (checkTimeData_spec t).1 ht
            simp only [ok_bind] at hok
            have hm : ∀ kv ∈ dyn, kv.1.1 ∈ labelsOr size.1 g1 ∧ kv.1.2 ∈ labelsOr size.2 g2 := by
              intro kv hkv
              rw [← mem_allModes]
              by_contra hn
              apply hmodes
              rw [List.any_eq_true]
              refine ⟨(kv.1, Value.pwa kv.2), ?_, by simpa using hn⟩
              rw [hd]
              exact List.mem_map.2 ⟨kv, hkv, rfl⟩
            cases overwrite with
            | true =>
              simp only [if_true, ok_bind, Except.ok.injEq, Prod.mk.injEq] at hok
              obtain ⟨rfl, rfl⟩ := hok
              refine ⟨l1, l2, hd, hm, ⟨rfl, rfl⟩, hv, by simp [write_get], ?_, by simp, ?_⟩
              · intro _ kv hkv i hi
                rw [write_get, pushPwa_get]
                have : i ∈ (dyn.map (·.2)).flatMap Pwa.ids :=
                  List.mem_flatMap.2 ⟨kv.2, List.mem_map.2 ⟨kv, hkv, rfl⟩, hi⟩
                simp [this]
              · intro i hi hni
                rw [write_get, if_neg hi, pushPwa_get, if_neg]
                intro hmem
                obtain ⟨q, hq, hiq⟩ := List.mem_flatMap.1 hmem
                obtain ⟨kv, hkv, rfl⟩ := List.mem_map.1 hq
                rcases hni with hni | hni
                · cases hni
                · exact hni kv hkv hiq
            | false =>
              simp only [Bool.false_eq_true, if_false] at hok
              cases hc : checkTimeConsistency (dyn.map fun kv => h kv.2.id) t with
              | error e => rw [hc] at hok; cases hok
              | ok u =>
                have hh := (checkTimeConsistency_spec _ t).1 hc
                rw [hc] at hok
                simp only [Except.map, ok_bind, Except.ok.injEq, Prod.mk.injEq] at hok
                obtain ⟨rfl, rfl⟩ := hok
                refine ⟨l1, l2, hd, hm, ⟨rfl, rfl⟩, hv, by simp [write_get], by simp, ?_, ?_⟩
                · intro _
                  refine ⟨by simpa using hh.1, ?_⟩
                  intro kv hkv
                  exact hh.2 _ (List.mem_map.2 ⟨kv, hkv, rfl⟩)
                · intro i hi _
                  rw [write_get, if_neg hi]

/-- **C63.** If the time data are checked and not overwritten, and the piecewise-affine systems are homogeneous,
then every subsystem at every level has the time data or agrees with them. -/
theorem newSwitched_homogeneous {h h' : Heap} {self : Nat} {size : Nat × Nat}
    {dynamics : Dict (Lbl × Lbl) (Value P)} {env sys : Option (List Lbl)} {t : Time}
    {overwrite : Bool} {s : Switched P}
    (hok : newSwitched h self size dynamics env sys t overwrite = .ok (h', s))
    (hfresh : ∀ kv ∈ s.dynamics, self ∉ kv.2.ids)
    (hhom : overwrite = false → ∀ kv ∈ s.dynamics, Homogeneous h kv.2) :
    h' self = t ∧ ∀ kv ∈ s.dynamics, ∀ i ∈ kv.2.ids, h' i = t ∨ Agree (h' i) t := by
  obtain ⟨_, _, _, _, _, _, h1, h2, h3, h4⟩ := newSwitched_time hok
  refine ⟨h1, ?_⟩
  intro kv hkv i hi
  cases overwrite with
  | true => exact Or.inl (h2 rfl kv hkv i hi)
  | false =>
    right
    rw [h4 i (fun e => hfresh kv hkv (e ▸ hi)) (Or.inl rfl)]
    have hp := (h3 rfl).2 kv hkv
    rcases List.mem_cons.1 hi with rfl | hi
    · exact hp
    · obtain ⟨a, ha, rfl⟩ := List.mem_map.1 hi
      rcases hhom rfl kv hkv a ha with e | e
      · rw [e]; exact hp
      · exact e.trans hp

/-- **C63.** A switched system is rejected exactly when the number of labels is wrong, a mode of the dynamics is
not a pair of labels, a value is not a piecewise-affine system, the time data are not valid or, if they are not
overwritten, there are no dynamics or some of them do not agree. -/
theorem newSwitched_ok_iff (h : Heap) (self : Nat) (size : Nat × Nat)
    (dynamics : Dict (Lbl × Lbl) (Value P)) (env sys : Option (List Lbl)) (t : Time)
    (overwrite : Bool) :
    (∃ r, newSwitched h self size dynamics env sys t overwrite = .ok r) ↔
      ∃ envL sysL dyn, GivenOrNumbers size.1 env envL ∧ GivenOrNumbers size.2 sys sysL ∧
        dynamics = dyn.map (fun kv : (Lbl × Lbl) × Pwa P => (kv.1, Value.pwa kv.2)) ∧
        (∀ kv ∈ dyn, kv.1.1 ∈ envL ∧ kv.1.2 ∈ sysL) ∧ t.Valid ∧
        (overwrite = false → dyn ≠ [] ∧ ∀ kv ∈ dyn, Agree (h kv.2.id) t) := by
  constructor
  · rintro ⟨⟨h', s⟩, hok⟩
    obtain ⟨h1, h2, h3, h4, _, h5, _, _, h6, _⟩ := newSwitched_time hok
    exact ⟨s.env, s.sys, s.dynamics, h1, h2, h3, h4, h5, h6⟩
  · rintro ⟨envL, sysL, dyn, h1, h2, h3, h4, h5, h6⟩
    have key : ∀ (n : Nat) (given : Option (List Lbl)) (l : List Lbl), GivenOrNumbers n given l →
        checkLabels n given = .ok given ∧ labelsOr n given = l := by
      rintro n given l (⟨rfl, hl⟩ | ⟨rfl, rfl⟩)
      · simp [checkLabels, labelsOr, hl]
      · simp [checkLabels, labelsOr]
    obtain ⟨k1, k1'⟩ := key _ _ _ h1
    obtain ⟨k2, k2'⟩ := key _ _ _ h2
    unfold newSwitched
    rw [k1, k2]
    simp only [ok_bind, k1', k2']
    rw [if_neg ?_]
    · have hv : pwaValues dynamics = some dyn := by
        rw [h3]
        clear h3 h4 h6
        induction dyn with
        | nil => rfl
        | cons kv dyn ih => simp only [List.map_cons, pwaValues, Value.toPwa, ih]
      rw [hv]
      simp only [(checkTimeData_spec t).2 h5, ok_bind]
      cases overwrite with
      | true => exact ⟨_, rfl⟩
      | false =>
        obtain ⟨h7, h8⟩ := h6 rfl
        have hc : checkTimeConsistency (dyn.map fun kv => h kv.2.id) t = .ok () := by
          rw [checkTimeConsistency_spec]
          refine ⟨by simpa using h7, ?_⟩
          intro a ha
          obtain ⟨kv, hkv, rfl⟩ := List.mem_map.1 ha
          exact h8 kv hkv
        simp only [Bool.false_eq_true, if_false, hc, Except.map, ok_bind]
        exact ⟨_, rfl⟩
    · rw [Bool.not_eq_true, List.any_eq_false, h3]
      intro kv hkv
      obtain ⟨kv', hkv', rfl⟩ := List.mem_map.1 hkv
      simp only [Bool.not_eq_true', List.contains_eq_mem, decide_eq_false_iff_not, not_not]
      exact (mem_allModes _ _ _).2 (h4 kv' hkv')

/-! ### Examples and counterexamples -/

/-- The result of a construction: the time data of the given objects afterwards. -/
def timesOf {α : Type} (ids : List Nat) : Except PyErr (Heap × α) → Option (List Time)
  | .ok (h, _) => some (ids.map h)
  | .error _ => none

/-- Two halves of a line of cells. -/
def left : Lti (List (Int × Bool)) := ⟨1, 2, 1, 1, [(0, true), (1, true), (1, false)]⟩
def right : Lti (List (Int × Bool)) := ⟨2, 2, 1, 1, [(1, false), (2, true)]⟩
def whole : List (Int × Bool) := [(0, true), (1, true), (1, false), (2, true)]

def noTime : Time := ⟨none, none⟩
def second : Time := ⟨some "sampled", some (.num 1)⟩

/-- `pc.is_empty` of a list of cells. -/
def thinCells (a : List (Int × Bool)) : Bool := !cells.fulldim a

example : ∀ a, thinCells a = true ↔ cells.null (cells.den a) := by
  intro a
  simp only [thinCells, cells, Bool.not_eq_true', List.any_eq_false, Set.mem_ofPred_eq]
  simp

/-- The construction succeeds; time data are pushed to both subsystems. -/
example : timesOf [0, 1, 2, 3]
    (newPwa cells thinCells (fun _ => noTime) 3 [left, right] (some whole) second true) =
    some [noTime, second, second, second] := by decide +kernel

/-- If the time data are checked instead, the subsystems do not agree. -/
example : timesOf [0, 1, 2, 3]
    (newPwa cells thinCells (fun _ => noTime) 3 [left, right] (some whole) second false) = none := by
  decide +kernel

example : timesOf [0]
    (newPwa cells thinCells (fun _ => noTime) 3 [left] (some whole) second true) = none ∧
    timesOf [0] (newPwa cells thinCells (fun _ => noTime) 3 [left, left, right] (some whole) second
      true) = none := by decide +kernel

/-- A shared subsystem: constructing a second system with overwriting changes the time data of a subsystem of
the first, which is no longer homogeneous. -/
theorem shared_counterexample :
    ∃ h1 s1 h2 s2,
      newPwa cells thinCells (fun _ => noTime) 3 [left, right] (some whole) second true =
        .ok (h1, s1) ∧
      newPwa cells thinCells h1 4 [left, right] (some whole) noTime true = .ok (h2, s2) ∧
      Homogeneous h1 s1 ∧ ¬ Homogeneous h2 s1 := by
  refine ⟨_, _, _, _, rfl, rfl, ?_, ?_⟩
  · exact newPwa_homogeneous (G := cells) (isEmpty := thinCells) (h := fun _ => noTime)
      (self := 3) (subs := [left, right]) (domain := some whole) (t := second) (overwrite := true)
      (by decide) rfl
  · intro h
    have := h left (by simp)
    rcases this with h | h
    · revert h; decide +kernel
    · have := h.2
      revert this; decide +kernel

/-- The consistency test does not descend: a switched system is accepted whose piecewise-affine system agrees
while a subsystem does not. -/
theorem nested_counterexample :
    timesOf [1, 3, 5]
      (newSwitched (Heap.write (fun _ => noTime) 3 second) 5 (1, 1)
        [((.num 0, .num 0), .pwa ⟨3, [left], some whole⟩)] none none second false) =
      some [noTime, second, second] := by decide +kernel

/-- A timestep that is not a number is accepted. -/
theorem nan_counterexample : checkTimeData ⟨some "sampled", some .nan⟩ = .ok () := rfl

/-- Modes with labels. -/
example : timesOf [1, 2, 3, 5]
    (newSwitched (fun _ => noTime) 5 (2, 1)
      [((.name "rain", .num 0), .pwa ⟨3, [left, right], some whole⟩)]
      (some [.name "rain", .name "sun"]) none second true) =
      some [second, second, second, second] ∧
    timesOf [1] (newSwitched (fun _ => noTime) 5 (1, 1)
      [((.name "rain", .num 0), .pwa ⟨3, [left, right], some whole⟩)]
      (some [.name "rain", .name "sun"]) none second true) = none ∧
    timesOf [1] (newSwitched (fun _ => noTime) 5 (1, 1)
      [((.name "rain", .num 0), .pwa ⟨3, [left, right], some whole⟩)] none none second true) = none := by
  decide +kernel

end Hyb

end Tulip
