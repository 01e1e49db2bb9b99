import Verif.Synth.ToSpecReturnsProps
import Verif.Synth.SynthesizeExamples

/-!
# When `synthesize` reaches the solver (C80)
-/

namespace Tulip

namespace Synth

/-! ## Specification -/

/-- The names that a transition system brings: its propositions, the variable of its state, the types of its actions and
its actions. -/
def Brings (F : FTS) (var x : String) : Prop :=
  x ∈ F.aps ∨ x = var ∨ ∃ k dom, (k, dom) ∈ F.actions ∧ (x = k ∨ .str x ∈ dom)

/-- The transition system can be added to the specification: it refers only to what it declares, has an owner and initial
states unless they are ignored, has the options of the specification or none, and brings no name that the specification
declares. -/
structure Fits (s : GRSpec) (t : TsArg) (owner : Owner) (var : String) (ignore : Bool) : Prop where
  closed : t.fts.Closed false false var
  owner : t.fts.owner = owner
  initial : ignore = false → t.fts.initial ≠ []
  options : t.options = none ∨ t.options = some (s.moore, s.plusOne, s.qinit)
  fresh : ∀ x, Brings t.fts var x → x ∉ s.envVars.keys ∧ x ∉ s.sysVars.keys

/-- The variable is declared by the transition system for the system (`mine`: owned by the system) or for the
environment. -/
def SysDeclares (F : FTS) (mine : Bool) (var x : String) : Prop :=
  (mine = true ∧ (x ∈ F.aps ∨ IsVarOf false var F.states x)) ∨
    ∃ k dom, (k, dom) ∈ F.actions ∧ isSys k = true ∧ IsVarOf (usesBools false F.sysMust) k dom x

def EnvDeclares (F : FTS) (mine : Bool) (var x : String) : Prop :=
  (mine = true ∧ (x ∈ F.aps ∨ IsVarOf false var F.states x)) ∨
    ∃ k dom, (k, dom) ∈ F.actions ∧ isSys k = false ∧ isEnv k = true ∧ IsVarOf (usesBools false F.envMust) k dom x

/-! ## Proofs -/

theorem IsVarOf.brings {b : Bool} {F : FTS} {var k x : String} {dom : List Elem} (hk : (k, dom) ∈ F.actions)
    (h : IsVarOf b k dom x) : Brings F var x := by
  rcases h with ⟨_, h⟩ | ⟨_, _, h⟩
  · exact Or.inr (Or.inr ⟨k, dom, hk, Or.inr h⟩)
  · exact Or.inr (Or.inr ⟨k, dom, hk, Or.inl h⟩)

theorem state_brings {F : FTS} {var x : String} (h : x ∈ F.aps ∨ IsVarOf false var F.states x) : Brings F var x := by
  rcases h with h | ⟨h, _⟩ | ⟨_, _, h⟩
  · exact Or.inl h
  · cases h
  · exact Or.inr (Or.inl h)

theorem SysDeclares.brings {F : FTS} {mine : Bool} {var x : String} (h : SysDeclares F mine var x) : Brings F var x := by
  rcases h with ⟨_, h⟩ | ⟨k, dom, hk, _, h⟩
  · exact state_brings h
  · exact h.brings hk

theorem EnvDeclares.brings {F : FTS} {mine : Bool} {var x : String} (h : EnvDeclares F mine var x) : Brings F var x := by
  rcases h with ⟨_, h⟩ | ⟨k, dom, hk, _, _, h⟩
  · exact state_brings h
  · exact h.brings hk

/-- The declared variables do not overlap. -/
theorem declares_disjoint {F : FTS} {mine mine' : Bool} (hm : mine = true → mine' = true → False) {var x : String}
    (hF : F.Closed false false var) (h : EnvDeclares F mine var x) (h' : SysDeclares F mine' var x) : False := by
  rcases h with ⟨h1, h⟩ | ⟨k, dom, hk, hs, he, h⟩ <;> rcases h' with ⟨h1', h'⟩ | ⟨k', dom', hk', hs', h'⟩
  · exact hm h1 h1'
  · obtain ⟨a, b⟩ := hF.fresh hk' (by simpa only [FTS.mustOf, hs', if_true] using h')
    exact h.elim a b
  · obtain ⟨a, b⟩ := hF.fresh hk (by simpa only [FTS.mustOf, hs, Bool.false_eq_true, if_false] using h)
    exact h'.elim a b
  · exact hF.disjoint hk' hk hs' (by simp [isEnvOnly, hs, he])
      (by simpa only [FTS.mustOf, hs', if_true] using h')
      (by simpa only [FTS.mustOf, hs, Bool.false_eq_true, if_false] using h)

theorem union_fresh {s o : GRSpec} (hs : ∀ x, x ∈ s.envVars.keys → x ∉ s.sysVars.keys)
    (ho : o.moore = s.moore ∧ o.plusOne = s.plusOne ∧ o.qinit = s.qinit)
    (he : ∀ x ∈ o.envVars.keys, x ∉ s.envVars.keys) (hy : ∀ x ∈ o.sysVars.keys, x ∉ s.sysVars.keys) :
    ∃ r, s.union o = .ok r ∧ (∀ x, x ∈ r.envVars.keys ↔ x ∈ s.envVars.keys ∨ x ∈ o.envVars.keys) ∧
      (∀ x, x ∈ r.sysVars.keys ↔ x ∈ s.sysVars.keys ∨ x ∈ o.sysVars.keys) ∧
      r.moore = s.moore ∧ r.plusOne = s.plusOne ∧ r.qinit = s.qinit := by
  obtain ⟨r, hr⟩ := union_succeeds hs ho
    (fun x a b h h' => absurd ((Dict.mem_keys_iff _ _).2 ⟨a, h⟩) (he x ((Dict.mem_keys_iff _ _).2 ⟨b, h'⟩)))
    (fun x a b h h' => absurd ((Dict.mem_keys_iff _ _).2 ⟨a, h⟩) (hy x ((Dict.mem_keys_iff _ _).2 ⟨b, h'⟩)))
  refine ⟨r, hr, ?_⟩
  obtain ⟨_, _, _, _, _, _, rfl⟩ := union_ok hr
  exact ⟨fun x => mem_keys_update _ _ x, fun x => mem_keys_update _ _ x, rfl, rfl, rfl⟩

theorem moved_vars (q : List Char) (g : GRSpec) (t : TsArg) (s : GRSpec)
    (ho : t.options = none ∨ t.options = some (s.moore, s.plusOne, s.qinit)) :
    ((moveInit q (copyOptions g t s)).envVars = g.envVars ∧ (moveInit q (copyOptions g t s)).sysVars = g.sysVars ∧
      (moveInit q (copyOptions g t s)).moore = s.moore ∧ (moveInit q (copyOptions g t s)).plusOne = s.plusOne ∧
      (moveInit q (copyOptions g t s)).qinit = s.qinit) ∧
    ((copyOptions (moveInit q g) t s).envVars = g.envVars ∧ (copyOptions (moveInit q g) t s).sysVars = g.sysVars ∧
      (copyOptions (moveInit q g) t s).moore = s.moore ∧ (copyOptions (moveInit q g) t s).plusOne = s.plusOne ∧
      (copyOptions (moveInit q g) t s).qinit = s.qinit) := by
  rcases ho with ho | ho <;> simp only [moveInit, copyOptions, ho] <;> split <;> simp

theorem plusSys_returns (order : List (List Char) → List (List Char)) {s : GRSpec} {t : TsArg} {ignore : Bool}
    (hs : ∀ x, x ∈ s.envVars.keys → x ∉ s.sysVars.keys) (hf : Fits s t .sys t.sysVar ignore) :
    ∃ r, plusSys order s ignore (some t) = .ok r ∧
      (∀ x, x ∈ r.envVars.keys ↔ x ∈ s.envVars.keys ∨ EnvDeclares t.fts false t.sysVar x) ∧
      (∀ x, x ∈ r.sysVars.keys ↔ x ∈ s.sysVars.keys ∨ SysDeclares t.fts true t.sysVar x) ∧
      r.moore = s.moore ∧ r.plusOne = s.plusOne ∧ r.qinit = s.qinit := by
  obtain ⟨g, hg, hy, he⟩ := sysToSpec_returns order (ignore := ignore) hf.closed hf.owner hf.initial
  have he' : ∀ x, x ∈ g.envVars.keys ↔ EnvDeclares t.fts false t.sysVar x := by
    intro x; rw [he]; simp [EnvDeclares]
  have hy' : ∀ x, x ∈ g.sysVars.keys ↔ SysDeclares t.fts true t.sysVar x := by
    intro x; rw [hy]; simp [SysDeclares, or_assoc]
  obtain ⟨⟨a1, a2, a3⟩, _⟩ := moved_vars s.qinit g t s hf.options
  obtain ⟨r, hr, h1, h2, h3⟩ := union_fresh (s := s) (o := moveInit s.qinit (copyOptions g t s)) hs a3
    (fun x hx => by rw [a1, he'] at hx; exact (hf.fresh x hx.brings).1)
    (fun x hx => by rw [a2, hy'] at hx; exact (hf.fresh x hx.brings).2)
  refine ⟨r, ?_, fun x => ?_, fun x => ?_, h3⟩
  · simp only [plusSys]
    rw [show sysToSpec order t.fts ignore (t.stateVarname.getD "loc") false false = .ok g from hg, ok_bind, hr]
  · rw [h1, a1, he']
  · rw [h2, a2, hy']

theorem plusEnv_returns {s : GRSpec} {t : TsArg} {ignore : Bool}
    (hs : ∀ x, x ∈ s.envVars.keys → x ∉ s.sysVars.keys) (hf : Fits s t .env t.envVar ignore) :
    ∃ r, plusEnv s ignore (some t) = .ok r ∧
      (∀ x, x ∈ r.envVars.keys ↔ x ∈ s.envVars.keys ∨ EnvDeclares t.fts true t.envVar x) ∧
      (∀ x, x ∈ r.sysVars.keys ↔ x ∈ s.sysVars.keys ∨ SysDeclares t.fts false t.envVar x) ∧
      r.moore = s.moore ∧ r.plusOne = s.plusOne ∧ r.qinit = s.qinit := by
  obtain ⟨g, hg, he, hy⟩ := envToSpec_returns (ignore := ignore) hf.closed hf.owner hf.initial
  have he' : ∀ x, x ∈ g.envVars.keys ↔ EnvDeclares t.fts true t.envVar x := by
    intro x; rw [he]; simp [EnvDeclares, or_assoc]
  have hy' : ∀ x, x ∈ g.sysVars.keys ↔ SysDeclares t.fts false t.envVar x := by
    intro x; rw [hy]; simp [SysDeclares]
  obtain ⟨_, a1, a2, a3⟩ := moved_vars s.qinit g t s hf.options
  obtain ⟨r, hr, h1, h2, h3⟩ := union_fresh (s := s) (o := copyOptions (moveInit s.qinit g) t s) hs a3
    (fun x hx => by rw [a1, he'] at hx; exact (hf.fresh x hx.brings).1)
    (fun x hx => by rw [a2, hy'] at hx; exact (hf.fresh x hx.brings).2)
  refine ⟨r, ?_, fun x => ?_, fun x => ?_, h3⟩
  · simp only [plusEnv]
    rw [show envToSpec t.fts ignore (t.stateVarname.getD "eloc") false false = .ok g from hg, ok_bind, hr]
  · rw [h1, a1, he']
  · rw [h2, a2, hy']

/-- **C80.** If both transition systems fit the specification and have no name in common then there is a specification for
the solver. It declares the variables of the given specification and those of the transition systems, each for its
player, and no variable for both. -/
theorem specPlusSys_returns (order : List (List Char) → List (List Char)) {s : GRSpec} {env sys : Option TsArg}
    {ignoreEnv ignoreSys : Bool} (hs : ∀ x, x ∈ s.envVars.keys → x ∉ s.sysVars.keys)
    (hsys : ∀ t, sys = some t → Fits s t .sys t.sysVar ignoreSys)
    (henv : ∀ t, env = some t → Fits s t .env t.envVar ignoreEnv)
    (hapart : ∀ t t', sys = some t → env = some t' → ∀ x, Brings t.fts t.sysVar x → ¬ Brings t'.fts t'.envVar x) :
    ∃ g, specPlusSys order s env sys ignoreEnv ignoreSys = .ok g ∧
      (∀ x, x ∈ g.envVars.keys ↔ x ∈ s.envVars.keys ∨ (∃ t, sys = some t ∧ EnvDeclares t.fts false t.sysVar x) ∨
        ∃ t, env = some t ∧ EnvDeclares t.fts true t.envVar x) ∧
      (∀ x, x ∈ g.sysVars.keys ↔ x ∈ s.sysVars.keys ∨ (∃ t, sys = some t ∧ SysDeclares t.fts true t.sysVar x) ∨
        ∃ t, env = some t ∧ SysDeclares t.fts false t.envVar x) ∧
      (∀ x, x ∈ g.envVars.keys → x ∉ g.sysVars.keys) ∧
      g.moore = s.moore ∧ g.plusOne = s.plusOne ∧ g.qinit = s.qinit := by
  obtain ⟨r, hr, h1, h2, h3, h4⟩ : ∃ r, plusSys order s ignoreSys sys = .ok r ∧
      (∀ x, x ∈ r.envVars.keys ↔ x ∈ s.envVars.keys ∨ ∃ t, sys = some t ∧ EnvDeclares t.fts false t.sysVar x) ∧
      (∀ x, x ∈ r.sysVars.keys ↔ x ∈ s.sysVars.keys ∨ ∃ t, sys = some t ∧ SysDeclares t.fts true t.sysVar x) ∧
      (∀ x, x ∈ r.envVars.keys → x ∉ r.sysVars.keys) ∧
      r.moore = s.moore ∧ r.plusOne = s.plusOne ∧ r.qinit = s.qinit := by
    cases sys with
    | none => exact ⟨s, rfl, by simp, by simp, hs, rfl, rfl, rfl⟩
    | some t =>
      have hf := hsys t rfl
      obtain ⟨r, hr, h1, h2, h3⟩ := plusSys_returns order hs hf
      refine ⟨r, hr, by simpa using h1, by simpa using h2, fun x hx hx' => ?_, h3⟩
      rw [h1] at hx
      rw [h2] at hx'
      rcases hx with hx | hx <;> rcases hx' with hx' | hx'
      · exact hs x hx hx'
      · exact (hf.fresh x hx'.brings).1 hx
      · exact (hf.fresh x hx.brings).2 hx'
      · exact declares_disjoint (by simp) hf.closed hx hx'
  cases env with
  | none =>
    refine ⟨r, by simp only [specPlusSys, hr, ok_bind]; rfl, fun x => ?_, fun x => ?_, h3, h4⟩
    · rw [h1]; simp
    · rw [h2]; simp
  | some t =>
    have hf := henv t rfl
    have hf' : Fits r t .env t.envVar ignoreEnv := by
      refine ⟨hf.closed, hf.owner, hf.initial, by rw [h4.1, h4.2.1, h4.2.2]; exact hf.options, fun x hx => ⟨?_, ?_⟩⟩
      · rw [h1]
        rintro (h | ⟨t', ht', h⟩)
        · exact (hf.fresh x hx).1 h
        · exact hapart t' t ht' rfl x h.brings hx
      · rw [h2]
        rintro (h | ⟨t', ht', h⟩)
        · exact (hf.fresh x hx).2 h
        · exact hapart t' t ht' rfl x h.brings hx
    obtain ⟨g, hg, g1, g2, g3⟩ := plusEnv_returns h3 hf'
    refine ⟨g, by simp only [specPlusSys, hr, ok_bind]; exact hg, fun x => ?_, fun x => ?_, fun x hx hx' => ?_, ?_⟩
    · rw [g1, h1, or_assoc]; simp
    · rw [g2, h2, or_assoc]; simp
    · rw [g1] at hx
      rw [g2] at hx'
      rcases hx with hx | hx <;> rcases hx' with hx' | hx'
      · exact h3 x hx hx'
      · exact (hf'.fresh x hx'.brings).1 hx
      · exact (hf'.fresh x hx.brings).2 hx'
      · exact declares_disjoint (by simp) hf.closed hx hx'
    · exact ⟨g3.1.trans h4.1, g3.2.1.trans h4.2.1, g3.2.2.trans h4.2.2⟩

theorem manyStep_returns (order : List (List Char) → List (List Char)) {s : GRSpec} {name : String} {t : TsArg}
    {ignore : List String} (hs : ∀ x, x ∈ s.envVars.keys → x ∉ s.sysVars.keys)
    (hf : Fits s t t.fts.owner name (decide (name ∈ ignore))) :
    ∃ r, manyStep order (some ignore) s (name, t) = .ok r ∧
      (∀ x, x ∈ r.envVars.keys ↔ x ∈ s.envVars.keys ∨ EnvDeclares t.fts (decide (t.fts.owner = .env)) name x) ∧
      (∀ x, x ∈ r.sysVars.keys ↔ x ∈ s.sysVars.keys ∨ SysDeclares t.fts (decide (t.fts.owner = .sys)) name x) ∧
      (∀ x, x ∈ r.envVars.keys → x ∉ r.sysVars.keys) ∧
      r.moore = s.moore ∧ r.plusOne = s.plusOne ∧ r.qinit = s.qinit := by
  have hd : ∀ x, EnvDeclares t.fts (decide (t.fts.owner = .env)) name x →
      ¬ SysDeclares t.fts (decide (t.fts.owner = .sys)) name x := fun x h h' =>
    declares_disjoint (fun a b => by
      rw [decide_eq_true_eq] at a b; rw [a] at b; cases b) hf.closed h h'
  obtain ⟨g, hg, he', hy'⟩ : ∃ g, (match t.fts.owner with
      | .sys => sysToSpec order t.fts (decide (name ∈ ignore)) name false false
      | .env => envToSpec t.fts (decide (name ∈ ignore)) name false false) = .ok g ∧
      (∀ x, x ∈ g.envVars.keys ↔ EnvDeclares t.fts (decide (t.fts.owner = .env)) name x) ∧
      ∀ x, x ∈ g.sysVars.keys ↔ SysDeclares t.fts (decide (t.fts.owner = .sys)) name x := by
    cases ho : t.fts.owner with
    | sys =>
      obtain ⟨g, hg, hy, he⟩ := sysToSpec_returns order hf.closed ho hf.initial
      exact ⟨g, hg, fun x => by rw [he]; simp [EnvDeclares], fun x => by rw [hy]; simp [SysDeclares, or_assoc]⟩
    | env =>
      obtain ⟨g, hg, he, hy⟩ := envToSpec_returns hf.closed ho hf.initial
      exact ⟨g, hg, fun x => by rw [he]; simp [EnvDeclares, or_assoc], fun x => by rw [hy]; simp [SysDeclares]⟩
  have ha : (copyOptions g t s).envVars = g.envVars ∧ (copyOptions g t s).sysVars = g.sysVars ∧
      (copyOptions g t s).moore = s.moore ∧ (copyOptions g t s).plusOne = s.plusOne ∧
      (copyOptions g t s).qinit = s.qinit := by
    rcases hf.options with ho | ho <;> simp [copyOptions, ho]
  obtain ⟨a1, a2, a3⟩ := ha
  obtain ⟨r, hr, h1, h2, h3⟩ := union_fresh (s := s) (o := copyOptions g t s) hs a3
    (fun x hx => by rw [a1, he'] at hx; exact (hf.fresh x hx.brings).1)
    (fun x hx => by rw [a2, hy'] at hx; exact (hf.fresh x hx.brings).2)
  rw [a1] at h1
  rw [a2] at h2
  refine ⟨r, ?_, fun x => by rw [h1, he'], fun x => by rw [h2, hy'], fun x hx hx' => ?_, h3⟩
  · unfold manyStep
    simp only
    split <;> rename_i ho <;> simp only [ho] at hg <;> rw [hg, ok_bind, hr]
  · rw [h1, he'] at hx
    rw [h2, hy'] at hx'
    rcases hx with hx | hx <;> rcases hx' with hx' | hx'
    · exact hs x hx hx'
    · exact (hf.fresh x hx'.brings).1 hx
    · exact (hf.fresh x hx.brings).2 hx'
    · exact hd x hx hx'

/-- **C81.** If all the transition systems fit the specification, and no two of them have a name in common, then there is a
specification for the solver. It declares the variables of the given one and those of all the transition systems, each
for its player. -/
theorem manySpec_returns (order : List (List Char) → List (List Char)) {ignore : List String} {ts : Dict String TsArg}
    {s : GRSpec} (hs : ∀ x, x ∈ s.envVars.keys → x ∉ s.sysVars.keys)
    (hf : ∀ name t, (name, t) ∈ ts → Fits s t t.fts.owner name (decide (name ∈ ignore)))
    (hapart : ts.Pairwise fun p q => ∀ x, Brings p.2.fts p.1 x → ¬ Brings q.2.fts q.1 x) :
    ∃ g, foldE (manyStep order (some ignore)) s ts = .ok g ∧
      (∀ x, x ∈ g.envVars.keys ↔ x ∈ s.envVars.keys ∨
        ∃ name t, (name, t) ∈ ts ∧ EnvDeclares t.fts (decide (t.fts.owner = .env)) name x) ∧
      (∀ x, x ∈ g.sysVars.keys ↔ x ∈ s.sysVars.keys ∨
        ∃ name t, (name, t) ∈ ts ∧ SysDeclares t.fts (decide (t.fts.owner = .sys)) name x) ∧
      (∀ x, x ∈ g.envVars.keys → x ∉ g.sysVars.keys) ∧
      g.moore = s.moore ∧ g.plusOne = s.plusOne ∧ g.qinit = s.qinit := by
  induction ts generalizing s with
  | nil => exact ⟨s, rfl, by simp, by simp, hs, rfl, rfl, rfl⟩
  | cons p ts ih =>
    obtain ⟨name, t⟩ := p
    rw [List.pairwise_cons] at hapart
    obtain ⟨r, hr, h1, h2, h3, h4⟩ := manyStep_returns order hs (hf name t (List.mem_cons_self ..))
    obtain ⟨g, hg, g1, g2, g3, g4⟩ := ih (s := r) h3 (fun name' t' h => by
      have hf' := hf name' t' (List.mem_cons_of_mem _ h)
      refine ⟨hf'.closed, hf'.owner, hf'.initial, by rw [h4.1, h4.2.1, h4.2.2]; exact hf'.options, fun x hx => ⟨?_, ?_⟩⟩
      · rw [h1]
        rintro (h' | h')
        · exact (hf'.fresh x hx).1 h'
        · exact hapart.1 _ h x h'.brings hx
      · rw [h2]
        rintro (h' | h')
        · exact (hf'.fresh x hx).2 h'
        · exact hapart.1 _ h x h'.brings hx) hapart.2
    refine ⟨g, ?_, fun x => ?_, fun x => ?_, g3, g4.1.trans h4.1, g4.2.1.trans h4.2.1, g4.2.2.trans h4.2.2⟩
    · simp only [foldE]
      rw [hr, ok_bind, hg]
    · rw [g1, h1, or_assoc]
      refine or_congr_right ?_
      constructor
      · rintro (h | ⟨n, t', ht, h⟩)
        · exact ⟨_, _, List.mem_cons_self .., h⟩
        · exact ⟨n, t', List.mem_cons_of_mem _ ht, h⟩
      · rintro ⟨n, t', ht, h⟩
        rcases List.mem_cons.1 ht with ht | ht
        · cases ht; exact Or.inl h
        · exact Or.inr ⟨n, t', ht, h⟩
    · rw [g2, h2, or_assoc]
      refine or_congr_right ?_
      constructor
      · rintro (h | ⟨n, t', ht, h⟩)
        · exact ⟨_, _, List.mem_cons_self .., h⟩
        · exact ⟨n, t', List.mem_cons_of_mem _ ht, h⟩
      · rintro ⟨n, t', ht, h⟩
        rcases List.mem_cons.1 ht with ht | ht
        · cases ht; exact Or.inl h
        · exact Or.inr ⟨n, t', ht, h⟩

theorem blink_fits (var : String) : Fits blinkSpec blinkArg .sys var false :=
  ⟨⟨by simp [blinkArg, blink], by simp [blinkArg, blink], by simp [blinkArg, blink],
    by unfold Dict.Wf; simp [blinkArg, blink, Dict.keys], Or.inr ⟨rfl, by simp [blinkArg, blink]⟩,
    by simp [blinkArg, blink], by simp [blinkArg, blink], by simp [blinkArg, blink], by simp [blinkArg, blink],
    by simp [blinkArg, blink]⟩, rfl, by simp [blinkArg, blink], Or.inl rfl, by simp [blinkSpec, Dict.keys]⟩

/-- Non-vacuity: two copies of the system. -/
example : ∃ g, foldE (manyStep id (some [])) blinkSpec [("a", blinkArg), ("b", blinkArg)] = .ok g ∧
    ∀ x, x ∈ g.sysVars.keys ↔ x = "a" ∨ x = "b" := by
  obtain ⟨g, hg, _, h, _⟩ := manySpec_returns id (s := blinkSpec) (ignore := []) (ts := [("a", blinkArg), ("b", blinkArg)])
    (by simp [blinkSpec, Dict.keys])
    (fun name t ht => by
      simp only [List.mem_cons, Prod.mk.injEq, List.not_mem_nil, or_false] at ht
      rcases ht with ⟨rfl, rfl⟩ | ⟨rfl, rfl⟩ <;> exact blink_fits _)
    (by simp [Brings, blinkArg, blink])
  refine ⟨g, hg, fun x => ?_⟩
  rw [h]
  constructor
  · rintro (h | ⟨name, t, ht, h⟩)
    · simp [blinkSpec, Dict.keys] at h
    · simp only [List.mem_cons, Prod.mk.injEq, List.not_mem_nil, or_false] at ht
      rcases ht with ⟨rfl, rfl⟩ | ⟨rfl, rfl⟩ <;>
        simp [SysDeclares, IsVarOf, blinkArg, blink] at h <;> simp [h]
  · rintro (rfl | rfl)
    · exact Or.inr ⟨_, _, List.mem_cons_self .., by simp [SysDeclares, IsVarOf, blinkArg, blink]⟩
    · exact Or.inr ⟨_, _, List.mem_cons_of_mem _ (List.mem_cons_self ..), by
        simp [SysDeclares, IsVarOf, blinkArg, blink]⟩

/-- Non-vacuity: the system that alternates between two states. -/
example : ∃ g, specPlusSys id blinkSpec none (some blinkArg) false false = .ok g ∧
    ∀ x, x ∈ g.sysVars.keys ↔ x = "loc" := by
  obtain ⟨g, hg, _, h, _⟩ := specPlusSys_returns id (s := blinkSpec) (env := none) (sys := some blinkArg)
    (ignoreEnv := false) (ignoreSys := false) (by simp [blinkSpec, Dict.keys]) (fun t ht => by cases ht; exact blink_fits _)
    (fun t ht => by cases ht) (fun _ _ _ h => by cases h)
  refine ⟨g, hg, fun x => ?_⟩
  rw [h]
  simp [SysDeclares, IsVarOf, blinkSpec, blinkArg, blink, Dict.keys, TsArg.sysVar]

end Synth

end Tulip
