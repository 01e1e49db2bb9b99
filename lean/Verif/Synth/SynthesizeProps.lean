import Verif.Synth.Synthesize
import Verif.Synth.ToSpecProps
import Verif.Synth.DeterminizeProps
import Verif.Spec.GRSpecProps

/-!
# What `synthesize` asks of the solver, and what it returns (C80, C81)
-/

namespace Tulip

namespace Synth

open Mach

/-! ## Specification -/

/-- The name of the variable for the states of the system. -/
def TsArg.sysVar (t : TsArg) : String := t.stateVarname.getD "loc"

/-- The name of the variable for the states of the environment. -/
def TsArg.envVar (t : TsArg) : String := t.stateVarname.getD "eloc"

/-- The trace follows an execution of the system `t` in variable `var`, from an initial state unless
initial states are ignored, and the actions of the system respect `sys_actions_must`. -/
def SysRuns (F : FTS) (var : String) (ignore : Bool) (σ : Trace) : Prop :=
  (∃ r, Follows F false var (SysActs F false) σ r ∧ (ignore = false → r 0 ∈ F.initial)) ∧
    ∀ i, TypesOk F false isSys F.actions σ i

/-- The actions of the environment respect `env_actions_must`, and in each step are those of some
transition of the system. -/
def SysAllows (F : FTS) (var : String) (σ : Trace) : Prop :=
  ∀ i, TypesOk F false isEnvOnly F.actions σ i ∧ EnvAllows F false false var σ i

/-- The start of a trace is that of some execution of the system. -/
def SysStarts (F : FTS) (var : String) (ignore : Bool) (σ : Trace) : Prop :=
  TypesOk F false isSys F.actions σ 0 ∧
    (ignore = false → ∃ s ∈ F.initial, Selected false var σ 0 s) ∧
    ∀ s ∈ F.states, Selected false var σ 0 s → ApsAt F s σ 0

/-- The trace follows an execution of the environment `F`, and the actions of the environment respect
`env_actions_must`. -/
def EnvRuns (F : FTS) (var : String) (ignore : Bool) (σ : Trace) : Prop :=
  (∃ r, Follows F false var (EnvActs F false) σ r ∧ (ignore = false → r 0 ∈ F.initial)) ∧
    ∀ i, TypesOk F false isEnvOnly F.actions σ i

/-- The actions of the system respect `sys_actions_must` of the environment `F`. -/
def EnvAsks (F : FTS) (σ : Trace) : Prop := ∀ i, TypesOk F false isSys F.actions σ i

/-- The variable has the value of a state at the start, if the initial states are ignored. -/
def InSomeState (F : FTS) (var : String) (ignore : Bool) (σ : Trace) : Prop :=
  ignore = true → ∃ s ∈ F.states, Selected false var σ 0 s

/-- No state of the environment is blocked by the system on this trace. -/
def NotBlocked (F : FTS) (var : String) (σ : Trace) : Prop :=
  ∀ i, ∀ s ∈ F.states, Selected false var σ i s → ¬ Blocked F false s σ i

/-- A transition system of the environment whose types of system actions are not empty. -/
def ActionsInhabited (F : FTS) : Prop := ∀ k dom, (k, dom) ∈ F.actions → isSys k = true → dom ≠ []

/-! ## The parts of the specifications of transition systems -/

theorem sysToSpec_prog {order : List (List Char) → List (List Char)} {F : FTS}
    {ignore bs ba : Bool} {var : String} {g : GRSpec}
    (h : sysToSpec order F ignore var bs ba = .ok g) : g.envProg = [] ∧ g.sysProg = [] := by
  unfold sysToSpec at h
  split at h
  · cases h
  split at h
  · cases h
  obtain ⟨a, h1, h⟩ := bind_ok h
  obtain ⟨r, h2, h⟩ := bind_ok h
  obtain ⟨init, h3, h⟩ := bind_ok h
  obtain ⟨trans, h4, h⟩ := bind_ok h
  obtain ⟨ap, h5, h⟩ := bind_ok h
  obtain ⟨env, h6, h⟩ := bind_ok h
  simp only [GRSpec.make] at h
  split at h
  swap
  · cases h
  cases h
  exact ⟨rfl, rfl⟩

theorem envToSpec_prog {F : FTS} {ignore bs ba : Bool} {var : String} {g : GRSpec}
    (h : envToSpec F ignore var bs ba = .ok g) : g.envProg = [] ∧ g.sysProg = [] := by
  unfold envToSpec at h
  split at h
  · cases h
  split at h
  · cases h
  obtain ⟨a, h1, h⟩ := bind_ok h
  obtain ⟨r, h2, h⟩ := bind_ok h
  obtain ⟨init, h3, h⟩ := bind_ok h
  obtain ⟨trans, h4, h⟩ := bind_ok h
  obtain ⟨ap, h5, h⟩ := bind_ok h
  simp only [GRSpec.make] at h
  split at h
  swap
  · cases h
  cases h
  exact ⟨rfl, rfl⟩

theorem sysToSpec_start {order : List (List Char) → List (List Char)} {F : FTS}
    {ignore : Bool} {var : String} {g : GRSpec} (hF : F.Good false false var)
    (h : sysToSpec order F ignore var false false = .ok g) (σ : Trace) :
    (∀ f ∈ g.sysInit, Holds σ 0 f) ↔ SysStarts F var ignore σ := by
  unfold sysToSpec at h
  split at h
  · cases h
  split at h
  · cases h
  obtain ⟨a, h1, h⟩ := bind_ok h
  obtain ⟨r, h2, h⟩ := bind_ok h
  obtain ⟨init, h3, h⟩ := bind_ok h
  obtain ⟨trans, h4, h⟩ := bind_ok h
  obtain ⟨ap, h5, h⟩ := bind_ok h
  obtain ⟨env, h6, h⟩ := bind_ok h
  obtain ⟨apInit, apTrans⟩ := ap
  simp only [GRSpec.make] at h
  split at h
  swap
  · cases h
  cases h
  have ha := addTypes_ok hF (done := []) rfl (accOk_start F false _ _) h1
  obtain ⟨hkeys, hids⟩ := iter2var_form h2 hF.states (by rw [usesBools_xor]; exact hF.var)
  rw [usesBools_xor] at hids
  have hS : IdsFor r.ids (fun x σ i => Selected false var σ i x) := hids
  obtain ⟨hini, mini⟩ := sysInitFromTs_ok hS h3
  obtain ⟨map1, map2⟩ := apTransFromTs_ok hS hF.aps h5
  simp only at map1
  have mI := (ha.sysInit.append mini).append map1
  refine (mI.holds σ 0).trans ?_
  simp only [and_assoc, SysStarts]

theorem envToSpec_sysInit {F : FTS} {ignore : Bool} {var : String} {g : GRSpec}
    (hF : F.Good false false var) (h : envToSpec F ignore var false false = .ok g) (σ : Trace) :
    (∀ f ∈ g.sysInit, Holds σ 0 f) ↔ TypesOk F false isSys F.actions σ 0 := by
  unfold envToSpec at h
  split at h
  · cases h
  split at h
  · cases h
  obtain ⟨a, h1, h⟩ := bind_ok h
  obtain ⟨r, h2, h⟩ := bind_ok h
  obtain ⟨init, h3, h⟩ := bind_ok h
  obtain ⟨trans, h4, h⟩ := bind_ok h
  obtain ⟨ap, h5, h⟩ := bind_ok h
  obtain ⟨apInit, apTrans⟩ := ap
  simp only [GRSpec.make] at h
  split at h
  swap
  · cases h
  cases h
  have ha := addTypes_ok hF (done := []) rfl (accOk_start F false _ _) h1
  exact ha.sysInit.holds σ 0

theorem envToSpec_envInit {F : FTS} {ignore : Bool} {var : String} {g : GRSpec}
    (hF : F.Good false false var) (h : envToSpec F ignore var false false = .ok g) (σ : Trace) :
    (∀ f ∈ g.envInit, Holds σ 0 f) ↔ TypesOk F false isEnvOnly F.actions σ 0 ∧
      (ignore = false → ∃ s ∈ F.initial, Selected false var σ 0 s) ∧
      ∀ s ∈ F.states, Selected false var σ 0 s → ApsAt F s σ 0 := by
  unfold envToSpec at h
  split at h
  · cases h
  split at h
  · cases h
  obtain ⟨a, h1, h⟩ := bind_ok h
  obtain ⟨r, h2, h⟩ := bind_ok h
  obtain ⟨init, h3, h⟩ := bind_ok h
  obtain ⟨trans, h4, h⟩ := bind_ok h
  obtain ⟨ap, h5, h⟩ := bind_ok h
  obtain ⟨apInit, apTrans⟩ := ap
  simp only [GRSpec.make] at h
  split at h
  swap
  · cases h
  cases h
  have ha := addTypes_ok hF (done := []) rfl (accOk_start F false _ _) h1
  obtain ⟨hkeys, hids⟩ := iter2var_form h2 hF.states (by rw [usesBools_xor]; exact hF.var)
  rw [usesBools_xor] at hids
  have hS : IdsFor r.ids (fun x σ i => Selected false var σ i x) := hids
  obtain ⟨hini, mini⟩ := sysInitFromTs_ok hS h3
  obtain ⟨map1, map2⟩ := apTransFromTs_ok hS hF.aps h5
  simp only at map1
  have mI := (ha.envInit.append mini).append map1
  refine (mI.holds σ 0).trans ?_
  simp only [and_assoc]

/-- Every execution of the environment satisfies the assumptions made for it. -/
theorem envToSpec_of_runs {F : FTS} {ignore : Bool} {var : String} {g : GRSpec}
    (hF : F.Good false false var) (hdom : ActionsInhabited F)
    (h : envToSpec F ignore var false false = .ok g) {σ : Trace} (hr : EnvRuns F var ignore σ) :
    (∀ f ∈ g.envInit, Holds σ 0 f) ∧ ∀ i, ∀ f ∈ g.envSafety, Holds σ i f := by
  obtain ⟨⟨r, hr, h0⟩, ht⟩ := hr
  refine ⟨(envToSpec_envInit hF h σ).2 ⟨ht 0, fun hi => ⟨r 0, h0 hi, (hr.state 0).2.1⟩, fun s hs h1 => ?_⟩,
    fun i => (envToSpec_step hF hdom h σ i).2 ⟨ht (i + 1), ?_, fun s hs h1 => Or.inl ?_, fun s hs h1 => ?_⟩⟩
  · rw [(hr.state 0).2.2 s hs h1]; exact hr.aps 0
  · intro hb; cases hb
  · obtain ⟨e, he, h2, h3, h4⟩ := hr.step i
    exact ⟨e, he, h2.trans ((hr.state i).2.2 s hs h1).symm, h3 ▸ (hr.state (i + 1)).2.1, h4⟩
  · rw [(hr.state (i + 1)).2.2 s hs h1]; exact hr.aps (i + 1)

/-! ## The specification that the solver gets -/

theorem moveInit_meaning (q : List Char) (g : GRSpec) (σ : Trace) :
    (q ≠ allAll → ((moveInit q g).Assumption σ ↔ g.Assumption σ) ∧
      ((moveInit q g).Guarantee σ ↔ g.Guarantee σ)) ∧
    (q = allAll → ((moveInit q g).Assumption σ ↔ g.Assumption σ ∧ ∀ f ∈ g.sysInit, Holds σ 0 f) ∧
      ((∀ f ∈ g.sysInit, Holds σ 0 f) → ((moveInit q g).Guarantee σ ↔ g.Guarantee σ))) := by
  constructor
  · intro h
    simp [moveInit, h]
  · intro h
    simp only [moveInit, h, if_true, GRSpec.Assumption, GRSpec.Guarantee, SideMeaning, List.mem_append,
      List.not_mem_nil, false_implies, implies_true, true_and]
    refine ⟨⟨?_, ?_⟩, fun h1 => ⟨fun h2 => ⟨h1, h2⟩, fun h2 => h2.2⟩⟩
    · rintro ⟨a, b⟩
      exact ⟨⟨fun f hf => a f (Or.inl hf), b⟩, fun f hf => a f (Or.inr hf)⟩
    · rintro ⟨⟨a, b⟩, c⟩
      exact ⟨fun f hf => hf.elim (a f) (c f), b⟩

theorem copyOptions_meaning (g : GRSpec) (t : TsArg) (s : GRSpec) (σ : Trace) :
    ((copyOptions g t s).Assumption σ ↔ g.Assumption σ) ∧
      ((copyOptions g t s).Guarantee σ ↔ g.Guarantee σ) ∧ (copyOptions g t s).sysInit = g.sysInit := by
  unfold copyOptions
  split <;> exact ⟨Iff.rfl, Iff.rfl, rfl⟩

theorem union_sides {s o r : GRSpec} (h : s.union o = .ok r) (σ : Trace) :
    (r.Assumption σ ↔ s.Assumption σ ∧ o.Assumption σ) ∧
    (r.Guarantee σ ↔ s.Guarantee σ ∧ o.Guarantee σ) ∧
    r.qinit = s.qinit ∧ r.moore = s.moore ∧ r.plusOne = s.plusOne := by
  obtain ⟨_, h1, h2, h3, h4, h5, rfl⟩ := union_ok h
  exact ⟨sideMeaning_append _ _ _ _ _ _ σ, sideMeaning_append _ _ _ _ _ _ σ, rfl, rfl, rfl⟩

theorem side_noprog {init safety prog : List (List Char)} (hp : prog = []) (σ : Trace) :
    SideMeaning init safety prog σ ↔ (∀ f ∈ init, Holds σ 0 f) ∧ ∀ i, ∀ f ∈ safety, Holds σ i f := by
  subst hp
  simp only [SideMeaning, List.not_mem_nil, false_implies, implies_true, and_true]
  exact and_congr Iff.rfl ⟨fun h i f hf => h f hf i, fun h f hf i => h i f hf⟩

/-- What `_spec_plus_sys` adds for the system. -/
theorem plusSys_meaning {order : List (List Char) → List (List Char)}
    (horder : ∀ l x, x ∈ order l ↔ x ∈ l) {s r : GRSpec} {ignore : Bool} {t : TsArg}
    (hF : t.fts.Good false false t.sysVar) (h : plusSys order s ignore (some t) = .ok r) (σ : Trace) :
    (r.Assumption σ ↔ s.Assumption σ ∧ SysAllows t.fts t.sysVar σ ∧
      (s.qinit = allAll → SysStarts t.fts t.sysVar ignore σ)) ∧
    (InSomeState t.fts t.sysVar ignore σ → (s.qinit = allAll → SysStarts t.fts t.sysVar ignore σ) →
      (r.Guarantee σ ↔ s.Guarantee σ ∧ SysRuns t.fts t.sysVar ignore σ)) ∧
    r.qinit = s.qinit ∧ r.moore = s.moore ∧ r.plusOne = s.plusOne := by
  unfold plusSys at h
  obtain ⟨g, h1, h2⟩ := bind_ok h
  change sysToSpec order t.fts ignore t.sysVar false false = .ok g at h1
  obtain ⟨u1, u2, u3⟩ := union_sides h2 σ
  obtain ⟨m1, m2⟩ := moveInit_meaning s.qinit (copyOptions g t s) σ
  obtain ⟨c1, c2, c3⟩ := copyOptions_meaning g t s σ
  obtain ⟨p1, p2⟩ := sysToSpec_prog h1
  have hstart := sysToSpec_start hF h1 σ
  have henv : g.Assumption σ ↔ SysAllows t.fts t.sysVar σ :=
    (side_noprog p1 σ).trans ((sysToSpec_env horder hF h1).2 σ)
  have hsys : InSomeState t.fts t.sysVar ignore σ → (g.Guarantee σ ↔ SysRuns t.fts t.sysVar ignore σ) :=
    fun hi => (side_noprog p2 σ).trans ((sysToSpec_sys hF h1).2 σ hi)
  refine ⟨?_, ?_, u3⟩
  · rw [u1]
    by_cases hq : s.qinit = allAll
    · rw [(m2 hq).1, c1, c3, henv]
      simp only [hq, true_implies]
      exact and_congr Iff.rfl (and_congr Iff.rfl hstart)
    · rw [(m1 hq).1, c1, henv]
      simp [hq]
  · intro hi hs
    rw [u2]
    by_cases hq : s.qinit = allAll
    · rw [(m2 hq).2 (by rw [c3]; exact hstart.2 (hs hq)), c2, hsys hi]
    · rw [(m1 hq).2, c2, hsys hi]

/-- What `_spec_plus_sys` adds for the environment. -/
theorem plusEnv_meaning {s r : GRSpec} {ignore : Bool} {t : TsArg}
    (hF : t.fts.Good false false t.envVar) (hdom : ActionsInhabited t.fts)
    (h : plusEnv s ignore (some t) = .ok r) (σ : Trace) :
    (s.Assumption σ ∧ EnvRuns t.fts t.envVar ignore σ ∧
      (s.qinit = allAll → TypesOk t.fts false isSys t.fts.actions σ 0) → r.Assumption σ) ∧
    (InSomeState t.fts t.envVar ignore σ → NotBlocked t.fts t.envVar σ →
      (r.Assumption σ ↔ s.Assumption σ ∧ EnvRuns t.fts t.envVar ignore σ ∧
        (s.qinit = allAll → TypesOk t.fts false isSys t.fts.actions σ 0))) ∧
    ((s.qinit = allAll → TypesOk t.fts false isSys t.fts.actions σ 0) →
      (r.Guarantee σ ↔ s.Guarantee σ ∧ EnvAsks t.fts σ)) ∧
    r.qinit = s.qinit ∧ r.moore = s.moore ∧ r.plusOne = s.plusOne := by
  unfold plusEnv at h
  obtain ⟨g, h1, h2⟩ := bind_ok h
  change envToSpec t.fts ignore t.envVar false false = .ok g at h1
  obtain ⟨u1, u2, u3⟩ := union_sides h2 σ
  obtain ⟨m1, m2⟩ := moveInit_meaning s.qinit g σ
  obtain ⟨c1, c2, -⟩ := copyOptions_meaning (moveInit s.qinit g) t s σ
  obtain ⟨p1, p2⟩ := envToSpec_prog h1
  have hinit := envToSpec_sysInit hF h1 σ
  have henv := side_noprog (init := g.envInit) (safety := g.envSafety) p1 σ
  have hsys : g.Guarantee σ ↔ EnvAsks t.fts σ :=
    (side_noprog p2 σ).trans ((envToSpec_sys hF h1).2 σ)
  have hA : r.Assumption σ ↔ s.Assumption σ ∧ g.Assumption σ ∧
      (s.qinit = allAll → TypesOk t.fts false isSys t.fts.actions σ 0) := by
    rw [u1, c1]
    by_cases hq : s.qinit = allAll
    · rw [(m2 hq).1]
      simp only [hq, true_implies]
      exact and_congr Iff.rfl (and_congr Iff.rfl hinit)
    · rw [(m1 hq).1]
      simp [hq]
  refine ⟨?_, ?_, ?_, u3⟩
  · rintro ⟨h3, h4, h5⟩
    exact hA.2 ⟨h3, henv.2 (envToSpec_of_runs hF hdom h1 h4), h5⟩
  · intro hi hb
    rw [hA]
    have : g.Assumption σ ↔ EnvRuns t.fts t.envVar ignore σ :=
      henv.trans ((envToSpec_env hF hdom h1).2 σ hi hb)
    rw [this]
  · intro hi
    rw [u2, c2]
    by_cases hq : s.qinit = allAll
    · rw [(m2 hq).2 (hinit.2 (hi hq)), hsys]
    · rw [(m1 hq).2, hsys]

/-- The assumptions that the solver may make: those of the specification; in each step, the environment takes actions
that the system allows; the environment follows an execution of its transition system; and, if initial conditions are
quantified as `\A \A`, the start is that of an execution of the system. -/
def Assumes (s : GRSpec) (env sys : Option TsArg) (ignoreEnv ignoreSys : Bool) (σ : Trace) : Prop :=
  s.Assumption σ ∧ (∀ t, sys = some t → SysAllows t.fts t.sysVar σ) ∧
    (∀ t, env = some t → EnvRuns t.fts t.envVar ignoreEnv σ) ∧
    (s.qinit = allAll → (∀ t, sys = some t → SysStarts t.fts t.sysVar ignoreSys σ) ∧
      ∀ t, env = some t → TypesOk t.fts false isSys t.fts.actions σ 0)

/-- What the solver must guarantee: the guarantees of the specification; the system follows an execution of its
transition system; and takes actions that respect `sys_actions_must`. -/
def Guarantees (s : GRSpec) (env sys : Option TsArg) (ignoreSys : Bool) (σ : Trace) : Prop :=
  s.Guarantee σ ∧ (∀ t, sys = some t → SysRuns t.fts t.sysVar ignoreSys σ) ∧
    ∀ t, env = some t → EnvAsks t.fts σ

/-- Well-formed transition systems. -/
structure ArgsOk (env sys : Option TsArg) : Prop where
  sys : ∀ t, sys = some t → t.fts.Good false false t.sysVar
  env : ∀ t, env = some t → t.fts.Good false false t.envVar ∧ ActionsInhabited t.fts

/-- **C80.** The specification that the solver gets. Its options are those of the given specification. It assumes what
`Assumes` says (it may assume less, when the system blocks the environment), and under this assumption it guarantees what
`Guarantees` says. -/
theorem specPlusSys_meaning {order : List (List Char) → List (List Char)}
    (horder : ∀ l x, x ∈ order l ↔ x ∈ l) {s g : GRSpec} {env sys : Option TsArg}
    {ignoreEnv ignoreSys : Bool} (ha : ArgsOk env sys)
    (h : specPlusSys order s env sys ignoreEnv ignoreSys = .ok g) (σ : Trace) :
    (Assumes s env sys ignoreEnv ignoreSys σ → g.Assumption σ) ∧
    ((∀ t, env = some t → InSomeState t.fts t.envVar ignoreEnv σ ∧ NotBlocked t.fts t.envVar σ) →
      (g.Assumption σ ↔ Assumes s env sys ignoreEnv ignoreSys σ)) ∧
    ((∀ t, sys = some t → InSomeState t.fts t.sysVar ignoreSys σ) →
      (s.qinit = allAll → (∀ t, sys = some t → SysStarts t.fts t.sysVar ignoreSys σ) ∧
        ∀ t, env = some t → TypesOk t.fts false isSys t.fts.actions σ 0) →
      (g.Guarantee σ ↔ Guarantees s env sys ignoreSys σ)) ∧
    g.qinit = s.qinit ∧ g.moore = s.moore ∧ g.plusOne = s.plusOne := by
  unfold specPlusSys at h
  obtain ⟨r, h1, h2⟩ := bind_ok h
  have hs : (r.Assumption σ ↔ s.Assumption σ ∧ (∀ t, sys = some t → SysAllows t.fts t.sysVar σ) ∧
      (s.qinit = allAll → ∀ t, sys = some t → SysStarts t.fts t.sysVar ignoreSys σ)) ∧
      ((∀ t, sys = some t → InSomeState t.fts t.sysVar ignoreSys σ) →
        (s.qinit = allAll → ∀ t, sys = some t → SysStarts t.fts t.sysVar ignoreSys σ) →
        (r.Guarantee σ ↔ s.Guarantee σ ∧ ∀ t, sys = some t → SysRuns t.fts t.sysVar ignoreSys σ)) ∧
      r.qinit = s.qinit ∧ r.moore = s.moore ∧ r.plusOne = s.plusOne := by
    cases sys with
    | none =>
      cases h1
      simp
    | some t =>
      obtain ⟨k1, k2, k3⟩ := plusSys_meaning horder (ha.sys t rfl) h1 σ
      simpa only [Option.some.injEq, forall_eq'] using ⟨k1, k2, k3⟩
  obtain ⟨s1, s2, s3, s4, s5⟩ := hs
  cases env with
  | none =>
    cases h2
    simp only [Assumes, Guarantees, reduceCtorEq, false_implies, implies_true, and_true, true_and, true_implies]
    exact ⟨s1.2, s1, s2, s3, s4, s5⟩
  | some t =>
    obtain ⟨g1, g2⟩ := ha.env t rfl
    obtain ⟨k1, k2, k3, k4, k5, k6⟩ := plusEnv_meaning g1 g2 h2 σ
    simp only [Assumes, Guarantees, Option.some.injEq, forall_eq']
    rw [s3] at k1 k2 k3
    refine ⟨fun h => k1 ?_, fun h => (k2 h.1 h.2).trans ?_, fun h5 h6 => ?_, k4.trans s3, k5.trans s4, k6.trans s5⟩
    · rw [s1]
      exact ⟨⟨h.1, h.2.1, fun hq => (h.2.2.2 hq).1⟩, h.2.2.1, fun hq => (h.2.2.2 hq).2⟩
    · rw [s1]
      constructor
      · rintro ⟨⟨a, b, c⟩, d, e⟩
        exact ⟨a, b, d, fun hq => ⟨c hq, e hq⟩⟩
      · rintro ⟨a, b, d, e⟩
        exact ⟨⟨a, b, fun hq => (e hq).1⟩, d, fun hq => (e hq).2⟩
    · rw [k3 fun hq => (h6 hq).2, s2 h5 fun hq => (h6 hq).1, and_assoc]

/-! ## The machine that is returned -/

variable {ν : Type} [DecidableEq ν]

/-- A value in a strategy or a machine, for a variable of the given domain, as a value in a trace: the values of Boolean
variables are 0 and 1. -/
def valueIn (d : Option Dom) (y : Elem) : Val :=
  match d, y with
  | some .boolean, .int n => .bool (decide (n ≠ 0))
  | _, y => y.val

/-- A state of a trace has the values of the label `d`. -/
def Shows (vars : Dict String Dom) (d : Attr Elem) (v : Valuation) : Prop :=
  ∀ k y, Dict.get? d k = some y → v k = valueIn (vars.get? k) y

/-- All plays of the strategy, from an initial node, satisfy the specification. -/
def Wins (A : Strategy ν) (isInit : Attr Elem → Except PyErr Bool) (g : GRSpec) : Prop :=
  ∀ (v : Nat → ν) (σ : Trace), IsInitial A isInit (v 0) → (∀ t, (v t, v (t + 1)) ∈ A.edges) →
    (∀ t, ∃ d, IsLabel A (Dict.update g.envVars g.sysVars) (v t) d ∧
      Shows (Dict.update g.envVars g.sysVars) d (σ t)) → g.Meaning σ

/-- What is assumed of a solver, on a specification: if it returns a strategy, this is well-formed and wins. -/
def Solver.Correct (isInit : GRSpec → Attr Elem → Except PyErr Bool) (solve : Solve ν) (g : GRSpec) : Prop :=
  ∀ A, solve g = .ok (some A) → A.Good (Dict.update g.envVars g.sysVars) ∧ Wins A (isInit g) g

/-- An infinite run of the machine: states, and labels of the transitions. -/
def MachRun (m : Machine ν Elem) (n : Nat → ν) (d : Nat → Attr Elem) : Prop :=
  n 0 ∈ m.graph.initial ∧ ∀ t, (n t, n (t + 1), d t) ∈ m.graph.edges

/-- The initial condition is evaluated on declared variables. -/
def InitDepends (isInit : GRSpec → Attr Elem → Except PyErr Bool) : Prop :=
  ∀ (g : GRSpec) a b, (∀ k, (Dict.update g.envVars g.sysVars).has k = true → Dict.get? a k = Dict.get? b k) →
    isInit g a = isInit g b

theorem trimStrategy_sub {order : List ν → List ν} (ho : ∀ l, (order l).Perm l)
    {A : Strategy ν} {env sys : Dict String Dom} {isInit : Attr Elem → Except PyErr Bool} {sinit : ν}
    {m : Machine ν Elem} (hv : VarsOk env sys) (hA : A.Good (Dict.update env sys))
    (hdep : ∀ a b, (∀ k, (Dict.update env sys).has k = true → Dict.get? a k = Dict.get? b k) →
      isInit a = isInit b) {rm : Bool}
    (h : trimStrategy order (some A) env sys isInit sinit rm = .ok (some m)) :
    ∃ m0, strategy2mealy A env sys isInit sinit = .ok m0 ∧ m.inputs = m0.inputs ∧ m.outputs = m0.outputs ∧
      (∀ n ∈ m.graph.initial, n ∈ m0.graph.initial) ∧ (∀ e ∈ m.graph.edges, e ∈ m0.graph.edges) ∧
      (rm = true → ∀ n, m.graph.hasNode n = true → ∃ v d, (n, v, d) ∈ m.graph.edges) := by
  have h' := h
  simp only [trimStrategy] at h'
  obtain ⟨m0, h1, h2⟩ := bind_ok h'
  obtain ⟨t1, t2, t3, t4⟩ := trimStrategy_spec ho hv hA hdep h1 rm
  refine ⟨m0, h1, ?_⟩
  cases rm with
  | false =>
    rw [t2] at h
    cases h
    exact ⟨rfl, rfl, fun _ h => h, fun _ h => h, by simp⟩
  | true =>
    by_cases hex : ∃ n, m0.graph.hasNode n = true ∧ m0.graph.Alive n
    · obtain ⟨m', q1, q2, q3, q4, q5, q6, q7⟩ := t3 hex
      rw [q1] at h
      cases h
      exact ⟨q2, q3, fun n hn => ((q6 n).1 hn).1, fun e he => ((q5 e.1 e.2.1 e.2.2).1 he).1, fun _ => q7⟩
    · rw [t4 hex] at h
      cases h

/-- **C80.** If the solver is correct, then the machine has the variables of the environment as inputs and those of the
system as outputs, and all its runs satisfy the specification that was solved. -/
theorem synthesizeSpec_correct {T : Tools ν}
    (hostates : ∀ l, (T.orderStates l).Perm l) (hinit : InitDepends T.isInit) {g : GRSpec}
    {rm : Bool} {solver : String} {solve : Solve ν}
    (hpick : T.solvers.pick solver = .ok solve) (hsolve : Solver.Correct T.isInit solve g)
    (hv : VarsOk g.envVars g.sysVars) {m : Machine ν Elem} (h2 : synthesizeSpec T g solver rm = .ok (some m)) :
    (∀ k, m.inputs.has k = g.envVars.has k) ∧ (∀ k, m.outputs.has k = g.sysVars.has k) ∧
      (rm = true → ∀ n, m.graph.hasNode n = true → ∃ v d, (n, v, d) ∈ m.graph.edges) ∧
      ∀ n d σ, MachRun m n d → (∀ t, Shows (Dict.update g.envVars g.sysVars) (d t) (σ t)) → g.Meaning σ := by
  unfold synthesizeSpec at h2
  rw [hpick, ok_bind] at h2
  obtain ⟨A, h3, h4⟩ := bind_ok h2
  cases A with
  | none => simp [trimStrategy] at h4
  | some A =>
    obtain ⟨hgood, hwin⟩ := hsolve A h3
    obtain ⟨m0, t1, t2, t3, t4, t5, t6⟩ := trimStrategy_sub hostates hv hgood (hinit g) h4
    obtain ⟨⟨i1, _⟩, ⟨o1, _⟩, hs, _, e1, _, _, e2, _, e3, _⟩ :=
      strategy2mealy_spec hv hgood (hinit g) t1
    refine ⟨fun k => by rw [t2, i1], fun k => by rw [t3, o1], t6, ?_⟩
    rintro n d σ ⟨hn0, hn⟩ hshow
    have h0 : n 0 = T.sinit := by
      have := t4 _ hn0
      rw [e1, List.mem_singleton] at this
      exact this
    have hkeys : ∀ {u d}, IsLabel A (Dict.update g.envVars g.sysVars) u d → u ≠ T.sinit := by
      rintro u d ⟨st, h5, _⟩ rfl
      exact hs (List.mem_map_of_mem (f := Prod.fst) h5)
    have hstep0 : IsInitial A (T.isInit g) (n 1) ∧ IsLabel A (Dict.update g.envVars g.sysVars) (n 1) (d 0) := by
      have := t5 _ (hn 0)
      rw [h0] at this
      exact e3 _ _ this
    have hlabel : ∀ t, IsLabel A (Dict.update g.envVars g.sysVars) (n (t + 1)) (d t) := by
      intro t
      induction t with
      | zero => exact hstep0.2
      | succ t ih => exact (e2 _ _ _ (hkeys ih) (t5 _ (hn (t + 1)))).2
    exact hwin (fun t => n (t + 1)) σ hstep0.1
      (fun t => (e2 _ _ _ (hkeys (hlabel t)) (t5 _ (hn (t + 1)))).1) (fun t => ⟨d t, hlabel t, hshow t⟩)

/-- **C80.** If the solver is correct, then every run of the machine that `synthesize` returns, on which the
specification's assumptions hold and the environment behaves as its transition system says, satisfies the specification's
guarantees and follows an execution of the system. With `rm_deadends`, the machine has no dead ends. -/
theorem synthesize_correct {T : Tools ν} (horder : ∀ l x, x ∈ T.order l ↔ x ∈ l)
    (hostates : ∀ l, (T.orderStates l).Perm l) (hinit : InitDepends T.isInit) {s : GRSpec}
    {env sys : Option TsArg} {ignoreEnv ignoreSys rm : Bool} {solver : String} {solve : Solve ν}
    (hpick : T.solvers.pick solver = .ok solve)
    (hsolve : ∀ g, specPlusSys T.order s env sys ignoreEnv ignoreSys = .ok g → Solver.Correct T.isInit solve g)
    (ha : ArgsOk env sys)
    (hv : ∀ g, specPlusSys T.order s env sys ignoreEnv ignoreSys = .ok g → VarsOk g.envVars g.sysVars)
    {m : Machine ν Elem} (h : synthesize T s env sys ignoreEnv ignoreSys rm solver = .ok (some m)) :
    ∃ g, specPlusSys T.order s env sys ignoreEnv ignoreSys = .ok g ∧
      (∀ k, m.inputs.has k = g.envVars.has k) ∧ (∀ k, m.outputs.has k = g.sysVars.has k) ∧
      (rm = true → ∀ n, m.graph.hasNode n = true → ∃ v d, (n, v, d) ∈ m.graph.edges) ∧
      ∀ n d σ, MachRun m n d → (∀ t, Shows (Dict.update g.envVars g.sysVars) (d t) (σ t)) →
        (∀ t, sys = some t → InSomeState t.fts t.sysVar ignoreSys σ) →
        Assumes s env sys ignoreEnv ignoreSys σ → Guarantees s env sys ignoreSys σ := by
  unfold synthesize at h
  obtain ⟨g, h1, h2⟩ := bind_ok h
  obtain ⟨k1, k2, k3, k4⟩ := synthesizeSpec_correct hostates hinit hpick (hsolve g h1) (hv g h1) h2
  refine ⟨g, h1, k1, k2, k3, ?_⟩
  intro n d σ hn hshow hsome hass
  obtain ⟨s1, _, s3, _⟩ := specPlusSys_meaning horder ha h1 σ
  exact (s3 hsome hass.2.2.2).1 (k4 n d σ hn hshow (s1 hass))

/-- **C80.** The solver that is called is the one that is named. -/
theorem pick_spec {α : Type} (I : Solvers α) (f : α) :
    (I.pick "gr1c" = .ok I.gr1c ∧ I.pick "gr1py" = .ok I.gr1py ∧ I.pick "omega" = .ok I.omega) ∧
      (I.pick "slugs" = .ok f ↔ I.slugs = some f) := by
  refine ⟨⟨rfl, rfl, rfl⟩, ?_⟩
  cases h : I.slugs <;> simp [Solvers.pick, h]

/-- **C80.** `synthesize` returns `None` exactly when the solver says that the specification is not realizable. It raises
`ValueError` for an unknown solver, and for `slugs` if it is not installed. -/
theorem synthesize_none (T : Tools ν) (s : GRSpec) (env sys : Option TsArg) (ignoreEnv ignoreSys rm : Bool)
    (solver : String) :
    (synthesize T s env sys ignoreEnv ignoreSys rm solver = .ok none ↔
      ∃ g solve, specPlusSys T.order s env sys ignoreEnv ignoreSys = .ok g ∧
        T.solvers.pick solver = .ok solve ∧ solve g = .ok none) ∧
    (∀ g, specPlusSys T.order s env sys ignoreEnv ignoreSys = .ok g →
      solver ∉ ["gr1c", "slugs", "gr1py", "omega"] ∨ solver = "slugs" ∧ T.solvers.slugs = none →
      synthesize T s env sys ignoreEnv ignoreSys rm solver = .error .valueError) := by
  constructor
  · constructor
    · intro h
      unfold synthesize at h
      obtain ⟨g, h1, h2⟩ := bind_ok h
      unfold synthesizeSpec at h2
      obtain ⟨solve, h3, h2⟩ := bind_ok h2
      obtain ⟨A, h4, h5⟩ := bind_ok h2
      cases A with
      | none => exact ⟨g, solve, h1, h3, h4⟩
      | some A =>
        exfalso
        simp only [trimStrategy] at h5
        obtain ⟨m, _, h5⟩ := bind_ok h5
        split at h5
        · obtain ⟨_, _, h5⟩ := bind_ok h5
          cases h5
        · cases h5
    · rintro ⟨g, solve, h1, h2, h3⟩
      unfold synthesize synthesizeSpec
      rw [h1, ok_bind, h2, ok_bind, h3, ok_bind]
      rfl
  · intro g h1 h2
    unfold synthesize synthesizeSpec
    rw [h1, ok_bind]
    have : T.solvers.pick solver = .error .valueError := by
      unfold Solvers.pick
      rcases h2 with h2 | ⟨rfl, h2⟩
      · simp only [List.mem_cons, List.not_mem_nil, or_false, not_or] at h2
        simp [h2]
      · simp [h2]
    rw [this]
    rfl

/-- **C80.** `is_realizable` asks about the specification that `synthesize` solves, the solver of the same name; it fails
where `synthesize` fails before it calls the solver. -/
theorem isRealizable_spec (order : List (List Char) → List (List Char))
    (check : Solvers (GRSpec → Except PyErr Bool)) (s : GRSpec) (env sys : Option TsArg)
    (ignoreEnv ignoreSys : Bool) (solver : String) :
    (∀ b, isRealizable order check s env sys ignoreEnv ignoreSys solver = .ok b ↔
      ∃ g f, specPlusSys order s env sys ignoreEnv ignoreSys = .ok g ∧ check.pick solver = .ok f ∧ f g = .ok b) ∧
    ∀ e, specPlusSys order s env sys ignoreEnv ignoreSys = .error e →
      isRealizable order check s env sys ignoreEnv ignoreSys solver = .error e ∧
      ∀ (T : Tools ν) rm, T.order = order →
        synthesize T s env sys ignoreEnv ignoreSys rm solver = .error e := by
  refine ⟨fun b => ⟨fun h => ?_, ?_⟩, fun e h => ⟨?_, ?_⟩⟩
  · unfold isRealizable at h
    obtain ⟨g, h1, h⟩ := bind_ok h
    obtain ⟨f, h2, h⟩ := bind_ok h
    exact ⟨g, f, h1, h2, h⟩
  · rintro ⟨g, f, h1, h2, h3⟩
    unfold isRealizable
    rw [h1, ok_bind, h2, ok_bind, h3]
  · unfold isRealizable
    rw [h]
    rfl
  · rintro T rm rfl
    unfold synthesize
    rw [h]
    rfl

/-- **C80.** A transition system with options of its own is rejected with `AssertionError`, unless they are those of the
specification. -/
theorem specPlusSys_options {order : List (List Char) → List (List Char)} {s g : GRSpec} {t : TsArg}
    {o : Bool × Bool × List Char} {ignoreEnv ignoreSys : Bool} (ho : t.options = some o)
    (hne : o ≠ (s.moore, s.plusOne, s.qinit)) (hs : ∀ x, x ∈ s.envVars.keys → x ∉ s.sysVars.keys) :
    (sysToSpec order t.fts ignoreSys t.sysVar false false = .ok g → ∀ env,
      specPlusSys order s env (some t) ignoreEnv ignoreSys = .error .assertion) ∧
    (envToSpec t.fts ignoreEnv t.envVar false false = .ok g →
      specPlusSys order s (some t) none ignoreEnv ignoreSys = .error .assertion) := by
  have hc : checkVars s.envVars s.sysVars = true := by
    simp only [checkVars, Bool.not_eq_true', List.any_eq_false, Bool.not_eq_true]
    intro x hx
    rw [← Bool.not_eq_true]
    intro h
    exact hs x hx ((Dict.mem_keys_iff _ _).2 ((Dict.has_iff _ _).1 h))
  have key : ∀ o' : GRSpec, (o'.moore, o'.plusOne, o'.qinit) = o → s.union o' = .error .assertion := by
    rintro o' rfl
    simp only [GRSpec.union, GRSpec.copy, GRSpec.make, hc, if_true, ok_bind, pure_eq_ok]
    by_cases h1 : s.moore = o'.moore
    · by_cases h2 : s.plusOne = o'.plusOne
      · by_cases h3 : s.qinit = o'.qinit
        · exact absurd (by rw [h1, h2, h3]) hne
        · simp only [h1, h2, h3, ne_eq, not_true_eq_false, not_false_eq_true, if_false, if_true]
          rfl
      · simp only [h1, h2, ne_eq, not_true_eq_false, not_false_eq_true, if_false, if_true]
        rfl
    · simp only [h1, ne_eq, not_false_eq_true, if_true]
      rfl
  constructor
  · intro h env
    unfold specPlusSys plusSys
    simp only
    rw [show sysToSpec order t.fts ignoreSys (t.stateVarname.getD "loc") false false = .ok g from h, ok_bind, key]
    · rfl
    · simp only [moveInit, copyOptions, ho]
      split <;> rfl
  · intro h
    unfold specPlusSys plusSys plusEnv
    simp only [ok_bind]
    rw [show envToSpec t.fts ignoreEnv (t.stateVarname.getD "eloc") false false = .ok g from h, ok_bind, key]
    simp only [copyOptions, ho]

/-- The union of specifications with the same options exists if the variables agree. -/
theorem union_succeeds {s o : GRSpec} (hs : ∀ x, x ∈ s.envVars.keys → x ∉ s.sysVars.keys)
    (ho : o.moore = s.moore ∧ o.plusOne = s.plusOne ∧ o.qinit = s.qinit)
    (he : ∀ x a b, s.envVars.get? x = some a → o.envVars.get? x = some b → a = b)
    (hy : ∀ x a b, s.sysVars.get? x = some a → o.sysVars.get? x = some b → a = b) :
    ∃ r, s.union o = .ok r := by
  cases h : s.union o with
  | ok r => exact ⟨r, rfl⟩
  | error e =>
    rcases (union_error_iff s o).1 ⟨e, h⟩ with ⟨x, h1, h2⟩ | h | h | h | ⟨x, a, b, h1, h2, h3⟩ | ⟨x, a, b, h1, h2, h3⟩
    · exact absurd h2 (hs x h1)
    · exact absurd ho.1.symm h
    · exact absurd ho.2.1.symm h
    · exact absurd ho.2.2.symm h
    · exact absurd (he x a b h1 h2) h3
    · exact absurd (hy x a b h1 h2) h3

/-- **C80.** A transition system that does not set options, or the same as the specification, is accepted with
any specification whose variables agree with those of the transition system. -/
theorem specPlusSys_accepts {order : List (List Char) → List (List Char)} {s g : GRSpec} {t : TsArg}
    (ho : t.options = none ∨ t.options = some (s.moore, s.plusOne, s.qinit)) {ignoreEnv ignoreSys : Bool}
    (hs : ∀ x, x ∈ s.envVars.keys → x ∉ s.sysVars.keys)
    (he : ∀ x a b, s.envVars.get? x = some a → g.envVars.get? x = some b → a = b)
    (hy : ∀ x a b, s.sysVars.get? x = some a → g.sysVars.get? x = some b → a = b) :
    (sysToSpec order t.fts ignoreSys t.sysVar false false = .ok g →
      ∃ r, specPlusSys order s none (some t) ignoreEnv ignoreSys = .ok r) ∧
    (envToSpec t.fts ignoreEnv t.envVar false false = .ok g →
      ∃ r, specPlusSys order s (some t) none ignoreEnv ignoreSys = .ok r) := by
  constructor
  · intro h
    unfold specPlusSys plusSys
    simp only
    rw [show sysToSpec order t.fts ignoreSys (t.stateVarname.getD "loc") false false = .ok g from h, ok_bind]
    obtain ⟨r, hr⟩ := union_succeeds (s := s) (o := moveInit s.qinit (copyOptions g t s)) hs
      (by rcases ho with ho | ho <;> simp only [moveInit, copyOptions, ho] <;> split <;> simp)
      (by rcases ho with ho | ho <;> simp only [moveInit, copyOptions, ho] <;> split <;> exact he)
      (by rcases ho with ho | ho <;> simp only [moveInit, copyOptions, ho] <;> split <;> exact hy)
    rw [hr]
    exact ⟨r, rfl⟩
  · intro h
    unfold specPlusSys plusSys plusEnv
    simp only [ok_bind]
    rw [show envToSpec t.fts ignoreEnv (t.stateVarname.getD "eloc") false false = .ok g from h, ok_bind]
    exact union_succeeds hs
      (by rcases ho with ho | ho <;> simp only [copyOptions, ho] <;> simp)
      (by rcases ho with ho | ho <;> simp only [moveInit, copyOptions, ho] <;> split <;> exact he)
      (by rcases ho with ho | ho <;> simp only [moveInit, copyOptions, ho] <;> split <;> exact hy)

/-! ## Several transition systems -/

/-- What is assumed for the transition systems `ts`: their names are the names of their variables. -/
def ManyAssumes (ts : Dict String TsArg) (ignore : List String) (σ : Trace) : Prop :=
  ∀ name t, (name, t) ∈ ts →
    (t.fts.owner = .sys → SysAllows t.fts name σ) ∧
    (t.fts.owner = .env → EnvRuns t.fts name (decide (name ∈ ignore)) σ)

/-- What is guaranteed for the transition systems `ts`. -/
def ManyGuarantees (ts : Dict String TsArg) (ignore : List String) (σ : Trace) : Prop :=
  ∀ name t, (name, t) ∈ ts →
    (t.fts.owner = .sys → SysRuns t.fts name (decide (name ∈ ignore)) σ) ∧
    (t.fts.owner = .env → EnvAsks t.fts σ)

/-- Well-formed transition systems. -/
def ManyOk (ts : Dict String TsArg) : Prop :=
  ∀ name t, (name, t) ∈ ts → t.fts.Good false false name ∧ (t.fts.owner = .env → ActionsInhabited t.fts)

theorem manyStep_meaning {order : List (List Char) → List (List Char)}
    (horder : ∀ l x, x ∈ order l ↔ x ∈ l) {ignore : List String} {s r : GRSpec} {name : String} {t : TsArg}
    (hF : t.fts.Good false false name) (hdom : t.fts.owner = .env → ActionsInhabited t.fts)
    (h : manyStep order (some ignore) s (name, t) = .ok r) (σ : Trace) :
    (s.Assumption σ ∧ ManyAssumes [(name, t)] ignore σ → r.Assumption σ) ∧
    ((t.fts.owner = .env → InSomeState t.fts name (decide (name ∈ ignore)) σ ∧ NotBlocked t.fts name σ) →
      (r.Assumption σ ↔ s.Assumption σ ∧ ManyAssumes [(name, t)] ignore σ)) ∧
    ((t.fts.owner = .sys → InSomeState t.fts name (decide (name ∈ ignore)) σ) →
      (r.Guarantee σ ↔ s.Guarantee σ ∧ ManyGuarantees [(name, t)] ignore σ)) ∧
    r.qinit = s.qinit ∧ r.moore = s.moore ∧ r.plusOne = s.plusOne := by
  simp only [ManyAssumes, ManyGuarantees, List.mem_singleton, Prod.mk.injEq, and_imp]
  unfold manyStep at h
  simp only at h
  cases ho : t.fts.owner with
  | sys =>
    rw [ho] at h
    obtain ⟨g, h1, h2⟩ := bind_ok h
    obtain ⟨u1, u2, u3⟩ := union_sides h2 σ
    obtain ⟨c1, c2, -⟩ := copyOptions_meaning g t s σ
    obtain ⟨p1, p2⟩ := sysToSpec_prog h1
    have henv : g.Assumption σ ↔ SysAllows t.fts name σ :=
      (side_noprog p1 σ).trans ((sysToSpec_env horder hF h1).2 σ)
    have hA : r.Assumption σ ↔ s.Assumption σ ∧ SysAllows t.fts name σ := by rw [u1, c1, henv]
    have e1 : (∀ n t', n = name → t' = t → (t'.fts.owner = .sys → SysAllows t'.fts n σ) ∧
        (t'.fts.owner = .env → EnvRuns t'.fts n (decide (n ∈ ignore)) σ)) ↔ SysAllows t.fts name σ := by
      constructor
      · intro h; exact (h _ _ rfl rfl).1 ho
      · rintro hh _ _ rfl rfl; exact ⟨fun _ => hh, fun h' => by rw [ho] at h'; cases h'⟩
    have e2 : (∀ n t', n = name → t' = t →
        (t'.fts.owner = .sys → SysRuns t'.fts n (decide (n ∈ ignore)) σ) ∧
        (t'.fts.owner = .env → EnvAsks t'.fts σ)) ↔ SysRuns t.fts name (decide (name ∈ ignore)) σ := by
      constructor
      · intro h; exact (h _ _ rfl rfl).1 ho
      · rintro hh _ _ rfl rfl; exact ⟨fun _ => hh, fun h' => by rw [ho] at h'; cases h'⟩
    refine ⟨fun ha hb => hA.2 ⟨ha, e1.1 hb⟩, fun _ => by rw [hA, e1], fun hi => ?_, u3⟩
    rw [u2, c2, e2]
    exact and_congr Iff.rfl ((side_noprog p2 σ).trans ((sysToSpec_sys hF h1).2 σ (hi rfl)))
  | env =>
    rw [ho] at h
    obtain ⟨g, h1, h2⟩ := bind_ok h
    obtain ⟨u1, u2, u3⟩ := union_sides h2 σ
    obtain ⟨c1, c2, -⟩ := copyOptions_meaning g t s σ
    obtain ⟨p1, p2⟩ := envToSpec_prog h1
    have hsys : g.Guarantee σ ↔ EnvAsks t.fts σ :=
      (side_noprog p2 σ).trans ((envToSpec_sys hF h1).2 σ)
    have henv := side_noprog (init := g.envInit) (safety := g.envSafety) p1 σ
    have e1 : (∀ n t', n = name → t' = t → (t'.fts.owner = .sys → SysAllows t'.fts n σ) ∧
        (t'.fts.owner = .env → EnvRuns t'.fts n (decide (n ∈ ignore)) σ)) ↔
        EnvRuns t.fts name (decide (name ∈ ignore)) σ := by
      constructor
      · intro h; exact (h _ _ rfl rfl).2 ho
      · rintro hh _ _ rfl rfl; exact ⟨fun h' => (by rw [ho] at h'; cases h'), fun _ => hh⟩
    have e2 : (∀ n t', n = name → t' = t →
        (t'.fts.owner = .sys → SysRuns t'.fts n (decide (n ∈ ignore)) σ) ∧
        (t'.fts.owner = .env → EnvAsks t'.fts σ)) ↔ EnvAsks t.fts σ := by
      constructor
      · intro h; exact (h _ _ rfl rfl).2 ho
      · rintro hh _ _ rfl rfl; exact ⟨fun h' => (by rw [ho] at h'; cases h'), fun _ => hh⟩
    refine ⟨fun ha hb => ?_, fun hi => ?_, fun _ => ?_, u3⟩
    · rw [u1, c1]
      exact ⟨ha, henv.2 (envToSpec_of_runs hF (hdom ho) h1 (e1.1 hb))⟩
    · rw [u1, c1, e1]
      exact and_congr Iff.rfl (henv.trans ((envToSpec_env hF (hdom ho) h1).2 σ (hi rfl).1 (hi rfl).2))
    · rw [u2, c2, e2, hsys]

/-- **C81.** The specification that `synthesize_many` passes to the solver: the conjunction of the given one with those of
all the transition systems, each for the variable of its name, whatever the quantification of initial values. -/
theorem manySpec_meaning {order : List (List Char) → List (List Char)}
    (horder : ∀ l x, x ∈ order l ↔ x ∈ l) {ignore : List String} {ts : Dict String TsArg} (hts : ManyOk ts)
    {s g : GRSpec} (h : foldE (manyStep order (some ignore)) s ts = .ok g) (σ : Trace) :
    (s.Assumption σ ∧ ManyAssumes ts ignore σ → g.Assumption σ) ∧
    ((∀ name t, (name, t) ∈ ts → t.fts.owner = .env →
        InSomeState t.fts name (decide (name ∈ ignore)) σ ∧ NotBlocked t.fts name σ) →
      (g.Assumption σ ↔ s.Assumption σ ∧ ManyAssumes ts ignore σ)) ∧
    ((∀ name t, (name, t) ∈ ts → t.fts.owner = .sys → InSomeState t.fts name (decide (name ∈ ignore)) σ) →
      (g.Guarantee σ ↔ s.Guarantee σ ∧ ManyGuarantees ts ignore σ)) ∧
    g.qinit = s.qinit ∧ g.moore = s.moore ∧ g.plusOne = s.plusOne := by
  induction ts generalizing s with
  | nil =>
    cases h
    simp [ManyAssumes, ManyGuarantees]
  | cons p ts ih =>
    obtain ⟨name, t⟩ := p
    simp only [foldE] at h
    obtain ⟨r, h1, h2⟩ := bind_ok h
    obtain ⟨g1, g2⟩ := hts name t (by simp)
    obtain ⟨k1, k2, k3, k4, k5, k6⟩ := manyStep_meaning horder g1 g2 h1 σ
    obtain ⟨j1, j2, j3, j4, j5, j6⟩ := ih (fun n t' hm => hts n t' (by simp [hm])) h2
    have eA : ManyAssumes ((name, t) :: ts) ignore σ ↔
        ManyAssumes [(name, t)] ignore σ ∧ ManyAssumes ts ignore σ := by
      constructor
      · intro h
        exact ⟨fun n t' hm => h n t' (by simp at hm; simp [hm]), fun n t' hm => h n t' (by simp [hm])⟩
      · rintro ⟨ha, hb⟩ n t' hm
        rcases List.mem_cons.1 hm with hm | hm
        · exact ha n t' (by simp [hm])
        · exact hb n t' hm
    have eG : ManyGuarantees ((name, t) :: ts) ignore σ ↔
        ManyGuarantees [(name, t)] ignore σ ∧ ManyGuarantees ts ignore σ := by
      constructor
      · intro h
        exact ⟨fun n t' hm => h n t' (by simp at hm; simp [hm]), fun n t' hm => h n t' (by simp [hm])⟩
      · rintro ⟨ha, hb⟩ n t' hm
        rcases List.mem_cons.1 hm with hm | hm
        · exact ha n t' (by simp [hm])
        · exact hb n t' hm
    refine ⟨fun h => ?_, fun h => ?_, fun h => ?_, j4.trans k4, j5.trans k5, j6.trans k6⟩
    · rw [eA] at h
      exact j1 ⟨k1 ⟨h.1, h.2.1⟩, h.2.2⟩
    · rw [j2 fun n t' hm => h n t' (by simp [hm]), k2 (h name t (by simp)), eA, and_assoc]
    · rw [j3 fun n t' hm => h n t' (by simp [hm]), k3 (h name t (by simp)), eG, and_assoc]

/-- **C81.** If the solver is correct, then every run of the machine that `synthesize_many` returns, on which the
specification's assumptions hold and each transition system of the environment is followed, satisfies the guarantees
and follows an execution of each transition system of the system. The machine has no dead ends. -/
theorem synthesizeMany_correct {T : Tools ν} (horder : ∀ l x, x ∈ T.order l ↔ x ∈ l)
    (hostates : ∀ l, (T.orderStates l).Perm l) (hinit : InitDepends T.isInit) {s : GRSpec}
    {ts : Dict String TsArg} {ignore : List String} {solver : String} {solve : Solve ν}
    (hpick : T.solvers.pick solver = .ok solve)
    (hsolve : ∀ g, foldE (manyStep T.order (some ignore)) s ts = .ok g → Solver.Correct T.isInit solve g)
    (hts : ManyOk ts)
    (hv : ∀ g, foldE (manyStep T.order (some ignore)) s ts = .ok g → VarsOk g.envVars g.sysVars)
    {m : Machine ν Elem} (h : synthesizeMany T s ts (some ignore) solver = .ok (some m)) :
    ∃ g, foldE (manyStep T.order (some ignore)) s ts = .ok g ∧
      (∀ n, m.graph.hasNode n = true → ∃ v d, (n, v, d) ∈ m.graph.edges) ∧
      ∀ n d σ, MachRun m n d → (∀ t, Shows (Dict.update g.envVars g.sysVars) (d t) (σ t)) →
        (∀ name t, (name, t) ∈ ts → t.fts.owner = .sys →
          InSomeState t.fts name (decide (name ∈ ignore)) σ) →
        s.Assumption σ → ManyAssumes ts ignore σ → s.Guarantee σ ∧ ManyGuarantees ts ignore σ := by
  unfold synthesizeMany at h
  obtain ⟨g, h1, h2⟩ := bind_ok h
  obtain ⟨k1, k2, k3, k4⟩ := synthesizeSpec_correct hostates hinit hpick (hsolve g h1) (hv g h1) h2
  refine ⟨g, h1, k3 rfl, ?_⟩
  intro n d σ hn hshow hsome hass hma
  obtain ⟨s1, _, s3, _⟩ := manySpec_meaning horder hts h1 σ
  exact (s3 hsome).1 (k4 n d σ hn hshow (s1 ⟨hass, hma⟩))

/-- **C81.** `synthesize_many` returns `None` exactly when the solver says that the conjunction is not realizable, and raises
`ValueError` for an unknown solver, and for `slugs` if it is not installed. -/
theorem synthesizeMany_none (T : Tools ν) (s : GRSpec) (ts : Dict String TsArg) (ignore : List String) (solver : String) :
    (synthesizeMany T s ts (some ignore) solver = .ok none ↔
      ∃ g solve, foldE (manyStep T.order (some ignore)) s ts = .ok g ∧
        T.solvers.pick solver = .ok solve ∧ solve g = .ok none) ∧
    (∀ g, foldE (manyStep T.order (some ignore)) s ts = .ok g →
      solver ∉ ["gr1c", "slugs", "gr1py", "omega"] ∨ solver = "slugs" ∧ T.solvers.slugs = none →
      synthesizeMany T s ts (some ignore) solver = .error .valueError) := by
  constructor
  · constructor
    · intro h
      unfold synthesizeMany at h
      obtain ⟨g, h1, h2⟩ := bind_ok h
      unfold synthesizeSpec at h2
      obtain ⟨solve, h3, h2⟩ := bind_ok h2
      obtain ⟨A, h4, h5⟩ := bind_ok h2
      cases A with
      | none => exact ⟨g, solve, h1, h3, h4⟩
      | some A =>
        exfalso
        simp only [trimStrategy] at h5
        obtain ⟨m, _, h5⟩ := bind_ok h5
        split at h5
        · obtain ⟨_, _, h5⟩ := bind_ok h5
          cases h5
        · cases h5
    · rintro ⟨g, solve, h1, h2, h3⟩
      unfold synthesizeMany synthesizeSpec
      rw [h1, ok_bind, h2, ok_bind, h3, ok_bind]
      rfl
  · intro g h1 h2
    unfold synthesizeMany synthesizeSpec
    rw [h1, ok_bind]
    have : T.solvers.pick solver = .error .valueError := by
      unfold Solvers.pick
      rcases h2 with h2 | ⟨rfl, h2⟩
      · simp only [List.mem_cons, List.not_mem_nil, or_false, not_or] at h2
        simp [h2]
      · simp [h2]
    rw [this]
    rfl

/-- The default value of `ignore_init` raises `TypeError` as soon as there is a transition system. -/
theorem synthesizeMany_default_counterexample (T : Tools ν) (s : GRSpec) (p : String × TsArg)
    (ts : Dict String TsArg) (solver : String) :
    synthesizeMany T s (p :: ts) none solver = .error .typeError := rfl

end Synth

end Tulip
