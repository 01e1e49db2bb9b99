import Verif.Synth.ToSpecProps

/-!
# Concrete transition systems that meet the hypotheses of C29 and C30
-/

namespace Tulip

namespace Synth

/-- A door: it opens when asked to, and closes by itself. -/
def door (owner : Owner) : FTS where
  states := [.str "closed", .str "open"]
  initial := [.str "closed"]
  aps := ["safe"]
  ap := fun s => if s = .str "closed" then some ["safe"] else none
  edges := [⟨.str "closed", .str "closed", [("env_actions", .str "wait")], []⟩,
    ⟨.str "closed", .str "open", [("env_actions", .str "push")], []⟩,
    ⟨.str "open", .str "closed", [], []⟩]
  actions := [("env_actions", [.str "push", .str "wait"])]
  sysMust := .xor
  envMust := .xor
  owner := owner

theorem names_ok {l : List Elem} {names : List String} (h : ∀ s, .str s ∈ l → s ∈ names)
    (h' : ∀ s ∈ names, IsName s) : NamesOk l := fun s hs => h' s (h s hs)

theorem door_good (owner : Owner) (bs ba : Bool) : (door owner).Good bs ba "loc" where
  states := names_ok (names := ["closed", "open"]) (by simp [door]) (by
    simp only [List.mem_cons, List.not_mem_nil, or_false, forall_eq_or_imp, forall_eq]
    exact ⟨isName_of_check (by decide +kernel), isName_of_check (by decide +kernel)⟩)
  statesNodup := by cases owner <;> decide
  var := fun _ => isName_of_check (by decide +kernel)
  aps := by
    simp only [door, List.mem_cons, List.not_mem_nil, or_false, forall_eq]
    exact isName_of_check (by decide +kernel)
  types := by
    intro k dom h
    simp only [door, List.mem_cons, List.not_mem_nil, or_false, Prod.mk.injEq] at h
    obtain ⟨rfl, rfl⟩ := h
    refine ⟨names_ok (names := ["push", "wait"]) (by simp) (by
      simp only [List.mem_cons, List.not_mem_nil, or_false, forall_eq_or_imp, forall_eq]
      exact ⟨isName_of_check (by decide +kernel), isName_of_check (by decide +kernel)⟩),
      by decide, fun _ => isName_of_check (by decide +kernel)⟩
  typesWf := by unfold Dict.Wf; simp [door, Dict.keys]
  noActions := by
    simp only [door, List.mem_cons, List.not_mem_nil, or_false, forall_eq_or_imp, forall_eq]
    exact ⟨by decide, by decide, by decide⟩

/-- Non-vacuity of `sysToSpec_sys` and `sysToSpec_env`: the formulas for the door, with one
variable for the states and with Booleans. -/
example : (sysToSpec id (door .sys) false "loc" false false).toOption.map
    (fun g => (g.sysInit, g.sysSafety, g.envSafety)) =
    some ([c!"(loc = \"closed\")", c!"!((loc = \"closed\")) || (safe)",
        c!"!((loc = \"open\")) || (!safe)"],
      [c!"(loc = \"closed\") -> (((X(loc = \"closed\")) && ( X((env_actions = \"wait\")))) || ((X(loc = \"open\")) && ( X((env_actions = \"push\")))))",
        c!"(loc = \"open\") -> (((X(loc = \"closed\"))))",
        c!"X((loc = \"closed\") -> (safe))", c!"X((loc = \"open\") -> (!safe))"],
      [c!"(loc = \"closed\") -> X((((env_actions = \"wait\"))) || (((env_actions = \"push\"))))"]) := by
  decide +kernel

example : (sysToSpec id (door .sys) false "loc" true true).toOption.map
    (fun g => (g.sysInit, g.sysSafety, g.envSafety)) =
    some ([c!"(closed)", c!"!((closed)) || (safe)", c!"!((open)) || (!safe)"],
      [c!"(((closed) && !(open)) || ((open) && !(closed)))",
        c!"(closed) -> (((X(closed)) && ( X((wait)))) || ((X(open)) && ( X((push)))))",
        c!"(open) -> (((X(closed))))", c!"X((closed) -> (safe))", c!"X((open) -> (!safe))"],
      [c!"X ((((push) && !(wait)) || ((wait) && !(push))))",
        c!"(closed) -> X((((wait))) || (((push))))"]) := by
  decide +kernel

/-- The door is pushed open every other time. -/
def doorRun (i : Nat) : Elem := if i % 2 = 0 then .str "closed" else .str "open"

def doorTrace (i : Nat) : Valuation := fun x =>
  if x = "loc" then .str (if i % 2 = 0 then "closed" else "open")
  else if x = "safe" then .bool (decide (i % 2 = 0))
  else .str (if i % 2 = 0 then "wait" else "push")

/-- Non-vacuity of the right sides of `sysToSpec_sys` and `sysToSpec_env`: a trace that follows an
execution of the door. -/
example : Follows (door .sys) false "loc" (SysActs (door .sys) false) doorTrace doorRun ∧
    doorRun 0 ∈ (door .sys).initial ∧
    (∀ i, TypesOk (door .sys) false isSys (door .sys).actions doorTrace i) ∧
    ∀ i, EnvAllows (door .sys) false false "loc" doorTrace i := by
  have hpar : ∀ i : Nat, (i % 2 = 0 ∧ (i + 1) % 2 = 1) ∨ (i % 2 = 1 ∧ (i + 1) % 2 = 0) := by
    intro i; omega
  have hke : isEnv "env_actions" = true := by decide +kernel
  have hks : isSys "env_actions" = false := by decide +kernel
  have hub : usesBools false ((door .sys).mustOf "env_actions") = false := by
    simp [FTS.mustOf, hks, door, usesBools]
  have hact : ∀ v i, ActionAt (door .sys) false "env_actions" (.str v) doorTrace i ↔
      (if i % 2 = 0 then "wait" else "push") = v := by
    intro v i
    unfold ActionAt
    rw [hub]
    simp [Selected, doorTrace, Elem.val]
  refine ⟨⟨fun i => ?_, fun i => ?_, fun i => ?_⟩, by decide, ?_, ?_⟩
  · rcases hpar i with ⟨h, _⟩ | ⟨h, _⟩ <;>
      simp [door, doorRun, Selected, doorTrace, Elem.val, h]
  · rcases hpar i with ⟨h, h'⟩ | ⟨h, h'⟩
    · refine ⟨⟨.str "closed", .str "open", [("env_actions", .str "push")], []⟩, by simp [door],
        by simp [doorRun, h], by simp [doorRun, h'], ?_⟩
      intro k v hkv _
      simp only [List.mem_cons, List.not_mem_nil, or_false, Prod.mk.injEq] at hkv
      obtain ⟨rfl, rfl⟩ := hkv
      simp [hact, h']
    · refine ⟨⟨.str "open", .str "closed", [], []⟩, by simp [door],
        by simp [doorRun, h], by simp [doorRun, h'], ?_⟩
      intro k v hkv _
      simp at hkv
  · intro p hp
    simp only [door, List.mem_cons, List.not_mem_nil, or_false] at hp
    subst hp
    rcases hpar i with ⟨h, _⟩ | ⟨h, _⟩ <;> simp [door, doorRun, doorTrace, h]
  · intro i p hp ht
    simp only [door, List.mem_cons, List.not_mem_nil, or_false] at hp
    subst hp
    rw [hks] at ht
    simp at ht
  · rintro i s hs hsel ⟨e, he, hse, p, hp, _⟩
    simp only [door, List.mem_cons, List.not_mem_nil, or_false] at he
    rcases he with rfl | rfl | rfl
    · simp only at hse
      subst hse
      have h : i % 2 = 0 := by
        by_contra h
        simp [Selected, doorTrace, Elem.val, h] at hsel
      refine ⟨⟨.str "closed", .str "open", [("env_actions", .str "push")], []⟩, by simp [door], rfl,
        ⟨("env_actions", .str "push"), by simp, hke⟩, ?_⟩
      intro k v hkv _
      simp only [List.mem_cons, List.not_mem_nil, or_false, Prod.mk.injEq] at hkv
      obtain ⟨rfl, rfl⟩ := hkv
      rw [hact, if_neg (by omega)]
    · simp only at hse
      subst hse
      have h : i % 2 = 0 := by
        by_contra h
        simp [Selected, doorTrace, Elem.val, h] at hsel
      refine ⟨⟨.str "closed", .str "open", [("env_actions", .str "push")], []⟩, by simp [door], rfl,
        ⟨("env_actions", .str "push"), by simp, hke⟩, ?_⟩
      intro k v hkv _
      simp only [List.mem_cons, List.not_mem_nil, or_false, Prod.mk.injEq] at hkv
      obtain ⟨rfl, rfl⟩ := hkv
      rw [hact, if_neg (by omega)]
    · simp at hp

/-- A system with a transition that carries an environment action, and another, from the same
state, that does not. -/
def leak : FTS where
  states := [.str "a", .str "b"]
  initial := [.str "a"]
  aps := []
  ap := fun _ => none
  edges := [⟨.str "a", .str "a", [("env_actions", .str "go")], []⟩,
    ⟨.str "a", .str "b", [], []⟩, ⟨.str "b", .str "b", [], []⟩]
  actions := [("env_actions", [.str "go", .str "rest"])]
  sysMust := .xor
  envMust := .xor
  owner := .sys

theorem leak_good : leak.Good false false "loc" where
  states := names_ok (names := ["a", "b"]) (by simp [leak]) (by
    simp only [List.mem_cons, List.not_mem_nil, or_false, forall_eq_or_imp, forall_eq]
    exact ⟨isName_of_check (by decide +kernel), isName_of_check (by decide +kernel)⟩)
  statesNodup := by decide
  var := fun _ => isName_of_check (by decide +kernel)
  aps := by simp [leak]
  types := by
    intro k dom h
    simp only [leak, List.mem_cons, List.not_mem_nil, or_false, Prod.mk.injEq] at h
    obtain ⟨rfl, rfl⟩ := h
    refine ⟨names_ok (names := ["go", "rest"]) (by simp) (by
      simp only [List.mem_cons, List.not_mem_nil, or_false, forall_eq_or_imp, forall_eq]
      exact ⟨isName_of_check (by decide +kernel), isName_of_check (by decide +kernel)⟩),
      by decide, fun _ => isName_of_check (by decide +kernel)⟩
  typesWf := by unfold Dict.Wf; simp [leak, Dict.keys]
  noActions := by
    simp only [leak, List.mem_cons, List.not_mem_nil, or_false, forall_eq_or_imp, forall_eq]
    exact ⟨by decide, by decide, by decide⟩

/-- In `a`, the environment rests and the system moves to `b`. -/
def leakTrace (i : Nat) : Valuation := fun x =>
  if x = "loc" then .str (if i = 0 then "a" else "b") else .str "rest"

seal hasSub in
theorem leak_not_allowed : ¬ EnvAllows leak false false "loc" leakTrace 0 := by
  have hke : isEnv "env_actions" = true := by decide +kernel
  have hks : isSys "env_actions" = false := by decide +kernel
  have hact : ¬ ActionAt leak false "env_actions" (.str "go") leakTrace (0 + 1) := by
    unfold ActionAt
    rw [show usesBools false (leak.mustOf "env_actions") = false by
      simp [FTS.mustOf, hks, leak, usesBools]]
    simp [Selected, Elem.val, leakTrace]
  have hsel : Selected false "loc" leakTrace 0 (.str "a") := by
    simp [Selected, Elem.val, leakTrace]
  have hedge : ∀ e ∈ leak.edges, HasEnv e → ("env_actions", Elem.str "go") ∈ e.label := by
    intro e he hh
    simp only [leak, List.mem_cons, List.not_mem_nil, or_false] at he
    rcases he with he | he | he <;> subst he
    · exact List.mem_singleton.2 rfl
    · simp [HasEnv] at hh
    · simp [HasEnv] at hh
  have hex : ∃ e ∈ leak.edges, e.src = .str "a" ∧ HasEnv e :=
    ⟨⟨.str "a", .str "a", [("env_actions", .str "go")], []⟩, by simp [leak], rfl,
      ("env_actions", .str "go"), by simp, hke⟩
  intro h
  obtain ⟨e, he, hse, h1, hacts⟩ := h (.str "a") (by simp [leak]) hsel hex
  exact hact (hacts "env_actions" (.str "go") (hedge e he h1) hke)

/-- An execution of the system that the assumptions exclude: in `a`, the environment rests and the
system moves to `b`, but the formulas demand that the environment take the action `go`. -/
theorem sysToSpec_unlabeled_counterexample :
    (∃ r, Follows leak false "loc" (SysActs leak false) leakTrace r ∧ r 0 ∈ leak.initial) ∧
    ∃ g, sysToSpec id leak false "loc" false false = .ok g ∧
      ¬ ∀ i, ∀ f ∈ g.envSafety, Holds leakTrace i f := by
  refine ⟨⟨fun i => .str (if i = 0 then "a" else "b"), ⟨fun i => ?_, fun i => ?_, fun i => ?_⟩,
    by simp [leak]⟩, ?_⟩
  · by_cases h : i = 0 <;> simp [leak, Selected, Elem.val, leakTrace, h]
  · by_cases h : i = 0
    · exact ⟨⟨.str "a", .str "b", [], []⟩, by simp [leak], by simp [h], by simp,
        fun _ _ hkv => by simp at hkv⟩
    · exact ⟨⟨.str "b", .str "b", [], []⟩, by simp [leak], by simp [h], by simp,
        fun _ _ hkv => by simp at hkv⟩
  · intro p hp
    simp [leak] at hp
  · have h0 : (sysToSpec id leak false "loc" false false).toOption.map (·.envInit) =
        some [] := by decide +kernel
    cases hg : sysToSpec id leak false "loc" false false with
    | error e => rw [hg] at h0; simp [Except.toOption] at h0
    | ok g =>
      rw [hg] at h0
      simp only [Except.toOption, Option.map_some, Option.some.injEq] at h0
      refine ⟨g, rfl, fun hall => ?_⟩
      have h1 := ((sysToSpec_env (fun _ _ => Iff.rfl) leak_good hg).2 leakTrace).1
        ⟨by rw [h0]; simp, hall⟩
      exact leak_not_allowed (h1 0).2

/-- An environment whose only move depends on the system. -/
def robot : FTS where
  states := [.str "a", .str "b"]
  initial := [.str "a"]
  aps := []
  ap := fun _ => none
  edges := [⟨.str "a", .str "b", [("sys_actions", .str "go")], []⟩, ⟨.str "b", .str "b", [], []⟩]
  actions := [("sys_actions", [.str "go", .str "back"])]
  sysMust := .mutex
  envMust := .xor
  owner := .env

theorem robot_good : robot.Good false false "loc" where
  states := names_ok (names := ["a", "b"]) (by simp [robot]) (by
    simp only [List.mem_cons, List.not_mem_nil, or_false, forall_eq_or_imp, forall_eq]
    exact ⟨isName_of_check (by decide +kernel), isName_of_check (by decide +kernel)⟩)
  statesNodup := by decide
  var := fun _ => isName_of_check (by decide +kernel)
  aps := by simp [robot]
  types := by
    intro k dom h
    simp only [robot, List.mem_cons, List.not_mem_nil, or_false, Prod.mk.injEq] at h
    obtain ⟨rfl, rfl⟩ := h
    refine ⟨names_ok (names := ["go", "back"]) (by simp) (by
      simp only [List.mem_cons, List.not_mem_nil, or_false, forall_eq_or_imp, forall_eq]
      exact ⟨isName_of_check (by decide +kernel), isName_of_check (by decide +kernel)⟩),
      by decide, fun _ => isName_of_check (by decide +kernel)⟩
  typesWf := by unfold Dict.Wf; simp [robot, Dict.keys]
  noActions := by
    simp only [robot, List.mem_cons, List.not_mem_nil, or_false, forall_eq_or_imp, forall_eq]
    exact ⟨by decide, by decide⟩

theorem robot_dom : ∀ k dom, (k, dom) ∈ robot.actions → isSys k = true → dom ≠ [] := by
  intro k dom h _
  simp only [robot, List.mem_cons, List.not_mem_nil, or_false, Prod.mk.injEq] at h
  obtain ⟨_, rfl⟩ := h
  simp

/-- Non-vacuity of `envToSpec_env`: a trace on which no state is blocked. -/
example : let σ : Trace := fun i x => if x = "loc" then .str (if i = 0 then "a" else "b")
      else .str "go"
    (∃ g, envToSpec robot false "loc" false false = .ok g) ∧
    (∀ i, ∀ s ∈ robot.states, Selected false "loc" σ i s → ¬ Blocked robot false s σ i) ∧
    ∃ r, Follows robot false "loc" (EnvActs robot false) σ r ∧ r 0 ∈ robot.initial := by
  have hke : isEnv "sys_actions" = false := by decide +kernel
  have hks : isSys "sys_actions" = true := by decide +kernel
  refine ⟨?_, ?_, fun i => .str (if i = 0 then "a" else "b"), ⟨fun i => ?_, fun i => ?_, fun i => ?_⟩,
    by simp [robot]⟩
  · have hok : (envToSpec robot false "loc" false false).toOption.isSome = true := by
      decide +kernel
    cases hg : envToSpec robot false "loc" false false with
    | error e => rw [hg] at hok; simp [Except.toOption] at hok
    | ok g => exact ⟨g, rfl⟩
  · rintro i s hs _ ⟨_, _, k, dom, h1, h2, h3⟩
    simp only [robot, List.mem_cons, List.not_mem_nil, or_false, Prod.mk.injEq] at h1
    obtain ⟨rfl, rfl⟩ := h1
    apply h3 (.str "go") (by simp)
    simp [ActionAt, FTS.mustOf, hks, robot, usesBools, Selected, Elem.val]
  · by_cases h : i = 0 <;> simp [robot, Selected, Elem.val, h]
  · by_cases h : i = 0
    · refine ⟨⟨.str "a", .str "b", [("sys_actions", .str "go")], []⟩, by simp [robot], by simp [h],
        by simp, fun k v hkv => ?_⟩
      simp only [List.mem_cons, List.not_mem_nil, or_false, Prod.mk.injEq] at hkv
      obtain ⟨rfl, rfl⟩ := hkv
      simp [hke, ActionAt, FTS.mustOf, hks, robot, usesBools, Selected, Elem.val]
    · exact ⟨⟨.str "b", .str "b", [], []⟩, by simp [robot], by simp [h], by simp,
        fun _ _ hkv => by simp at hkv⟩
  · intro p hp
    simp [robot] at hp

/-- The assumptions are weaker than the environment when the system takes no action: the trace
stays in `a`, although `a` has no transition to itself. -/
theorem envToSpec_blocked_counterexample : ∃ σ : Trace,
    (∃ g, envToSpec robot false "loc" false false = .ok g ∧
      (∀ f ∈ g.envInit, Holds σ 0 f) ∧ ∀ i, ∀ f ∈ g.envSafety, Holds σ i f) ∧
    ¬ ∃ r, Follows robot false "loc" (EnvActs robot false) σ r := by
  have hke : isEnv "sys_actions" = false := by decide +kernel
  have hks : isSys "sys_actions" = true := by decide +kernel
  refine ⟨fun _ x => if x = "loc" then .str "a" else .str "sys_actionsnone", ?_, ?_⟩
  · have h0 : (envToSpec robot false "loc" false false).toOption.map (·.envInit) =
        some [c!"(loc = \"a\")"] := by decide +kernel
    cases hg : envToSpec robot false "loc" false false with
    | error e => rw [hg] at h0; simp [Except.toOption] at h0
    | ok g =>
      rw [hg] at h0
      simp only [Except.toOption, Option.map_some, Option.some.injEq] at h0
      refine ⟨g, rfl, ?_, fun i => ?_⟩
      · rw [h0]
        simp only [List.mem_cons, List.not_mem_nil, or_false, forall_eq]
        have h1 : IsName "loc" := isName_of_check (by decide +kernel)
        have h2 : IsName "a" := isName_of_check (by decide +kernel)
        have h3 : c!"(loc = \"a\")" = pstr ("loc".toList ++ c!" = \"" ++ "a".toList ++ c!"\"") := by
          decide +kernel
        rw [h3]
        exact ((parse_eq_str h1 h2).paren.form.holds _ 0).2 (by simp)
      · rw [envToSpec_step robot_good robot_dom hg]
        refine ⟨?_, ?_, ?_, ?_⟩
        · intro p hp ht
          simp only [robot, List.mem_cons, List.not_mem_nil, or_false] at hp
          subst hp
          simp [isEnvOnly, hks] at ht
        · intro h; simp at h
        · intro s hs hsel
          right
          have : s = .str "a" := by
            simp only [robot, List.mem_cons, List.not_mem_nil, or_false] at hs
            rcases hs with rfl | rfl
            · rfl
            · simp [Selected, Elem.val] at hsel
          subst this
          refine ⟨⟨_, by simp [robot]; exact Or.inl rfl, rfl⟩, ?_, "sys_actions",
            [.str "go", .str "back"], by simp [robot], hks, ?_⟩
          · intro e he hse
            simp only [robot, List.mem_cons, List.not_mem_nil, or_false] at he
            rcases he with rfl | rfl
            · exact ⟨"sys_actions", .str "go", by simp, hks⟩
            · simp at hse
          · intro v hv
            simp only [List.mem_cons, List.not_mem_nil, or_false] at hv
            rcases hv with rfl | rfl <;>
              simp [ActionAt, FTS.mustOf, hks, robot, usesBools, Selected, Elem.val]
        · intro s _ _ p hp
          simp [robot] at hp
  · rintro ⟨r, hr⟩
    have hr' : ∀ i, r i = .str "a" := fun i =>
      ((hr.state i).2.2 (.str "a") (by simp [robot]) (by simp [Selected, Elem.val])).symm
    obtain ⟨e, he, h1, h2, _⟩ := hr.step 0
    rw [hr'] at h1 h2
    simp only [robot, List.mem_cons, List.not_mem_nil, or_false] at he
    rcases he with rfl | rfl
    · simp at h2
    · simp at h1

end Synth

end Tulip
