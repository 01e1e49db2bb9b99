import Verif.Synth.SynthesizeProps
import Verif.Synth.ToSpecExamples

/-!
# A concrete synthesis problem that meets the hypotheses of C80 and C81
-/

namespace Tulip

namespace Synth

open Mach

/-- A system that alternates between two states. -/
def blink : FTS where
  states := [.int 0, .int 1]
  initial := [.int 0]
  aps := []
  ap := fun _ => none
  edges := [⟨.int 0, .int 1, [], []⟩, ⟨.int 1, .int 0, [], []⟩]
  actions := []
  sysMust := .xor
  envMust := .xor
  owner := .sys

def blinkArg : TsArg := { fts := blink }

/-- The specification: the system is infinitely often in state 1. -/
def blinkSpec : GRSpec := ⟨[], [], [], [], [], [], [], [c!"loc = 1"], true, true, allAll, []⟩

/-- The strategy that a solver returns. -/
def blinkStrategy : Strategy Nat where
  nodes := [(0, [("loc", .int 0)]), (1, [("loc", .int 1)])]
  edges := [(0, 1), (1, 0)]
  initialNodes := some [0]

def blinkTools : Tools Nat where
  solvers := ⟨fun _ => .ok none, fun _ => .ok none, fun _ => .ok (some blinkStrategy), none⟩
  isInit := fun _ _ => .ok false
  sinit := 9
  order := id
  orderStates := id

theorem blink_good (var : String) (hv : IsName var) : blink.Good false false var where
  states := names_ok (names := []) (by simp [blink]) (by simp)
  statesNodup := by decide
  var := fun _ => hv
  aps := by simp [blink]
  types := by simp [blink]
  typesWf := by unfold Dict.Wf; simp [blink, Dict.keys]
  noActions := by
    simp only [blink, List.mem_cons, List.not_mem_nil, or_false, forall_eq_or_imp, forall_eq]
    exact ⟨by decide, by decide⟩

/-- The specification that the solver gets. -/
def blinkFull : GRSpec :=
  { blinkSpec with
    sysVars := [("loc", .range 0 1)]
    envInit := [c!"(loc = 0)"]
    sysSafety := [c!"(loc = 0) -> (((X(loc = 1))))", c!"(loc = 1) -> (((X(loc = 0))))"]
    formula := blinkSpec.toCanon }

theorem ok_of_toOption {α : Type} {x : Except PyErr α} {a : α} (h : x.toOption = some a) : x = .ok a := by
  cases x with
  | ok b => simp only [Except.toOption, Option.some.injEq] at h; rw [h]
  | error e => cases h

theorem blink_full : specPlusSys id blinkSpec none (some blinkArg) false false = .ok blinkFull :=
  ok_of_toOption (by decide +kernel)

theorem blink_vars : VarsOk blinkFull.envVars blinkFull.sysVars :=
  ⟨by unfold Dict.Wf; decide, by unfold Dict.Wf; decide, fun k hk => by cases hk⟩

theorem blink_args : ArgsOk none (some blinkArg) where
  sys := by
    rintro t h
    cases h
    exact blink_good _ (isName_of_check (by decide +kernel))
  env := by rintro t h; cases h

/-- The trace of a play of the strategy. -/
theorem blink_wins : Wins blinkStrategy (fun _ => .ok false) blinkFull := by
  intro v σ h0 hstep hlab _
  have hv : ∀ t, v t = t % 2 := by
    intro t
    induction t with
    | zero => simpa [IsInitial, blinkStrategy] using h0
    | succ t ih =>
      have := hstep t
      simp only [blinkStrategy, List.mem_cons, Prod.mk.injEq, List.not_mem_nil, or_false] at this
      omega
  have hσ : ∀ t, σ t "loc" = .int ((t % 2 : Nat) : Int) := by
    intro t
    obtain ⟨d, ⟨st, h1, h2⟩, h3⟩ := hlab t
    have h4 : Dict.get? st "loc" = some (.int ((t % 2 : Nat) : Int)) := by
      rw [hv] at h1
      simp only [blinkStrategy, List.mem_cons, Prod.mk.injEq, List.not_mem_nil, or_false] at h1
      rcases h1 with ⟨h1, rfl⟩ | ⟨h1, rfl⟩ <;> rw [h1] <;> rfl
    exact h3 "loc" _ ((h2 "loc" (.int ((t % 2 : Nat) : Int))).2 ⟨_, h4, rfl⟩)
  have hsel : ∀ t (x : Elem), Selected false "loc" σ t x ↔ x = .int ((t % 2 : Nat) : Int) := by
    intro t x
    simp only [Selected, Bool.false_eq_true, if_false, hσ]
    cases x with
    | int n => simp [Elem.val, eq_comm]
    | str s => simp [Elem.val]
  have hstart : SysStarts blink "loc" false σ :=
    ⟨(by intro p hp; cases hp), fun _ => ⟨.int 0, by simp [blink], (hsel 0 _).2 rfl⟩,
      by intro s _ _ p hp; cases hp⟩
  refine ((specPlusSys_meaning (fun _ _ => Iff.rfl) blink_args blink_full σ).2.2.1 ?_ ?_).2 ⟨⟨?_, ?_, ?_⟩, ?_, ?_⟩
  · rintro t _ h; cases h
  · refine fun _ => ⟨?_, fun t h => by cases h⟩
    rintro t h
    cases h
    exact hstart
  · intro c hc; cases hc
  · intro c hc; cases hc
  · intro c hc i
    simp only [blinkSpec, List.mem_cons, List.not_mem_nil, or_false] at hc
    subst hc
    refine ⟨2 * i + 1, by omega, (holds_iff (by decide +kernel : parse c!"loc = 1" =
      some (.cmp .eq (.var "loc") (.num 1)))).2 ?_⟩
    have : (2 * i + 1) % 2 = 1 := by omega
    have h1 := hσ (2 * i + 1)
    rw [this] at h1
    simp [Sat, eval, h1, Val.compare]
  · rintro t h
    cases h
    refine ⟨⟨fun i => .int ((i % 2 : Nat) : Int), ⟨fun i => ⟨?_, (hsel i _).2 rfl, fun x _ h => (hsel i x).1 h⟩,
      fun i => ?_, fun i p hp => by cases hp⟩, fun _ => by decide⟩, fun i p hp => by cases hp⟩
    · have : i % 2 = 0 ∨ i % 2 = 1 := by omega
      rcases this with h | h <;> simp [h, blinkArg, blink]
    · have : i % 2 = 0 ∧ (i + 1) % 2 = 1 ∨ i % 2 = 1 ∧ (i + 1) % 2 = 0 := by omega
      rcases this with ⟨h, h'⟩ | ⟨h, h'⟩
      · exact ⟨⟨.int 0, .int 1, [], []⟩, by simp [blinkArg, blink], by simp [h], by simp [h'],
          fun k v hk => by cases hk⟩
      · exact ⟨⟨.int 1, .int 0, [], []⟩, by simp [blinkArg, blink], by simp [h], by simp [h'],
          fun k v hk => by cases hk⟩
  · rintro t h; cases h

/-- The hypotheses of `synthesize_correct` are met: the solver is correct on the specification that it gets, and a machine
is returned, which has an infinite run. -/
example : (∀ g, specPlusSys blinkTools.order blinkSpec none (some blinkArg) false false = .ok g →
      Solver.Correct blinkTools.isInit (fun _ => .ok (some blinkStrategy)) g ∧ VarsOk g.envVars g.sysVars) ∧
    blinkTools.solvers.pick "omega" = .ok (fun _ => .ok (some blinkStrategy)) ∧
    ∃ m, synthesize blinkTools blinkSpec none (some blinkArg) false false true "omega" = .ok (some m) ∧
      MachRun m (fun t => if t = 0 then 9 else (t + 1) % 2) (fun t => [("loc", .int ((t % 2 : Nat) : Int))]) := by
  refine ⟨?_, rfl, ?_⟩
  · intro g hg
    have : g = blinkFull := by
      rw [show specPlusSys blinkTools.order blinkSpec none (some blinkArg) false false = .ok blinkFull from blink_full] at hg
      cases hg
      rfl
    subst this
    refine ⟨?_, blink_vars⟩
    intro A hA
    cases hA
    refine ⟨⟨by unfold Dict.Wf; decide, ?_, by decide, by decide, ?_⟩, blink_wins⟩
    · intro u st hm
      simp only [blinkStrategy, List.mem_cons, Prod.mk.injEq, List.not_mem_nil, or_false] at hm
      rcases hm with ⟨_, rfl⟩ | ⟨_, rfl⟩ <;> (unfold Dict.Wf; simp [Dict.keys])
    · intro u st k n l hm _ hg
      simp only [blinkStrategy, List.mem_cons, Prod.mk.injEq, List.not_mem_nil, or_false] at hm
      rcases hm with ⟨_, rfl⟩ | ⟨_, rfl⟩ <;>
      · simp only [Dict.get?_cons] at hg
        split at hg
        · simp at hg; omega
        · simp at hg
  · refine ⟨_, rfl, ?_, ?_⟩
    · decide +kernel
    · intro t
      have : ∀ e ∈ [(9, 0, [("loc", Elem.int 0)]), (0, 1, [("loc", Elem.int 1)]), (1, 0, [("loc", Elem.int 0)])],
          e ∈ ((synthesize blinkTools blinkSpec none (some blinkArg) false false true "omega").toOption.join.map
            (·.graph.edges)).getD [] := by decide +kernel
      refine this _ ?_
      rcases t with _ | t
      · simp
      · have h : t % 2 = 0 ∨ t % 2 = 1 := by omega
        rcases h with h | h
        · have h1 : (t + 1) % 2 = 1 := by omega
          have h2 : (t + 1 + 1) % 2 = 0 := by omega
          have h3 : (t + 1 + 1 + 1) % 2 = 1 := by omega
          simp [h1, h2, h3]
        · have h1 : (t + 1) % 2 = 0 := by omega
          have h2 : (t + 1 + 1) % 2 = 1 := by omega
          have h3 : (t + 1 + 1 + 1) % 2 = 0 := by omega
          simp [h1, h2, h3]

/-- Unrealizable; unknown solver; a solver that is not installed. -/
example : (synthesize blinkTools blinkSpec none (some blinkArg) false false true "gr1c").toOption.isSome = true ∧
    synthesize blinkTools blinkSpec none (some blinkArg) false false true "gr1c" = .ok none ∧
    synthesize blinkTools blinkSpec none (some blinkArg) false false true "slugs" = .error .valueError ∧
    synthesize blinkTools blinkSpec none (some blinkArg) false false true "Omega" = .error .valueError :=
  ⟨rfl, rfl, rfl, rfl⟩

/-- The hypotheses of `specPlusSys_options` are met. -/
example : specPlusSys id blinkSpec none (some { blinkArg with options := some (false, true, allAll) }) false false =
    .error .assertion := rfl

/-- The hypotheses of `manySpec_meaning` are met; the initial condition stays a guarantee, although initial values are
quantified as `\A \A`. -/
example : (foldE (manyStep id (some [])) blinkSpec [("lamp", blinkArg)]).toOption.map
    (fun g => (g.sysInit, g.envInit, g.sysSafety.length)) = some ([c!"(lamp = 0)"], [], 2) := by
  decide +kernel

example : ManyOk [("lamp", blinkArg)] := by
  intro name t h
  simp only [List.mem_cons, Prod.mk.injEq, List.not_mem_nil, or_false] at h
  obtain ⟨rfl, rfl⟩ := h
  exact ⟨blink_good _ (isName_of_check (by decide +kernel)), fun h => by cases h⟩

end Synth

end Tulip
