import Verif.Interfaces.CallsProps

/-!
# Realizability (C105)

`is_realizable` and `check_realizable` answer whether the specification is realizable, as the docstring of
`GRSpec` explains it (`form.py:309-383`): the environment and the system choose values in turn, the
options `moore`, `plus_one` and `qinit` say who sees what, what has to be guaranteed under which
assumption, and who chooses the initial values. The solvers are assumed to be right about the file or
the game that they are given.
-/

namespace Tulip

namespace Iface

open Synth Cache Trans

variable {ν δ : Type}

/-! ## Specification: games -/

/-- A game: the variables of the two players and the values that they may take, initial conditions on a state,
conditions on each step of a play and on the whole play. -/
structure Arena where
  env : String → Prop
  sys : String → Prop
  dom : String → Val → Prop
  envInit : Valuation → Prop
  sysInit : Valuation → Prop
  envStep : Trace → Nat → Prop
  sysStep : Trace → Nat → Prop
  goal : Trace → Prop

namespace Arena

/-- All variables have values in their domains. -/
def In (A : Arena) (s : Valuation) : Prop := ∀ k, A.env k ∨ A.sys k → A.dom k (s k)

/-- The system keeps its rule at each step, as long as the environment has kept its own: up to this step, or, with
`plus_one`, up to the step before. If the environment always does, then the play reaches the goal. -/
def Play (A : Arena) (plusOne : Bool) (σ : Trace) : Prop :=
  (∀ i, (∀ j, j < i ∨ plusOne = false ∧ j = i → A.envStep σ j) → A.sysStep σ i) ∧
    ((∀ i, A.envStep σ i) → A.goal σ)

/-- The values that `f` chooses for the system depend on the values of the environment so far; with `moore`,
on those of the past. -/
def Causal (A : Arena) (moore : Bool) (f : Trace → Trace) : Prop :=
  ∀ σ σ' t, (∀ i, i < t ∨ moore = false ∧ i = t → ∀ k, A.env k → σ i k = σ' i k) →
    ∀ k, A.sys k → f σ t k = f σ' t k

/-- The system wins from the state `s`. -/
def Win (A : Arena) (moore plusOne : Bool) (s : Valuation) : Prop :=
  ∃ f, A.Causal moore f ∧ (∀ σ t k, A.sys k → A.dom k (f σ t k)) ∧
    ∀ σ : Trace, (∀ k, A.env k ∨ A.sys k → σ 0 k = s k) → (∀ t k, A.env k → A.dom k (σ t k)) →
      (∀ t k, A.sys k → σ (t + 1) k = f σ (t + 1) k) → A.Play plusOne σ

/-- `form` in the docstring of `GRSpec`. -/
def Form (A : Arena) (moore plusOne : Bool) (s : Valuation) : Prop :=
  (plusOne = true → A.sysInit s ∧ (A.envInit s → A.Win moore plusOne s)) ∧
    (plusOne = false → A.envInit s → A.sysInit s ∧ A.Win moore plusOne s)

/-- The four values of `qinit`. -/
def Realizable (A : Arena) (moore plusOne : Bool) (qinit : List Char) : Prop :=
  (qinit = c!"\\A \\A" ∧ ∀ s, A.In s → A.envInit s → A.Win moore plusOne s) ∨
  (qinit = c!"\\A \\E" ∧ ∀ x : Valuation, (∀ k, A.env k → A.dom k (x k)) →
    ∃ s, (∀ k, ¬ A.sys k → s k = x k) ∧ A.In s ∧ A.Form moore plusOne s) ∨
  (qinit = c!"\\E \\A" ∧ ∃ y : Valuation, (∀ k, A.sys k → A.dom k (y k)) ∧
    ∀ s, (∀ k, ¬ A.env k → s k = y k) → A.In s → A.Form moore plusOne s) ∨
  (qinit = c!"\\E \\E" ∧ ∃ s, A.In s ∧ A.sysInit s ∧ A.Win moore plusOne s)

end Arena

/-- The values of a domain. -/
def DomVal : Dom → Val → Prop
  | .boolean, v => ∃ b, v = .bool b
  | .range lo hi, v => ∃ z, v = .int z ∧ lo ≤ z ∧ z ≤ hi
  | .strs l, v => ∃ s ∈ l, v = .str s

/-- The game of a specification. An initial condition is about the first state. -/
def specArena (g : GRSpec) : Arena :=
  { env := fun k => k ∈ g.envVars.keys
    sys := fun k => k ∈ g.sysVars.keys
    dom := fun k v => ∃ d, (k, d) ∈ g.envVars ++ g.sysVars ∧ DomVal d v
    envInit := fun s => ∀ x ∈ g.envInit, Holds (fun _ => s) 0 x
    sysInit := fun s => ∀ x ∈ g.sysInit, Holds (fun _ => s) 0 x
    envStep := fun σ i => ∀ x ∈ g.envSafety, Holds σ i x
    sysStep := fun σ i => ∀ x ∈ g.sysSafety, Holds σ i x
    goal := fun σ => (∀ x ∈ g.envProg, Omega.Recurs σ x) → ∀ x ∈ g.sysProg, Omega.Recurs σ x }

/-- The specification is realizable. -/
def Realizable (g : GRSpec) : Prop := (specArena g).Realizable g.moore g.plusOne g.qinit

/-- The game of an input file of `gr1c`. -/
def fileArena (s : List Char) : Arena :=
  { env := fun k => ∃ E, readDecls (words (body s c!"ENV")) = some E ∧ k.toList ∈ E.map (·.1)
    sys := fun k => ∃ S, readDecls (words (body s c!"SYS")) = some S ∧ k.toList ∈ S.map (·.1)
    dom := fun k v => ∃ l d, Declares s l ∧ (k.toList, d) ∈ l ∧ DomVal d v
    envInit := fun v => Says (fun _ => v) (body s c!"ENVINIT")
    sysInit := fun v => Says (fun _ => v) (body s c!"SYSINIT")
    envStep := fun τ i => SaysStep τ i (body s c!"ENVTRANS")
    sysStep := fun τ i => SaysStep τ i (body s c!"SYSTRANS")
    goal := fun τ => Says τ (body s c!"ENVGOAL") → Says τ (body s c!"SYSGOAL") }

/-- What `gr1c` decides for each option, see `OptionMeaning` (C56). -/
def FileRealizable (s : List Char) : InitOption → Prop
  | .allEnvExistSysInit => (fileArena s).Realizable false false c!"\\A \\E"
  | .oneSideInit => (body s c!"ENVINIT" ≠ [] → (fileArena s).Realizable false false c!"\\A \\A") ∧
      (body s c!"ENVINIT" = [] → (fileArena s).Realizable false false c!"\\E \\E")

/-- The game of an input file of `slugs`. -/
def slugsArena (s : List Char) : Arena :=
  { env := fun k => ∃ l ∈ slugsLines c!"INPUT" s, ∃ d, readSlugsVar l = some (k.toList, d)
    sys := fun k => ∃ l ∈ slugsLines c!"OUTPUT" s, ∃ d, readSlugsVar l = some (k.toList, d)
    dom := fun k v => ∃ l ∈ slugsLines c!"INPUT" s ++ slugsLines c!"OUTPUT" s, ∃ d,
      readSlugsVar l = some (k.toList, d) ∧ DomVal d v
    envInit := fun v => ∀ l ∈ slugsLines c!"ENV_INIT" s, Holds (fun _ => v) 0 l
    sysInit := fun v => ∀ l ∈ slugsLines c!"SYS_INIT" s, Holds (fun _ => v) 0 l
    envStep := fun τ i => ∀ l ∈ slugsLines c!"ENV_TRANS" s, Holds τ i l
    sysStep := fun τ i => ∀ l ∈ slugsLines c!"SYS_TRANS" s, Holds τ i l
    goal := fun τ => (∀ l ∈ slugsLines c!"ENV_LIVENESS" s, Omega.Recurs τ l) →
      ∀ l ∈ slugsLines c!"SYS_LIVENESS" s, Omega.Recurs τ l }

/-- The values of a variable of `omega`. -/
def OmVal : Omega.OmDom → Val → Prop
  | .bool, v => ∃ b, v = .bool b
  | .range lo hi, v => ∃ z, v = .int z ∧ lo ≤ z ∧ z ≤ hi

/-- The game that is given to `omega`. -/
def gameArena (G : Omega.Game) : Arena :=
  { env := fun k => k ∈ G.envVars
    sys := fun k => k ∈ G.sysVars
    dom := fun k v => ∃ d, G.vars.get? k = some d ∧ OmVal d v
    envInit := fun v => Holds (fun _ => v) 0 G.initEnv
    sysInit := fun v => Holds (fun _ => v) 0 G.initSys
    envStep := fun τ i => Holds τ i G.actionEnv
    sysStep := fun τ i => Holds τ i G.actionSys
    goal := Omega.Streett G }

/-- What is assumed of the solvers. -/
def Gr1cExe.Decides (E : Gr1cExe ν δ) : Prop := ∀ o s, E.check o s = 0 ↔ FileRealizable s o

def Gr1pyLib.Decides (L : Gr1pyLib ν δ) : Prop := ∀ o s, L.check o s = true ↔ FileRealizable s o

def SlugsDecides (X : SlugsExe) : Prop :=
  ∀ s, (X false s).code = 0 → (c!"Specification is realizable" <:+: (X false s).err ↔
    (slugsArena s).Realizable false false c!"\\A \\E")

def OmegaLib.Decides (L : OmegaLib ν) : Prop :=
  ∀ G, L.realizable G = true ↔ (gameArena G).Realizable G.moore G.plusOne G.qinit

/-! ## Games with the same plays -/

namespace Arena

/-- The values of `B` encode those of `A`. -/
structure Iso (A B : Arena) (enc dec : String → Val → Val) : Prop where
  env : ∀ k, B.env k ↔ A.env k
  sys : ∀ k, B.sys k ↔ A.sys k
  forth : ∀ k v, A.env k ∨ A.sys k → A.dom k v → B.dom k (enc k v) ∧ dec k (enc k v) = v
  back : ∀ k w, A.env k ∨ A.sys k → B.dom k w → A.dom k (dec k w) ∧ enc k (dec k w) = w
  other : ∀ k v, ¬ (A.env k ∨ A.sys k) → enc k v = v ∧ dec k v = v
  envInit : ∀ s, A.In s → (B.envInit (fun k => enc k (s k)) ↔ A.envInit s)
  sysInit : ∀ s, A.In s → (B.sysInit (fun k => enc k (s k)) ↔ A.sysInit s)
  envStep : ∀ σ : Trace, (∀ t, A.In (σ t)) → ∀ i, (B.envStep (fun t k => enc k (σ t k)) i ↔ A.envStep σ i)
  sysStep : ∀ σ : Trace, (∀ t, A.In (σ t)) → ∀ i, (B.sysStep (fun t k => enc k (σ t k)) i ↔ A.sysStep σ i)
  goal : ∀ σ : Trace, (∀ t, A.In (σ t)) → (B.goal (fun t k => enc k (σ t k)) ↔ A.goal σ)

variable {A B : Arena} {enc dec : String → Val → Val}

theorem Iso.encIn (h : Iso A B enc dec) {s : Valuation} (hs : A.In s) : B.In fun k => enc k (s k) := by
  intro k hk
  rw [h.env, h.sys] at hk
  exact (h.forth k _ hk (hs k hk)).1

theorem Iso.decIn (h : Iso A B enc dec) {s : Valuation} (hs : B.In s) : A.In fun k => dec k (s k) := by
  intro k hk
  exact (h.back k _ hk (hs k (by rw [h.env, h.sys]; exact hk))).1

theorem Iso.encDec (h : Iso A B enc dec) {s : Valuation} (hs : B.In s) : (fun k => enc k (dec k (s k))) = s := by
  funext k
  by_cases hk : A.env k ∨ A.sys k
  · exact (h.back k _ hk (hs k (by rw [h.env, h.sys]; exact hk))).2
  · rw [(h.other k _ hk).2, (h.other k _ hk).1]

theorem Iso.symm (h : Iso A B enc dec) : Iso B A dec enc where
  env k := (h.env k).symm
  sys k := (h.sys k).symm
  forth k v hk hv := h.back k v (by rw [← h.env, ← h.sys]; exact hk) hv
  back k v hk hv := h.forth k v (by rw [← h.env, ← h.sys]; exact hk) hv
  other k v hk := ((h.other k v (by rw [← h.env, ← h.sys]; exact hk))).symm
  envInit s hs := by
    have := h.envInit _ (h.decIn hs)
    rw [h.encDec hs] at this
    exact this.symm
  sysInit s hs := by
    have := h.sysInit _ (h.decIn hs)
    rw [h.encDec hs] at this
    exact this.symm
  envStep σ hs i := by
    have := h.envStep _ (fun t => h.decIn (hs t)) i
    rw [show (fun t k => enc k (dec k (σ t k))) = σ from funext fun t => h.encDec (hs t)] at this
    exact this.symm
  sysStep σ hs i := by
    have := h.sysStep _ (fun t => h.decIn (hs t)) i
    rw [show (fun t k => enc k (dec k (σ t k))) = σ from funext fun t => h.encDec (hs t)] at this
    exact this.symm
  goal σ hs := by
    have := h.goal _ (fun t => h.decIn (hs t))
    rw [show (fun t k => enc k (dec k (σ t k))) = σ from funext fun t => h.encDec (hs t)] at this
    exact this.symm

theorem Iso.play (h : Iso A B enc dec) {p : Bool} {σ : Trace} (hσ : ∀ t, A.In (σ t)) :
    B.Play p (fun t k => enc k (σ t k)) ↔ A.Play p σ := by
  unfold Play
  simp only [h.envStep σ hσ, h.sysStep σ hσ, h.goal σ hσ]

theorem Iso.win_forth (h : Iso A B enc dec) {m p : Bool} {s : Valuation} (hs : A.In s) (hw : A.Win m p s) :
    B.Win m p fun k => enc k (s k) := by
  obtain ⟨f, hc, hd, hp⟩ := hw
  refine ⟨fun τ t k => enc k (f (fun t k => dec k (τ t k)) t k), ?_, ?_, ?_⟩
  · intro σ σ' t he k hk
    simp only
    rw [hc _ (fun t k => dec k (σ' t k)) t (fun i hi k hk => by rw [he i hi k ((h.env k).2 hk)]) k ((h.sys k).1 hk)]
  · intro τ t k hk
    rw [h.sys] at hk
    exact (h.forth k _ (.inr hk) (hd _ _ _ hk)).1
  · intro τ h0 he hf
    have hin : ∀ t, B.In (τ t) := by
      intro t k hk
      cases t with
      | zero =>
        rw [h0 k hk]
        exact h.encIn hs k hk
      | succ t =>
        rcases hk with hk | hk
        · exact he _ k hk
        · rw [hf t k hk]
          rw [h.sys] at hk
          exact (h.forth k _ (.inr hk) (hd _ _ _ hk)).1
    have hin' : ∀ t, A.In (fun k => dec k (τ t k)) := fun t => h.decIn (hin t)
    have := (h.play (p := p) hin').2 (hp (fun t k => dec k (τ t k)) ?_ ?_ ?_)
    · rw [show (fun t k => enc k (dec k (τ t k))) = τ from funext fun t => h.encDec (hin t)] at this
      exact this
    · intro k hk
      rw [h0 k (by rw [h.env, h.sys]; exact hk)]
      exact (h.forth k _ hk (hs k hk)).2
    · intro t k hk
      exact hin' t k (.inl hk)
    · intro t k hk
      rw [hf t k ((h.sys k).2 hk)]
      exact (h.forth k _ (.inr hk) (hd _ _ _ hk)).2

theorem Iso.win (h : Iso A B enc dec) {m p : Bool} {s : Valuation} (hs : A.In s) :
    B.Win m p (fun k => enc k (s k)) ↔ A.Win m p s := by
  refine ⟨fun hw => ?_, h.win_forth hs⟩
  have := h.symm.win_forth (h.encIn hs) hw
  rwa [h.symm.encDec hs] at this

theorem Iso.form (h : Iso A B enc dec) {m p : Bool} {s : Valuation} (hs : A.In s) :
    B.Form m p (fun k => enc k (s k)) ↔ A.Form m p s := by
  unfold Form
  rw [h.envInit s hs, h.sysInit s hs, h.win hs]

theorem Iso.realizable_forth (h : Iso A B enc dec) {m p : Bool} {q : List Char} (hr : A.Realizable m p q) :
    B.Realizable m p q := by
  have dec' : ∀ {s : Valuation}, B.In s → ∃ s', A.In s' ∧ s = fun k => enc k (s' k) :=
    fun {s} hs => ⟨_, h.decIn hs, (h.encDec hs).symm⟩
  rcases hr with ⟨hq, hr⟩ | ⟨hq, hr⟩ | ⟨hq, y, hy, hr⟩ | ⟨hq, s, hs, h1, h2⟩
  · refine .inl ⟨hq, fun s hs => ?_⟩
    obtain ⟨s, hs', rfl⟩ := dec' hs
    rw [h.envInit s hs', h.win hs']
    exact hr s hs'
  · refine .inr (.inl ⟨hq, fun x hx => ?_⟩)
    obtain ⟨s, hoff, hs, hf⟩ := hr (fun k => dec k (x k)) fun k hk =>
      (h.back k _ (.inl hk) (hx k ((h.env k).2 hk))).1
    refine ⟨fun k => enc k (s k), fun k hk => ?_, h.encIn hs, (h.form hs).2 hf⟩
    rw [h.sys] at hk
    show enc k (s k) = x k
    rw [hoff k hk]
    by_cases hk' : A.env k
    · exact (h.back k _ (.inl hk') (hx k ((h.env k).2 hk'))).2
    · have : ¬ (A.env k ∨ A.sys k) := fun h => h.elim hk' hk
      rw [(h.other k _ this).2, (h.other k _ this).1]
  · refine .inr (.inr (.inl ⟨hq, fun k => enc k (y k), fun k hk => ?_, fun s hoff hs => ?_⟩))
    · rw [h.sys] at hk
      exact (h.forth k _ (.inr hk) (hy k hk)).1
    · obtain ⟨s, hs', rfl⟩ := dec' hs
      refine (h.form hs').2 (hr s (fun k hk => ?_) hs')
      have h1 := hoff k fun hk' => hk ((h.env k).1 hk')
      simp only at h1
      by_cases hk' : A.sys k
      · rw [← (h.forth k _ (.inr hk') (hs' k (.inr hk'))).2, h1, (h.forth k _ (.inr hk') (hy k hk')).2]
      · have : ¬ (A.env k ∨ A.sys k) := fun h => h.elim hk hk'
        rw [(h.other k _ this).1, (h.other k _ this).1] at h1
        exact h1
  · exact .inr (.inr (.inr ⟨hq, _, h.encIn hs, (h.sysInit s hs).2 h1, (h.win hs).2 h2⟩))

theorem Iso.realizable (h : Iso A B enc dec) {m p : Bool} {q : List Char} :
    B.Realizable m p q ↔ A.Realizable m p q :=
  ⟨h.symm.realizable_forth, h.realizable_forth⟩

end Arena

/-! ## Strings and their indices -/

/-- The value that stands for `v`. -/
def encVal (D : Dict String (List String)) (k : String) (v : Val) : Val :=
  match D.get? k, v with
  | some l, .str s => .int (l.idxOf s)
  | _, v => v

/-- The value that `v` stands for. -/
def decVal (D : Dict String (List String)) (k : String) (v : Val) : Val :=
  match D.get? k, v with
  | some l, .int n => match l[n.toNat]? with
    | some s => .str s
    | none => v
  | _, v => v

theorem encode_eq (D : Dict String (List String)) (σ : Trace) :
    Tulip.encode D σ = fun t k => encVal D k (σ t k) := rfl

/-- The strings of a domain. -/
def strsOf : Dom → Option (List String)
  | .strs l => some l
  | _ => none

/-- Strings and their indices. -/
theorem encVal_spec {D : Dict String (List String)} {k : String} {d : Dom}
    (hD : D.get? k = strsOf d) (hn : ∀ l, D.get? k = some l → l.Nodup) :
    (∀ v, DomVal d v → DomVal (solverDom d) (encVal D k v) ∧ decVal D k (encVal D k v) = v) ∧
    ∀ v, DomVal (solverDom d) v → DomVal d (decVal D k v) ∧ encVal D k (decVal D k v) = v := by
  cases d with
  | boolean =>
    simp only [strsOf] at hD
    have h1 : ∀ v, encVal D k v = v := fun v => by simp only [encVal, hD]
    have h2 : ∀ v, decVal D k v = v := fun v => by simp only [decVal, hD]
    simp only [h1, h2, solverDom]
    exact ⟨fun v h => ⟨h, trivial⟩, fun v h => ⟨h, trivial⟩⟩
  | range lo hi =>
    simp only [strsOf] at hD
    have h1 : ∀ v, encVal D k v = v := fun v => by simp only [encVal, hD]
    have h2 : ∀ v, decVal D k v = v := fun v => by simp only [decVal, hD]
    simp only [h1, h2, solverDom]
    exact ⟨fun v h => ⟨h, trivial⟩, fun v h => ⟨h, trivial⟩⟩
  | strs l =>
    simp only [strsOf] at hD
    have hn := hn l hD
    constructor
    · rintro v ⟨s, hs, rfl⟩
      have hlt := List.idxOf_lt_length_of_mem hs
      have e : encVal D k (.str s) = .int (l.idxOf s) := by simp only [encVal, hD]
      rw [e]
      refine ⟨⟨_, rfl, by omega, by omega⟩, ?_⟩
      simp only [decVal, hD, Int.toNat_natCast]
      rw [List.getElem?_eq_getElem hlt, List.getElem_idxOf hlt]
    · rintro v ⟨z, rfl, h1, h2⟩
      obtain ⟨n, rfl⟩ := Int.eq_ofNat_of_zero_le h1
      have hlt : n < l.length := by omega
      have e : decVal D k (.int n) = .str l[n] := by
        simp only [decVal, hD, Int.toNat_natCast]
        rw [List.getElem?_eq_getElem hlt]
      rw [e]
      refine ⟨⟨_, List.getElem_mem hlt, rfl⟩, ?_⟩
      simp only [encVal, hD]
      rw [List.Nodup.idxOf_getElem hn]

theorem strVars_dom {g : GRSpec} (hv : VarsOk g.envVars g.sysVars) {k : String} {d : Dom}
    (hk : (k, d) ∈ g.envVars ++ g.sysVars) :
    (Cache.strVars g).get? k = strsOf d := by
  rw [get?_cacheStr hv, (update_get?_iff hv).2 hk]
  cases d <;> rfl

theorem strVars_other {g : GRSpec} (hv : VarsOk g.envVars g.sysVars) {k : String}
    (hk : ¬ (k ∈ g.envVars.keys ∨ k ∈ g.sysVars.keys)) : (Cache.strVars g).get? k = none := by
  rw [get?_cacheStr hv]
  cases h : (Dict.update g.envVars g.sysVars).get? k with
  | none => rfl
  | some d =>
    rcases List.mem_append.1 ((update_get?_iff hv).1 h) with h | h
    · exact absurd (.inl (List.mem_map_of_mem (f := Prod.fst) h)) hk
    · exact absurd (.inr (List.mem_map_of_mem (f := Prod.fst) h)) hk

theorem declared_iff {g : GRSpec} {k : String} :
    k ∈ g.envVars.keys ∨ k ∈ g.sysVars.keys ↔ ∃ d, (k, d) ∈ g.envVars ++ g.sysVars := by
  simp only [Dict.keys, List.mem_map, List.mem_append, Prod.exists, exists_and_right, exists_eq_right, ← exists_or]

theorem dom_unique {g : GRSpec} (hv : VarsOk g.envVars g.sysVars) {k : String} {d d' : Dom}
    (h : (k, d) ∈ g.envVars ++ g.sysVars) (h' : (k, d') ∈ g.envVars ++ g.sysVars) : d = d' := by
  rw [← update_get?_iff hv] at h h'
  exact Option.some.inj (h.symm.trans h')

theorem inDomains_of_in {g : GRSpec} (hv : VarsOk g.envVars g.sysVars) {σ : Trace}
    (h : ∀ t, (specArena g).In (σ t)) : InDomains (Cache.strVars g) σ := by
  intro t k l hk
  by_cases hd : k ∈ g.envVars.keys ∨ k ∈ g.sysVars.keys
  · obtain ⟨d, hm, hval⟩ := h t k hd
    rw [strVars_dom hv hm] at hk
    cases d with
    | boolean => cases hk
    | range => cases hk
    | strs l' =>
      cases hk
      obtain ⟨s, hs, e⟩ := hval
      exact ⟨s, hs, e⟩
  · rw [strVars_other hv hd] at hk
    cases hk

/-- A game whose variables are those of the specification, with indices for strings, and whose conditions are
those of the specification on encoded plays. -/
theorem iso_of_domains {g : GRSpec} (hv : VarsOk g.envVars g.sysVars)
    (hs : ∀ v l, (Cache.strVars g).get? v = some l → l.Nodup) {B : Arena}
    (henv : ∀ k, B.env k ↔ k ∈ g.envVars.keys) (hsys : ∀ k, B.sys k ↔ k ∈ g.sysVars.keys)
    (hdom : ∀ k d, (k, d) ∈ g.envVars ++ g.sysVars → ∀ v, B.dom k v ↔ DomVal (solverDom d) v)
    (hmean : ∀ σ, InDomains (Cache.strVars g) σ →
      let τ := Tulip.encode (Cache.strVars g) σ
      (∀ s, σ = (fun _ => s) → (B.envInit (τ 0) ↔ (specArena g).envInit s) ∧
        (B.sysInit (τ 0) ↔ (specArena g).sysInit s)) ∧
      (∀ i, B.envStep τ i ↔ (specArena g).envStep σ i) ∧ (∀ i, B.sysStep τ i ↔ (specArena g).sysStep σ i) ∧
      (B.goal τ ↔ (specArena g).goal σ)) :
    Arena.Iso (specArena g) B (encVal (Cache.strVars g)) (decVal (Cache.strVars g)) where
  env := henv
  sys := hsys
  forth k v hk hval := by
    obtain ⟨d, hm, hd⟩ := hval
    obtain ⟨h1, _⟩ := encVal_spec (strVars_dom hv hm) (fun l h => hs k l h)
    obtain ⟨h2, h3⟩ := h1 v hd
    exact ⟨(hdom k d hm _).2 h2, h3⟩
  back k v hk hval := by
    obtain ⟨d, hm⟩ := declared_iff.1 hk
    obtain ⟨_, h1⟩ := encVal_spec (strVars_dom hv hm) (fun l h => hs k l h)
    obtain ⟨h2, h3⟩ := h1 v ((hdom k d hm _).1 hval)
    exact ⟨⟨d, hm, h2⟩, h3⟩
  other k v hk := by
    have := strVars_other hv hk
    simp only [encVal, decVal, this, and_self]
  envInit s h := ((hmean (fun _ => s) (inDomains_of_in hv fun _ => h)).1 s rfl).1
  sysInit s h := ((hmean (fun _ => s) (inDomains_of_in hv fun _ => h)).1 s rfl).2
  envStep σ h := (hmean σ (inDomains_of_in hv h)).2.1
  sysStep σ h := (hmean σ (inDomains_of_in hv h)).2.2.1
  goal σ h := (hmean σ (inDomains_of_in hv h)).2.2.2

/-! ## The solvers -/

theorem mem_names {vars : Dict String Dom} {k : String} :
    (∃ E, some (vars.map fun p => (p.1.toList, solverDom p.2)) = some E ∧ k.toList ∈ E.map (·.1)) ↔
      k ∈ vars.keys := by
  constructor
  · rintro ⟨E, e, hk⟩
    cases e
    rw [List.map_map] at hk
    obtain ⟨p, hp, e⟩ := List.mem_map.mp hk
    exact List.mem_map.mpr ⟨p, hp, String.toList_injective e⟩
  · intro hk
    obtain ⟨p, hp, rfl⟩ := List.mem_map.mp hk
    exact ⟨_, rfl, List.mem_map.mpr ⟨_, List.mem_map.mpr ⟨p, hp, rfl⟩, rfl⟩⟩

/-- The game of the file for `gr1c` is the game of the specification. -/
theorem fileArena_iso {order : List Part} (horder : ∀ p, p ∈ order) {g : GRSpec} (hg : Plainly g) {s : List Char}
    (hs : (translateGr1c order (new g)).2 = .ok s) :
    Arena.Iso (specArena g) (fileArena s) (encVal (Cache.strVars g)) (decVal (Cache.strVars g)) ∧
      (body s c!"ENVINIT" = [] ↔ g.envInit = []) := by
  obtain ⟨_, _, h3⟩ := translateGr1c_correct horder g (ops := []) trivial
  obtain ⟨_, dE, dS, hmean, hinit⟩ := h3 s hs hg.names
  refine ⟨iso_of_domains hg.vars hg.strings ?_ ?_ ?_ ?_, hinit⟩
  · intro k
    show (∃ E, readDecls (words (body s c!"ENV")) = some E ∧ k.toList ∈ E.map (·.1)) ↔ _
    rw [dE]
    exact mem_names
  · intro k
    show (∃ E, readDecls (words (body s c!"SYS")) = some E ∧ k.toList ∈ E.map (·.1)) ↔ _
    rw [dS]
    exact mem_names
  · intro k d hk v
    constructor
    · rintro ⟨l, d', ⟨E, S, hE, hS, rfl⟩, hm, hval⟩
      rw [hE] at dE
      rw [hS] at dS
      have dE : E = g.envVars.map fun p => (p.1.toList, solverDom p.2) := Option.some.inj dE
      have dS : S = g.sysVars.map fun p => (p.1.toList, solverDom p.2) := Option.some.inj dS
      subst dE dS
      rw [← List.map_append] at hm
      obtain ⟨⟨k', d''⟩, hm', e⟩ := List.mem_map.mp hm
      injection e with e1 e2
      obtain rfl : k' = k := String.toList_injective e1
      obtain rfl := dom_unique hg.vars hk hm'
      rw [e2]
      exact hval
    · intro h
      refine ⟨_, solverDom d, ⟨_, _, dE, dS, rfl⟩, ?_, h⟩
      show _ ∈ (g.envVars.map fun p => (p.1.toList, solverDom p.2)) ++ (g.sysVars.map fun p => (p.1.toList, solverDom p.2))
      rw [← List.map_append]
      exact List.mem_map.mpr ⟨_, hk, rfl⟩
  · intro σ hσ
    obtain ⟨m1, _, m3, m4, _, m6, m7, m8⟩ := hmean hg.used hg.nesting σ hσ
    refine ⟨?_, m7, m8, ?_⟩
    · rintro v rfl
      exact ⟨m1, m4⟩
    · exact imp_congr m3 m6

/-- What `gr1c` decides about the file is what the specification asks. -/
theorem fileRealizable_iff {order : List Part} (horder : ∀ p, p ∈ order) {g : GRSpec} (hg : Plainly g)
    {s : List Char} (hs : (translateGr1c order (new g)).2 = .ok s) {o : InitOption} (ho : selectOptions g = .ok o)
    (hgiven : g.qinit = c!"\\A \\A" → g.envInit ≠ []) : FileRealizable s o ↔ Realizable g := by
  obtain ⟨hiso, hinit⟩ := fileArena_iso horder hg hs
  rw [selectOptions_ok_iff] at ho
  obtain ⟨h1, h2, ⟨hq, rfl⟩ | ⟨hq, _, rfl⟩ | ⟨hq, he, rfl⟩⟩ := ho
  · unfold Realizable
    rw [h1, h2, hq]
    exact hiso.realizable
  · unfold Realizable FileRealizable
    rw [h1, h2, hq]
    have := (not_congr hinit).2 (hgiven hq)
    simp only [this, ne_eq, not_false_eq_true, forall_const, IsEmpty.forall_iff, and_true]
    exact hiso.realizable
  · unfold Realizable FileRealizable
    rw [h1, h2, hq]
    rw [← hinit] at he
    simp only [he, ne_eq, not_true_eq_false, forall_const, IsEmpty.forall_iff, true_and]
    exact hiso.realizable

/-- **C105 (gr1c).** If `gr1c` is right about files then `check_realizable` is right about specifications
(for `qinit` equal to `\A \A`, with a condition on the initial states of the environment, see C56). -/
theorem gr1cCheck_exact {order : List Part} (horder : ∀ p, p ∈ order) {E : Gr1cExe ν δ} (hE : E.Decides)
    {g : GRSpec} (hg : Plainly g) (hgiven : g.qinit = c!"\\A \\A" → g.envInit ≠ []) {b : Bool}
    (h : gr1cCheck order (some E) g = .ok b) : b = true ↔ Realizable g := by
  unfold gr1cCheck at h
  obtain ⟨o, ho, h⟩ := bind_ok h
  obtain ⟨s, hs, h⟩ := bind_ok h
  cases h
  rw [decide_eq_true_iff, hE o s]
  exact fileRealizable_iff horder hg hs ho hgiven

/-- **C105 (gr1py).** -/
theorem gr1pyCheck_exact {order : List Part} (horder : ∀ p, p ∈ order) {L : Gr1pyLib ν δ} (hL : L.Decides)
    {g : GRSpec} (hg : Plainly g) (hgiven : g.qinit = c!"\\A \\A" → g.envInit ≠ []) {b : Bool}
    (h : gr1pyCheck order (some L) g = .ok b) : b = true ↔ Realizable g := by
  unfold gr1pyCheck at h
  obtain ⟨q, hq, h⟩ := bind_ok h
  unfold gr1pyInput at hq
  obtain ⟨o, ho, hq⟩ := bind_ok hq
  obtain ⟨s, hs, hq⟩ := bind_ok hq
  cases hq
  cases h
  rw [hL o s]
  exact fileRealizable_iff horder hg hs ho hgiven

/-- **C105 (omega).** All values of the options. Primed variables may be nested. -/
theorem omegaCheck_exact {order : List Part} (horder : ∀ p, p ∈ order) {L : OmegaLib ν} (hL : L.Decides)
    {g : GRSpec} (hv : VarsOk g.envVars g.sysVars) (hu : Omega.WellUsed g)
    (hstr : ∀ v l, (Cache.strVars g).get? v = some l → l.Nodup) {b : Bool}
    (h : omegaCheck order (some L) g = .ok b) : b = true ↔ Realizable g := by
  unfold omegaCheck at h
  obtain ⟨G, hG, h⟩ := bind_ok h
  cases h
  rw [hL G]
  obtain ⟨_, h2⟩ := Omega.toAutomaton_correct horder g (ops := []) trivial (st' := (Omega.toAutomaton order (new g)).1)
    (r := (Omega.toAutomaton order (new g)).2) rfl
  obtain ⟨⟨hvars, e1, e2, e3, e4, e5⟩, hmean⟩ := h2 G hG
  have hvars : ∀ v, G.vars.get? v = ((Dict.update g.envVars g.sysVars).get? v).map Omega.convert := hvars
  have e1 : G.envVars = g.envVars.keys := e1
  have e2 : G.sysVars = g.sysVars.keys := e2
  have e3 : G.moore = g.moore := e3
  have e4 : G.plusOne = g.plusOne := e4
  have e5 : G.qinit = g.qinit := e5
  unfold Realizable
  rw [e3, e4, e5]
  refine (iso_of_domains hv hstr ?_ ?_ ?_ ?_).realizable
  · intro k
    show k ∈ G.envVars ↔ _
    rw [e1]
  · intro k
    show k ∈ G.sysVars ↔ _
    rw [e2]
  · intro k d hk v
    show (∃ d, G.vars.get? k = some d ∧ OmVal d v) ↔ _
    rw [hvars, (update_get?_iff hv).2 hk]
    simp only [Option.map_some, Option.some.injEq, exists_eq_left']
    cases d <;> rfl
  · intro σ hσ
    obtain ⟨m1, m2, m3, m4, m5⟩ := hmean hu σ hσ
    refine ⟨?_, m3, m4, m5⟩
    rintro v rfl
    exact ⟨m1, m2⟩

/-- **C105 (slugs).** For `qinit` equal to `\A \E`; the interface does not look at `qinit`. -/
theorem slugsCheck_exact {order : List Part} (horder : ∀ p, p ∈ order) {X : SlugsExe} (hX : SlugsDecides X)
    {g : GRSpec} (hg : Plainly g) (hq : g.qinit = c!"\\A \\E") {b : Bool}
    (h : slugsCheck order (some X) g = .ok b) : b = true ↔ Realizable g := by
  unfold slugsCheck at h
  obtain ⟨s, hs, h⟩ := bind_ok h
  obtain ⟨r, hr, h⟩ := bind_ok h
  cases h
  unfold slugsInput at hs
  split at hs
  · cases hs
  rename_i hm
  split at hs
  · cases hs
  rename_i hp
  have hm : g.moore = false := by simpa using hm
  have hp : g.plusOne = false := by simpa using hp
  obtain ⟨_, hok, h3⟩ := translateSlugs_correct horder g (ops := []) trivial
  have hnostr : ∀ v l, (v, Dom.strs l) ∉ g.envVars ++ g.sysVars := (hok.1 ⟨s, hs⟩).2.2
  obtain ⟨dE, dS, hmean⟩ := h3 s hs hg.names
  have dE : (slugsLines c!"INPUT" s).map readSlugsVar = g.envVars.map (fun p => some (p.1.toList, p.2)) := dE
  have dS : (slugsLines c!"OUTPUT" s).map readSlugsVar = g.sysVars.map (fun p => some (p.1.toList, p.2)) := dS
  have hlines : ∀ {ls : List (List Char)} {vars : Dict String Dom},
      ls.map readSlugsVar = vars.map (fun p => some (p.1.toList, p.2)) → ∀ k d,
      (∃ l ∈ ls, readSlugsVar l = some (k.toList, d)) ↔ (k, d) ∈ vars := by
    intro ls vars e k d
    rw [← List.mem_map, e, List.mem_map]
    constructor
    · rintro ⟨⟨k', d'⟩, hm, e'⟩
      injection e' with e'
      injection e' with e1 e2
      obtain rfl : k' = k := String.toList_injective e1
      obtain rfl : d' = d := e2
      exact hm
    · intro hm
      exact ⟨_, hm, rfl⟩
  have hD : ∀ v, (Cache.strVars g).get? v = none := by
    intro v
    by_cases hd : v ∈ g.envVars.keys ∨ v ∈ g.sysVars.keys
    · obtain ⟨d, hm⟩ := declared_iff.1 hd
      rw [strVars_dom hg.vars hm]
      cases d with
      | boolean => rfl
      | range => rfl
      | strs l => exact absurd hm (hnostr v l)
    · exact strVars_other hg.vars hd
  have hiso : Arena.Iso (specArena g) (slugsArena s) (encVal (Cache.strVars g)) (decVal (Cache.strVars g)) := by
    refine iso_of_domains hg.vars hg.strings ?_ ?_ ?_ ?_
    · intro k
      show (∃ l ∈ slugsLines c!"INPUT" s, ∃ d, readSlugsVar l = some (k.toList, d)) ↔ _
      constructor
      · rintro ⟨l, hl, d, e⟩
        exact List.mem_map_of_mem (f := Prod.fst) ((hlines dE k d).1 ⟨l, hl, e⟩)
      · intro hk
        obtain ⟨⟨k', d⟩, hm, e⟩ := List.mem_map.mp hk
        have e : k' = k := e
        subst e
        obtain ⟨l, hl, e⟩ := (hlines dE _ d).2 hm
        exact ⟨l, hl, d, e⟩
    · intro k
      show (∃ l ∈ slugsLines c!"OUTPUT" s, ∃ d, readSlugsVar l = some (k.toList, d)) ↔ _
      constructor
      · rintro ⟨l, hl, d, e⟩
        exact List.mem_map_of_mem (f := Prod.fst) ((hlines dS k d).1 ⟨l, hl, e⟩)
      · intro hk
        obtain ⟨⟨k', d⟩, hm, e⟩ := List.mem_map.mp hk
        have e : k' = k := e
        subst e
        obtain ⟨l, hl, e⟩ := (hlines dS _ d).2 hm
        exact ⟨l, hl, d, e⟩
    · intro k d hk v
      have hsd : solverDom d = d := by
        cases d with
        | boolean => rfl
        | range => rfl
        | strs l => exact absurd hk (hnostr k l)
      rw [hsd]
      show (∃ l ∈ slugsLines c!"INPUT" s ++ slugsLines c!"OUTPUT" s, ∃ d,
        readSlugsVar l = some (k.toList, d) ∧ DomVal d v) ↔ _
      have hall := hlines (ls := slugsLines c!"INPUT" s ++ slugsLines c!"OUTPUT" s) (vars := g.envVars ++ g.sysVars)
        (by rw [List.map_append, dE, dS]; exact List.map_append.symm)
      constructor
      · rintro ⟨l, hl, d', e, hval⟩
        obtain rfl := dom_unique hg.vars hk ((hall k d').1 ⟨l, hl, e⟩)
        exact hval
      · intro hval
        obtain ⟨l, hl, e⟩ := (hall k d).2 hk
        exact ⟨l, hl, d, e, hval⟩
    · intro σ _
      have e : Tulip.encode (Cache.strVars g) σ = σ := by
        funext t k
        simp only [Tulip.encode, hD]
      rw [e]
      obtain ⟨m1, m2, m3, m4, m5, m6⟩ := hmean hg.nesting σ
      refine ⟨?_, m2, m5, ?_⟩
      · rintro v rfl
        exact ⟨m1, m4⟩
      · exact imp_congr m3 m6
  unfold Realizable
  rw [hm, hp, hq, ← hiso.realizable]
  unfold callSlugs at hr
  simp only at hr
  split at hr
  · cases hr
  rename_i hc
  have hc : (X false s).code = 0 := by simpa using hc
  rw [← hX s hc]
  split at hr
  · rename_i he
    cases hr
    simpa [isIn] using he
  · rename_i he
    split at hr
    · cases hr
      simpa [isIn] using he
    · cases hr

/-! ## `is_realizable` -/

/-- **C105.** With solvers that are right about what they are given, `is_realizable` says whether the specification
together with the transition systems is realizable (C80 says what it means). For `gr1c` and
`gr1py` with `qinit` equal to `\A \A` there must be an initial condition of the environment; for `slugs`,
`qinit` must be `\A \E`. -/
theorem isRealizable_exact {order : List Part} (horder : ∀ p, p ∈ order) {ord : List (List Char) → List (List Char)}
    {check : Solvers (GRSpec → Except PyErr Bool)} {E : Gr1cExe ν δ} {P : Gr1pyLib ν δ} {X : SlugsExe}
    {L : OmegaLib ν} (hE : E.Decides) (hP : P.Decides) (hX : SlugsDecides X) (hL : L.Decides)
    (h1 : check.gr1c = gr1cCheck order (some E)) (h2 : check.gr1py = gr1pyCheck order (some P))
    (h3 : check.slugs = some (slugsCheck order (some X)) ∨ check.slugs = none)
    (h4 : check.omega = omegaCheck order (some L))
    {s : GRSpec} {env sys : Option TsArg} {ignoreEnv ignoreSys : Bool} {solver : String}
    (hg : ∀ g, specPlusSys ord s env sys ignoreEnv ignoreSys = .ok g → Plainly g ∧
      (solver = "gr1c" ∨ solver = "gr1py" → g.qinit = c!"\\A \\A" → g.envInit ≠ []) ∧
      (solver = "slugs" → g.qinit = c!"\\A \\E")) {b : Bool}
    (h : isRealizable ord check s env sys ignoreEnv ignoreSys solver = .ok b) :
    ∃ g, specPlusSys ord s env sys ignoreEnv ignoreSys = .ok g ∧ (b = true ↔ Realizable g) := by
  unfold isRealizable at h
  obtain ⟨g, hspec, h⟩ := bind_ok h
  obtain ⟨f, hf, h⟩ := bind_ok h
  refine ⟨g, hspec, ?_⟩
  obtain ⟨g1, g2, g3⟩ := hg g hspec
  unfold Solvers.pick at hf
  split at hf
  · rename_i e
    rw [h1] at hf
    cases hf
    exact gr1cCheck_exact horder hE g1 (g2 (.inl e)) h
  split at hf
  · rename_i e
    cases hs : check.slugs with
    | none => rw [hs] at hf; cases hf
    | some f' =>
      rw [hs] at hf
      cases hf
      rcases h3 with h3 | h3
      · rw [hs] at h3
        obtain rfl := Option.some.inj h3
        exact slugsCheck_exact horder hX g1 (g3 e) h
      · rw [hs] at h3
        cases h3
  split at hf
  · rename_i e
    rw [h2] at hf
    cases hf
    exact gr1pyCheck_exact horder hP g1 (g2 (.inr e)) h
  split at hf
  · rw [h4] at hf
    cases hf
    exact omegaCheck_exact horder hL g1.vars g1.used g1.strings h
  · cases hf

/-! ## What a realizable specification means -/

/-- The value of a formula without temporal operators depends on the values of its variables now. -/
theorem eval_now {a : Ast} (h : NoTemporal false a) {σ σ' : Trace} {i j : Nat}
    (he : ∀ v ∈ a.vars, σ i v = σ' j v) : eval σ a i = eval σ' a j := by
  induction a with
  | var x => exact he x (by simp [Ast.vars])
  | bool | num | str => rfl
  | un op a ih =>
    cases op with
    | not | tilde =>
      have := ih h (fun v hv => he v (by simpa [Ast.vars] using hv))
      simp only [eval, this]
    | next => exact absurd h.1 (by simp)
    | always | eventually => exact h.elim
  | bin op a b iha ihb =>
    have key : NoTemporal false a ∧ NoTemporal false b → _ := fun hab =>
      And.intro (iha hab.1 fun v hv => he v (by simp [Ast.vars, hv]))
        (ihb hab.2 fun v hv => he v (by simp [Ast.vars, hv]))
    cases op with
    | strongUntil | release | weakUntil => exact h.elim
    | and | or | xor | imp | imp2 | bimp | bimp2 =>
      obtain ⟨k1, k2⟩ := key h
      simp only [eval, k1, k2]
  | cmp op a b iha ihb =>
    have k1 := iha h.1 fun v hv => he v (by simp [Ast.vars, hv])
    have k2 := ihb h.2 fun v hv => he v (by simp [Ast.vars, hv])
    simp only [eval]
    rw [k1, k2]
  | ar op a b iha ihb =>
    have k1 := iha h.1 fun v hv => he v (by simp [Ast.vars, hv])
    have k2 := ihb h.2 fun v hv => he v (by simp [Ast.vars, hv])
    simp only [eval, k1, k2]
  | trunc a n ih =>
    have k1 := ih h fun v hv => he v (by simp [Ast.vars, hv])
    simp only [eval, k1]
  | ite c a b ihc iha ihb =>
    have k0 := ihc h.1 fun v hv => he v (by simp [Ast.vars, hv])
    have k1 := iha h.2.1 fun v hv => he v (by simp [Ast.vars, hv])
    have k2 := ihb h.2.2 fun v hv => he v (by simp [Ast.vars, hv])
    simp only [eval, k0, k1, k2]

/-- The initial conditions are about the declared variables, now. -/
def InitNow (g : GRSpec) : Prop := ∀ x ∈ g.envInit ++ g.sysInit, ∀ a, Tulip.parse x = some a →
  NoTemporal false a ∧ ∀ v ∈ a.vars, v ∈ g.envVars.keys ∨ v ∈ g.sysVars.keys

theorem holds_init {g : GRSpec} (h : InitNow g) {x : List Char} (hx : x ∈ g.envInit ++ g.sysInit) {s : Valuation}
    {σ : Trace} (hσ : ∀ k, k ∈ g.envVars.keys ∨ k ∈ g.sysVars.keys → σ 0 k = s k) :
    Holds (fun _ => s) 0 x ↔ Holds σ 0 x := by
  constructor
  · rintro ⟨a, ha, hs⟩
    obtain ⟨h1, h2⟩ := h x hx a ha
    refine ⟨a, ha, ?_⟩
    unfold Sat at *
    rw [← hs]
    exact eval_now h1 fun v hv => hσ v (h2 v hv)
  · rintro ⟨a, ha, hs⟩
    obtain ⟨h1, h2⟩ := h x hx a ha
    refine ⟨a, ha, ?_⟩
    unfold Sat at *
    rw [← hs]
    exact eval_now h1 fun v hv => (hσ v (h2 v hv)).symm

/-- A play that is won, from a state as required, has the meaning of the specification. -/
theorem meaning_of_play {g : GRSpec} {σ : Trace} (h0 : (∀ x ∈ g.envInit, Holds σ 0 x) →
    (∀ x ∈ g.sysInit, Holds σ 0 x) ∧ (specArena g).Play g.plusOne σ) : g.Meaning σ := by
  rintro ⟨a1, a2, a3⟩
  obtain ⟨b1, b2, b3⟩ := h0 a1
  exact ⟨b1, fun x hx i => b2 i (fun j _ y hy => a2 y hy j) x hx, b3 (fun j y hy => a2 y hy j) a3⟩

theorem causal_weaken {A : Arena} {m : Bool} {f : Trace → Trace} (hc : A.Causal m f) : A.Causal false f := by
  intro σ σ' t h k hk
  exact hc σ σ' t (fun i hi => h i (hi.imp id fun hi => ⟨rfl, hi.2⟩)) k hk

open Classical in
/-- **C105.** If a specification with `qinit` equal to `\A \E` is realizable, then the system can choose its values,
from those of the environment so far, such that all executions satisfy the specification. -/
theorem realizable_meaning {g : GRSpec} (hq : g.qinit = c!"\\A \\E") (hi : InitNow g)
    (hdis : ∀ k, k ∈ g.envVars.keys → k ∉ g.sysVars.keys) (hr : Realizable g) :
    ∃ f, (specArena g).Causal false f ∧ ∀ σ : Trace, (∀ t k, (specArena g).env k → (specArena g).dom k (σ t k)) →
      (∀ t k, (specArena g).sys k → σ t k = f σ t k) → g.Meaning σ := by
  unfold Realizable at hr
  rw [hq] at hr
  have hr : ∀ x : Valuation, (∀ k, (specArena g).env k → (specArena g).dom k (x k)) →
      ∃ s, (∀ k, ¬ (specArena g).sys k → s k = x k) ∧ (specArena g).In s ∧
        (specArena g).Form g.moore g.plusOne s := by
    rcases hr with ⟨h, _⟩ | ⟨_, h⟩ | ⟨h, _⟩ | ⟨h, _⟩
    · exact absurd h (by decide)
    · exact h
    · exact absurd h (by decide)
    · exact absurd h (by decide)
  -- the part of a state that the environment chooses
  let pr : Valuation → Valuation := fun x k => if (specArena g).env k then x k else .bool false
  -- the first state and the strategy from there
  have hinit : ∀ x : Valuation, ∃ s : Valuation, ∃ f : Trace → Trace,
      (∀ k, (specArena g).env k → (∀ k, (specArena g).env k → (specArena g).dom k (x k)) → s k = x k) ∧
      (specArena g).Causal false f ∧
      ((∀ k, (specArena g).env k → (specArena g).dom k (x k)) →
        (specArena g).envInit s → (specArena g).sysInit s ∧
        ∀ σ : Trace, (∀ k, (specArena g).env k ∨ (specArena g).sys k → σ 0 k = s k) →
          (∀ t k, (specArena g).env k → (specArena g).dom k (σ t k)) →
          (∀ t k, (specArena g).sys k → σ (t + 1) k = f σ (t + 1) k) → (specArena g).Play g.plusOne σ) := by
    intro x
    have hconst : (specArena g).Causal false (fun _ _ _ => Val.bool false) := fun _ _ _ _ _ _ => rfl
    by_cases hx : ∀ k, (specArena g).env k → (specArena g).dom k (x k)
    · obtain ⟨s, h1, _, h3⟩ := hr x hx
      have hform : (specArena g).envInit s → (specArena g).sysInit s ∧ (specArena g).Win g.moore g.plusOne s := by
        intro he
        cases hp : g.plusOne with
        | true =>
          rw [hp] at h3
          exact ⟨(h3.1 rfl).1, (h3.1 rfl).2 he⟩
        | false =>
          rw [hp] at h3
          exact h3.2 rfl he
      by_cases he : (specArena g).envInit s
      · obtain ⟨h4, f, hc, _, hf⟩ := hform he
        exact ⟨s, f, fun k hk _ => h1 k (hdis k hk), causal_weaken hc, fun _ _ => ⟨h4, hf⟩⟩
      · exact ⟨s, _, fun k hk _ => h1 k (hdis k hk), hconst, fun _ h => absurd h he⟩
    · exact ⟨x, _, fun _ _ _ => rfl, hconst, fun h => absurd h hx⟩
  choose s₀ f₀ hs₀ hc₀ hw₀ using hinit
  have hpr : ∀ σ σ' : Trace, (∀ k, (specArena g).env k → σ 0 k = σ' 0 k) → pr (σ 0) = pr (σ' 0) := by
    intro σ σ' h
    funext k
    simp only [pr]
    split
    · rename_i hk
      exact h k hk
    · rfl
  refine ⟨fun σ t => match t with
    | 0 => s₀ (pr (σ 0))
    | t + 1 => f₀ (pr (σ 0)) σ (t + 1), ?_, ?_⟩
  · intro σ σ' t h k hk
    have e : pr (σ 0) = pr (σ' 0) := hpr σ σ' fun k hk => by
      cases t with
      | zero => exact h 0 (.inr ⟨rfl, rfl⟩) k hk
      | succ t => exact h 0 (.inl (Nat.succ_pos t)) k hk
    cases t with
    | zero => simp only [e]
    | succ t =>
      simp only [e]
      exact hc₀ _ σ σ' (t + 1) h k hk
  · intro σ henv hsys
    have hprd : ∀ k, (specArena g).env k → (specArena g).dom k (pr (σ 0) k) := by
      intro k hk
      simp only [pr, if_pos hk]
      exact henv 0 k hk
    have hsame : ∀ k, k ∈ g.envVars.keys ∨ k ∈ g.sysVars.keys → σ 0 k = s₀ (pr (σ 0)) k := by
      rintro k (hk | hk)
      · rw [hs₀ (pr (σ 0)) k hk hprd]
        simp only [pr]
        rw [if_pos (show (specArena g).env k from hk)]
      · exact hsys 0 k hk
    refine meaning_of_play fun he => ?_
    obtain ⟨h1, h2⟩ := hw₀ (pr (σ 0)) hprd fun x hx =>
      (holds_init hi (List.mem_append_left _ hx) hsame).2 (he x hx)
    exact ⟨fun x hx => (holds_init hi (List.mem_append_right _ hx) hsame).1 (h1 x hx),
      h2 σ hsame henv fun t k hk => hsys (t + 1) k hk⟩

/-! ## Examples -/

section

open Classical in
/-- Solvers that are right about all files and games exist. -/
example : ∃ (E : Gr1cExe ν δ) (P : Gr1pyLib ν δ) (X : SlugsExe), E.Decides ∧ P.Decides ∧ SlugsDecides X := by
  refine ⟨⟨fun _ _ => (1, ⟨1, [], [], []⟩), fun o s => if FileRealizable s o then 0 else 1⟩,
    ⟨fun _ _ => none, fun o s => decide (FileRealizable s o)⟩,
    fun _ s => ⟨0, if (slugsArena s).Realizable false false c!"\\A \\E" then c!"Specification is realizable"
      else c!"Specification is " ++ c!"unrealizable", [], []⟩, ?_, ?_, ?_⟩
  · intro o s
    simp only
    split <;> simp [*]
  · intro o s
    simp
  · intro s _
    simp only
    split
    · rename_i h
      simp [h]
    · rename_i h
      have : ¬ (c!"Specification is " ++ c!"realizable") <:+: (c!"Specification is " ++ c!"unrealizable") := by
        decide
      exact ⟨fun h' => absurd h' this, fun h' => absurd h' h⟩

open Classical in
example : ∃ L : OmegaLib ν, L.Decides :=
  ⟨⟨fun _ => false, fun G => decide ((gameArena G).Realizable G.moore G.plusOne G.qinit),
    fun _ => ⟨[], [], []⟩⟩, fun G => by simp⟩

/-- The lamp can be kept on. -/
theorem lamp_realizable : Realizable lamp := by
  have h1 : Tulip.parse c!"y" = some (.var "y") := by decide +kernel
  have h2 : Tulip.parse c!"X y" = some (.un .next (.var "y")) := by decide +kernel
  have hsys : ∀ k, (specArena lamp).sys k ↔ k = "y" := fun k => List.mem_singleton
  have henv : ∀ k, (specArena lamp).env k ↔ k = "x" := fun k => List.mem_singleton
  refine .inr (.inl ⟨rfl, fun x hx => ⟨fun k => if k = "y" then .bool true else x k, fun k hk => ?_, fun k hk => ?_, ?_⟩⟩)
  · rw [hsys] at hk
    exact if_neg hk
  · rcases hk with hk | hk
    · have := hx k hk
      rw [henv] at hk
      subst hk
      exact this
    · rw [hsys] at hk
      subst hk
      exact ⟨.boolean, by decide, true, rfl⟩
  · refine ⟨fun h => (by cases h), fun _ _ => ⟨?_, fun _ _ _ => .bool true, fun _ _ _ _ _ _ => rfl, ?_, ?_⟩⟩
    · intro c hc
      have hc : c ∈ [c!"y"] := hc
      obtain rfl := List.mem_singleton.1 hc
      exact ⟨_, h1, by simp⟩
    · intro _ _ k hk
      rw [hsys] at hk
      subst hk
      exact ⟨.boolean, by decide, true, rfl⟩
    · intro σ h0 _ hf
      have hy : ∀ t, σ t "y" = .bool true := by
        intro t
        cases t with
        | zero => exact h0 "y" (.inr ((hsys _).2 rfl))
        | succ t => exact hf t "y" ((hsys _).2 rfl)
      refine ⟨fun i _ c hc => ?_, fun _ _ c hc i => ?_⟩
      · have hc : c ∈ [c!"X y"] := hc
        obtain rfl := List.mem_singleton.1 hc
        exact ⟨_, h2, by simp [hy]⟩
      · have hc : c ∈ [c!"y"] := hc
        obtain rfl := List.mem_singleton.1 hc
        exact ⟨i, le_refl i, _, h1, by simp [hy]⟩

/-- The system cannot make the environment start with `x`. -/
def wish (q : List Char) : GRSpec :=
  { lamp with sysInit := [c!"x"], sysSafety := [], sysProg := [], qinit := q }

theorem wish_not_realizable : ¬ Realizable (wish c!"\\A \\E") := by
  have h1 : Tulip.parse c!"x" = some (.var "x") := by decide +kernel
  intro h
  rcases h with ⟨h, _⟩ | ⟨_, h⟩ | ⟨h, _⟩ | ⟨h, _⟩
  · exact absurd h (by decide)
  · obtain ⟨s, h2, _, h3⟩ := h (fun _ => .bool false) fun k hk => by
      have hk : k ∈ ["x"] := hk
      obtain rfl := List.mem_singleton.1 hk
      exact ⟨.boolean, by decide, false, rfl⟩
    obtain ⟨h4, _⟩ := h3.2 rfl (fun x hx => by cases hx)
    obtain ⟨a, ha, hs⟩ := h4 c!"x" (List.mem_singleton.2 rfl)
    rw [h1] at ha
    obtain rfl := Option.some.inj ha
    have hs : s "x" = .bool true := by simpa using hs
    rw [h2 "x" (by show "x" ∉ ["y"]; decide)] at hs
    cases hs
  · exact absurd h (by decide)
  · exact absurd h (by decide)

/-- The interface to `slugs` does not look at `qinit`: the file is the same for a specification that is
realizable and for one that is not. -/
theorem slugs_qinit_counterexample :
    slugsInput parts (wish c!"\\E \\E") = slugsInput parts (wish c!"\\A \\E") ∧
      (slugsInput parts (wish c!"\\A \\E")).toOption.isSome = true ∧
      Realizable (wish c!"\\E \\E") ∧ ¬ Realizable (wish c!"\\A \\E") := by
  have h1 : Tulip.parse c!"x" = some (.var "x") := by decide +kernel
  have hk1 : (slugsInput parts (wish c!"\\E \\E")).toOption = (slugsInput parts (wish c!"\\A \\E")).toOption := by
    decide +kernel
  have hk2 : (slugsInput parts (wish c!"\\A \\E")).toOption.isSome = true := by decide +kernel
  refine ⟨?_, hk2, ?_, wish_not_realizable⟩
  · cases ha : slugsInput parts (wish c!"\\E \\E") with
    | error e => rw [ha] at hk1; rw [← hk1] at hk2; cases hk2
    | ok s =>
      cases hb : slugsInput parts (wish c!"\\A \\E") with
      | error e => rw [hb] at hk2; cases hk2
      | ok s' => rw [ha, hb] at hk1; cases hk1; rfl
  · refine .inr (.inr (.inr ⟨rfl, fun _ => .bool true, fun k hk => ?_, fun c hc => ?_, ?_⟩))
    · have hk : k ∈ ["x"] ∨ k ∈ ["y"] := hk
      simp only [List.mem_singleton] at hk
      rcases hk with rfl | rfl
      · exact ⟨.boolean, by decide, true, rfl⟩
      · exact ⟨.boolean, by decide, true, rfl⟩
    · have hc : c ∈ [c!"x"] := hc
      obtain rfl := List.mem_singleton.1 hc
      exact ⟨_, h1, by simp⟩
    · refine ⟨fun _ _ _ => .bool true, fun _ _ _ _ _ _ => rfl, fun _ _ k hk => ?_, fun σ _ _ _ => ?_⟩
      · have hk : k ∈ ["y"] := hk
        obtain rfl := List.mem_singleton.1 hk
        exact ⟨.boolean, by decide, true, rfl⟩
      · exact ⟨fun _ _ c hc => (by cases hc), fun _ _ c hc => (by cases hc)⟩

example : InitNow lamp := by
  intro x hx a ha
  have h1 : Tulip.parse c!"y" = some (.var "y") := by decide +kernel
  have hx : x ∈ [c!"y"] := hx
  obtain rfl := List.mem_singleton.1 hx
  rw [h1] at ha
  obtain rfl := Option.some.inj ha
  exact ⟨trivial, fun v hv => by
    have hv : v ∈ ["y"] := hv
    exact .inr hv⟩

end

end Iface

end Tulip
