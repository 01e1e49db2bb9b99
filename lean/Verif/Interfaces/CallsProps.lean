import Verif.Interfaces.Calls
import Verif.Interfaces.Gr1cProps
import Verif.Interfaces.SlugsProps
import Verif.Interfaces.OmegaProps
import Verif.Spec.TransOutProps
import Verif.Synth.SynthesizeProps

/-!
# From the files given to the solvers to the strategies returned (C104)

What is assumed is about the solver and the file that it reads, not about the specification of the caller. The
conclusion is `Solver.Correct`, which is what `synthesize` needs (C80).
-/

namespace Tulip

namespace Iface

open Synth Cache Trans Mach

variable {ν δ : Type} [DecidableEq ν]

/-! ## Specification -/

/-- The number `z` is a value of the domain. -/
def Dom.Has : Dom → Int → Prop
  | .boolean, z => z = 0 ∨ z = 1
  | .range lo hi, z => lo ≤ z ∧ z ≤ hi
  | .strs _, _ => False

/-- The value in a trace that the number `z` stands for: 0 and 1 are the values of a Boolean variable. -/
def intVal : Dom → Int → Val
  | .boolean, z => .bool (decide (z ≠ 0))
  | _, z => .int z

/-- The variables that an input file of `gr1c` declares, those of the environment first. -/
def Declares (s : List Char) (l : List (List Char × Dom)) : Prop :=
  ∃ E S, readDecls (words (body s c!"ENV")) = some E ∧ readDecls (words (body s c!"SYS")) = some S ∧ l = E ++ S

/-- What an input file of `gr1c` asks for on a trace of numbers. -/
def FileMeaning (s : List Char) (τ : Trace) : Prop :=
  Says τ (body s c!"ENVINIT") ∧ Says τ (body s c!"ENVTRANS") ∧ Says τ (body s c!"ENVGOAL") →
    Says τ (body s c!"SYSINIT") ∧ Says τ (body s c!"SYSTRANS") ∧ Says τ (body s c!"SYSGOAL")

/-- A printed strategy wins the game of the file: the vectors have one value for each declared variable, in
its domain, and all plays from an initial node have the meaning of the file. -/
structure WinsFile (s : List Char) (p : Printed ν δ Synth.Elem) : Prop where
  ok : p.Ok
  wins : ∃ decls, Declares s decls ∧ p.names.map String.toList = decls.map (·.1) ∧
    (∀ u n, (u, n) ∈ p.nodes → List.Forall₂ (fun d x => ∃ z, x = Synth.Elem.int z ∧ Dom.Has d.2 z) decls n.1) ∧
    ∀ (v : Nat → ν) (τ : Trace), (∃ n, (v 0, n) ∈ p.nodes ∧ n.2.2 = true) →
      (∀ t, ∃ n, (v t, n) ∈ p.nodes ∧ v (t + 1) ∈ n.2.1 ∧
        List.Forall₂ (fun d x => ∃ z, x = Synth.Elem.int z ∧ τ t (String.ofList d.1) = intVal d.2 z) decls n.1) →
      FileMeaning s τ

/-- What is assumed of `gr1c`: with return code 0 it prints a strategy that wins the game of the file. -/
def Gr1cExe.Sound (E : Gr1cExe ν δ) : Prop :=
  ∀ o s j, E.solve o s = (0, j) → ∃ p, j = p.json ∧ WinsFile s p

/-- What is assumed of `gr1py`. -/
def Gr1pyLib.Sound (L : Gr1pyLib ν δ) : Prop :=
  ∀ o s j, L.solve o s = some j → ∃ p, j = p.json ∧ WinsFile s p

/-- Specifications that the translations preserve: distinct names with letters, digits and underscores,
strings used as in `StrUse`, no temporal operator below `X`, and no string twice in a domain. -/
structure Plainly (g : GRSpec) : Prop where
  vars : VarsOk g.envVars g.sysVars
  names : ∀ v ∈ g.envVars.keys ++ g.sysVars.keys, Plain v
  used : Omega.WellUsed g
  nesting : NoNesting g
  strings : ∀ v l, (strVars g).get? v = some l → l.Nodup

/-! ## Plays -/

theorem get?_cacheStr {g : GRSpec} (h : VarsOk g.envVars g.sysVars) (k : String) :
    (Cache.strVars g).get? k = ((Dict.update g.envVars g.sysVars).get? k).bind fun t => match t with
      | .strs l => some l
      | _ => none :=
  get?_pick (d := Dict.update g.envVars g.sysVars) (Dict.wf_update h.env _) k

/-- If all plays of numbers have the meaning `M`, and `M` of the numbers implies the meaning of the
specification, then the strategy wins. -/
theorem wins_of_numbers {A : Strategy ν} {isInit : Attr Synth.Elem → Except PyErr Bool} {g : GRSpec}
    (hv : VarsOk g.envVars g.sysVars) (hs : ∀ v l, (Cache.strVars g).get? v = some l → l.Nodup)
    (hw : A.nodes.Wf)
    (hnodes : ∀ u st, (u, st) ∈ A.nodes → ∀ k d, (Dict.update g.envVars g.sysVars).get? k = some d →
      ∃ z, Dict.get? st k = some (Synth.Elem.int z) ∧ Dom.Has (solverDom d) z)
    {M : Trace → Prop}
    (hM : ∀ σ, InDomains (Cache.strVars g) σ → M (Tulip.encode (Cache.strVars g) σ) → g.Meaning σ)
    (hplay : ∀ (v : Nat → ν) (τ : Trace), IsInitial A isInit (v 0) → (∀ t, (v t, v (t + 1)) ∈ A.edges) →
      (∀ t, v t ∈ A.nodes.keys) →
      (∀ t st, (v t, st) ∈ A.nodes → ∀ k d z, (Dict.update g.envVars g.sysVars).get? k = some d →
        Dict.get? st k = some (Synth.Elem.int z) → τ t k = intVal (solverDom d) z) → M τ) :
    Wins A isInit g := by
  intro v σ h0 he hl
  have key : ∀ t, v t ∈ A.nodes.keys ∧ ∀ st, (v t, st) ∈ A.nodes → ∀ k d,
      (Dict.update g.envVars g.sysVars).get? k = some d → ∀ z, Dict.get? st k = some (Synth.Elem.int z) →
        (∀ l, d = .strs l → ∃ s ∈ l, σ t k = .str s) ∧
        Tulip.encode (Cache.strVars g) σ t k = intVal (solverDom d) z := by
    intro t
    obtain ⟨d, ⟨st, hst, hd⟩, hsh⟩ := hl t
    refine ⟨List.mem_map_of_mem (f := Prod.fst) hst, ?_⟩
    intro st' hst' k dom hk z hz
    have e : st' = st := by
      have h1 := get?_of_mem_wf hw hst
      have h2 := get?_of_mem_wf hw hst'
      rw [h1] at h2
      exact (Option.some.inj h2).symm
    subst e
    obtain ⟨z', hz', hin⟩ := hnodes _ _ hst k dom hk
    rw [hz] at hz'
    obtain rfl : z = z' := by injection hz' with h; injection h
    have hsv := get?_cacheStr hv k
    rw [hk] at hsv
    cases dom with
    | boolean =>
      have h1 : Dict.get? d k = some (.int z) := (hd k _).2 ⟨_, hz, by simp [Written, hk]⟩
      have h2 := hsh k _ h1
      refine ⟨fun l h => (by cases h), ?_⟩
      simp only [Tulip.encode, hsv, Option.bind_some]
      rw [h2, hk]
      rfl
    | range lo hi =>
      have h1 : Dict.get? d k = some (.int z) := (hd k _).2 ⟨_, hz, by simp [Written, hk]⟩
      have h2 := hsh k _ h1
      refine ⟨fun l h => (by cases h), ?_⟩
      simp only [Tulip.encode, hsv, Option.bind_some]
      rw [h2, hk]
      rfl
    | strs l =>
      simp only [solverDom, Dom.Has] at hin
      obtain ⟨n, rfl⟩ := Int.eq_ofNat_of_zero_le hin.1
      have hlt : n < l.length := by omega
      have h1 : Dict.get? d k = some (.str l[n]) := (hd k _).2 ⟨_, hz, by
        simp only [Written, hk]
        exact ⟨n, l[n], rfl, List.getElem?_eq_getElem hlt, rfl⟩⟩
      have h2 := hsh k _ h1
      rw [hk] at h2
      have h3 : σ t k = .str l[n] := h2
      refine ⟨fun l' h => ?_, ?_⟩
      · cases h
        exact ⟨l[n], List.getElem_mem hlt, h3⟩
      · simp only [Tulip.encode, hsv, Option.bind_some, h3]
        rw [List.Nodup.idxOf_getElem (hs k l hsv)]
        rfl
  refine hM σ ?_ (hplay v _ h0 he (fun t => (key t).1) fun t st hst k d z hk hz => ((key t).2 st hst k d hk z hz).2)
  intro t k l hk
  rw [get?_cacheStr hv k] at hk
  cases hd : (Dict.update g.envVars g.sysVars).get? k with
  | none => rw [hd] at hk; cases hk
  | some dom =>
    rw [hd] at hk
    cases dom with
    | boolean => cases hk
    | range => cases hk
    | strs l' =>
      cases hk
      obtain ⟨⟨u, st⟩, hst, e⟩ := List.mem_map.mp (key t).1
      have e : u = v t := e
      subst e
      obtain ⟨z, hz, _⟩ := hnodes _ _ hst k _ hd
      exact ((key t).2 st hst k _ hd z hz).1 l rfl

/-! ## `gr1c` and `gr1py` -/

theorem update_get?_iff {e s : Dict String Dom} (h : VarsOk e s) {k : String} {d : Dom} :
    (Dict.update e s).get? k = some d ↔ (k, d) ∈ e ++ s := by
  rw [Dict.get?_update_wf h.sys, List.mem_append]
  constructor
  · intro hk
    cases hs : s.get? k with
    | some x => rw [hs] at hk; cases hk; exact .inr (get?_mem hs)
    | none => rw [hs] at hk; exact .inl (get?_mem hk)
  · rintro (hk | hk)
    · have h1 := get?_of_mem_wf h.env hk
      have h2 := h.disjoint k ((Dict.has_iff _ _).2 ⟨_, h1⟩)
      rw [Dict.has_false_iff] at h2
      rw [h2, h1]
      rfl
    · rw [get?_of_mem_wf h.sys hk]
      rfl

/-- The heart of C104 for `gr1c`: a printed strategy that wins the game of the translated file is, as read by
`load_aut_json`, a well-formed strategy that wins the specification. -/
theorem winsFile_correct {order : List Part} (horder : ∀ p, p ∈ order) {g : GRSpec} (hg : Plainly g)
    {s : List Char} (hs : (translateGr1c order (new g)).2 = .ok s) {p : Printed ν δ Synth.Elem}
    (hp : WinsFile s p) {a : AutGraph ν δ Synth.Elem} (ha : loadAutJson p.json = .ok a)
    (isInit : Attr Synth.Elem → Except PyErr Bool) :
    a.strategy.Good (Dict.update g.envVars g.sysVars) ∧ Wins a.strategy isInit g := by
  obtain ⟨_, _, h3⟩ := translateGr1c_correct horder g (ops := []) trivial
  obtain ⟨_, dE, dS, hmean, _⟩ := h3 s hs hg.names
  obtain ⟨decls, ⟨E, S, hE, hS, rfl⟩, hnames, hvecs, hplays⟩ := hp.wins
  rw [hE] at dE
  rw [hS] at dS
  have dE : E = g.envVars.map fun p => (p.1.toList, solverDom p.2) := Option.some.inj dE
  have dS : S = g.sysVars.map fun p => (p.1.toList, solverDom p.2) := Option.some.inj dS
  subst dE dS
  rw [← List.map_append] at hnames hvecs hplays
  have hnames : p.names = (g.envVars ++ g.sysVars).map (·.1) := by
    rw [List.map_map] at hnames
    have := congrArg (List.map String.ofList) hnames
    rw [List.map_map, List.map_map] at this
    simpa [Function.comp_def] using this
  -- the entries of the state of a node
  have hst : ∀ u n, (u, n) ∈ p.nodes → ∀ k x, Dict.get? (p.names.zip n.1) k = some x ↔ (k, x) ∈ p.names.zip n.1 := by
    intro u n hn k x
    have hwf : Dict.Wf (p.names.zip n.1) := by
      show List.Nodup _
      unfold Dict.keys
      rw [map_fst_zip _ _ (hp.ok.states u n hn)]
      exact hp.ok.names
    exact ⟨get?_mem, get?_of_mem_wf hwf⟩
  have hzip : ∀ (l : List (String × Dom)) (vec : List Synth.Elem) (R : List Char × Dom → Synth.Elem → Prop),
      List.Forall₂ R (l.map fun p => (p.1.toList, solverDom p.2)) vec →
      (∀ k d, (k, d) ∈ l → ∃ x, (k, x) ∈ (l.map (·.1)).zip vec ∧ R (k.toList, solverDom d) x) := by
    intro l
    induction l with
    | nil => intro vec R _ k d h; cases h
    | cons q l ih =>
      intro vec R hf k d hm
      cases vec with
      | nil => cases hf
      | cons x vec =>
        cases hf with
        | cons hx hf =>
          rcases List.mem_cons.1 hm with h | h
          · subst h
            exact ⟨x, List.mem_cons_self, hx⟩
          · obtain ⟨y, h1, h2⟩ := ih vec R hf k d h
            exact ⟨y, List.mem_cons_of_mem _ h1, h2⟩
  have hval : ∀ u n, (u, n) ∈ p.nodes → ∀ k d, (Dict.update g.envVars g.sysVars).get? k = some d →
      ∃ z, Dict.get? (p.names.zip n.1) k = some (Synth.Elem.int z) ∧ Dom.Has (solverDom d) z := by
    intro u n hn k d hk
    rw [update_get?_iff hg.vars] at hk
    obtain ⟨x, h1, z, rfl, h2⟩ := hzip _ _ _ (hvecs u n hn) k d hk
    rw [← hnames] at h1
    exact ⟨z, (hst u n hn k _).2 h1, h2⟩
  obtain ⟨hgood, hnodes, hedges, hinit⟩ := loadAutJson_good hp.ok (vars := Dict.update g.envVars g.sysVars) (by
    intro u n hn k l z hk hz
    obtain ⟨z', h1, h2⟩ := hval u n hn k _ hk
    rw [(hst u n hn k _).2 hz] at h1
    obtain rfl : z = z' := by injection h1 with h; injection h
    exact h2.1) ha
  refine ⟨hgood, wins_of_numbers hg.vars hg.strings hgood.nodesWf ?_ (M := FileMeaning s) ?_ ?_⟩
  · intro u st hm k d hk
    rw [hnodes] at hm
    obtain ⟨⟨u', n⟩, hn, e⟩ := List.mem_map.mp hm
    cases e
    exact hval _ _ hn k d hk
  · intro σ hσ hM
    obtain ⟨m1, m2, m3, m4, m5, m6, _⟩ := hmean hg.used hg.nesting σ hσ
    intro ⟨a1, a2, a3⟩
    obtain ⟨b1, b2, b3⟩ := hM ⟨m1.2 a1, m2.2 a2, m3.2 a3⟩
    exact ⟨m4.1 b1, m5.1 b2, m6.1 b3⟩
  · intro v τ h0 he hin hτ
    refine hplays v τ ((hinit isInit _).1 h0) fun t => ?_
    obtain ⟨n, hn, hv⟩ := (hedges _ _).1 (he t)
    refine ⟨n, hn, hv, ?_⟩
    have hm : (v t, p.names.zip n.1) ∈ a.strategy.nodes := by
      rw [hnodes]
      exact List.mem_map.mpr ⟨(v t, n), hn, rfl⟩
    have h1 := hvecs _ _ hn
    have hlen := h1.length_eq
    rw [List.forall₂_iff_get] at h1 ⊢
    refine ⟨h1.1, fun i hi hi' => ?_⟩
    obtain ⟨z, e1, e2⟩ := h1.2 i hi hi'
    refine ⟨z, e1, ?_⟩
    have hi2 : i < (g.envVars ++ g.sysVars).length := by simpa using hi
    have hmem := List.getElem_mem hi2
    have e3 : ((g.envVars ++ g.sysVars).map fun p => (p.1.toList, solverDom p.2)).get ⟨i, hi⟩ =
        ((g.envVars ++ g.sysVars)[i].1.toList, solverDom (g.envVars ++ g.sysVars)[i].2) := by
      rw [List.get_eq_getElem, List.getElem_map]
    rw [e3]
    simp only [String.ofList_toList]
    refine hτ t _ hm _ _ z ((update_get?_iff hg.vars).2 hmem) ((hst _ _ hn _ _).2 ?_)
    have hi3 : i < (p.names.zip n.1).length := by
      rw [List.length_zip, hnames, List.length_map]
      exact Nat.lt_min.2 ⟨hi2, hi'⟩
    have e4 : (p.names.zip n.1)[i] = ((g.envVars ++ g.sysVars)[i].1, Synth.Elem.int z) := by
      rw [List.getElem_zip]
      refine Prod.ext ?_ e1
      exact (List.getElem_of_eq hnames _).trans (List.getElem_map _)
    rw [← e4]
    exact List.getElem_mem hi3

/-- **C104 (gr1c).** If `gr1c` is right about the files it reads, then `gr1c.synthesize` is a correct solver of
specifications. -/
theorem gr1cSynthesize_correct {order : List Part} (horder : ∀ p, p ∈ order) {E : Gr1cExe ν δ} (hE : E.Sound)
    {g : GRSpec} (hg : Plainly g) (isInit : GRSpec → Attr Synth.Elem → Except PyErr Bool) :
    Solver.Correct isInit (gr1cSynthesize order (some E)) g := by
  intro A hA
  unfold gr1cSynthesize at hA
  obtain ⟨o, _, hA⟩ := bind_ok hA
  obtain ⟨s, hs, hA⟩ := bind_ok hA
  simp only at hA
  split at hA
  · rename_i hc
    obtain ⟨a, ha, hA⟩ := bind_ok hA
    obtain ⟨p, hj, hp⟩ := hE o s (E.solve o s).2 (Prod.ext hc rfl)
    rw [hj] at ha
    cases hA
    exact winsFile_correct horder hg hs hp ha _
  · cases hA

/-- **C104 (gr1py).** The same for `gr1py`. -/
theorem gr1pySynthesize_correct {order : List Part} (horder : ∀ p, p ∈ order) {L : Gr1pyLib ν δ} (hL : L.Sound)
    {g : GRSpec} (hg : Plainly g) (isInit : GRSpec → Attr Synth.Elem → Except PyErr Bool) :
    Solver.Correct isInit (gr1pySynthesize order (some L)) g := by
  intro A hA
  unfold gr1pySynthesize at hA
  obtain ⟨q, hq, hA⟩ := bind_ok hA
  unfold gr1pyInput at hq
  obtain ⟨o, _, hq⟩ := bind_ok hq
  obtain ⟨s, hs, hq⟩ := bind_ok hq
  cases hq
  simp only at hA
  split at hA
  · cases hA
  · rename_i j hj
    obtain ⟨a, ha, hA'⟩ := bind_ok hA
    obtain ⟨p, rfl, hp⟩ := hL o s j hj
    cases hA'
    exact winsFile_correct horder hg hs hp ha _

/-! ## `omega` -/

/-- The number `z` is a value of the domain. -/
def OmHas : Omega.OmDom → Int → Prop
  | .bool, z => z = 0 ∨ z = 1
  | .range lo hi, z => lo ≤ z ∧ z ≤ hi

/-- The value in a trace that the number `z` stands for. -/
def omVal : Omega.OmDom → Int → Val
  | .bool, z => .bool (decide (z ≠ 0))
  | .range _ _, z => .int z

/-- What a game asks for on a trace of numbers. -/
def GameMeaning (G : Omega.Game) (τ : Trace) : Prop :=
  Holds τ 0 G.initEnv → (∀ i, Holds τ i G.actionEnv) →
    Holds τ 0 G.initSys ∧ (∀ i, Holds τ i G.actionSys) ∧ Omega.Streett G τ

/-- An enumerated strategy wins the game: each node gives each variable one value, in its domain, and all plays
from an initial node have the meaning of the game. -/
structure WinsGame (G : Omega.Game) (h : Omega.Enumerated ν Synth.Elem) : Prop where
  nodes : h.nodes.Wf
  states : ∀ u st, (u, st) ∈ h.nodes → Dict.Wf st
  edges : ∀ e ∈ h.edges, e.1 ∈ h.nodes.keys
  values : ∀ u st, (u, st) ∈ h.nodes → ∀ k d, G.vars.get? k = some d →
    ∃ z, Dict.get? st k = some (Synth.Elem.int z) ∧ OmHas d z
  plays : ∀ (v : Nat → ν) (τ : Trace), v 0 ∈ h.initial → (∀ t, (v t, v (t + 1)) ∈ h.edges) →
    (∀ t st, (v t, st) ∈ h.nodes → ∀ k d z, G.vars.get? k = some d →
      Dict.get? st k = some (Synth.Elem.int z) → τ t k = omVal d z) → GameMeaning G τ

/-- What is assumed of `omega`: for a realizable game it enumerates a strategy that wins. -/
def OmegaLib.Sound (L : OmegaLib ν) : Prop := ∀ G, L.realizable G = true → WinsGame G (L.strategy G)

theorem convert_has {d : Dom} {z : Int} : OmHas (Omega.convert d) z → Dom.Has (solverDom d) z := by
  cases d <;> exact id

theorem convert_val (d : Dom) (z : Int) : omVal (Omega.convert d) z = intVal (solverDom d) z := by
  cases d <;> rfl

/-- **C104 (omega).** If `omega` is right about the games that it is given, then the interface is a correct
solver of specifications. Primed variables may be nested here. -/
theorem omegaSynthesize_correct {order : List Part} (horder : ∀ p, p ∈ order) {L : OmegaLib ν} (hL : L.Sound)
    {g : GRSpec} (hv : VarsOk g.envVars g.sysVars) (hu : Omega.WellUsed g)
    (hstr : ∀ v l, (Cache.strVars g).get? v = some l → l.Nodup)
    (isInit : GRSpec → Attr Synth.Elem → Except PyErr Bool) :
    Solver.Correct isInit (omegaSynthesize order (some L)) g := by
  intro A hA
  unfold omegaSynthesize at hA
  obtain ⟨G, hG, hA⟩ := bind_ok hA
  split at hA
  · cases hA
  split at hA
  · cases hA
  rename_i hr
  have hr : L.realizable G = true := by simpa using hr
  have hwin := hL G hr
  cases hA
  obtain ⟨_, h2⟩ := Omega.toAutomaton_correct horder g (ops := []) trivial (st' := (Omega.toAutomaton order (new g)).1)
    (r := (Omega.toAutomaton order (new g)).2) rfl
  obtain ⟨⟨hvars, _⟩, hmean⟩ := h2 G hG
  have hvars : ∀ v, G.vars.get? v = ((Dict.update g.envVars g.sysVars).get? v).map Omega.convert := hvars
  obtain ⟨n1, n2, n3, n4, _⟩ := Omega.toStateAnnotated_correct (L.strategy G) hwin.nodes G.vars
  have hnodes : (Omega.toStateAnnotated (L.strategy G) G.vars).nodes =
      (L.strategy G).nodes.map fun p => (p.1, p.2.filter fun k => G.vars.has k.1) := by
    have := Omega.foldl_set_get? (L.strategy G).nodes hwin.nodes
      (fun d : Dict String Synth.Elem => d.filter fun k => G.vars.has k.1) [] (by simp [Dict.keys])
    exact this.trans (by simp)
  have hfil : ∀ (st : Attr Synth.Elem) k d, G.vars.get? k = some d →
      Dict.get? (st.filter fun k => G.vars.has k.1) k = Dict.get? st k := by
    intro st k d hk
    rw [Cache.get?_filter st (fun k => G.vars.has k) k]
    have : G.vars.has k = true := (Dict.has_iff _ _).2 ⟨d, hk⟩
    simp [this]
  have hwf : Dict.Wf (Omega.toStateAnnotated (L.strategy G) G.vars).nodes := by
    unfold Dict.Wf; rw [n1]; exact hwin.nodes
  have hval : ∀ u st, (u, st) ∈ (Omega.toStateAnnotated (L.strategy G) G.vars).nodes → ∀ k d,
      (Dict.update g.envVars g.sysVars).get? k = some d →
      ∃ z, Dict.get? st k = some (Synth.Elem.int z) ∧ Dom.Has (solverDom d) z := by
    intro u st hm k d hk
    rw [hnodes] at hm
    obtain ⟨⟨u', st'⟩, hm', e⟩ := List.mem_map.mp hm
    cases e
    have hG' : G.vars.get? k = some (Omega.convert d) := by rw [hvars, hk]; rfl
    obtain ⟨z, h1, h2⟩ := hwin.values _ _ hm' k _ hG'
    exact ⟨z, (hfil st' k _ hG').trans h1, convert_has h2⟩
  refine ⟨⟨hwf, ?_, ?_, n3, ?_⟩, wins_of_numbers hv hstr hwf hval (M := GameMeaning G) ?_ ?_⟩
  · intro u st hm
    have hm : (u, st) ∈ (Omega.toStateAnnotated (L.strategy G) G.vars).nodes := hm
    rw [hnodes] at hm
    obtain ⟨⟨u', st'⟩, hm', e⟩ := List.mem_map.mp hm
    cases e
    exact List.Nodup.sublist ((List.filter_sublist (l := st')).map _) (hwin.states _ _ hm')
  · intro e he
    have he : e ∈ (Omega.toStateAnnotated (L.strategy G) G.vars).edges := he
    show e.1 ∈ Dict.keys (Omega.toStateAnnotated (L.strategy G) G.vars).nodes
    rw [n1]
    exact hwin.edges e ((n2 e).1 he)
  · intro u st k n l hm hk hn
    obtain ⟨z, h1, h2⟩ := hval u st hm k _ hk
    rw [hn] at h1
    obtain rfl : n = z := by injection h1 with h; injection h
    exact h2.1
  · intro σ hσ hM
    obtain ⟨m1, m2, m3, m4, m5⟩ := hmean hu σ hσ
    intro ⟨a1, a2, a3⟩
    obtain ⟨b1, b2, b3⟩ := hM (m1.2 a1) (fun i => (m3 i).2 fun f hf => a2 f hf i)
    exact ⟨m2.1 b1, fun f hf i => (m4 i).1 (b2 i) f hf, m5.1 b3 a3⟩
  · intro v τ h0 he _ hτ
    refine hwin.plays v τ h0 (fun t => (n2 _).1 (he t)) fun t st hm k d z hk hz => ?_
    rw [hvars] at hk
    obtain ⟨d', hd', rfl⟩ := Option.map_eq_some_iff.mp hk
    rw [convert_val]
    have hG' : G.vars.get? k = some (Omega.convert d') := by rw [hvars, hd']; rfl
    refine hτ t (st.filter fun k => G.vars.has k.1) ?_ k d' z hd' ((hfil st k _ hG').trans hz)
    show _ ∈ (Omega.toStateAnnotated (L.strategy G) G.vars).nodes
    rw [hnodes]
    exact List.mem_map.mpr ⟨(v t, st), hm, rfl⟩

/-! ## `slugs` -/

/-- The domain has only values that `slugs` can encode with bits. -/
def Dom.Bits : Dom → Prop
  | .boolean => True
  | .range lo hi => 0 ≤ lo ∧ 0 < hi
  | .strs _ => False

/-- The variables that an input file of `slugs` declares. -/
def SlugsDeclares (s : List Char) (E S : List (List Char × Dom)) : Prop :=
  (slugsLines c!"INPUT" s).map readSlugsVar = E.map some ∧ (slugsLines c!"OUTPUT" s).map readSlugsVar = S.map some

/-- What an input file of `slugs` asks for on a trace that starts as it must. -/
def SlugsMeaning (s : List Char) (τ : Trace) : Prop :=
  (∀ l ∈ slugsLines c!"ENV_INIT" s, Holds τ 0 l) → (∀ l ∈ slugsLines c!"SYS_INIT" s, Holds τ 0 l) →
  (∀ i, ∀ l ∈ slugsLines c!"ENV_TRANS" s, Holds τ i l) → (∀ l ∈ slugsLines c!"ENV_LIVENESS" s, Omega.Recurs τ l) →
    (∀ i, ∀ l ∈ slugsLines c!"SYS_TRANS" s, Holds τ i l) ∧ ∀ l ∈ slugsLines c!"SYS_LIVENESS" s, Omega.Recurs τ l

/-- A strategy printed by `slugs` wins the game of the file: the bits of each node encode values `z` of the
declared variables, in their domains, and all plays that start in any node have the meaning of the file. -/
structure WinsSlugs (s : List Char) (r : SlugsOutput) : Prop where
  nodes : r.nodes.Wf
  trans : ∀ u n, (u, n) ∈ r.nodes → ∀ v ∈ n.trans, v ∈ r.nodes.keys
  wins : ∃ E S, SlugsDeclares s E S ∧ ∃ z : Int → List Char → Int,
    (∀ u n, (u, n) ∈ r.nodes → ∀ k d, (k, d) ∈ E ++ S → Dom.Has d (z u k) ∧
      ∀ q ∈ bitsFor k (z u k) (sdom d), (dictOf (r.names.zip n.state)).get? q.1 = some q.2) ∧
    ∀ (v : Nat → Int) (τ : Trace), (∀ t, ∃ n, (v t, n) ∈ r.nodes ∧ v (t + 1) ∈ n.trans) →
      (∀ t k d, (k, d) ∈ E ++ S → τ t (String.ofList k) = intVal d (z (v t) k)) → SlugsMeaning s τ

/-- What is assumed of `slugs`. -/
def SlugsSound (E : SlugsExe) : Prop :=
  ∀ s, (E true s).code = 0 → c!"Specification is realizable" <:+: (E true s).err → WinsSlugs s (E true s)

/-- What is assumed of the compiled initial condition (C37): if it is true of the state of a node then the
initial condition of the system holds, or that of the environment does not. -/
def InitSays (isInit : GRSpec → Attr Synth.Elem → Except PyErr Bool) (g : GRSpec) : Prop :=
  ∀ st, isInit g st = .ok true → ∀ σ : Trace,
    (∀ k d z, (Dict.update g.envVars g.sysVars).get? k = some d → Dict.get? st k = some (Synth.Elem.int z) →
      σ 0 k = intVal d z) → (∀ x ∈ g.envInit, Holds σ 0 x) → ∀ x ∈ g.sysInit, Holds σ 0 x

theorem slugsVarsOf_wf {d : Dict String Dom} (h : d.Wf) : Dict.Wf (slugsVarsOf d) := by
  unfold Dict.Wf Dict.keys slugsVarsOf at *
  rw [List.map_map]
  have : (fun p : String × Dom => p.1.toList) = String.toList ∘ Prod.fst := rfl
  show (d.map fun p : String × Dom => p.1.toList).Nodup
  rw [this, ← List.map_map]
  exact h.map fun a b h => String.toList_injective h

theorem slugsVars_mem {e s : Dict String Dom} (h : VarsOk e s) {k : String} {d : Dom} (hk : (k, d) ∈ e ++ s) :
    (k.toList, sdom d) ∈ Dict.update (slugsVarsOf s) (slugsVarsOf e) := by
  refine get?_mem ?_
  rw [Dict.get?_update_wf (slugsVarsOf_wf h.env)]
  rcases List.mem_append.1 hk with hk | hk
  · rw [get?_of_mem_wf (slugsVarsOf_wf h.env) (List.mem_map.mpr ⟨_, hk, rfl⟩)]
    rfl
  · have : (slugsVarsOf e).get? k.toList = none := by
      cases hx : (slugsVarsOf e).get? k.toList with
      | none => rfl
      | some x =>
        obtain ⟨⟨k', d'⟩, hm, e'⟩ := List.mem_map.mp (get?_mem hx)
        injection e' with e1 e2
        obtain rfl : k' = k := String.toList_injective e1
        have h1 := h.disjoint k' ((Dict.has_iff _ _).2 ⟨_, get?_of_mem_wf h.env hm⟩)
        rw [Dict.has_false_iff, get?_of_mem_wf h.sys hk] at h1
        cases h1
    rw [this, get?_of_mem_wf (slugsVarsOf_wf h.sys) (List.mem_map.mpr ⟨_, hk, rfl⟩)]
    rfl

/-- **C104 (slugs).** If `slugs` is right about the files it reads, then `slugs.synthesize` is a correct solver
of specifications whose variables are Boolean or have ranges of numbers that are not negative (with a
positive upper bound). -/
theorem slugsSynthesize_correct {order : List Part} (horder : ∀ p, p ∈ order) {X : SlugsExe} (hX : SlugsSound X)
    {g : GRSpec} (hg : Plainly g) (hb : ∀ k d, (k, d) ∈ g.envVars ++ g.sysVars → Dom.Bits d)
    {isInit : GRSpec → Attr Synth.Elem → Except PyErr Bool} (hi : InitSays isInit g) :
    Solver.Correct isInit (slugsSynthesize order (some X)) g := by
  intro A hA
  unfold slugsSynthesize at hA
  obtain ⟨s, hs, hA⟩ := bind_ok hA
  unfold slugsInput at hs
  split at hs
  · cases hs
  split at hs
  · cases hs
  obtain ⟨r, hr, hA⟩ := bind_ok hA
  split at hA
  · cases hA
  rename_i hr1
  obtain ⟨h, hh, hA⟩ := bind_ok hA
  cases hA
  have hr1 : r.1 = true := by simpa using hr1
  -- the output of the solver
  have hwin : WinsSlugs s r.2 := by
    unfold callSlugs at hr
    simp only at hr
    split at hr
    · cases hr
    rename_i hc
    have hc : (X true s).code = 0 := by simpa using hc
    split at hr
    · rename_i he
      cases hr
      exact hX s hc (by simpa [isIn] using he)
    · split at hr
      · cases hr
        cases hr1
      · cases hr
  obtain ⟨_, _, h3⟩ := translateSlugs_correct horder g (ops := []) trivial
  obtain ⟨dE, dS, hmean⟩ := h3 s hs hg.names
  obtain ⟨E, S, ⟨rE, rS⟩, z, hvals, hplays⟩ := hwin.wins
  have inj : ∀ {α : Type} {a b : List α}, a.map some = b.map some → a = b := fun h =>
    List.map_injective_iff.mpr (fun _ _ => Option.some.inj) h
  have dE : E = g.envVars.map fun p => (p.1.toList, p.2) :=
    inj (by rw [← rE, dE, List.map_map]; rfl)
  have dS : S = g.sysVars.map fun p => (p.1.toList, p.2) :=
    inj (by rw [← rS, dS, List.map_map]; rfl)
  subst dE dS
  rw [← List.map_append] at hvals hplays
  -- the values
  let vals : Int → List (List Char × SDom × Int) := fun u =>
    (Dict.update (slugsVarsOf g.sysVars) (slugsVarsOf g.envVars)).map fun p => (p.1, p.2, z u p.1)
  have hmem : ∀ q ∈ Dict.update (slugsVarsOf g.sysVars) (slugsVarsOf g.envVars),
      ∃ k d, (k, d) ∈ g.envVars ++ g.sysVars ∧ q = (k.toList, sdom d) := by
    intro q hq
    rcases update_mem hq with hq | hq
    · obtain ⟨⟨k, d⟩, hm, rfl⟩ := List.mem_map.mp hq
      exact ⟨k, d, List.mem_append_right _ hm, rfl⟩
    · obtain ⟨⟨k, d⟩, hm, rfl⟩ := List.mem_map.mp hq
      exact ⟨k, d, List.mem_append_left _ hm, rfl⟩
  have hdecl : ∀ u n, (u, n) ∈ r.2.nodes → ∀ k d, (k, d) ∈ g.envVars ++ g.sysVars → Dom.Has d (z u k.toList) ∧
      ∀ q ∈ bitsFor k.toList (z u k.toList) (sdom d), (dictOf (r.2.names.zip n.state)).get? q.1 = some q.2 :=
    fun u n hn k d hk => hvals u n hn k.toList d (List.mem_map.mpr ⟨_, hk, rfl⟩)
  have hvals' : ∀ u, ∀ q ∈ vals u, ∃ k d, (k, d) ∈ g.envVars ++ g.sysVars ∧ q = (k.toList, sdom d, z u k.toList) := by
    intro u q hq
    obtain ⟨p, hp, rfl⟩ := List.mem_map.mp hq
    obtain ⟨k, d, hk, rfl⟩ := hmem p hp
    exact ⟨k, d, hk, rfl⟩
  have hkeys : ∀ u, ((vals u).map (·.1)).Nodup := by
    intro u
    have : Dict.Wf (Dict.update (slugsVarsOf g.sysVars) (slugsVarsOf g.envVars)) :=
      Dict.wf_update (slugsVarsOf_wf hg.vars.sys) _
    unfold Dict.Wf Dict.keys at this
    show (List.map _ (List.map _ _)).Nodup
    rw [List.map_map]
    exact this
  obtain ⟨h', g1, g2, g3, g4, g5, g6⟩ := slugsGraph_spec (sys := slugsVarsOf g.sysVars) (env := slugsVarsOf g.envVars)
    (names := r.2.names) hwin.nodes hwin.trans (vals := vals)
    (fun u n _ => by show List.map _ (List.map _ _) = _; rw [List.map_map]; exact List.map_id _)
    (fun u n _ => hkeys u)
    (by
      intro u n hn q hq
      obtain ⟨k, d, hk, rfl⟩ := hvals' u q hq
      have h1 := (hdecl u n hn k d hk).1
      have h2 := hb k d hk
      cases d with
      | boolean => exact h1
      | range lo hi => exact ⟨h2.1, h1.1, h1.2⟩
      | strs l => exact h2)
    (by
      intro u n hn q hq lo hi e
      obtain ⟨k, d, hk, rfl⟩ := hvals' u q hq
      have h2 := hb k d hk
      cases d with
      | boolean => cases e
      | range lo' hi' => cases e; exact h2.2
      | strs l => cases e)
    (by
      intro u n hn q hq
      obtain ⟨k, d, hk, rfl⟩ := hvals' u q hq
      exact (hdecl u n hn k d hk).2)
  rw [hh] at g1
  obtain rfl : h = h' := by injection g1
  -- the states of the strategy
  let stOf : Int → Attr Synth.Elem := fun u =>
    ((vals u).map fun p => (p.1, p.2.2)).map fun x => (String.ofList x.1, Synth.Elem.int x.2)
  have hnode : ∀ u st, (u, st) ∈ (slugsStrategy h).nodes ↔ u ∈ r.2.nodes.keys ∧ st = stOf u := by
    intro u st
    unfold slugsStrategy
    simp only [List.mem_filterMap, Option.map_eq_some_iff, Prod.mk.injEq, Prod.exists]
    constructor
    · rintro ⟨w, o, hm, a, rfl, rfl, rfl⟩
      have hw : w ∈ r.2.nodes.keys := (g2 w).1 (List.mem_map_of_mem (f := Prod.fst) hm)
      have := g3 w hw
      rw [get?_of_mem_wf g6 hm] at this
      cases this
      exact ⟨hw, rfl⟩
    · rintro ⟨hu, rfl⟩
      exact ⟨u, _, get?_mem (g3 u hu), _, rfl, rfl, rfl⟩
  have hstwf : ∀ u, Dict.Wf (stOf u) := by
    intro u
    have : Dict.keys (stOf u) = ((vals u).map (·.1)).map String.ofList := by
      show List.map _ (List.map _ (List.map _ _)) = _
      simp only [List.map_map, Function.comp_def]
    unfold Dict.Wf
    rw [this]
    refine (hkeys u).map fun a b e => ?_
    have := congrArg String.toList e
    simpa using this
  have hget : ∀ u k d, (Dict.update g.envVars g.sysVars).get? k = some d →
      Dict.get? (stOf u) k = some (.int (z u k.toList)) := by
    intro u k d hk
    have h1 := slugsVars_mem hg.vars ((update_get?_iff hg.vars).1 hk)
    refine get?_of_mem_wf (hstwf u) (List.mem_map.mpr ⟨(k.toList, z u k.toList), ?_, by simp⟩)
    exact List.mem_map.mpr ⟨(k.toList, sdom d, z u k.toList), List.mem_map.mpr ⟨_, h1, rfl⟩, rfl⟩
  have hnostr : ∀ k d, (Dict.update g.envVars g.sysVars).get? k = some d → solverDom d = d := by
    intro k d hk
    have := hb k d ((update_get?_iff hg.vars).1 hk)
    cases d with
    | boolean => rfl
    | range lo hi => rfl
    | strs l => cases this
  have hstr0 : ∀ v, (Cache.strVars g).get? v = none := by
    intro v
    rw [get?_cacheStr hg.vars]
    cases hk : (Dict.update g.envVars g.sysVars).get? v with
    | none => rfl
    | some d =>
      have := hb v d ((update_get?_iff hg.vars).1 hk)
      cases d with
      | boolean => rfl
      | range lo hi => rfl
      | strs l => cases this
  have hnwf : (slugsStrategy h).nodes.Wf := by
    have : ∀ l : Dict Int (Option (Dict (List Char) Int)), (Dict.keys (l.filterMap fun p => p.2.map fun st =>
        (p.1, st.map fun x => (String.ofList x.1, Synth.Elem.int x.2)))).Sublist (Dict.keys l) := by
      intro l
      induction l with
      | nil => exact List.Sublist.slnil
      | cons q l ih =>
        obtain ⟨u, o⟩ := q
        cases o with
        | none => exact List.Sublist.cons _ ih
        | some a => exact List.Sublist.cons_cons _ ih
    exact List.Nodup.sublist (this _) g6
  refine ⟨⟨hnwf, ?_, ?_, g5, ?_⟩, wins_of_numbers (M := fun τ => (∀ x ∈ g.envInit, Holds τ 0 x) →
    (∀ x ∈ g.sysInit, Holds τ 0 x) ∧ SlugsMeaning s τ) hg.vars hg.strings hnwf ?_ ?_ ?_⟩
  · intro u st hm
    obtain ⟨_, rfl⟩ := (hnode u st).1 hm
    exact hstwf u
  · rintro ⟨u, v⟩ he
    obtain ⟨n, hn, _⟩ := (g4 u v).1 he
    exact List.mem_map_of_mem (f := Prod.fst) ((hnode u _).2 ⟨List.mem_map_of_mem (f := Prod.fst) hn, rfl⟩)
  · intro u st k n l hm hk _
    have := hb k _ ((update_get?_iff hg.vars).1 hk)
    cases this
  · intro u st hm k d hk
    obtain ⟨hu, rfl⟩ := (hnode u st).1 hm
    obtain ⟨⟨u', n⟩, hn, e⟩ := List.mem_map.mp hu
    have e : u' = u := e
    subst e
    refine ⟨_, hget _ k d hk, ?_⟩
    rw [hnostr k d hk]
    exact (hdecl _ n hn k d ((update_get?_iff hg.vars).1 hk)).1
  · intro σ _ hM
    have e : Tulip.encode (Cache.strVars g) σ = σ := by
      funext t k
      simp only [Tulip.encode, hstr0]
    rw [e] at hM
    obtain ⟨m1, m2, m3, m4, m5, m6⟩ := hmean hg.nesting σ
    intro ⟨a1, a2, a3⟩
    obtain ⟨b1, b2⟩ := hM a1
    obtain ⟨c1, c2⟩ := b2 (m1.2 a1) (m4.2 b1) (fun i => (m2 i).2 fun f hf => a2 f hf i) (m3.2 a3)
    exact ⟨b1, fun f hf i => (m5 i).1 (c1 i) f hf, m6.1 c2⟩
  · intro v τ h0 he hin hτ
    have hin' : ∀ t, (v t, stOf (v t)) ∈ (slugsStrategy h).nodes := by
      intro t
      obtain ⟨⟨u, st⟩, hst, e⟩ := List.mem_map.mp (hin t)
      have e : u = v t := e
      subst e
      obtain ⟨_, rfl⟩ := (hnode _ _).1 hst
      exact hst
    intro henv
    refine ⟨?_, hplays v τ (fun t => (g4 _ _).1 (he t)) ?_⟩
    · obtain ⟨st, hst, hinit⟩ := h0
      refine hi st hinit τ (fun k d y hk hy => ?_) henv
      rw [hτ 0 st hst k d y hk hy, hnostr k d hk]
    · intro t k d hk
      obtain ⟨⟨k', d'⟩, hm, e⟩ := List.mem_map.mp hk
      cases e
      have hk' := (update_get?_iff hg.vars).2 hm
      rw [String.ofList_toList, hτ t _ (hin' t) k' d' _ hk' (hget (v t) k' d' hk'), hnostr k' d' hk']

/-! ## `check_realizable` and `synthesize` agree

`found` says what `synthesize` would answer to the question that `check_realizable` asks. -/

/-- Whether a call found a strategy; an exception is kept. -/
def found (r : Except PyErr (Option (Strategy ν))) : Except PyErr Bool := r.map Option.isSome

/-- **C104.** If `gr1c` prints a strategy exactly for the files that it says are realizable, then
`check_realizable` says whether `synthesize` returns a strategy, and they raise the same exceptions. -/
theorem gr1cCheck_agrees (order : List Part) {E : Gr1cExe ν δ} (hE : E.Sound)
    (hc : ∀ o s, E.check o s = 0 ↔ (E.solve o s).1 = 0) (g : GRSpec) :
    gr1cCheck order (some E) g = found (gr1cSynthesize order (some E) g) := by
  unfold gr1cCheck gr1cSynthesize
  simp only
  cases selectOptions g with
  | error e => rfl
  | ok o =>
    simp only [ok_bind]
    cases (translateGr1c order (new g)).2 with
    | error e => rfl
    | ok s =>
      simp only [ok_bind]
      by_cases h : (E.solve o s).1 = 0
      · obtain ⟨p, hj, hp⟩ := hE o s (E.solve o s).2 (Prod.ext h rfl)
        obtain ⟨a, ha, _⟩ := loadAutJson_spec hp.ok
        rw [if_pos h, hj, ha, decide_eq_true ((hc o s).2 h)]
        rfl
      · rw [if_neg h, decide_eq_false fun h' => h ((hc o s).1 h')]
        rfl

/-- **C104.** The same for `gr1py`. -/
theorem gr1pyCheck_agrees (order : List Part) {L : Gr1pyLib ν δ} (hL : L.Sound)
    (hc : ∀ o s, L.check o s = (L.solve o s).isSome) (g : GRSpec) :
    gr1pyCheck order (some L) g = found (gr1pySynthesize order (some L) g) := by
  unfold gr1pyCheck gr1pySynthesize gr1pyInput
  simp only
  cases selectOptions g with
  | error e => rfl
  | ok o =>
    simp only [ok_bind]
    cases (translateGr1c order (new g)).2 with
    | error e => rfl
    | ok s =>
      simp only [ok_bind]
      cases h : L.solve o s with
      | none => rw [hc, h]; rfl
      | some j =>
        obtain ⟨p, hj, hp⟩ := hL o s j h
        obtain ⟨a, ha, _⟩ := loadAutJson_spec hp.ok
        rw [hc, h, hj]
        simp only
        rw [ha]
        rfl

/-- **C104.** The same for `omega`, if some step of the system is allowed: `synthesize` raises
`AssertionError` otherwise, and `is_realizable` does not. -/
theorem omegaCheck_agrees (order : List Part) (L : OmegaLib ν) (g : GRSpec)
    (hf : ∀ G, (Omega.toAutomaton order (new g)).2 = .ok G → L.sysFalse G = false) :
    omegaCheck order (some L) g = found (omegaSynthesize order (some L) g) := by
  unfold omegaCheck omegaSynthesize
  simp only
  cases h : (Omega.toAutomaton order (new g)).2 with
  | error e => rfl
  | ok G =>
    simp only [ok_bind, hf G h, Bool.false_eq_true, if_false]
    cases hr : L.realizable G <;> rfl

/-- Without the package or the executable, both raise the same exception. -/
theorem missing_solver (order : List Part) (g : GRSpec) :
    gr1cCheck order (none : Option (Gr1cExe ν δ)) g = .error .exception ∧
    gr1cSynthesize order (none : Option (Gr1cExe ν δ)) g = .error .exception ∧
    omegaCheck order (none : Option (OmegaLib ν)) g = .error .exception ∧
    omegaSynthesize order (none : Option (OmegaLib ν)) g = .error .exception ∧
    (∀ o, selectOptions g = .ok o →
      gr1pyCheck order (none : Option (Gr1pyLib ν δ)) g = .error .valueError ∧
      gr1pySynthesize order (none : Option (Gr1pyLib ν δ)) g = .error .valueError) ∧
    ∀ s, slugsInput order g = .ok s →
      slugsCheck order none g = .error .exception ∧ slugsSynthesize order none g = .error .exception := by
  refine ⟨rfl, rfl, rfl, rfl, fun o h => ?_, fun s h => ?_⟩
  · unfold gr1pyCheck gr1pySynthesize gr1pyInput
    rw [h]
    exact ⟨rfl, rfl⟩
  · unfold slugsCheck slugsSynthesize
    rw [h]
    exact ⟨rfl, rfl⟩

/-- The strategy that `slugs` prints can be read. -/
theorem slugsGraph_wins {order : List Part} (horder : ∀ p, p ∈ order) {g : GRSpec} (hg : Plainly g)
    (hb : ∀ k d, (k, d) ∈ g.envVars ++ g.sysVars → Dom.Bits d) {s : List Char}
    (hs : (translateSlugs order (new g)).2 = .ok s) {r : SlugsOutput} (hwin : WinsSlugs s r) :
    ∃ h, slugsGraph (slugsVarsOf g.sysVars) (slugsVarsOf g.envVars) r.names r.nodes = .ok h := by
  obtain ⟨_, _, h3⟩ := translateSlugs_correct horder g (ops := []) trivial
  obtain ⟨dE, dS, -⟩ := h3 s hs hg.names
  obtain ⟨E, S, ⟨rE, rS⟩, z, hvals, -⟩ := hwin.wins
  have inj : ∀ {α : Type} {a b : List α}, a.map some = b.map some → a = b := fun h =>
    List.map_injective_iff.mpr (fun _ _ => Option.some.inj) h
  have dE : E = g.envVars.map fun p => (p.1.toList, p.2) :=
    inj (by rw [← rE, dE, List.map_map]; rfl)
  have dS : S = g.sysVars.map fun p => (p.1.toList, p.2) :=
    inj (by rw [← rS, dS, List.map_map]; rfl)
  subst dE dS
  rw [← List.map_append] at hvals
  let vals : Int → List (List Char × SDom × Int) := fun u =>
    (Dict.update (slugsVarsOf g.sysVars) (slugsVarsOf g.envVars)).map fun p => (p.1, p.2, z u p.1)
  have hvals' : ∀ u, ∀ q ∈ vals u, ∃ k d, (k, d) ∈ g.envVars ++ g.sysVars ∧ q = (k.toList, sdom d, z u k.toList) := by
    intro u q hq
    obtain ⟨p, hp, rfl⟩ := List.mem_map.mp hq
    rcases update_mem hp with hq | hq
    · obtain ⟨⟨k, d⟩, hm, rfl⟩ := List.mem_map.mp hq
      exact ⟨k, d, List.mem_append_right _ hm, rfl⟩
    · obtain ⟨⟨k, d⟩, hm, rfl⟩ := List.mem_map.mp hq
      exact ⟨k, d, List.mem_append_left _ hm, rfl⟩
  have hdecl : ∀ u n, (u, n) ∈ r.nodes → ∀ k d, (k, d) ∈ g.envVars ++ g.sysVars → Dom.Has d (z u k.toList) ∧
      ∀ q ∈ bitsFor k.toList (z u k.toList) (sdom d), (dictOf (r.names.zip n.state)).get? q.1 = some q.2 :=
    fun u n hn k d hk => hvals u n hn k.toList d (List.mem_map.mpr ⟨_, hk, rfl⟩)
  have hkeys : ∀ u, ((vals u).map (·.1)).Nodup := by
    intro u
    have : Dict.Wf (Dict.update (slugsVarsOf g.sysVars) (slugsVarsOf g.envVars)) :=
      Dict.wf_update (slugsVarsOf_wf hg.vars.sys) _
    unfold Dict.Wf Dict.keys at this
    show (List.map _ (List.map _ _)).Nodup
    rw [List.map_map]
    exact this
  obtain ⟨h', g1, -⟩ := slugsGraph_spec (sys := slugsVarsOf g.sysVars) (env := slugsVarsOf g.envVars)
    (names := r.names) hwin.nodes hwin.trans (vals := vals)
    (fun u n _ => by show List.map _ (List.map _ _) = _; rw [List.map_map]; exact List.map_id _)
    (fun u n _ => hkeys u)
    (by
      intro u n hn q hq
      obtain ⟨k, d, hk, rfl⟩ := hvals' u q hq
      have h1 := (hdecl u n hn k d hk).1
      have h2 := hb k d hk
      cases d with
      | boolean => exact h1
      | range lo hi => exact ⟨h2.1, h1.1, h1.2⟩
      | strs l => exact h2)
    (by
      intro u n hn q hq lo hi e
      obtain ⟨k, d, hk, rfl⟩ := hvals' u q hq
      have h2 := hb k d hk
      cases d with
      | boolean => cases e
      | range lo' hi' => cases e; exact h2.2
      | strs l => cases e)
    (by
      intro u n hn q hq
      obtain ⟨k, d, hk, rfl⟩ := hvals' u q hq
      exact (hdecl u n hn k d hk).2)
  exact ⟨h', g1⟩

/-- **C104.** If `slugs` says the same about a file whether or not a strategy is asked for, then
`check_realizable` says whether `synthesize` returns a strategy, and they raise the same exceptions. -/
theorem slugsCheck_agrees {order : List Part} (horder : ∀ p, p ∈ order) {X : SlugsExe} (hX : SlugsSound X)
    (hc : ∀ s, (X true s).code = (X false s).code ∧ (X true s).err = (X false s).err)
    {g : GRSpec} (hg : Plainly g) (hb : ∀ k d, (k, d) ∈ g.envVars ++ g.sysVars → Dom.Bits d) :
    slugsCheck order (some X) g = found (slugsSynthesize order (some X) g) := by
  unfold slugsCheck slugsSynthesize
  cases hs : slugsInput order g with
  | error e => rfl
  | ok s =>
    simp only [ok_bind]
    unfold callSlugs
    simp only [hc s]
    by_cases h1 : (X false s).code = 0
    · simp only [h1, ne_eq, not_true_eq_false, if_false]
      by_cases h2 : isIn (c!"Specification is " ++ c!"realizable") (X false s).err = true
      · simp only [h2, if_true, ok_bind, Bool.not_true, Bool.false_eq_true, if_false]
        have hwin : WinsSlugs s (X true s) := by
          refine hX s ((hc s).1.trans h1) ?_
          rw [(hc s).2]
          simpa [isIn] using h2
        have hs' : (translateSlugs order (new g)).2 = .ok s := by
          unfold slugsInput at hs
          split at hs
          · cases hs
          split at hs
          · cases hs
          exact hs
        obtain ⟨h, hh⟩ := slugsGraph_wins horder hg hb hs' hwin
        rw [hh]
        rfl
      · simp only [h2, Bool.false_eq_true, if_false]
        by_cases h3 : isIn (c!"Specification is " ++ c!"unrealizable") (X false s).err = true
        · simp only [h3, if_true]
          rfl
        · simp only [h3, Bool.false_eq_true, if_false]
          rfl
    · simp only [h1, ne_eq, not_false_eq_true, if_true]
      rfl

/-! ## `synthesize` with these solvers -/

/-- What a caller of `synthesize` can rely on: the conclusion of `synthesize_correct`. -/
def Delivers (T : Tools ν) (s : GRSpec) (env sys : Option TsArg) (ignoreEnv ignoreSys rm : Bool)
    (m : Machine ν Synth.Elem) : Prop :=
  ∃ g, specPlusSys T.order s env sys ignoreEnv ignoreSys = .ok g ∧
    (∀ k, m.inputs.has k = g.envVars.has k) ∧ (∀ k, m.outputs.has k = g.sysVars.has k) ∧
    (rm = true → ∀ n, m.graph.hasNode n = true → ∃ v d, (n, v, d) ∈ m.graph.edges) ∧
    ∀ n d σ, MachRun m n d → (∀ t, Shows (Dict.update g.envVars g.sysVars) (d t) (σ t)) →
      (∀ t, sys = some t → InSomeState t.fts t.sysVar ignoreSys σ) →
      Assumes s env sys ignoreEnv ignoreSys σ → Guarantees s env sys ignoreSys σ

/-- **C104.** With solvers that are right about the files and games that they are given, every run of the
machine that `synthesize` returns, for `gr1c`, `gr1py` and `omega`, satisfies the guarantees if the
assumptions hold, and follows the transition systems. -/
theorem synthesize_delivers {T : Tools ν} (horder : ∀ l x, x ∈ T.order l ↔ x ∈ l)
    (hostates : ∀ l, (T.orderStates l).Perm l) (hinit : InitDepends T.isInit)
    {order : List Part} (ho : ∀ p, p ∈ order)
    {E : Gr1cExe ν δ} {P : Gr1pyLib ν δ} {L : OmegaLib ν} (hE : E.Sound) (hP : P.Sound) (hL : L.Sound)
    (h1 : T.solvers.gr1c = gr1cSynthesize order (some E)) (h2 : T.solvers.gr1py = gr1pySynthesize order (some P))
    (h3 : T.solvers.omega = omegaSynthesize order (some L))
    {s : GRSpec} {env sys : Option TsArg} {ignoreEnv ignoreSys rm : Bool} {solver : String}
    (hsolver : solver ∈ ["gr1c", "gr1py", "omega"]) (ha : ArgsOk env sys)
    (hg : ∀ g, specPlusSys T.order s env sys ignoreEnv ignoreSys = .ok g → Plainly g)
    {m : Machine ν Synth.Elem} (h : synthesize T s env sys ignoreEnv ignoreSys rm solver = .ok (some m)) :
    Delivers T s env sys ignoreEnv ignoreSys rm m := by
  have hv : ∀ g, specPlusSys T.order s env sys ignoreEnv ignoreSys = .ok g → VarsOk g.envVars g.sysVars :=
    fun g hk => (hg g hk).vars
  simp only [List.mem_cons, List.not_mem_nil, or_false] at hsolver
  rcases hsolver with rfl | rfl | rfl
  · exact synthesize_correct horder hostates hinit (pick_spec T.solvers T.solvers.gr1c).1.1
      (fun g hk => by rw [h1]; exact gr1cSynthesize_correct ho hE (hg g hk) _) ha hv h
  · exact synthesize_correct horder hostates hinit (pick_spec T.solvers T.solvers.gr1c).1.2.1
      (fun g hk => by rw [h2]; exact gr1pySynthesize_correct ho hP (hg g hk) _) ha hv h
  · exact synthesize_correct horder hostates hinit (pick_spec T.solvers T.solvers.gr1c).1.2.2
      (fun g hk => by
        rw [h3]
        exact omegaSynthesize_correct ho hL (hg g hk).vars (hg g hk).used (hg g hk).strings _) ha hv h

/-! ## Example: sound solvers exist -/

section

/-- The light must be on at all times, and again and again. -/
def lamp : GRSpec :=
  { envVars := [("x", .boolean)], sysVars := [("y", .boolean)]
    envInit := [], envSafety := [], envProg := []
    sysInit := [c!"y"], sysSafety := [c!"X y"], sysProg := [c!"y"]
    moore := false, plusOne := false, qinit := c!"\\A \\E", formula := [] }

/-- Its file for `gr1c`. -/
def lampFile : List Char :=
  c!"ENV: x;\nSYS: y;\nENVINIT:;\nENVTRANS:;\nENVGOAL:;\n\nSYSINIT: (y);\n" ++
  c!"SYSTRANS: [](y');\nSYSGOAL: []<>(y);\n"

theorem lamp_file : (translateGr1c parts (new lamp)).2 = .ok lampFile := by
  have h : (translateGr1c parts (new lamp)).2.toOption = some lampFile := by decide +kernel
  cases hx : (translateGr1c parts (new lamp)).2 with
  | error e => rw [hx] at h; cases h
  | ok s => rw [hx] at h; cases h; rfl

theorem lamp_parse {p : Part} {x : List Char} (hx : x ∈ part lamp p) {a : Ast} (ha : Tulip.parse x = some a) :
    a = .var "y" ∨ a = .un .next (.var "y") := by
  have h1 : Tulip.parse c!"y" = some (.var "y") := by decide +kernel
  have h2 : Tulip.parse c!"X y" = some (.un .next (.var "y")) := by decide +kernel
  cases p <;> simp only [part, lamp, List.mem_singleton, List.not_mem_nil] at hx <;> subst hx
  · rw [h1] at ha; cases ha; exact .inl rfl
  · rw [h2] at ha; cases ha; exact .inr rfl
  · rw [h1] at ha; cases ha; exact .inl rfl

theorem lamp_plainly : Plainly lamp where
  vars := ⟨by unfold Dict.Wf; decide, by unfold Dict.Wf; decide, by
    intro k hk
    obtain ⟨v, hv⟩ := (Dict.has_iff _ _).1 hk
    have := get?_mem hv
    simp only [lamp, List.mem_singleton, Prod.mk.injEq] at this
    obtain ⟨rfl, rfl⟩ := this
    decide⟩
  names := by
    have h : lamp.envVars.keys ++ lamp.sysVars.keys = ["x", "y"] := by decide
    rw [h]
    simp only [List.mem_cons, List.not_mem_nil, or_false, forall_eq_or_imp, forall_eq]
    refine ⟨?_, ?_⟩ <;> exact ⟨by decide, by decide⟩
  used := by
    intro p x hx a ha
    rcases lamp_parse hx ha with rfl | rfl <;> (repeat constructor)
  nesting := by
    intro p x hx a ha
    rcases lamp_parse hx ha with rfl | rfl <;> simp [OneStep, NoTemporal]
  strings := by
    intro v l h
    have : Cache.strVars lamp = [] := by decide
    rw [this] at h
    cases h

/-- A strategy: the light is on. -/
def lampPrinted : Printed Nat String Synth.Elem :=
  { env := [("x", "boolean")], sys := [("y", "boolean")]
    nodes := [(0, [.int 0, .int 1], [0, 1], true), (1, [.int 1, .int 1], [0, 1], true)] }

/-- A solver that knows one file. -/
def lampExe : Gr1cExe Nat String :=
  { solve := fun _ s => if s = lampFile then (0, lampPrinted.json) else (1, lampPrinted.json)
    check := fun _ s => if s = lampFile then 0 else 1 }

theorem lampFile_meaning (τ : Trace) (hy : ∀ t, τ t "y" = .bool true) : FileMeaning lampFile τ := by
  obtain ⟨_, _, h3⟩ := translateGr1c_correct (order := parts) (by intro p; cases p <;> decide) lamp (ops := []) trivial
  obtain ⟨_, _, _, hmean, _⟩ := h3 lampFile lamp_file lamp_plainly.names
  have h0 : ∀ v, (Cache.strVars lamp).get? v = none := by
    intro v
    have : Cache.strVars lamp = [] := by decide
    rw [this]
    rfl
  have e : Tulip.encode (Cache.strVars lamp) τ = τ := by
    funext t k
    simp only [Tulip.encode, h0]
  have hm := hmean lamp_plainly.used lamp_plainly.nesting τ (by
    intro t k l hk
    have hk : (Cache.strVars lamp).get? k = some l := hk
    rw [h0] at hk
    cases hk)
  have hm' := hm
  simp only at hm
  obtain ⟨m1, m2, m3, m4, m5, m6, _⟩ := hm
  have e : Tulip.encode (Cache.strVars (run parts (new lamp) []).spec) τ = τ := e
  rw [e] at m4 m5 m6
  have h1 : Tulip.parse c!"y" = some (.var "y") := by decide +kernel
  have h2 : Tulip.parse c!"X y" = some (.un .next (.var "y")) := by decide +kernel
  have g1 : ∀ i, Tulip.Holds τ i c!"y" := fun i => ⟨_, h1, by simp [hy]⟩
  have g2 : ∀ i, Tulip.Holds τ i c!"X y" := fun i => ⟨_, h2, by simp [hy]⟩
  intro _
  refine ⟨m4.2 ?_, m5.2 ?_, m6.2 ?_⟩
  · intro x hx
    have hx : x ∈ [c!"y"] := hx
    obtain rfl := List.mem_singleton.1 hx
    exact g1 0
  · intro x hx i
    have hx : x ∈ [c!"X y"] := hx
    obtain rfl := List.mem_singleton.1 hx
    exact g2 i
  · intro x hx i
    have hx : x ∈ [c!"y"] := hx
    obtain rfl := List.mem_singleton.1 hx
    exact ⟨i, le_refl i, g1 i⟩

theorem lampPrinted_wins : WinsFile lampFile lampPrinted := by
  obtain ⟨_, _, h3⟩ := translateGr1c_correct (order := parts) (by intro p; cases p <;> decide) lamp (ops := []) trivial
  obtain ⟨_, dE, dS, _⟩ := h3 lampFile lamp_file lamp_plainly.names
  have hnodes : ∀ u n, (u, n) ∈ lampPrinted.nodes →
      (n = ([.int 0, .int 1], [0, 1], true) ∨ n = ([.int 1, .int 1], [0, 1], true)) := by
    intro u n hn
    simp only [lampPrinted, List.mem_cons, List.not_mem_nil, or_false, Prod.mk.injEq] at hn
    rcases hn with ⟨_, rfl⟩ | ⟨_, rfl⟩
    · exact .inl rfl
    · exact .inr rfl
  refine ⟨⟨by decide, by unfold Dict.Wf; decide, ?_, ?_⟩,
    [(c!"x", .boolean), (c!"y", .boolean)], ⟨_, _, dE, dS, by decide⟩, by decide, ?_, ?_⟩
  · intro u n hn
    rcases hnodes u n hn with rfl | rfl <;> rfl
  · intro u n hn v hv
    have : v ∈ [0, 1] := by rcases hnodes u n hn with rfl | rfl <;> exact hv
    exact this
  · intro u n hn
    rcases hnodes u n hn with rfl | rfl <;> simp [Dom.Has]
  · intro v τ _ hτ
    refine lampFile_meaning τ fun t => ?_
    obtain ⟨n, hn, _, hf⟩ := hτ t
    rcases hnodes _ _ hn with rfl | rfl <;>
    · simp only [List.forall₂_cons, Synth.Elem.int.injEq] at hf
      obtain ⟨_, ⟨z, rfl, h⟩, _⟩ := hf
      exact h

/-- The solver is sound, and tells both answers apart. -/
theorem lampExe_sound : lampExe.Sound ∧ ∀ o s, lampExe.check o s = 0 ↔ (lampExe.solve o s).1 = 0 := by
  constructor
  · intro o s j h
    unfold lampExe at h
    simp only at h
    split at h
    · rename_i hs
      cases h
      exact ⟨_, rfl, hs ▸ lampPrinted_wins⟩
    · cases h
  · intro o s
    unfold lampExe
    simp only
    split <;> simp

example : gr1cCheck parts (some lampExe) lamp = .ok true ∧
    gr1cCheck parts (some lampExe) { lamp with sysProg := [] } = .ok false ∧
    gr1cCheck parts (some lampExe) { lamp with moore := true } = .error .assertion := by
  refine ⟨?_, ?_, rfl⟩
  · unfold gr1cCheck
    simp only
    rw [show selectOptions lamp = .ok .allEnvExistSysInit from rfl, ok_bind, lamp_file, ok_bind]
    rfl
  · have : (gr1cCheck parts (some lampExe) { lamp with sysProg := [] }).toOption = some false := by decide +kernel
    cases hx : gr1cCheck parts (some lampExe) { lamp with sysProg := [] } with
    | error e => rw [hx] at this; cases this
    | ok s => rw [hx] at this; cases this; rfl

example (isInit : GRSpec → Attr Synth.Elem → Except PyErr Bool) :
    Solver.Correct isInit (gr1cSynthesize parts (some lampExe)) lamp :=
  gr1cSynthesize_correct (by intro p; cases p <;> decide) lampExe_sound.1 lamp_plainly isInit

/-- The same for `gr1py`. -/
example : Gr1pyLib.Sound ⟨fun _ s => if s = lampFile then some lampPrinted.json else none,
    fun _ s => decide (s = lampFile)⟩ := by
  intro o s j h
  simp only at h
  split at h
  · rename_i hs
    cases h
    exact ⟨_, rfl, hs ▸ lampPrinted_wins⟩
  · cases h

/-- The game of `lamp`. -/
def lampGame : Option Omega.Game := (Omega.toAutomaton parts (new lamp)).2.toOption

/-- A sound `omega`: it knows the winning strategy of one game. -/
def lampOmega : OmegaLib Nat :=
  { sysFalse := fun _ => false
    realizable := fun G => decide (some G = lampGame)
    strategy := fun _ =>
      { nodes := [(0, [("x", .int 0), ("y", .int 1), ("_goal", .int 0)]),
          (1, [("x", .int 1), ("y", .int 1), ("_goal", .int 0)])]
        edges := [(0, 0), (0, 1), (1, 0), (1, 1)]
        initial := [0, 1] } }

theorem lampOmega_sound : lampOmega.Sound := by
  intro G hG
  have hG : some G = lampGame := by simpa [lampOmega] using hG
  have hG' : (Omega.toAutomaton parts (new lamp)).2 = .ok G := by
    unfold lampGame at hG
    cases h : (Omega.toAutomaton parts (new lamp)).2 with
    | error e => rw [h] at hG; cases hG
    | ok G' => rw [h] at hG; cases hG; rfl
  obtain ⟨_, h2⟩ := Omega.toAutomaton_correct (order := parts) (by intro p; cases p <;> decide) lamp (ops := []) trivial
    (st' := (Omega.toAutomaton parts (new lamp)).1) (r := (Omega.toAutomaton parts (new lamp)).2) rfl
  obtain ⟨⟨hvars, _⟩, hmean⟩ := h2 G hG'
  have hvars : ∀ v, G.vars.get? v = ((Dict.update lamp.envVars lamp.sysVars).get? v).map Omega.convert := hvars
  have hv : ∀ k d, G.vars.get? k = some d → (k = "x" ∨ k = "y") ∧ d = .bool := by
    intro k d hk
    rw [hvars] at hk
    obtain ⟨d', hd, rfl⟩ := Option.map_eq_some_iff.mp hk
    have := get?_mem hd
    have e : Dict.update lamp.envVars lamp.sysVars = [("x", .boolean), ("y", .boolean)] := by decide
    rw [e] at this
    simp only [List.mem_cons, List.not_mem_nil, or_false, Prod.mk.injEq] at this
    rcases this with ⟨rfl, rfl⟩ | ⟨rfl, rfl⟩
    · exact ⟨.inl rfl, rfl⟩
    · exact ⟨.inr rfl, rfl⟩
  have hstates : ∀ u st, (u, st) ∈ (lampOmega.strategy G).nodes →
      st = [("x", Synth.Elem.int 0), ("y", .int 1), ("_goal", .int 0)] ∨
      st = [("x", Synth.Elem.int 1), ("y", .int 1), ("_goal", .int 0)] := by
    intro u st h
    simp only [lampOmega, List.mem_cons, List.not_mem_nil, or_false, Prod.mk.injEq] at h
    rcases h with ⟨_, rfl⟩ | ⟨_, rfl⟩
    · exact .inl rfl
    · exact .inr rfl
  have hy : G.vars.get? "y" = some .bool := by rw [hvars]; decide
  refine ⟨by unfold Dict.Wf; exact (by decide : [0, 1].Nodup), ?_, ?_, ?_, ?_⟩
  · intro u st h
    unfold Dict.Wf
    rcases hstates u st h with rfl | rfl <;> decide
  · intro e he
    simp only [lampOmega, List.mem_cons, List.not_mem_nil, or_false] at he
    rcases he with rfl | rfl | rfl | rfl <;> simp [lampOmega, Dict.keys]
  · intro u st h k d hk
    obtain ⟨rfl | rfl, rfl⟩ := hv k d hk <;> rcases hstates u st h with rfl | rfl
    · exact ⟨0, by decide, .inl rfl⟩
    · exact ⟨1, by decide, .inr rfl⟩
    · exact ⟨1, by decide, .inr rfl⟩
    · exact ⟨1, by decide, .inr rfl⟩
  · intro v τ h0 he hτ
    have hon : ∀ t, τ t "y" = .bool true := by
      intro t
      have : v t ∈ Dict.keys (lampOmega.strategy G).nodes := by
        have he := he t
        simp only [lampOmega, List.mem_cons, List.not_mem_nil, or_false, Prod.mk.injEq] at he
        simp only [lampOmega, Dict.keys, List.map_cons, List.map_nil, List.mem_cons, List.not_mem_nil, or_false]
        omega
      obtain ⟨⟨u, st⟩, hst, e⟩ := List.mem_map.mp this
      have e : u = v t := e
      subst e
      exact hτ t st hst "y" .bool 1 hy (by rcases hstates _ st hst with rfl | rfl <;> decide)
    have h0 : Cache.strVars lamp = [] := by decide
    have e : Tulip.encode (Cache.strVars lamp) τ = τ := by
      funext t k
      simp only [Tulip.encode, h0]
      rfl
    have hm := hmean lamp_plainly.used τ (by
      intro t k l hk
      have hk : (Cache.strVars lamp).get? k = some l := hk
      rw [h0] at hk
      cases hk)
    simp only at hm
    have e : Tulip.encode (Cache.strVars (run parts (new lamp) []).spec) τ = τ := e
    rw [e] at hm
    obtain ⟨_, m2, _, m4, m5⟩ := hm
    have h1 : Tulip.parse c!"y" = some (.var "y") := by decide +kernel
    have h2 : Tulip.parse c!"X y" = some (.un .next (.var "y")) := by decide +kernel
    intro _ _
    refine ⟨m2.2 ?_, fun i => (m4 i).2 ?_, m5.2 fun _ => ?_⟩
    · intro x hx
      have hx : x ∈ [c!"y"] := hx
      obtain rfl := List.mem_singleton.1 hx
      exact ⟨_, h1, by simp [hon]⟩
    · intro x hx
      have hx : x ∈ [c!"X y"] := hx
      obtain rfl := List.mem_singleton.1 hx
      exact ⟨_, h2, by simp [hon]⟩
    · intro x hx i
      have hx : x ∈ [c!"y"] := hx
      obtain rfl := List.mem_singleton.1 hx
      exact ⟨i, le_refl i, _, h1, by simp [hon]⟩

example : (omegaSynthesize parts (some lampOmega) lamp).toOption.map Option.isSome = some true ∧
    (omegaSynthesize parts (some lampOmega) { lamp with sysProg := [] }).toOption.map Option.isSome =
      some false := by
  constructor <;> decide +kernel

/-- The file of `lamp` for `slugs`. -/
def lampSlugs : Option (List Char) := (translateSlugs parts (new lamp)).2.toOption

/-- A sound `slugs`: it knows the winning strategy of one file. -/
def lampSlugsExe : SlugsExe := fun _ s =>
  { code := 0
    err := if some s = lampSlugs then c!"Specification is realizable" else c!"Specification is " ++ c!"unrealizable"
    names := [c!"x", c!"y"]
    nodes := [(0, ⟨[0, 1], [0, 1]⟩), (1, ⟨[1, 1], [0, 1]⟩)] }

theorem lampSlugs_sound : SlugsSound lampSlugsExe := by
  intro s _ herr
  have hs : some s = lampSlugs := by
    by_contra hne
    simp only [lampSlugsExe, if_neg hne] at herr
    have : ¬ (c!"Specification is " ++ c!"realizable") <:+: (c!"Specification is " ++ c!"unrealizable") := by decide
    exact this herr
  have hs' : (translateSlugs parts (new lamp)).2 = .ok s := by
    unfold lampSlugs at hs
    cases h : (translateSlugs parts (new lamp)).2 with
    | error e => rw [h] at hs; cases hs
    | ok s' => rw [h] at hs; cases hs; rfl
  obtain ⟨_, _, h3⟩ := translateSlugs_correct (order := parts) (by intro p; cases p <;> decide) lamp (ops := []) trivial
  obtain ⟨dE, dS, hmean⟩ := h3 s hs' lamp_plainly.names
  have hnodes : ∀ u n, (u, n) ∈ (lampSlugsExe true s).nodes →
      (u = 0 ∧ n = ⟨[0, 1], [0, 1]⟩) ∨ (u = 1 ∧ n = ⟨[1, 1], [0, 1]⟩) := by
    intro u n h
    simpa [lampSlugsExe] using h
  refine ⟨by unfold Dict.Wf; exact (by decide : [(0 : Int), 1].Nodup), ?_, [(c!"x", .boolean)], [(c!"y", .boolean)], ⟨dE, dS⟩,
    fun u k => if k = c!"x" then u else 1, ?_, ?_⟩
  · intro u n hn v hv
    have : v ∈ [(0 : Int), 1] := by rcases hnodes u n hn with ⟨_, rfl⟩ | ⟨_, rfl⟩ <;> exact hv
    exact this
  · intro u n hn k d hk
    simp only [List.cons_append, List.nil_append, List.mem_cons, List.not_mem_nil, or_false, Prod.mk.injEq] at hk
    have hzip : ∀ b : Int, dictOf ((lampSlugsExe true s).names.zip [b, 1]) = [(c!"x", b), (c!"y", 1)] := fun b => rfl
    rcases hk with ⟨rfl, rfl⟩ | ⟨rfl, rfl⟩ <;> rcases hnodes u n hn with ⟨rfl, rfl⟩ | ⟨rfl, rfl⟩ <;>
      simp [Dom.Has, bitsFor, sdom, hzip, Dict.get?]
  · intro v τ _ hτ
    have hon : ∀ t, τ t "y" = .bool true := fun t => hτ t c!"y" .boolean (by simp)
    have h1 : Tulip.parse c!"y" = some (.var "y") := by decide +kernel
    have h2 : Tulip.parse c!"X y" = some (.un .next (.var "y")) := by decide +kernel
    obtain ⟨_, _, _, _, m5, m6⟩ := hmean lamp_plainly.nesting τ
    intro _ _ _ _
    refine ⟨fun i => (m5 i).2 ?_, m6.2 ?_⟩
    · intro x hx
      have hx : x ∈ [c!"X y"] := hx
      obtain rfl := List.mem_singleton.1 hx
      exact ⟨_, h2, by simp [hon]⟩
    · intro x hx i
      have hx : x ∈ [c!"y"] := hx
      obtain rfl := List.mem_singleton.1 hx
      exact ⟨i, le_refl i, _, h1, by simp [hon]⟩

example : (∀ k d, (k, d) ∈ lamp.envVars ++ lamp.sysVars → Dom.Bits d) ∧
    (slugsSynthesize parts (some lampSlugsExe) lamp).toOption.map (Option.map fun A => A.nodes) =
      some (some [(0, [("y", .int 1), ("x", .int 0)]), (1, [("y", .int 1), ("x", .int 1)])]) := by
  constructor
  · intro k d h
    simp only [lamp, List.cons_append, List.nil_append, List.mem_cons, List.not_mem_nil, or_false,
      Prod.mk.injEq] at h
    rcases h with ⟨_, rfl⟩ | ⟨_, rfl⟩ <;> trivial
  · decide +kernel

end

end Iface

end Tulip
