import Verif.Spec.GRSpec

/-!
# Properties of `GRSpec` (C36, C37)
-/

namespace Tulip

/-! ## Specification -/

/-- The text `s` is a formula that holds at position `i` of the trace `σ`. -/
def Holds (σ : Trace) (i : Nat) (s : List Char) : Prop := ∃ f, parse s = some f ∧ Sat σ i f

/-- `init & [] safety & []<> prog_1 & …` on a trace. -/
def SideMeaning (init safety prog : List (List Char)) (σ : Trace) : Prop :=
  (∀ c ∈ init, Holds σ 0 c) ∧ (∀ c ∈ safety, ∀ i, Holds σ i c) ∧
    ∀ c ∈ prog, ∀ i, ∃ j, i ≤ j ∧ Holds σ j c

/-- The assumption of a specification. -/
def GRSpec.Assumption (s : GRSpec) : Trace → Prop := SideMeaning s.envInit s.envSafety s.envProg

/-- The guarantee of a specification. -/
def GRSpec.Guarantee (s : GRSpec) : Trace → Prop := SideMeaning s.sysInit s.sysSafety s.sysProg

/-- The meaning of a specification: the implication of the docstring of `GRSpec`. -/
def GRSpec.Meaning (s : GRSpec) (σ : Trace) : Prop := s.Assumption σ → s.Guarantee σ

/-- All clauses of a specification. -/
def GRSpec.clauses (s : GRSpec) : List (List Char) :=
  s.envInit ++ s.sysInit ++ s.envSafety ++ s.sysSafety ++ s.envProg ++ s.sysProg

/-- A clause that parses and contains no comment. -/
def Clause (c : List Char) : Prop := '#' ∉ c ∧ ∃ f, parse c = some f

/-! ## `to_canon` -/

theorem holds_iff {σ i c f} (h : parse c = some f) : Holds σ i c ↔ Sat σ i f := by
  constructor
  · rintro ⟨g, hg, hs⟩; rw [h] at hg; cases hg; exact hs
  · exact fun hs => ⟨f, h, hs⟩

/-- Chain of a nonempty clause list with a common prefix, appended to another chain or not. -/
theorem conjText_ne_nil {u : List Char} {cs : List (List Char)} (h : cs ≠ []) :
    conjText u cs ≠ [] := by
  cases cs with
  | nil => exact absurd rfl h
  | cons c cs => simp [conjText, joinWith_cons_eq]

/-- A (possibly empty) chain of conjuncts with the property it expresses. -/
def SideChain (s : List Char) (P : Trace → Prop) : Prop :=
  (s = [] ∧ ∀ σ, P σ) ∨ (s ≠ [] ∧ ∃ t, ChainStr 5 s t ∧ ∀ σ, Sat σ 0 t ↔ P σ)

/-- Appending the conjunction of the clauses `u(c)`, when `u` turns a unit into a unit with
meaning `Q`. -/
theorem SideChain.append {s u : List Char} {P : Trace → Prop} {Q : Trace → List Char → Prop}
    {cs : List (List Char)} (hs : SideChain s P)
    (hu : ∀ c ∈ cs, ∃ t, UnitStr (u ++ c!"(" ++ c ++ c!")") t ∧ ∀ σ, Sat σ 0 t ↔ Q σ c) :
    SideChain (if cs = [] then s else s ++ conjSep s ++ conjText u cs)
      (fun σ => P σ ∧ ∀ c ∈ cs, Q σ c) := by
  by_cases hcs : cs = []
  · subst hcs; simpa using hs
  · rw [if_neg hcs]
    -- the units of the clauses
    have hts : ∃ ts, List.Forall₂ UnitStr (cs.map (fun s => u ++ c!"(" ++ s ++ c!")")) ts ∧
        ∀ σ, (∀ t ∈ ts, Sat σ 0 t) ↔ ∀ c ∈ cs, Q σ c := by
      clear hcs
      induction cs with
      | nil => exact ⟨[], .nil, by simp⟩
      | cons c cs ih =>
        obtain ⟨ts, h1, h2⟩ := ih (fun c hc => hu c (List.mem_cons_of_mem _ hc))
        obtain ⟨t, h3, h4⟩ := hu c List.mem_cons_self
        refine ⟨t :: ts, .cons h3 h1, fun σ => ?_⟩
        simp [h2, h4]
    obtain ⟨ts, h1, h2⟩ := hts
    right
    refine ⟨?_, ?_⟩
    · intro h
      exact conjText_ne_nil hcs (List.append_eq_nil_iff.1 h).2
    cases cs with
    | nil => exact absurd rfl hcs
    | cons c cs =>
      cases h1 with
      | @cons _ t _ ts hx hxs =>
        rcases hs with ⟨rfl, hP⟩ | ⟨hne, t0, hch, hP⟩
        · refine ⟨_, by
            have := chain_join connective_and2 hx hxs
            simpa [conjSep, conjText, binLevel] using this, fun σ => ?_⟩
          show _ ↔ P σ ∧ _
          rw [sat_foldBin_and, ← h2 σ]
          simp [hP]
        · refine ⟨foldBin .and t0 (t :: ts), ?_, fun σ => ?_⟩
          · have := chain_join_aux connective_and2 hch (.cons hx hxs)
            simpa [conjSep, hne, conjText, joinWith_cons_eq, binLevel] using this
          · show _ ↔ P σ ∧ _
            rw [sat_foldBin_and, ← h2 σ, hP]

theorem sideText_chain {init safety prog : List (List Char)}
    (h : ∀ c ∈ init ++ safety ++ prog, Clause c) :
    SideChain (sideText init safety prog) (SideMeaning init safety prog) := by
  have h0 : SideChain [] (fun _ => True) := Or.inl ⟨rfl, fun _ => trivial⟩
  have h1 := h0.append (u := []) (Q := fun σ c => Holds σ 0 c) (cs := init) (by
    intro c hc
    obtain ⟨h1, f, h2⟩ := h c (by simp [hc])
    exact ⟨f, by simpa using unit_paren h1 h2, fun σ => (holds_iff h2).symm⟩)
  have h2 := h1.append (u := c!"[]") (Q := fun σ c => ∀ i, Holds σ i c) (cs := safety) (by
    intro c hc
    obtain ⟨h1, f, h2⟩ := h c (by simp [hc])
    refine ⟨_, by simpa using unit_always (unit_paren h1 h2), fun σ => ?_⟩
    simp [holds_iff h2])
  have h3 := h2.append (u := c!"[]<>") (Q := fun σ c => ∀ i, ∃ j, i ≤ j ∧ Holds σ j c)
    (cs := prog) (by
    intro c hc
    obtain ⟨h1, f, h2⟩ := h c (by simp [hc])
    refine ⟨_, by simpa using unit_always (unit_eventually (unit_paren h1 h2)), fun σ => ?_⟩
    simp [holds_iff h2])
  have e : sideText init safety prog =
      (if prog = [] then (if safety = [] then
          (if init = [] then [] else [] ++ conjSep [] ++ conjText [] init)
        else (if init = [] then [] else [] ++ conjSep [] ++ conjText [] init) ++
          conjSep (if init = [] then [] else [] ++ conjSep [] ++ conjText [] init) ++
          conjText c!"[]" safety)
      else (if safety = [] then
          (if init = [] then [] else [] ++ conjSep [] ++ conjText [] init)
        else (if init = [] then [] else [] ++ conjSep [] ++ conjText [] init) ++
          conjSep (if init = [] then [] else [] ++ conjSep [] ++ conjText [] init) ++
          conjText c!"[]" safety) ++
        conjSep (if safety = [] then
          (if init = [] then [] else [] ++ conjSep [] ++ conjText [] init)
        else (if init = [] then [] else [] ++ conjSep [] ++ conjText [] init) ++
          conjSep (if init = [] then [] else [] ++ conjSep [] ++ conjText [] init) ++
          conjText c!"[]" safety) ++ conjText c!"[]<>" prog) := by
    simp [sideText, conjSep]
  rw [e]
  have hm : (SideMeaning init safety prog) = fun σ => ((True ∧ ∀ c ∈ init, Holds σ 0 c) ∧
      ∀ c ∈ safety, ∀ i, Holds σ i c) ∧ ∀ c ∈ prog, ∀ i, ∃ j, i ≤ j ∧ Holds σ j c := by
    funext σ; simp [SideMeaning, and_assoc]
  rw [hm]
  exact h3

/-- **C37.** The string returned by `to_canon` parses, and the formula it denotes holds on a trace
iff the trace satisfies the GR(1) implication. -/
theorem toCanon_meaning (s : GRSpec) (h : ∀ c ∈ s.clauses, Clause c) :
    ∃ f, parse s.toCanon = some f ∧ ∀ σ, Sat σ 0 f ↔ s.Meaning σ := by
  have ha : SideChain (sideText s.envInit s.envSafety s.envProg) s.Assumption :=
    sideText_chain (fun c hc => h c (by
      simp only [GRSpec.clauses, List.mem_append] at hc ⊢; tauto))
  have hg : SideChain (sideText s.sysInit s.sysSafety s.sysProg) s.Guarantee :=
    sideText_chain (fun c hc => h c (by
      simp only [GRSpec.clauses, List.mem_append] at hc ⊢; tauto))
  unfold GRSpec.toCanon
  rcases hg with ⟨e, hg⟩ | ⟨hne, tg, hcg, hg⟩
  · refine ⟨.bool true, ?_, ?_⟩
    · simp only [e, if_true]; decide +kernel
    · intro σ; simp [GRSpec.Meaning, hg σ]
  · rcases ha with ⟨e, ha⟩ | ⟨hne', ta, hca, ha⟩
    · refine ⟨tg, ?_, ?_⟩
      · simp only [if_neg hne, e, if_true]; exact hcg.parse
      · intro σ; simp [GRSpec.Meaning, ha σ, hg σ]
    · refine ⟨.bin .imp ta tg, ?_, ?_⟩
      · simp only [if_neg hne, if_neg hne']
        have := (chain_bin connective_imp (unit_paren hca.clean hca.parse)
          (unit_paren hcg.clean hcg.parse)).parse
        simpa using this
      · intro σ; simp [GRSpec.Meaning, ha σ, hg σ]

/-- A concrete specification with clauses in every part. -/
def sampleSpec : GRSpec :=
  { envVars := [("e", .boolean)], sysVars := [("s", .boolean), ("n", .range 0 3)],
    envInit := [c!"!e"], sysInit := [c!"s -> n = 0", c!"n < 2"],
    envSafety := [c!"e -> X !e"], sysSafety := [c!"s || e"],
    envProg := [c!"e"], sysProg := [c!"n = 3", c!"s"],
    moore := true, plusOne := true, qinit := c!"\\A \\A", formula := [] }

/-- Non-vacuity. -/
theorem sampleSpec_clauses : ∀ c ∈ sampleSpec.clauses, Clause c := by
  have : ∀ c ∈ sampleSpec.clauses, '#' ∉ c ∧ (parse c).isSome = true := by decide +kernel
  intro c hc
  obtain ⟨h1, h2⟩ := this c hc
  exact ⟨h1, Option.isSome_iff_exists.1 h2⟩

/-- The parser rejects an empty clause, so `to_canon` with an empty clause (as returned by
`split_gr1` for a formula without initial conjunct) does not parse. -/
theorem toCanon_empty_clause_counterexample :
    parse (GRSpec.toCanon { sampleSpec with sysInit := [[]] }) = none := by decide +kernel

/-! ## Union -/

/-- What a successful union is. -/
theorem union_ok {s o r : GRSpec} (h : s.union o = .ok r) :
    checkVars s.envVars s.sysVars = true ∧ s.moore = o.moore ∧ s.plusOne = o.plusOne ∧
    s.qinit = o.qinit ∧ sameDomains s.envVars o.envVars = true ∧
    sameDomains s.sysVars o.sysVars = true ∧
    r = { s with
      envVars := s.envVars.update o.envVars
      sysVars := s.sysVars.update o.sysVars
      envInit := s.envInit ++ o.envInit
      sysInit := s.sysInit ++ o.sysInit
      envSafety := s.envSafety ++ o.envSafety
      sysSafety := s.sysSafety ++ o.sysSafety
      envProg := s.envProg ++ o.envProg
      sysProg := s.sysProg ++ o.sysProg
      formula := s.toCanon } := by
  simp only [GRSpec.union, GRSpec.copy, GRSpec.make] at h
  by_cases h0 : checkVars s.envVars s.sysVars = true
  · simp only [h0, if_true] at h
    by_cases h1 : s.moore = o.moore
    · by_cases h2 : s.plusOne = o.plusOne
      · by_cases h3 : s.qinit = o.qinit
        · by_cases h4 : sameDomains s.envVars o.envVars = true
          · by_cases h5 : sameDomains s.sysVars o.sysVars = true
            · simp [h1, h2, h3, h4, h5, bind, Except.bind, pure, Except.pure] at h
              refine ⟨h0, h1, h2, h3, h4, h5, ?_⟩
              rw [← h]
              simp only [← h1, ← h2, ← h3]
              rfl
            · simp [h1, h2, h3, h4, h5, bind, Except.bind, pure, Except.pure, throw,
                throwThe, MonadExceptOf.throw] at h
          · simp [h1, h2, h3, h4, bind, Except.bind, pure, Except.pure, throw,
                throwThe, MonadExceptOf.throw] at h
        · simp [h1, h2, h3, bind, Except.bind, pure, Except.pure, throw,
                throwThe, MonadExceptOf.throw] at h
      · simp [h1, h2, bind, Except.bind, pure, Except.pure, throw,
                throwThe, MonadExceptOf.throw] at h
    · simp [h1, bind, Except.bind, pure, Except.pure, throw,
                throwThe, MonadExceptOf.throw] at h
  · simp [h0, bind, Except.bind] at h

theorem sideMeaning_append (i s p i' s' p' : List (List Char)) (σ : Trace) :
    SideMeaning (i ++ i') (s ++ s') (p ++ p') σ ↔
      SideMeaning i s p σ ∧ SideMeaning i' s' p' σ := by
  simp only [SideMeaning, List.mem_append]
  constructor
  · rintro ⟨a, b, c⟩
    exact ⟨⟨fun x h => a x (Or.inl h), fun x h => b x (Or.inl h), fun x h => c x (Or.inl h)⟩,
      ⟨fun x h => a x (Or.inr h), fun x h => b x (Or.inr h), fun x h => c x (Or.inr h)⟩⟩
  · rintro ⟨⟨a, b, c⟩, ⟨a', b', c'⟩⟩
    exact ⟨fun x h => h.elim (a x) (a' x), fun x h => h.elim (b x) (b' x),
      fun x h => h.elim (c x) (c' x)⟩

/-- **C36.** The assumption and the guarantee of `a | b` are the conjunctions of those of `a` and
of `b`; the declared variables are those of both, each with its domain. -/
theorem union_meaning {s o r : GRSpec} (h : s.union o = .ok r)
    (he : Dict.Wf o.envVars) (hs : Dict.Wf o.sysVars) :
    (∀ σ, r.Assumption σ ↔ s.Assumption σ ∧ o.Assumption σ) ∧
    (∀ σ, r.Guarantee σ ↔ s.Guarantee σ ∧ o.Guarantee σ) ∧
    (∀ x d, r.envVars.get? x = some d ↔ s.envVars.get? x = some d ∨ o.envVars.get? x = some d) ∧
    (∀ x d, r.sysVars.get? x = some d ↔ s.sysVars.get? x = some d ∨ o.sysVars.get? x = some d) ∧
    r.moore = s.moore ∧ r.plusOne = s.plusOne ∧ r.qinit = s.qinit := by
  obtain ⟨_, h1, h2, h3, h4, h5, rfl⟩ := union_ok h
  have key : ∀ (d e : Dict String Dom), Dict.Wf e → sameDomains d e = true → ∀ x a,
      (d.update e).get? x = some a ↔ d.get? x = some a ∨ e.get? x = some a := by
    intro d e he hsame x a
    rw [Dict.get?_update_wf he]
    cases hx : e.get? x with
    | none => simp
    | some b =>
      have hm : x ∈ e.keys := (Dict.mem_keys_iff e x).2 ⟨b, hx⟩
      have := List.all_eq_true.1 hsame x hm
      cases hd : d.get? x with
      | none => simp
      | some c =>
        simp only [hd, hx, beq_iff_eq, Option.some.injEq] at this
        simp [this]
  exact ⟨fun σ => sideMeaning_append _ _ _ _ _ _ σ, fun σ => sideMeaning_append _ _ _ _ _ _ σ,
    key _ _ he h4, key _ _ hs h5, rfl, rfl, rfl⟩

/-- **C36.** The union fails exactly when the left operand declares a variable on both sides, the
options differ, or a shared variable has two domains. -/
theorem union_error_iff (s o : GRSpec) :
    (∃ e, s.union o = .error e) ↔
      (∃ x, x ∈ s.envVars.keys ∧ x ∈ s.sysVars.keys) ∨ s.moore ≠ o.moore ∨
      s.plusOne ≠ o.plusOne ∨ s.qinit ≠ o.qinit ∨
      (∃ x a b, s.envVars.get? x = some a ∧ o.envVars.get? x = some b ∧ a ≠ b) ∨
      (∃ x a b, s.sysVars.get? x = some a ∧ o.sysVars.get? x = some b ∧ a ≠ b) := by
  have hc : checkVars s.envVars s.sysVars = false ↔
      ∃ x, x ∈ s.envVars.keys ∧ x ∈ s.sysVars.keys := by
    simp only [checkVars, Bool.not_eq_false', List.any_eq_true, Dict.has_iff, Dict.mem_keys_iff]
  have hd : ∀ d e : Dict String Dom, sameDomains d e = false ↔
      ∃ x a b, d.get? x = some a ∧ e.get? x = some b ∧ a ≠ b := by
    intro d e
    rw [← Bool.not_eq_true, sameDomains, List.all_eq_true]
    constructor
    · intro h
      simp only [not_forall] at h
      obtain ⟨x, hx, h⟩ := h
      obtain ⟨b, hb⟩ := (Dict.mem_keys_iff e x).1 hx
      cases ha : d.get? x with
      | none => simp [ha] at h
      | some a =>
        simp only [ha, hb, beq_iff_eq, Option.some.injEq] at h
        exact ⟨x, a, b, ha, hb, fun e => h e.symm⟩
    · rintro ⟨x, a, b, ha, hb, hab⟩ h
      have := h x ((Dict.mem_keys_iff e x).2 ⟨b, hb⟩)
      simp only [ha, hb, beq_iff_eq, Option.some.injEq] at this
      exact hab this.symm
  constructor
  · rintro ⟨e, h⟩
    by_contra hn
    simp only [not_or, ← hc, ← hd, not_not, Bool.not_eq_false] at hn
    obtain ⟨h0, h1, h2, h3, h4, h5⟩ := hn
    simp [GRSpec.union, GRSpec.copy, GRSpec.make, h0, h1, h2, h3, h4, h5, bind, Except.bind, pure,
      Except.pure] at h
  · intro h
    cases hu : s.union o with
    | error e => exact ⟨e, rfl⟩
    | ok r =>
      obtain ⟨h0, h1, h2, h3, h4, h5, _⟩ := union_ok hu
      rw [← hc, ← hd, ← hd, h0, h4, h5] at h
      simp [h1, h2, h3] at h

/-- Non-vacuity: a union of two specifications that share a variable. -/
def otherSpec : GRSpec :=
  { envVars := [("f", .boolean)], sysVars := [("n", .range 0 3)],
    envInit := [], sysInit := [c!"n < 3"], envSafety := [c!"f"], sysSafety := [],
    envProg := [], sysProg := [c!"n = 1"],
    moore := true, plusOne := true, qinit := c!"\\A \\A", formula := [] }

example : ∃ r, sampleSpec.union otherSpec = .ok r := ⟨_, rfl⟩
example : Dict.Wf otherSpec.envVars ∧ Dict.Wf otherSpec.sysVars := by
  simp [otherSpec, Dict.Wf, Dict.keys]
example : sampleSpec.union { otherSpec with sysVars := [("n", .boolean)] } =
    .error .valueError := by decide +kernel

/-- The union can declare a variable both as environment and as system variable: no check is
repeated after the variables are merged, although the constructor rejects such declarations. -/
theorem union_overlap_counterexample :
    ∃ r, sampleSpec.union { otherSpec with sysVars := [("e", .boolean)] } = .ok r ∧
      checkVars r.envVars r.sysVars = false := ⟨_, rfl, by decide +kernel⟩

/-- The attribute `formula` of a union is still the formula of the left operand. -/
theorem union_stale_formula_counterexample :
    ∃ r, sampleSpec.union otherSpec = .ok r ∧ r.formula = sampleSpec.toCanon ∧
      r.formula ≠ r.toCanon := by
  refine ⟨_, rfl, ?_, ?_⟩ <;> decide +kernel

/-! ## `declare` -/

/-- **C36 (declare).** A successful declaration adds exactly the given variables to the requested
side, never changes a domain and never puts a variable on both sides; a rejected one is an
assertion error. -/
theorem declare_ok {s r : GRSpec} {d : Dict String Dom} {env : Bool} (hd : Dict.Wf d)
    (h : s.declare d env = .ok r) :
    let target := fun q : GRSpec => if env then q.envVars else q.sysVars
    let other := fun q : GRSpec => if env then q.sysVars else q.envVars
    (∀ x a, (target r).get? x = some a ↔ (target s).get? x = some a ∨ d.get? x = some a) ∧
    other r = other s ∧ (∀ x, (d.get? x).isSome → (other s).get? x = none) := by
  have key : ∀ t o : Dict String Dom, declareChecks t o d = true →
      (∀ x a, (t.update d).get? x = some a ↔ t.get? x = some a ∨ d.get? x = some a) ∧
      ∀ x, (d.get? x).isSome → o.get? x = none := by
    intro t o hc
    have hc' : ∀ x b, d.get? x = some b → o.get? x = none ∧ ∀ a, t.get? x = some a → a = b := by
      intro x b hx
      have : (x, b) ∈ d := by
        simp only [Dict.get?, Option.map_eq_some_iff] at hx
        obtain ⟨p, hp, rfl⟩ := hx
        have h1 := List.mem_of_find?_eq_some hp
        have h2 := List.find?_some hp
        simp only [beq_iff_eq] at h2
        subst h2; exact h1
      have := List.all_eq_true.1 hc _ this
      simp only [Bool.and_eq_true, Bool.not_eq_true', Dict.has_false_iff] at this
      refine ⟨this.1, fun a ha => ?_⟩
      simpa [ha] using this.2
    refine ⟨fun x a => ?_, fun x hx => ?_⟩
    · rw [Dict.get?_update_wf hd]
      cases hx : d.get? x with
      | none => simp
      | some b =>
        cases ht : t.get? x with
        | none => simp
        | some c => have := (hc' x b hx).2 c ht; subst this; simp
    · obtain ⟨b, hb⟩ := Option.isSome_iff_exists.1 hx
      exact (hc' x b hb).1
  cases env
  · simp only [GRSpec.declare, Bool.false_eq_true, if_false] at h ⊢
    split at h
    · rename_i hc; cases h
      exact ⟨(key _ _ hc).1, rfl, (key _ _ hc).2⟩
    · cases h
  · simp only [GRSpec.declare, if_true] at h ⊢
    split at h
    · rename_i hc; cases h
      exact ⟨(key _ _ hc).1, rfl, (key _ _ hc).2⟩
    · cases h

/-- **C36 (declare).** `declare` accepts exactly the variables that are not declared on the other side, and that are
declared on this side, if at all, with the same domain. Otherwise it raises `AssertionError`. -/
theorem declare_returns (s : GRSpec) {d : Dict String Dom} (env : Bool) (hd : Dict.Wf d) :
    let target := if env then s.envVars else s.sysVars
    let other := if env then s.sysVars else s.envVars
    ((∃ r, s.declare d env = .ok r) ↔
      ∀ x a, d.get? x = some a → other.get? x = none ∧ ∀ b, target.get? x = some b → b = a) ∧
    ((∀ r, s.declare d env ≠ .ok r) → s.declare d env = .error .assertion) := by
  have hmem : ∀ x a, d.get? x = some a ↔ (x, a) ∈ d := by
    clear s
    induction d with
    | nil => simp
    | cons p d ih =>
      have hw' : p.1 ∉ Dict.keys d ∧ Dict.Wf d := by simpa [Dict.Wf, Dict.keys] using hd
      obtain ⟨y, b⟩ := p
      intro x a
      rw [Dict.get?_cons, List.mem_cons]
      by_cases hk : y = x
      · subst hk
        have : (y, a) ∉ d := fun h => hw'.1 (List.mem_map.2 ⟨(y, a), h, rfl⟩)
        simp [this, eq_comm]
      · rw [if_neg hk, ih hw'.2]
        simp [Ne.symm hk]
  have key : ∀ t o : Dict String Dom, declareChecks t o d = true ↔
      ∀ x a, d.get? x = some a → o.get? x = none ∧ ∀ b, t.get? x = some b → b = a := by
    intro t o
    unfold declareChecks
    rw [List.all_eq_true]
    constructor
    · intro h x a hx
      have := h (x, a) ((hmem x a).1 hx)
      simp only [Bool.and_eq_true, Bool.not_eq_true', Dict.has_false_iff] at this
      refine ⟨this.1, fun b hb => ?_⟩
      simpa [hb] using this.2
    · rintro h ⟨x, a⟩ hx
      obtain ⟨h1, h2⟩ := h x a ((hmem x a).2 hx)
      simp only [Bool.and_eq_true, Bool.not_eq_true', Dict.has_false_iff]
      refine ⟨h1, ?_⟩
      cases hb : t.get? x with
      | none => rfl
      | some b => simpa using h2 b hb
  cases env
  · simp only [GRSpec.declare, Bool.false_eq_true, if_false, ← key]
    cases declareChecks s.sysVars s.envVars d <;> simp
  · simp only [GRSpec.declare, if_true, ← key]
    cases declareChecks s.envVars s.sysVars d <;> simp

example : ∃ r, sampleSpec.declare [("m", .range 0 5), ("s", .boolean)] false = .ok r :=
  ⟨_, rfl⟩
example : sampleSpec.declare [("e", .boolean)] false = .error .assertion := by decide +kernel

end Tulip
