import Verif.Spec.Gr1Fragment
import Verif.Spec.GRSpecProps
import Mathlib.Data.Nat.Find

/-!
# Properties of the GR(1) fragment conversions (C42–C46)
-/

namespace Tulip

/-! ## Templates -/

theorem unit_paren' {s : List Char} {t : Ast} (hs : '#' ∉ s) (h : parse s = some t) :
    UnitStr (paren s) t := unit_paren hs h

theorem unit_not_paren {s : List Char} {t : Ast} (hs : '#' ∉ s) (h : parse s = some t) :
    UnitStr (c!"!" ++ paren s) (.un .not t) := by
  have := unit_not (s := s ++ c!")") (by simpa using unit_paren hs h)
  simpa [paren] using this

theorem clause_of_chain {L s t} (h : ChainStr L s t) : Clause s := ⟨h.clean, t, h.parse⟩
theorem clause_of_unit {s t} (h : UnitStr s t) : Clause s := ⟨h.clean, t, h.parse⟩

theorem imp_text {s u : List Char} {x y : Ast} (hs : UnitStr s x) (hu : UnitStr u y) :
    ChainStr 2 (s ++ c!" -> " ++ u) (.bin .imp x y) := by
  have := chain_bin connective_imp hs hu
  simpa [binLevel] using this

theorem and_text {s u : List Char} {x y : Ast} (hs : UnitStr s x) (hu : UnitStr u y) :
    ChainStr 5 (s ++ c!" && " ++ u) (.bin .and x y) := by
  have := chain_bin connective_and2 hs hu
  simpa [binLevel] using this

/-- An admissible auxiliary variable: an identifier that is not reserved. -/
def AuxName (x : String) : Prop := IsIdent x ∧ ¬ IsReserved x

/-- An operand: a formula text without comments that parses to `f`. -/
def Operand (s : List Char) (f : Ast) : Prop := '#' ∉ s ∧ parse s = some f

theorem AuxName.operand {x : String} (h : AuxName x) : Operand x.toList (.var x) :=
  ⟨(unit_ident h.1 h.2).clean, (unit_ident h.1 h.2).parse⟩

theorem sysSpec_ok {v i s p S} (h : sysSpec v i s p = .ok S) :
    S.sysInit = i ∧ S.sysSafety = s ∧ S.sysProg = p ∧ S.envInit = [] ∧ S.envSafety = [] ∧
      S.envProg = [] ∧ S.envVars = [] ∧ S.sysVars = boolVars v := by
  have : checkVars [] (boolVars v) = true := rfl
  simp only [sysSpec, GRSpec.make, this, if_true, Except.ok.injEq] at h
  subst h
  simp

theorem sysSpec_exists (v i s p) : ∃ S, sysSpec v i s p = .ok S := ⟨_, rfl⟩

/-- Meaning of a specification without environment part. -/
theorem meaning_sys {S : GRSpec} (h1 : S.envInit = []) (h2 : S.envSafety = [])
    (h3 : S.envProg = []) (σ : Trace) : S.Meaning σ ↔ S.Guarantee σ := by
  simp [GRSpec.Meaning, GRSpec.Assumption, SideMeaning, h1, h2, h3]

/-! ## `<>[] p` -/

/-- Least position with a property. -/
theorem exists_least {P : Nat → Prop} (h : ∃ n, P n) : ∃ n, P n ∧ ∀ m < n, ¬ P m := by
  classical
  exact ⟨Nat.find h, Nat.find_spec h, fun m hm => Nat.find_min h hm⟩

section
variable {p q : List Char} {φ ψ : Ast} {aux : String} {S : GRSpec}

theorem conflict_ok {f : List Char} {t : Ast} {v : List String}
    (hf : parse f = some t) (h : checkVarNameConflict f aux = .ok v) : aux ∉ t.vars ∧ v = t.vars := by
  simp only [checkVarNameConflict, hf] at h
  split at h
  · cases h
  · rename_i hn; cases h; exact ⟨hn, rfl⟩

/-- **C43.** A trace satisfies `<>[] p` iff the auxiliary variable can be chosen so that the trace
satisfies the specification returned by `stability_to_gr1`. -/
theorem stability_correct (hp : Operand p φ) (ha : AuxName aux)
    (h : stabilityToGr1 p aux = .ok S) (σ : Trace) :
    (∃ a, S.Meaning (σ.set aux a)) ↔ Sat σ 0 (.F (.G φ)) := by
  have hpp : parse (paren p) = some φ := (unit_paren' hp.1 hp.2).parse
  have hA := unit_paren' ha.operand.1 ha.operand.2
  have hP := unit_paren' hp.1 hp.2
  have hNA := unit_not_paren ha.operand.1 ha.operand.2
  simp only [stabilityToGr1, bind, Except.bind] at h
  split at h
  · cases h
  rename_i v hv
  obtain ⟨hn, rfl⟩ := conflict_ok hpp hv
  obtain ⟨e1, e2, e3, e4, e5, e6, _, _⟩ := sysSpec_ok h
  have hs1 := imp_text hA hP
  have hs2 : ChainStr 2 (paren aux.toList ++ c!" -> X " ++ paren aux.toList)
      (.bin .imp (.var aux) (.un .next (.var aux))) := by
    simpa using imp_text hA (unit_next hA)
  simp only [meaning_sys e4 e5 e6, GRSpec.Guarantee, e1, e2, e3, SideMeaning, List.mem_cons,
    List.not_mem_nil, or_false, forall_eq_or_imp, forall_eq, holds_iff hs1.parse,
    holds_iff hs2.parse, holds_iff hNA.parse, holds_iff hA.parse, sat_not, sat_imp, sat_next,
    sat_var, sat_set hn, Trace.set_same, Val.bool.injEq, sat_eventually, sat_always]
  constructor
  · rintro ⟨a, h0, ⟨h1, h2⟩, h3⟩
    obtain ⟨N, _, hN⟩ := h3 0
    refine ⟨N, Nat.zero_le _, fun j hj => h1 j ?_⟩
    induction j, hj using Nat.le_induction with
    | base => exact hN
    | succ j _ ih => exact h2 j ih
  · rintro ⟨N, _, hN⟩
    refine ⟨fun i => decide (N < i), by simp, ⟨fun i hi => ?_, fun i hi => ?_⟩, fun i => ?_⟩
    · simp only [decide_eq_true_eq] at hi; exact hN i (by omega)
    · simp only [decide_eq_true_eq] at hi ⊢; omega
    · exact ⟨i + N + 1, by omega, by simp only [decide_eq_true_eq]; omega⟩

/-- **C44.** Correctness of `response_to_gr1`. -/
theorem response_correct (hp : Operand p φ) (hq : Operand q ψ) (ha : AuxName aux)
    (h : responseToGr1 p q aux = .ok S) (σ : Trace) :
    (∃ a, S.Meaning (σ.set aux a)) ↔ Sat σ 0 (.G (.imp φ (.F ψ))) := by
  have hP := unit_paren' hp.1 hp.2
  have hQ := unit_paren' hq.1 hq.2
  have hA := unit_paren' ha.operand.1 ha.operand.2
  have hNA := unit_not_paren ha.operand.1 ha.operand.2
  have hNQ := unit_not_paren hq.1 hq.2
  have hpp : parse (paren p ++ c!" -> <> " ++ paren q) = some (.bin .imp φ (.un .eventually ψ)) := by
    have hsp : UnitStr (c!"<> " ++ paren q) (.un .eventually ψ) := by
      refine ⟨by simp [hQ.clean], ?_⟩
      have : lex (c!"<> " ++ paren q) = .un .eventually :: lex (paren q) := by
        simp [lex_cons, lexStep]
      rw [this]; exact hQ.reads.un _
    simpa using (imp_text hP hsp).parse
  simp only [responseToGr1, bind, Except.bind] at h
  split at h
  · cases h
  rename_i v hv
  obtain ⟨hn, rfl⟩ := conflict_ok hpp hv
  simp only [Ast.vars, List.mem_append, not_or] at hn
  obtain ⟨hnp, hnq⟩ := hn
  obtain ⟨e1, e2, e3, e4, e5, e6, _, _⟩ := sysSpec_ok h
  have hs1 : ChainStr 2 (c!"(" ++ paren p ++ c!" && !" ++ paren q ++ c!") -> X !" ++ paren aux.toList)
      (.bin .imp (.bin .and φ (.un .not ψ)) (.un .next (.un .not (.var aux)))) := by
    have := and_text hP hNQ
    have := imp_text (unit_paren this.clean this.parse) (unit_next hNA)
    simpa using this
  have hs2 : ChainStr 2
      (c!"(!" ++ paren aux.toList ++ c!" && !" ++ paren q ++ c!") -> X !" ++ paren aux.toList)
      (.bin .imp (.bin .and (.un .not (.var aux)) (.un .not ψ))
        (.un .next (.un .not (.var aux)))) := by
    have := and_text hNA hNQ
    have := imp_text (unit_paren this.clean this.parse) (unit_next hNA)
    simpa using this
  simp only [meaning_sys e4 e5 e6, GRSpec.Guarantee, e1, e2, e3, SideMeaning, List.mem_cons,
    List.not_mem_nil, or_false, forall_eq_or_imp, forall_eq, holds_iff hs1.parse,
    holds_iff hs2.parse, holds_iff hA.parse, sat_not, sat_imp, sat_next, sat_and,
    sat_var, sat_set hnp, sat_set hnq, Trace.set_same, Val.bool.injEq, sat_eventually, sat_always,
    false_implies, implies_true, true_and]
  constructor
  · rintro ⟨a, ⟨h1, h2⟩, h3⟩ i _ hi
    by_contra hc
    have hc : ∀ j, i ≤ j → ¬ Sat σ j ψ := fun j hj hs => hc ⟨j, hj, hs⟩
    have hall : ∀ j, i + 1 ≤ j → ¬ a j = true := by
      intro j hj
      induction j, hj using Nat.le_induction with
      | base => exact h1 i ⟨hi, hc i (Nat.le_refl _)⟩
      | succ j hj ih => exact h2 j ⟨ih, hc j (by omega)⟩
    obtain ⟨j, hj, hja⟩ := h3 (i + 1)
    exact hall j hj hja
  · intro hr
    classical
    -- `aux` is true exactly when no request is pending
    refine ⟨fun i => decide (∀ k, k < i → Sat σ k φ → ∃ j, k ≤ j ∧ j < i ∧ Sat σ j ψ), ⟨?_, ?_⟩, ?_⟩
    · rintro i ⟨hi, hnq'⟩ hc
      simp only [decide_eq_true_eq] at hc
      obtain ⟨j, h1, h2, h3⟩ := hc i (by omega) hi
      have : j = i := by omega
      subst this; exact hnq' h3
    · rintro i ⟨hi, hnq'⟩ hc
      simp only [decide_eq_true_eq] at hi hc
      apply hi
      intro k hk hkp
      obtain ⟨j, h1, h2, h3⟩ := hc k (by omega) hkp
      have : j ≠ i := by rintro rfl; exact hnq' h3
      exact ⟨j, h1, by omega, h3⟩
    · intro i
      by_cases hex : ∃ j, i ≤ j ∧ Sat σ j ψ
      · obtain ⟨j, hj, hjq⟩ := hex
        refine ⟨j + 1, by omega, ?_⟩
        simp only [decide_eq_true_eq]
        intro k hk _
        exact ⟨j, by omega, by omega, hjq⟩
      · refine ⟨i, Nat.le_refl _, ?_⟩
        simp only [decide_eq_true_eq]
        intro k hk hkp
        obtain ⟨j, h1, h2⟩ := hr k (Nat.zero_le _) hkp
        refine ⟨j, h1, ?_, h2⟩
        by_contra hji
        exact hex ⟨j, by omega, h2⟩

/-- **C45.** Correctness of `eventually_to_gr1`. -/
theorem eventually_correct (hp : Operand p φ) (ha : AuxName aux)
    (h : eventuallyToGr1 p aux = .ok S) (σ : Trace) :
    (∃ a, S.Meaning (σ.set aux a)) ↔ Sat σ 0 (.F φ) := by
  have hP := unit_paren' hp.1 hp.2
  have hA := unit_paren' ha.operand.1 ha.operand.2
  have hNA := unit_not_paren ha.operand.1 ha.operand.2
  have hNP := unit_not_paren hp.1 hp.2
  simp only [eventuallyToGr1, bind, Except.bind] at h
  split at h
  · cases h
  rename_i v hv
  obtain ⟨hn, rfl⟩ := conflict_ok hP.parse hv
  obtain ⟨e1, e2, e3, e4, e5, e6, _, _⟩ := sysSpec_ok h
  have hi : UnitStr (c!"!(" ++ paren aux.toList ++ c!")") (.un .not (.var aux)) := by
    simpa [paren] using unit_not_paren hA.clean hA.parse
  have hs1 : ChainStr 2
      (c!"(!" ++ paren p ++ c!" && !" ++ paren aux.toList ++ c!") -> X !" ++ paren aux.toList)
      (.bin .imp (.bin .and (.un .not φ) (.un .not (.var aux)))
        (.un .next (.un .not (.var aux)))) := by
    have := and_text hNP hNA
    have := imp_text (unit_paren this.clean this.parse) (unit_next hNA)
    simpa using this
  have hs2 : ChainStr 2 (paren aux.toList ++ c!" -> X " ++ paren aux.toList)
      (.bin .imp (.var aux) (.un .next (.var aux))) := by
    simpa using imp_text hA (unit_next hA)
  simp only [meaning_sys e4 e5 e6, GRSpec.Guarantee, e1, e2, e3, SideMeaning, List.mem_cons,
    List.not_mem_nil, or_false, forall_eq_or_imp, forall_eq, holds_iff hs1.parse,
    holds_iff hs2.parse, holds_iff hi.parse, holds_iff hA.parse, sat_not, sat_imp, sat_next,
    sat_and, sat_var, sat_set hn, Trace.set_same, Val.bool.injEq, sat_eventually]
  constructor
  · rintro ⟨a, h0, ⟨h1, _⟩, h3⟩
    by_contra hc
    have hc : ∀ j, ¬ Sat σ j φ := fun j hs => hc ⟨j, Nat.zero_le _, hs⟩
    have hall : ∀ j, ¬ a j = true := by
      intro j
      induction j with
      | zero => exact h0
      | succ j ih => exact h1 j ⟨hc j, ih⟩
    obtain ⟨j, _, hj⟩ := h3 0
    exact hall j hj
  · rintro ⟨N, _, hN⟩
    classical
    refine ⟨fun i => decide (∃ j, j < i ∧ Sat σ j φ), by simp, ⟨?_, ?_⟩, ?_⟩
    · rintro i ⟨hi, hna⟩ hc
      simp only [decide_eq_true_eq] at hna hc
      obtain ⟨j, h1, h2⟩ := hc
      have : j ≠ i := by rintro rfl; exact hi h2
      exact hna ⟨j, by omega, h2⟩
    · intro i hi
      simp only [decide_eq_true_eq] at hi ⊢
      obtain ⟨j, h1, h2⟩ := hi
      exact ⟨j, by omega, h2⟩
    · intro i
      exact ⟨i + N + 1, by omega, by simp only [decide_eq_true_eq]; exact ⟨N, by omega, hN⟩⟩

/-- **C46.** Correctness of `until_to_gr1`. -/
theorem until_correct (hp : Operand p φ) (hq : Operand q ψ) (ha : AuxName aux)
    (h : untilToGr1 p q aux = .ok S) (σ : Trace) :
    (∃ a, S.Meaning (σ.set aux a)) ↔ Sat σ 0 (.U φ ψ) := by
  have hP := unit_paren' hp.1 hp.2
  have hQ := unit_paren' hq.1 hq.2
  have hA := unit_paren' ha.operand.1 ha.operand.2
  have hNA := unit_not_paren ha.operand.1 ha.operand.2
  have hNQ := unit_not_paren hq.1 hq.2
  have hpp := (and_text hP hQ).parse
  simp only [untilToGr1, bind, Except.bind] at h
  split at h
  · cases h
  rename_i v hv
  obtain ⟨hn, rfl⟩ := conflict_ok hpp hv
  simp only [Ast.vars, List.mem_append, not_or] at hn
  obtain ⟨hnp, hnq⟩ := hn
  obtain ⟨e1, e2, e3, e4, e5, e6, _, _⟩ := sysSpec_ok h
  have hi : ChainStr 2 (c!"!" ++ paren q ++ c!" -> !" ++ paren aux.toList)
      (.bin .imp (.un .not ψ) (.un .not (.var aux))) := by
    simpa using imp_text hNQ hNA
  have hs1 : ChainStr 2 (paren q ++ c!" -> " ++ paren aux.toList) (.bin .imp ψ (.var aux)) :=
    imp_text hQ hA
  have hs2 : ChainStr 2 (c!"( (X !" ++ paren q ++ c!") && !" ++ paren aux.toList ++ c!") -> X !" ++
      paren aux.toList)
      (.bin .imp (.bin .and (.un .next (.un .not ψ)) (.un .not (.var aux)))
        (.un .next (.un .not (.var aux)))) := by
    have h1 := unit_next hNQ
    have h2 := and_text (unit_paren h1.clean h1.parse) hNA
    have h3 : parse (c!" " ++ (c!"(" ++ (c!"X " ++ (c!"!" ++ paren q)) ++ c!")" ++ c!" && " ++
        (c!"!" ++ paren aux.toList))) =
        some (.bin .and (.un .next (.un .not ψ)) (.un .not (.var aux))) := by
      have e := h2.parse
      simp only [parse] at e ⊢
      rw [List.cons_append, List.nil_append, lex_space]
      exact e
    have := imp_text (unit_paren (by simpa using h2.clean) h3) (unit_next hNA)
    simpa using this
  have hs3 : ChainStr 2 (paren aux.toList ++ c!" -> X " ++ paren aux.toList)
      (.bin .imp (.var aux) (.un .next (.var aux))) := by
    simpa using imp_text hA (unit_next hA)
  have hs4 : ChainStr 2 (c!"(!" ++ paren aux.toList ++ c!") -> " ++ paren p)
      (.bin .imp (.un .not (.var aux)) φ) := by
    have := imp_text (unit_paren hNA.clean hNA.parse) hP
    simpa using this
  simp only [meaning_sys e4 e5 e6, GRSpec.Guarantee, e1, e2, e3, SideMeaning, List.mem_cons,
    List.not_mem_nil, or_false, forall_eq_or_imp, forall_eq, holds_iff hs1.parse,
    holds_iff hs2.parse, holds_iff hs3.parse, holds_iff hs4.parse, holds_iff hi.parse,
    holds_iff hA.parse, sat_not, sat_imp, sat_next, sat_and, sat_var, sat_set hnp, sat_set hnq,
    Trace.set_same, Val.bool.injEq, sat_until]
  constructor
  · rintro ⟨a, h0, ⟨h1, h2, h3, h4⟩, h5⟩
    have hex : ∃ j, a j = true := by obtain ⟨j, _, hj⟩ := h5 0; exact ⟨j, hj⟩
    obtain ⟨N, hN, hmin⟩ := exists_least hex
    refine ⟨N, Nat.zero_le _, ?_, fun k _ hk => h4 k (hmin k hk)⟩
    by_contra hc
    cases N with
    | zero => exact h0 hc hN
    | succ N => exact h2 N ⟨hc, hmin N (by omega)⟩ hN
  · rintro ⟨N, _, hN, hpre⟩
    classical
    obtain ⟨M, hM, hmin⟩ := exists_least (P := fun j => Sat σ j ψ) ⟨N, hN⟩
    have hMN : M ≤ N := by
      by_contra hc; exact hmin N (by omega) hN
    refine ⟨fun i => decide (∃ j, j ≤ i ∧ Sat σ j ψ), ?_, ⟨?_, ?_, ?_, ?_⟩, ?_⟩
    · intro h0 hc
      simp only [decide_eq_true_eq] at hc
      obtain ⟨j, h1, h2⟩ := hc
      have : j = 0 := by omega
      subst this; exact h0 h2
    · intro i hi
      simp only [decide_eq_true_eq]; exact ⟨i, Nat.le_refl _, hi⟩
    · rintro i ⟨hi, hna⟩ hc
      simp only [decide_eq_true_eq] at hna hc
      obtain ⟨j, h1, h2⟩ := hc
      have : j ≠ i + 1 := by rintro rfl; exact hi h2
      exact hna ⟨j, by omega, h2⟩
    · intro i hi
      simp only [decide_eq_true_eq] at hi ⊢
      obtain ⟨j, h1, h2⟩ := hi
      exact ⟨j, by omega, h2⟩
    · intro i hna
      simp only [decide_eq_true_eq] at hna
      apply hpre i (Nat.zero_le _)
      by_contra hc
      exact hna ⟨N, by omega, hN⟩
    · intro i
      exact ⟨i + N, by omega, by simp only [decide_eq_true_eq]; exact ⟨N, by omega, hN⟩⟩

/-- **C43–C46.** The conversions succeed exactly when the auxiliary name is not a variable of the
operands; otherwise they raise `ValueError`. -/
theorem conversions_error (hp : Operand p φ) (hq : Operand q ψ) :
    ((∃ S, stabilityToGr1 p aux = .ok S) ↔ aux ∉ φ.vars) ∧
    ((∃ S, eventuallyToGr1 p aux = .ok S) ↔ aux ∉ φ.vars) ∧
    ((∃ S, responseToGr1 p q aux = .ok S) ↔ aux ∉ φ.vars ∧ aux ∉ ψ.vars) ∧
    ((∃ S, untilToGr1 p q aux = .ok S) ↔ aux ∉ φ.vars ∧ aux ∉ ψ.vars) := by
  have hP := unit_paren' hp.1 hp.2
  have hQ := unit_paren' hq.1 hq.2
  have hsp : UnitStr (c!"<> " ++ paren q) (.un .eventually ψ) := by
    refine ⟨by simp [hQ.clean], ?_⟩
    have : lex (c!"<> " ++ paren q) = .un .eventually :: lex (paren q) := by
      simp [lex_cons, lexStep]
    rw [this]; exact hQ.reads.un _
  have hr : parse (paren p ++ c!" -> <> " ++ paren q) = some (.bin .imp φ (.un .eventually ψ)) := by
    simpa using (imp_text hP hsp).parse
  have hu := (and_text hP hQ).parse
  refine ⟨?_, ?_, ?_, ?_⟩
  · simp only [stabilityToGr1, checkVarNameConflict, hP.parse, bind, Except.bind]
    by_cases h : aux ∈ φ.vars <;> simp [h, sysSpec_exists]
  · simp only [eventuallyToGr1, checkVarNameConflict, hP.parse, bind, Except.bind]
    by_cases h : aux ∈ φ.vars <;> simp [h, sysSpec_exists]
  · simp only [responseToGr1, checkVarNameConflict, hr, bind, Except.bind, Ast.vars,
      List.mem_append]
    by_cases h : aux ∈ φ.vars <;> by_cases h' : aux ∈ ψ.vars <;> simp [h, h', sysSpec_exists]
  · simp only [untilToGr1, checkVarNameConflict, hu, bind, Except.bind, Ast.vars, List.mem_append]
    by_cases h : aux ∈ φ.vars <;> by_cases h' : aux ∈ ψ.vars <;> simp [h, h', sysSpec_exists]

end

/-- Non-vacuity of C43–C46: operands with operators of low precedence. -/
example : Operand c!"x -> y | z" (.imp (.var "x") (.or (.var "y") (.var "z"))) :=
  ⟨by decide, by decide +kernel⟩
example : AuxName "aux" :=
  ⟨isIdent_of_check (by decide), by simp [IsReserved, Char.toUpper]⟩
example : ∃ S, untilToGr1 c!"x -> y | z" c!"w & x" "aux" = .ok S := by
  refine (conversions_error (φ := .imp (.var "x") (.or (.var "y") (.var "z")))
    (ψ := .and (.var "w") (.var "x")) ⟨by decide, by decide +kernel⟩
    ⟨by decide, by decide +kernel⟩).2.2.2.2 ?_
  decide +kernel

/-- A name with surrounding blanks passes the conflict check although it denotes a variable of the
operand. -/
theorem aux_blank_counterexample :
    parse " p".toList = some (.var "p") ∧ ∃ S, eventuallyToGr1 c!"p" " p" = .ok S := by
  refine ⟨by decide +kernel, ?_⟩
  exact (conversions_error (φ := .var "p") (ψ := .var "p") (q := c!"p")
    ⟨by decide, by decide +kernel⟩ ⟨by decide, by decide +kernel⟩).2.1.2 (by decide +kernel)

end Tulip
