import Verif.Spec.Transform
import Verif.Spec.GRSpecProps

/-!
# Properties of the transformations and translations (C37–C41, C48)
-/

namespace Tulip

/-! ## C38: string variables become integer variables -/

/-- `X … X t`. -/
inductive Nexts (t : Ast) : Ast → Prop
  | here : Nexts t t
  | next {a} : Nexts t a → Nexts t (.un .next a)

/-- String variables and constants are used only in equalities and disequalities: between a
variable and a constant of its domain, or between two variables with the same domain (possibly
below `X`). `D` gives the domains of the string variables. -/
inductive StrUse (D : Dict String (List String)) : Ast → Prop
  | var {x} : D.get? x = none → StrUse D (.var x)
  | bool {b} : StrUse D (.bool b)
  | num {n} : StrUse D (.num n)
  | un {op a} : StrUse D a → StrUse D (.un op a)
  | bin {op a b} : StrUse D a → StrUse D b → StrUse D (.bin op a b)
  | cmp {op a b} : StrUse D a → StrUse D b → StrUse D (.cmp op a b)
  | ar {op a b} : StrUse D a → StrUse D b → StrUse D (.ar op a b)
  | trunc {a n} : StrUse D a → StrUse D (.trunc a n)
  | ite {c a b} : StrUse D c → StrUse D a → StrUse D b → StrUse D (.ite c a b)
  | varConst {op a b x l s} : (op = .eq ∨ op = .ne) → D.get? x = some l → s ∈ l →
      Nexts (.var x) a → Nexts (.str s) b → StrUse D (.cmp op a b)
  | constVar {op a b x l s} : (op = .eq ∨ op = .ne) → D.get? x = some l → s ∈ l →
      Nexts (.str s) a → Nexts (.var x) b → StrUse D (.cmp op a b)
  | varVar {op a b x y l} : (op = .eq ∨ op = .ne) → D.get? x = some l → D.get? y = some l →
      Nexts (.var x) a → Nexts (.var y) b → StrUse D (.cmp op a b)

/-- The trace with each string value replaced by its index in the domain of the variable. -/
def encode (D : Dict String (List String)) (σ : Trace) : Trace := fun i x =>
  match D.get? x, σ i x with
  | some l, .str s => .int (l.idxOf s)
  | _, v => v

/-- String variables take values in their domains. -/
def InDomains (D : Dict String (List String)) (σ : Trace) : Prop :=
  ∀ i x l, D.get? x = some l → ∃ s ∈ l, σ i x = .str s

/-- No string constant is left. -/
def NoStrConst : Ast → Prop
  | .str _ => False
  | .var _ | .bool _ | .num _ => True
  | .un _ x => NoStrConst x
  | .bin _ x y | .cmp _ x y | .ar _ x y => NoStrConst x ∧ NoStrConst y
  | .trunc x _ => NoStrConst x
  | .ite c x y => NoStrConst c ∧ NoStrConst x ∧ NoStrConst y

theorem Nexts.down {t a : Ast} (h : Nexts t a) : downFirst a = downFirst t := by
  induction h with
  | here => rfl
  | next _ ih => exact ih

/-- Apply `f` below the `X` operators. -/
theorem Nexts.sub_var {D : Dict String (List String)} {x : String} {a : Ast} (h : Nexts (.var x) a)
    (ctx : Above) : subConstants D ctx a = .ok a := by
  induction h with
  | here => rfl
  | next _ ih => simp [subConstants, ih] <;> rfl

theorem Nexts.sub_str {D : Dict String (List String)} {s : String} {b : Ast}
    (h : Nexts (.str s) b) {ctx : Above} {x : String} {l : List String}
    (hp : pairVar ctx = .ok (.var x)) (hx : D.get? x = some l) (hs : s ∈ l) :
    ∃ b', subConstants D ctx b = .ok b' ∧ Nexts (.num (l.idxOf s)) b' := by
  induction h with
  | here => exact ⟨_, by simp [subConstants, hp, bind, Except.bind, terminalText, hx, hs], .here⟩
  | next _ ih =>
    obtain ⟨b', h1, h2⟩ := ih
    exact ⟨.un .next b', by simp [subConstants, h1] <;> rfl, .next h2⟩

theorem Nexts.noStr {t a : Ast} (h : Nexts t a) (ht : NoStrConst t) : NoStrConst a := by
  induction h with
  | here => exact ht
  | next _ ih => exact ih

/-- Number of `X` operators in front. -/
theorem Nexts.eval {t a : Ast} (h : Nexts t a) : ∃ k, ∀ σ i, Tulip.eval σ a i = Tulip.eval σ t (i + k) := by
  induction h with
  | here => exact ⟨0, fun _ _ => rfl⟩
  | next _ ih =>
    obtain ⟨k, hk⟩ := ih
    exact ⟨1 + k, fun σ i => by simp only [Tulip.eval, hk]; congr 1; omega⟩

theorem compare_idx {l : List String} {op : CmpOp} (hop : op = .eq ∨ op = .ne) {s t : String}
    (hs : s ∈ l) (ht : t ∈ l) :
    Val.compare op (.int (l.idxOf s)) (.int (l.idxOf t)) ↔ Val.compare op (.str s) (.str t) := by
  have : ((l.idxOf s : Int) = l.idxOf t) ↔ s = t := by
    rw [Int.ofNat_inj]
    constructor
    · intro h
      have h1 := List.getElem_idxOf (List.idxOf_lt_length_iff.2 hs)
      have h2 := List.getElem_idxOf (List.idxOf_lt_length_iff.2 ht)
      rw [← h1, ← h2]
      simp only [h]
    · rintro rfl; rfl
  rcases hop with rfl | rfl <;> simp [Val.compare, this]

theorem eval_cmp_eq {σ τ : Trace} {op : CmpOp} {a b a' b' : Ast} {i : Nat}
    (h : Val.compare op (eval σ a i) (eval σ b i) ↔ Val.compare op (eval τ a' i) (eval τ b' i)) :
    eval σ (.cmp op a b) i = eval τ (.cmp op a' b') i := by
  simp only [eval]; congr 1; exact decide_eq_decide.2 h

theorem eval_const_str (σ : Trace) (s : String) (i : Nat) : eval σ (.str s) i = .str s := by
  simp [eval]

theorem eval_const_num (σ : Trace) (n : Int) (i : Nat) : eval σ (.num n) i = .int n := by
  simp [eval]

theorem eval_encode {D : Dict String (List String)} {σ : Trace} {i : Nat} {x : String}
    {l : List String} {s : String} (hx : D.get? x = some l) (h : σ i x = .str s) :
    eval (encode D σ) (.var x) i = .int (l.idxOf s) := by
  simp [eval, encode, hx, h]

/-- What the induction proves. -/
def SubOk (D : Dict String (List String)) (f : Ast) : Prop :=
  ∀ ctx, ∃ g, subConstants D ctx f = .ok g ∧ NoStrConst g ∧
    ∀ σ, InDomains D σ → ∀ i, eval (encode D σ) g i = eval σ f i

theorem cmp_ok {D : Dict String (List String)} {op : CmpOp} {a b a' b' : Ast}
    (ha : subConstants D (some (a, b, false)) a = .ok a')
    (hb : subConstants D (some (a, b, true)) b = .ok b')
    (h1 : NoStrConst a') (h2 : NoStrConst b')
    (h : ∀ σ, InDomains D σ → ∀ i, eval (encode D σ) (.cmp op a' b') i = eval σ (.cmp op a b) i) :
    SubOk D (.cmp op a b) := by
  intro ctx
  exact ⟨.cmp op a' b', by simp [subConstants, ha, hb] <;> rfl, ⟨h1, h2⟩, h⟩

theorem pair_first {a b v : Ast} (h : downFirst b = v) (hne : nodeEq b a = false) :
    pairVar (some (a, b, false)) = .ok v := by simp [pairVar, hne, h]

theorem pair_second {a b v : Ast} (h : downFirst a = v) :
    pairVar (some (a, b, true)) = .ok v := by simp [pairVar, h]

theorem nodeEq_nexts {x s : String} {a b : Ast} (ha : Nexts (.str s) a) (hb : Nexts (.var x) b) :
    nodeEq b a = false := by
  cases ha <;> cases hb <;> rfl

theorem strUse_ok {D : Dict String (List String)} {f : Ast} (h : StrUse D f) : SubOk D f := by
  induction h with
  | @var x hx =>
    intro ctx
    refine ⟨.var x, rfl, trivial, fun σ _ i => ?_⟩
    simp [eval, encode, hx]
  | bool => exact fun ctx => ⟨_, rfl, trivial, fun σ _ i => by simp [eval]⟩
  | num => exact fun ctx => ⟨_, rfl, trivial, fun σ _ i => by simp [eval]⟩
  | @un op a _ ih =>
    intro ctx
    obtain ⟨g, h1, h2, h3⟩ := ih ctx
    refine ⟨.un op g, by simp [subConstants, h1] <;> rfl, h2, fun σ hσ i => ?_⟩
    have := funext (h3 σ hσ)
    cases op <;> simp only [eval] <;> rw [this]
  | @bin op a b _ _ iha ihb =>
    intro ctx
    obtain ⟨g, h1, h2, h3⟩ := iha (some (a, b, false))
    obtain ⟨g', h1', h2', h3'⟩ := ihb (some (a, b, true))
    refine ⟨.bin op g g', by simp [subConstants, h1, h1'] <;> rfl, ⟨h2, h2'⟩, fun σ hσ i => ?_⟩
    simp only [eval]; rw [funext (h3 σ hσ), funext (h3' σ hσ)]
  | @cmp op a b _ _ iha ihb =>
    intro ctx
    obtain ⟨g, h1, h2, h3⟩ := iha (some (a, b, false))
    obtain ⟨g', h1', h2', h3'⟩ := ihb (some (a, b, true))
    refine ⟨.cmp op g g', by simp [subConstants, h1, h1'] <;> rfl, ⟨h2, h2'⟩, fun σ hσ i => ?_⟩
    simp only [eval]; rw [funext (h3 σ hσ), funext (h3' σ hσ)]
  | @ar op a b _ _ iha ihb =>
    intro ctx
    obtain ⟨g, h1, h2, h3⟩ := iha (some (a, b, false))
    obtain ⟨g', h1', h2', h3'⟩ := ihb (some (a, b, true))
    refine ⟨.ar op g g', by simp [subConstants, h1, h1'] <;> rfl, ⟨h2, h2'⟩, fun σ hσ i => ?_⟩
    simp only [eval]; rw [funext (h3 σ hσ), funext (h3' σ hσ)]
  | @trunc a n _ ih =>
    intro ctx
    obtain ⟨g, h1, h2, h3⟩ := ih (some (a, .num n, false))
    refine ⟨.trunc g n, by simp [subConstants, h1] <;> rfl, h2, fun σ hσ i => ?_⟩
    simp only [eval, h3 σ hσ]
  | @ite c a b _ _ _ ihc iha ihb =>
    intro ctx
    obtain ⟨g0, h1, h2, h3⟩ := ihc ctx
    obtain ⟨g, h1', h2', h3'⟩ := iha ctx
    obtain ⟨g', h1'', h2'', h3''⟩ := ihb ctx
    refine ⟨.ite g0 g g', by simp [subConstants, h1, h1', h1''] <;> rfl, ⟨h2, h2', h2''⟩,
      fun σ hσ i => ?_⟩
    simp only [eval]; rw [h3 σ hσ, h3' σ hσ, h3'' σ hσ]
  | @varConst op a b x l s hop hx hs ha hb =>
    obtain ⟨b', hb1, hb2⟩ := hb.sub_str (ctx := some (a, b, true))
      (pair_second (v := .var x) ha.down) hx hs
    refine cmp_ok (ha.sub_var _) hb1 (ha.noStr trivial)
      (hb2.noStr trivial) fun σ hσ i => ?_
    obtain ⟨k, hk⟩ := ha.eval
    obtain ⟨m, hm⟩ := hb.eval
    obtain ⟨m', hm'⟩ := hb2.eval
    obtain ⟨t, ht, he⟩ := hσ (i + k) x l hx
    have hv : eval σ (.var x) (i + k) = .str t := by simp [eval, he]
    refine eval_cmp_eq ?_
    rw [hk, hk, hm, hm', eval_encode hx he, eval_const_num, eval_const_str, hv,
      compare_idx hop ht hs]
  | @constVar op a b x l s hop hx hs ha hb =>
    obtain ⟨a', ha1, ha2⟩ := ha.sub_str (ctx := some (a, b, false))
      (pair_first (v := .var x) hb.down (nodeEq_nexts ha hb)) hx hs
    refine cmp_ok ha1 (hb.sub_var _) (ha2.noStr trivial)
      (hb.noStr trivial) fun σ hσ i => ?_
    obtain ⟨k, hk⟩ := hb.eval
    obtain ⟨m, hm⟩ := ha.eval
    obtain ⟨m', hm'⟩ := ha2.eval
    obtain ⟨t, ht, he⟩ := hσ (i + k) x l hx
    have hv : eval σ (.var x) (i + k) = .str t := by simp [eval, he]
    refine eval_cmp_eq ?_
    rw [hk, hk, hm, hm', eval_encode hx he, eval_const_num, eval_const_str, hv,
      compare_idx hop hs ht]
  | @varVar op a b x y l hop hx hy ha hb =>
    refine cmp_ok (ha.sub_var _) (hb.sub_var _) (ha.noStr trivial)
      (hb.noStr trivial) fun σ hσ i => ?_
    obtain ⟨k, hk⟩ := ha.eval
    obtain ⟨m, hm⟩ := hb.eval
    obtain ⟨t, ht, he⟩ := hσ (i + k) x l hx
    obtain ⟨u, hu, he'⟩ := hσ (i + m) y l hy
    have hv : eval σ (.var x) (i + k) = .str t := by simp [eval, he]
    have hv' : eval σ (.var y) (i + m) = .str u := by simp [eval, he']
    refine eval_cmp_eq ?_
    rw [hk, hm, hk, hm, eval_encode hx he, eval_encode hy he', hv, hv',
      compare_idx hop ht hu]

/-- **C38.** Replacing string constants by integers succeeds, leaves no string constant, and
preserves the truth of the formula at every position of every trace whose string variables take
values in their domains, with those values replaced by their indices. -/
theorem subConstants_correct {D : Dict String (List String)} {f : Ast} (h : StrUse D f) :
    ∃ g, subConstants D none f = .ok g ∧ NoStrConst g ∧
      ∀ σ, InDomains D σ → ∀ i, (Sat (encode D σ) i g ↔ Sat σ i f) := by
  obtain ⟨g, h1, h2, h3⟩ := strUse_ok h none
  exact ⟨g, h1, h2, fun σ hσ i => by simp only [Sat, h3 σ hσ i]⟩

/-- The encoded values lie in the converted domain. -/
theorem encode_in_domain {D : Dict String (List String)} {σ : Trace} (hσ : InDomains D σ)
    {x : String} {l : List String} (hx : D.get? x = some l) (i : Nat) :
    ∃ n : Int, encode D σ i x = .int n ∧ (convertDomain l).1 ≤ n ∧ n ≤ (convertDomain l).2 := by
  obtain ⟨s, hs, he⟩ := hσ i x l hx
  refine ⟨l.idxOf s, by simp [encode, hx, he], by simp [convertDomain], ?_⟩
  have := List.idxOf_lt_length_iff.2 hs
  simp only [convertDomain]; omega

/-- Every integer of the converted domain encodes a value, exactly one if the domain has no
duplicates. -/
theorem convertDomain_decode {l : List String} (hl : l.Nodup) {n : Int}
    (h1 : (convertDomain l).1 ≤ n) (h2 : n ≤ (convertDomain l).2) :
    ∃! s, s ∈ l ∧ (l.idxOf s : Int) = n := by
  simp only [convertDomain] at h1 h2
  obtain ⟨k, rfl⟩ := Int.eq_ofNat_of_zero_le h1
  have hk : k < l.length := by omega
  refine ⟨l[k], ⟨List.getElem_mem hk, by rw [hl.idxOf_getElem k hk]⟩, ?_⟩
  rintro s ⟨hs, e⟩
  have e' : l.idxOf s = k := by omega
  subst e'
  exact (List.getElem_idxOf hk).symm

/-- A constant outside of the domain is rejected. -/
theorem subConstants_unknown {D : Dict String (List String)} {x s : String} {l : List String}
    (hx : D.get? x = some l) (hs : s ∉ l) :
    subConstants D none (.cmp .eq (.var x) (.str s)) = .error .valueError := by
  simp [subConstants, pairVar, downFirst, bind, Except.bind, terminalText, hx, hs]

/-- Two string variables with different domains: the equality changes its meaning. -/
theorem subConstants_domains_counterexample :
    ∃ D f g σ, subConstants D none f = .ok g ∧ InDomains D σ ∧ Sat (encode D σ) 0 g ∧
      ¬ Sat σ 0 f := by
  refine ⟨[("x", ["a", "b"]), ("y", ["b", "a"])], .cmp .eq (.var "x") (.var "y"), _,
    fun _ v => if v = "x" then .str "a" else .str "b", rfl, ?_, ?_, ?_⟩
  · intro i x l h
    simp only [Dict.get?_cons, Dict.get?_nil] at h
    split at h
    · cases h; subst_vars; exact ⟨"a", by simp, by simp⟩
    · split at h
      · cases h; subst_vars; exact ⟨"b", by simp, by simp⟩
      · cases h
  · simp [eval, encode, Dict.get?_cons, Val.compare]
  · simp [eval, Val.compare]

/-- Non-vacuity: `(loc = "home") -> X (loc != "lot")` and a comparison with a primed variable. -/
example : StrUse [("loc", ["home", "lot"])]
    (.bin .imp (.cmp .eq (.var "loc") (.str "home")) (.cmp .ne (.str "lot") (.un .next (.var "loc")))) :=
  .bin (.varConst (Or.inl rfl) rfl (by simp) .here .here)
    (.constVar (Or.inr rfl) rfl (by simp) .here (.next .here))

/-! ## C39: replacing Boolean variables by formulas -/

/-- The trace in which each mapped variable has the value of its formula. -/
noncomputable def define (D : Dict String Ast) (σ : Trace) : Trace := fun i x =>
  match D.get? x with
  | some t => eval σ t i
  | none => σ i x

theorem eval_subBool (D : Dict String Ast) (σ : Trace) (f : Ast) (i : Nat) :
    eval σ (subBool D f) i = eval (define D σ) f i := by
  induction f generalizing i with
  | var x =>
    simp only [subBool, eval, define]
    cases D.get? x <;> simp [eval]
  | bool | num | str => simp [subBool, eval]
  | un op a ih => cases op <;> simp only [subBool, eval] <;> rw [funext ih]
  | bin op a b iha ihb => simp only [subBool, eval]; rw [funext iha, funext ihb]
  | cmp op a b iha ihb => simp only [subBool, eval]; rw [funext iha, funext ihb]
  | ar op a b iha ihb => simp only [subBool, eval, iha, ihb]
  | trunc a n ih => simp only [subBool, eval, ih]
  | ite c a b ihc iha ihb => simp only [subBool, eval, ihc, iha, ihb]

/-- **C39.** The substituted formula holds iff the original one holds when each mapped variable
takes the value of its formula (simultaneous substitution). -/
theorem subBool_correct (D : Dict String Ast) (f : Ast) (σ : Trace) (i : Nat) :
    Sat σ i (subBool D f) ↔ Sat (define D σ) i f := by
  simp only [Sat, eval_subBool]

/-- In particular, on traces that already satisfy the definitions nothing changes. -/
theorem subBool_equivalent {D : Dict String Ast} {f : Ast} {σ : Trace}
    (h : ∀ x t, D.get? x = some t → ∀ i, eval σ t i = σ i x) (i : Nat) :
    Sat σ i (subBool D f) ↔ Sat σ i f := by
  rw [subBool_correct]
  have : define D σ = σ := by
    funext i x
    simp only [define]
    cases e : D.get? x with
    | none => rfl
    | some t => exact h x t e i
  rw [this]

/-- The mapped variables disappear, unless the inserted formulas mention them. -/
theorem subBool_vars (D : Dict String Ast) (f : Ast) (x : String) :
    x ∈ (subBool D f).vars ↔
      (x ∈ f.vars ∧ D.get? x = none) ∨ ∃ y ∈ f.vars, ∃ t, D.get? y = some t ∧ x ∈ t.vars := by
  induction f with
  | var y =>
    simp only [subBool, Ast.vars, List.mem_singleton, exists_eq_left]
    cases e : D.get? y with
    | none =>
      simp only [Option.getD_none, Ast.vars, List.mem_singleton, reduceCtorEq, false_and,
        exists_false, or_false]
      constructor
      · rintro rfl; exact ⟨rfl, e⟩
      · exact fun h => h.1
    | some t =>
      simp only [Option.getD_some, Option.some.injEq, exists_eq_left']
      constructor
      · exact Or.inr
      · rintro (⟨rfl, h⟩ | h)
        · rw [e] at h; cases h
        · exact h
  | bool | num | str => simp [subBool, Ast.vars]
  | un op a ih => simpa [subBool, Ast.vars] using ih
  | bin op a b iha ihb =>
    simp only [subBool, Ast.vars, List.mem_append, iha, ihb, or_and_right, exists_or]
    exact or_or_or_comm
  | cmp op a b iha ihb =>
    simp only [subBool, Ast.vars, List.mem_append, iha, ihb, or_and_right, exists_or]
    exact or_or_or_comm
  | ar op a b iha ihb =>
    simp only [subBool, Ast.vars, List.mem_append, iha, ihb, or_and_right, exists_or]
    exact or_or_or_comm
  | trunc a n ih => simpa [subBool, Ast.vars] using ih
  | ite c a b ihc iha ihb =>
    simp only [subBool, Ast.vars, List.mem_append, ihc, iha, ihb, or_and_right, exists_or]
    rw [or_or_or_comm (a := x ∈ c.vars ∧ _), or_or_or_comm]

theorem printable_subBool {D : Dict String Ast} (hD : ∀ x t, D.get? x = some t → Printable t)
    {f : Ast} (hf : Printable f) : Printable (subBool D f) := by
  induction f with
  | var x =>
    simp only [subBool]
    cases e : D.get? x with
    | none => exact hf
    | some t => exact hD x t e
  | bool | num | str => exact hf
  | un op a ih => exact ⟨hf.1, ih hf.2⟩
  | bin op a b iha ihb => exact ⟨hf.1, hf.2.1, iha hf.2.2.1, ihb hf.2.2.2⟩
  | cmp op a b iha ihb => exact ⟨hf.1, hf.2.1, iha hf.2.2.1, ihb hf.2.2.2⟩
  | ar op a b iha ihb => exact ⟨iha hf.1, ihb hf.2⟩
  | trunc a n ih => exact ⟨ih hf.1, hf.2⟩
  | ite c a b ihc iha ihb => exact ⟨ihc hf.1, iha hf.2.1, ihb hf.2.2⟩

/-- **C39 (clauses).** `replace_dependent_vars` writes clauses that parse to the substituted
formula and so hold on the same traces as the original with the dependent variables defined. -/
theorem replaceDependentClause_correct {D : Dict String Ast}
    (hD : ∀ x t, D.get? x = some t → Printable t) {f : Ast} (hf : Printable f) :
    ∃ s, replaceDependentClause D f = some s ∧
      ∀ σ i, Holds σ i s ↔ Sat (define D σ) i f := by
  have hp := printable_subBool hD hf
  obtain ⟨s, hs⟩ := hp.flatten_some
  refine ⟨s, hs, fun σ i => ?_⟩
  have h2 := parse_flatten _ hp
  rw [hs] at h2
  rw [holds_iff (by simpa using h2), subBool_correct]

/-- Non-vacuity: two occurrences, one of them replaced by a formula mentioning the other. -/
example : subBool [("p", .and (.var "q") (.var "r")), ("q", .not (.var "p"))]
    (.or (.var "p") (.X (.var "q"))) =
    .or (.and (.var "q") (.var "r")) (.X (.not (.var "p"))) := rfl

end Tulip
