import Verif.Spec.Translate
import Verif.Spec.CacheProps
import Verif.Spec.Gr1SplitProps
import Verif.Spec.Gr1cProps

/-!
# The texts of clauses in the languages of `translate`, and the pipeline (for C86 and C87)
-/

namespace Tulip
namespace Trans

open Cache

/-! ## What a text is read as -/

/-- The tree that a text is read as: `vt` and `bt` are the trees of the texts of variables and Boolean
constants; with `primes`, `X` has been moved to the variables. -/
def readTree (primes : Bool) (vt : Bool → String → Ast) (bt : Bool → Ast) : Bool → Ast → Ast
  | p, .var x => vt p x
  | _, .bool b => bt b
  | _, .num n => .num n
  | _, .str s => .str s
  | p, .un op x =>
    if primes && decide (op = .next) then readTree primes vt bt true x
    else .un op (readTree primes vt bt p x)
  | p, .bin op x y => .bin op (readTree primes vt bt p x) (readTree primes vt bt p y)
  | p, .cmp op x y => .cmp op (readTree primes vt bt p x) (readTree primes vt bt p y)
  | p, .ar op x y => .ar op (readTree primes vt bt p x) (readTree primes vt bt p y)
  | p, .trunc x n => .trunc (readTree primes vt bt p x) n
  | p, .ite c x y => .ite (readTree primes vt bt p c) (readTree primes vt bt p x) (readTree primes vt bt p y)

/-- The texts of a language are read with the grammar of tulip, after replacing characters by `m`. -/
structure Readable (L : Lang) (m : Char → Char) (vt : Bool → String → Ast) (bt : Bool → Ast) : Prop where
  un : ∀ op o, L.un op = some o → ¬ (L.primes = true ∧ op = .next) →
    '#' ∉ o.map m ∧ ∀ r, lex (o.map m ++ ' ' :: r) = .un op :: lex r
  bin : ∀ op o, L.bin op = some o → '#' ∉ o.map m ∧ ∀ r, lex (o.map m ++ ' ' :: r) = .bin op :: lex r
  cmp : ∀ op o, L.cmp op = some o → cmpText op = some (o.map m)
  ar : ∀ op o, L.ar op = some o → arText op = some (o.map m)
  bool : ∀ b, Prints ((L.bool b).map m) (bt b)
  var : ∀ p x s, IsIdent x → ¬ IsReserved x → L.var p x = .ok s → Prints (s.map m) (vt p x)
  space : m ' ' = ' '
  lpar : m '(' = '('
  rpar : m ')' = ')'
  num : ∀ n : Int, (intChars n).map m = intChars n

theorem look_ok {α : Type} {o : Option α} {a : α} : look o = .ok a ↔ o = some a := by
  cases o <;> simp [look]

theorem text_prints {L : Lang} {m : Char → Char} {vt : Bool → String → Ast} {bt : Bool → Ast}
    (R : Readable L m vt bt) {b : Ast} (hn : Named b) (hs : NoStrConst b) {p : Bool} {s : List Char}
    (h : text L p b = .ok s) : Prints (s.map m) (readTree L.primes vt bt p b) := by
  induction b generalizing p s with
  | var x => exact R.var p x s hn.1 hn.2 h
  | bool b => cases h; exact R.bool b
  | num n => cases h; rw [R.num]; exact prints_num n
  | str => exact hs.elim
  | un op a ih =>
    simp only [text] at h
    simp only [readTree]
    split at h
    · rename_i hp
      rw [if_pos hp]
      exact ih hn hs h
    · rename_i hp
      rw [if_neg hp]
      simp only [bind_ok_iff, look_ok, pure_eq_ok, Except.ok.injEq] at h
      obtain ⟨o, ho, u, hu, rfl⟩ := h
      obtain ⟨h1, h2⟩ := R.un op o ho (by simpa using hp)
      have := prints_un h1 h2 (ih hn hs hu)
      simpa [R.space, R.lpar, R.rpar] using this
  | bin op a c iha ihc =>
    simp only [text, bind_ok_iff, look_ok, pure_eq_ok, Except.ok.injEq] at h
    obtain ⟨o, ho, u, hu, v, hv, rfl⟩ := h
    obtain ⟨h1, h2⟩ := R.bin op o ho
    have := prints_bin h1 h2 (iha hn.1 hs.1 hu) (ihc hn.2 hs.2 hv)
    simpa [infixText, R.space, R.lpar, R.rpar, readTree] using this
  | cmp op a c iha ihc =>
    simp only [text, bind_ok_iff, look_ok, pure_eq_ok, Except.ok.injEq] at h
    obtain ⟨o, ho, u, hu, v, hv, rfl⟩ := h
    have := prints_cmp (R.cmp op o ho) (iha hn.1 hs.1 hu) (ihc hn.2 hs.2 hv)
    simpa [infixText, R.space, R.lpar, R.rpar, readTree] using this
  | ar op a c iha ihc =>
    simp only [text, bind_ok_iff, look_ok, pure_eq_ok, Except.ok.injEq] at h
    obtain ⟨o, ho, u, hu, v, hv, rfl⟩ := h
    have := prints_ar (R.ar op o ho) (iha hn.1 hs.1 hu) (ihc hn.2 hs.2 hv)
    simpa [infixText, R.space, R.lpar, R.rpar, readTree] using this
  | trunc => cases h
  | ite => cases h

/-- The characters of a text. -/
theorem text_chars {L : Lang} {Q : Char → Prop} (hq : Q ' ' ∧ Q '(' ∧ Q ')')
    (hun : ∀ op o, L.un op = some o → ∀ c ∈ o, Q c) (hbin : ∀ op o, L.bin op = some o → ∀ c ∈ o, Q c)
    (hcmp : ∀ op o, L.cmp op = some o → ∀ c ∈ o, Q c) (har : ∀ op o, L.ar op = some o → ∀ c ∈ o, Q c)
    (hbool : ∀ b, ∀ c ∈ L.bool b, Q c) (hnum : ∀ n : Int, ∀ c ∈ intChars n, Q c)
    (hvar : ∀ p x s, IsIdent x → L.var p x = .ok s → ∀ c ∈ s, Q c)
    {b : Ast} (hn : Named b) (hs : NoStrConst b) {p : Bool} {s : List Char}
    (h : text L p b = .ok s) : ∀ c ∈ s, Q c := by
  induction b generalizing p s with
  | var x => exact hvar p x s hn.1 h
  | bool b => cases h; exact hbool b
  | num n => cases h; exact hnum n
  | str => exact hs.elim
  | un op a ih =>
    simp only [text] at h
    split at h
    · exact ih hn hs h
    · simp only [bind_ok_iff, look_ok, pure_eq_ok, Except.ok.injEq] at h
      obtain ⟨o, ho, u, hu, rfl⟩ := h
      intro c hc
      simp only [List.mem_append, List.mem_cons, List.not_mem_nil, or_false] at hc
      have h1 := ih hn hs hu c
      have h3 := hun _ _ ho c
      obtain ⟨q1, q2, q3⟩ := hq
      grind
  | bin op a d iha ihd =>
    simp only [text, bind_ok_iff, look_ok, pure_eq_ok, Except.ok.injEq] at h
    obtain ⟨o, ho, u, hu, v, hv, rfl⟩ := h
    intro c hc
    simp only [infixText, List.mem_append, List.mem_cons, List.not_mem_nil, or_false] at hc
    have h1 := iha hn.1 hs.1 hu c
    have h2 := ihd hn.2 hs.2 hv c
    have h3 := hbin _ _ ho c
    obtain ⟨q1, q2, q3⟩ := hq
    grind
  | cmp op a d iha ihd =>
    simp only [text, bind_ok_iff, look_ok, pure_eq_ok, Except.ok.injEq] at h
    obtain ⟨o, ho, u, hu, v, hv, rfl⟩ := h
    intro c hc
    simp only [infixText, List.mem_append, List.mem_cons, List.not_mem_nil, or_false] at hc
    have h1 := iha hn.1 hs.1 hu c
    have h2 := ihd hn.2 hs.2 hv c
    have h3 := hcmp _ _ ho c
    obtain ⟨q1, q2, q3⟩ := hq
    grind
  | ar op a d iha ihd =>
    simp only [text, bind_ok_iff, look_ok, pure_eq_ok, Except.ok.injEq] at h
    obtain ⟨o, ho, u, hu, v, hv, rfl⟩ := h
    intro c hc
    simp only [infixText, List.mem_append, List.mem_cons, List.not_mem_nil, or_false] at hc
    have h1 := iha hn.1 hs.1 hu c
    have h2 := ihd hn.2 hs.2 hv c
    have h3 := har _ _ ho c
    obtain ⟨q1, q2, q3⟩ := hq
    grind
  | trunc => cases h
  | ite => cases h

/-! ## Meaning -/

/-- Below an `X` there is no temporal operator. -/
def OneStep : Ast → Prop
  | .var _ | .bool _ | .num _ | .str _ => True
  | .un .next a => NoTemporal false a
  | .un _ a => OneStep a
  | .bin _ a b | .cmp _ a b | .ar _ a b => OneStep a ∧ OneStep b
  | .trunc a _ => OneStep a
  | .ite c a b => OneStep c ∧ OneStep a ∧ OneStep b

/-- The texts of variables for languages with primes. -/
def primedVar (p : Bool) (x : String) : Ast := if p then .un .next (.var x) else .var x

theorem eval_below {f : Ast} (h : NoTemporal false f) (σ : Trace) (i : Nat) :
    eval σ (readTree true primedVar .bool true f) i = eval σ f (i + 1) := by
  induction f with
  | var x => simp [readTree, primedVar, eval]
  | bool | num | str => simp [readTree, eval]
  | un op a ih =>
    cases op <;> simp only [NoTemporal, Bool.false_eq_true, false_and] at h <;>
      simp [readTree, eval, ih h]
  | bin op a b iha ihb =>
    cases op <;> simp only [NoTemporal] at h <;> simp only [readTree, eval, iha h.1, ihb h.2]
  | cmp op a b iha ihb =>
    have ha := iha h.1
    have hb := ihb h.2
    simp only [readTree, eval]
    rw [ha, hb]
  | ar op a b iha ihb => simp only [readTree, eval, iha h.1, ihb h.2]
  | trunc a n ih => simp only [readTree, eval, ih h]
  | ite c a b ihc iha ihb => simp only [readTree, eval, ihc h.1, iha h.2.1, ihb h.2.2]

theorem eval_primes {f : Ast} (h : OneStep f) (σ : Trace) (i : Nat) :
    eval σ (readTree true primedVar .bool false f) i = eval σ f i := by
  induction f generalizing i with
  | var x => simp [readTree, primedVar]
  | bool | num | str => rfl
  | un op a ih =>
    cases op with
    | next => simp only [readTree, Bool.true_and, decide_true, if_true, eval]; exact eval_below h σ i
    | _ =>
      simp only [readTree, Bool.true_and, reduceCtorEq, decide_false, Bool.false_eq_true, if_false, eval]
      rw [funext (ih h)]
  | bin op a b iha ihb => simp only [readTree, eval]; rw [funext (iha h.1), funext (ihb h.2)]
  | cmp op a b iha ihb => simp only [readTree, eval]; rw [funext (iha h.1), funext (ihb h.2)]
  | ar op a b iha ihb => simp only [readTree, eval]; rw [funext (iha h.1), funext (ihb h.2)]
  | trunc a n ih => simp only [readTree, eval, funext (ih h)]
  | ite c a b ihc iha ihb =>
    simp only [readTree, eval]; rw [funext (ihc h.1), funext (iha h.2.1), funext (ihb h.2.2)]

theorem eval_rename {ren : String → String} {f : Ast} {σ τ : Trace}
    (h : ∀ i, ∀ x ∈ f.vars, τ i (ren x) = σ i x) (i : Nat) :
    eval τ (readTree false (fun _ x => .var (ren x)) .bool false f) i = eval σ f i := by
  induction f generalizing i with
  | var x => simp [readTree, eval, h i x (by simp [Ast.vars])]
  | bool | num | str => rfl
  | un op a ih =>
    have ih := ih (fun j x hx => h j x (by simpa [Ast.vars] using hx))
    simp only [readTree, Bool.false_and, Bool.false_eq_true, if_false]
    cases op <;> simp only [eval] <;> rw [funext ih]
  | bin op a b iha ihb =>
    have iha := iha (fun j x hx => h j x (by simp [Ast.vars, hx]))
    have ihb := ihb (fun j x hx => h j x (by simp [Ast.vars, hx]))
    simp only [readTree, eval]; rw [funext iha, funext ihb]
  | cmp op a b iha ihb =>
    have iha := iha (fun j x hx => h j x (by simp [Ast.vars, hx]))
    have ihb := ihb (fun j x hx => h j x (by simp [Ast.vars, hx]))
    simp only [readTree, eval]; rw [funext iha, funext ihb]
  | ar op a b iha ihb =>
    have iha := iha (fun j x hx => h j x (by simp [Ast.vars, hx]))
    have ihb := ihb (fun j x hx => h j x (by simp [Ast.vars, hx]))
    simp only [readTree, eval]; rw [funext iha, funext ihb]
  | trunc a n ih =>
    have ih := ih (fun j x hx => h j x (by simpa [Ast.vars] using hx))
    simp only [readTree, eval, ih]
  | ite c a b ihc iha ihb =>
    have ihc := ihc (fun j x hx => h j x (by simp [Ast.vars, hx]))
    have iha := iha (fun j x hx => h j x (by simp [Ast.vars, hx]))
    have ihb := ihb (fun j x hx => h j x (by simp [Ast.vars, hx]))
    simp only [readTree, eval, ihc, iha, ihb]

/-! ## Replacing string constants keeps the shape -/

theorem noTemporal_sub {y : Bool} {D : Dict String (List String)} {ctx : Above} {a b : Ast}
    (h : NoTemporal y a) (hs : subConstants D ctx a = .ok b) : NoTemporal y b := by
  induction a generalizing ctx b with
  | var x => cases hs; trivial
  | bool | num => cases hs; trivial
  | str s =>
    simp only [subConstants, bind_ok_iff] at hs
    obtain ⟨v, _, hs⟩ := hs
    split at hs
    · cases hs
    · split at hs
      · cases hs; trivial
      · cases hs
  | un op a ih =>
    simp only [subConstants, bind_ok_iff, pure_eq_ok, Except.ok.injEq] at hs
    obtain ⟨u, hu, rfl⟩ := hs
    cases op <;> simp only [NoTemporal] at h ⊢ <;> first | exact ih h hu | exact ⟨h.1, ih h.2 hu⟩
  | bin op a c iha ihc =>
    simp only [subConstants, bind_ok_iff, pure_eq_ok, Except.ok.injEq] at hs
    obtain ⟨u, hu, v, hv, rfl⟩ := hs
    cases op <;> simp only [NoTemporal] at h ⊢ <;> exact ⟨iha h.1 hu, ihc h.2 hv⟩
  | cmp op a c iha ihc =>
    simp only [subConstants, bind_ok_iff, pure_eq_ok, Except.ok.injEq] at hs
    obtain ⟨u, hu, v, hv, rfl⟩ := hs
    exact ⟨iha h.1 hu, ihc h.2 hv⟩
  | ar op a c iha ihc =>
    simp only [subConstants, bind_ok_iff, pure_eq_ok, Except.ok.injEq] at hs
    obtain ⟨u, hu, v, hv, rfl⟩ := hs
    exact ⟨iha h.1 hu, ihc h.2 hv⟩
  | trunc a n ih =>
    simp only [subConstants, bind_ok_iff, pure_eq_ok, Except.ok.injEq] at hs
    obtain ⟨u, hu, rfl⟩ := hs
    exact (ih h hu :)
  | ite c a d ihc iha ihd =>
    simp only [subConstants, bind_ok_iff, pure_eq_ok, Except.ok.injEq] at hs
    obtain ⟨u, hu, v, hv, w, hw, rfl⟩ := hs
    exact ⟨ihc h.1 hu, iha h.2.1 hv, ihd h.2.2 hw⟩

theorem oneStep_sub {D : Dict String (List String)} {ctx : Above} {a b : Ast}
    (h : OneStep a) (hs : subConstants D ctx a = .ok b) : OneStep b := by
  induction a generalizing ctx b with
  | var x => cases hs; trivial
  | bool | num => cases hs; trivial
  | str s =>
    simp only [subConstants, bind_ok_iff] at hs
    obtain ⟨v, _, hs⟩ := hs
    split at hs
    · cases hs
    · split at hs
      · cases hs; trivial
      · cases hs
  | un op a ih =>
    simp only [subConstants, bind_ok_iff, pure_eq_ok, Except.ok.injEq] at hs
    obtain ⟨u, hu, rfl⟩ := hs
    cases op <;> simp only [OneStep] at h ⊢
    case next => exact noTemporal_sub h hu
    all_goals exact ih h hu
  | bin op a c iha ihc =>
    simp only [subConstants, bind_ok_iff, pure_eq_ok, Except.ok.injEq] at hs
    obtain ⟨u, hu, v, hv, rfl⟩ := hs
    exact ⟨iha h.1 hu, ihc h.2 hv⟩
  | cmp op a c iha ihc =>
    simp only [subConstants, bind_ok_iff, pure_eq_ok, Except.ok.injEq] at hs
    obtain ⟨u, hu, v, hv, rfl⟩ := hs
    exact ⟨iha h.1 hu, ihc h.2 hv⟩
  | ar op a c iha ihc =>
    simp only [subConstants, bind_ok_iff, pure_eq_ok, Except.ok.injEq] at hs
    obtain ⟨u, hu, v, hv, rfl⟩ := hs
    exact ⟨iha h.1 hu, ihc h.2 hv⟩
  | trunc a n ih =>
    simp only [subConstants, bind_ok_iff, pure_eq_ok, Except.ok.injEq] at hs
    obtain ⟨u, hu, rfl⟩ := hs
    exact (ih h hu :)
  | ite c a d ihc iha ihd =>
    simp only [subConstants, bind_ok_iff, pure_eq_ok, Except.ok.injEq] at hs
    obtain ⟨u, hu, v, hv, w, hw, rfl⟩ := hs
    exact ⟨ihc h.1 hu, iha h.2.1 hv, ihd h.2.2 hw⟩

/-! ## The pipeline -/

/-- The tree of a clause after replacing string constants by numbers. -/
def ClauseTree (g : GRSpec) (x : List Char) (b : Ast) : Prop :=
  ∃ a f, Tulip.parse x = some a ∧ checkIdents (allVars g).keys none a = .ok () ∧
    subConstants (strVars g) none a = .ok b ∧ flatten b = some f

theorem ClauseTree.named {g : GRSpec} {x : List Char} {b : Ast} (h : ClauseTree g x b) :
    Named b ∧ NoStrConst b := by
  obtain ⟨a, f, h1, _, h3, _⟩ := h
  exact sub_named (named_of_parse h1) h3

/-- `check_syntax` accepts the clauses: no primed variable in initial conditions and progress assumptions,
no primed variable of the system in the safety assumptions. -/
def PrimesOk (g : GRSpec) : Prop :=
  (∀ x ∈ g.envInit ++ g.sysInit ++ g.envProg, ∀ a, Tulip.parse x = some a → ∀ v, ¬ PrimedIn v false a) ∧
    ∀ x ∈ g.envSafety, ∀ a, Tulip.parse x = some a → ∀ v ∈ g.sysVars.keys, ¬ PrimedIn v false a

theorem checkLoop_spec {order : List Part} {bad : Ast → Bool} {st : Obj} (h : Good st)
    {xs : List (List Char)} {st' : Obj} {r : Except PyErr Unit}
    (e : checkLoop order bad st xs = (st', r)) :
    Good st' ∧ st'.spec = st.spec ∧
      (r = .ok () → ∀ x ∈ xs, ∀ a, Tulip.parse x = some a → bad a = false) ∧
      (Acceptable order st.spec → (∀ x ∈ xs, x ∈ clauses order st.spec) →
        (∀ x ∈ xs, ∀ a, Tulip.parse x = some a → bad a = false) → r = .ok ()) := by
  induction xs generalizing st with
  | nil => cases e; exact ⟨h, rfl, by simp, by simp⟩
  | cons x xs ih =>
    unfold checkLoop at e
    split at e
    · rename_i st1 er e1
      obtain ⟨h1, h2, _, _, h5, h6⟩ := astOf_spec h e1
      cases e
      refine ⟨h1, h2, by simp, fun ha hx _ => ?_⟩
      obtain ⟨a, ha⟩ := h6 ha (hx x (by simp))
      cases ha
    · rename_i st1 a e1
      obtain ⟨h1, h2, _, _, h5, h6⟩ := astOf_spec h e1
      have hp := (h5 a rfl).1
      split at e
      · rename_i hb
        cases e
        exact ⟨h1, h2, by simp, fun _ _ hall => absurd (hall x (by simp) a hp) (by simp [hb])⟩
      · rename_i hb
        obtain ⟨k1, k2, k3, k4⟩ := ih h1 e
        refine ⟨k1, k2.trans h2, fun hr y hy => ?_, fun ha hx hall => ?_⟩
        · rcases List.mem_cons.1 hy with rfl | hy
          · intro a' ha'
            rw [hp] at ha'; cases ha'
            simpa using hb
          · exact k3 hr y hy
        · exact k4 (by rw [h2]; exact ha) (by rw [h2]; exact fun y hy => hx y (by simp [hy]))
            fun y hy => hall y (by simp [hy])

theorem checkTests_spec {order : List Part} {st : Obj} (h : Good st)
    {ts : List (List (List Char) × (Ast → Bool))} {st' : Obj} {r : Except PyErr Unit}
    (e : checkTests order st ts = (st', r)) :
    Good st' ∧ st'.spec = st.spec ∧
      (r = .ok () → ∀ t ∈ ts, ∀ x ∈ t.1, ∀ a, Tulip.parse x = some a → t.2 a = false) ∧
      (Acceptable order st.spec → (∀ t ∈ ts, ∀ x ∈ t.1, x ∈ clauses order st.spec) →
        (∀ t ∈ ts, ∀ x ∈ t.1, ∀ a, Tulip.parse x = some a → t.2 a = false) → r = .ok ()) := by
  induction ts generalizing st with
  | nil => cases e; exact ⟨h, rfl, by simp, by simp⟩
  | cons t ts ih =>
    unfold checkTests at e
    split at e
    · rename_i st1 er e1
      obtain ⟨h1, h2, h3, h4⟩ := checkLoop_spec h e1
      cases e
      exact ⟨h1, h2, by simp, fun ha hx hall => absurd (h4 ha (hx t (by simp)) (hall t (by simp))) (by simp)⟩
    · rename_i st1 e1
      obtain ⟨h1, h2, h3, h4⟩ := checkLoop_spec h e1
      obtain ⟨k1, k2, k3, k4⟩ := ih h1 e
      refine ⟨k1, k2.trans h2, fun hr u hu => ?_, fun ha hx hall => ?_⟩
      · rcases List.mem_cons.1 hu with rfl | hu
        · exact h3 rfl
        · exact k3 hr u hu
      · exact k4 (by rw [h2]; exact ha) (by rw [h2]; exact fun u hu => hx u (by simp [hu]))
          fun u hu => hall u (by simp [hu])

theorem syntaxTests_iff (g : GRSpec) :
    (∀ t ∈ syntaxTests g, ∀ x ∈ t.1, ∀ a, Tulip.parse x = some a → t.2 a = false) ↔ PrimesOk g := by
  have e1 : ∀ a : Ast, (!(collectPrimedVars a).isEmpty) = false ↔ ∀ v, ¬ PrimedIn v false a := fun a => by
    simp only [Bool.not_eq_eq_eq_not, Bool.not_false, List.isEmpty_iff]
    rw [List.eq_nil_iff_forall_not_mem]
    simp [collectPrimedVars_correct]
  have e2 : ∀ a : Ast, ((collectPrimedVars a).any fun v => g.sysVars.has v) = false ↔
      ∀ v ∈ g.sysVars.keys, ¬ PrimedIn v false a := fun a => by
    rw [List.any_eq_false]
    simp only [collectPrimedVars_correct, Dict.has_iff, Dict.mem_keys_iff]
    exact ⟨fun h v hv hp => h v hp hv, fun h v hp hv => h v hv hp⟩
  simp only [syntaxTests, List.mem_cons, List.not_mem_nil, or_false, forall_eq_or_imp, forall_eq, e1, e2,
    PrimesOk, List.mem_append]
  constructor
  · rintro ⟨h1, h2, h3, _, h5⟩
    exact ⟨fun x hx => by rcases hx with (hx | hx) | hx; exacts [h1 x hx, h2 x hx, h3 x hx], h5⟩
  · rintro ⟨h1, h2⟩
    exact ⟨fun x hx => h1 x (.inl (.inl hx)), fun x hx => h1 x (.inl (.inr hx)),
      fun x hx => h1 x (.inr hx), fun x hx => h1 x (.inr hx), h2⟩

/-- After `str_to_int`, the texts of clauses are those of their trees, and nothing is parsed. -/
theorem clauseText_spec {order : List Part} {L : Lang} {st : Obj} {x : List Char} {b : Ast}
    (h : ∃ f, st.boolInt.get? x = some f ∧ st.ast.get? f = some b) :
    clauseText order L st x = (st, text L false b) := by
  obtain ⟨f, h1, h2⟩ := h
  have h3 : st.ast.has f = true := (Dict.has_iff _ _).2 ⟨b, h2⟩
  simp [clauseText, h1, astOf, h3, h2]

/-- The trees of clauses are in the cache. -/
def Filled (st : Obj) : Prop :=
  ∀ p, ∀ x ∈ part st.spec p, ∃ b, ClauseTree st.spec x b ∧
    ∃ f, st.boolInt.get? x = some f ∧ st.ast.get? f = some b

theorem ClauseTree.det {g : GRSpec} {x : List Char} {b b' : Ast} (h : ClauseTree g x b)
    (h' : ClauseTree g x b') : b = b' := by
  obtain ⟨a, f, h1, _, h2, _⟩ := h
  obtain ⟨a', f', h1', _, h2', _⟩ := h'
  rw [h1] at h1'; cases h1'
  rw [h2] at h2'; cases h2'
  rfl

/-- The text of a clause. -/
def ClauseText (g : GRSpec) (L : Lang) (x s : List Char) : Prop :=
  ∃ b, ClauseTree g x b ∧ text L false b = .ok s

theorem forall₂_det {g : GRSpec} {L : Lang} {xs ss us : List (List Char)}
    (h : List.Forall₂ (ClauseText g L) xs ss) (h' : List.Forall₂ (ClauseText g L) xs us) : ss = us := by
  induction h generalizing us with
  | nil => cases h'; rfl
  | cons h1 _ ih =>
    cases h' with
    | cons h1' h2' =>
      obtain ⟨b, q1, q2⟩ := h1
      obtain ⟨b', q1', q2'⟩ := h1'
      cases q1.det q1'
      rw [q2] at q2'
      cases q2'
      rw [ih h2']

theorem partTexts_spec {order : List Part} {L : Lang} {st : Obj} {xs : List (List Char)}
    (h : ∀ x ∈ xs, ∃ b, ClauseTree st.spec x b ∧ ∃ f, st.boolInt.get? x = some f ∧ st.ast.get? f = some b) :
    ∃ r, partTexts order L st xs = (st, r) ∧
      ∀ ss, r = .ok ss ↔ List.Forall₂ (ClauseText st.spec L) xs ss := by
  induction xs with
  | nil => exact ⟨_, rfl, fun ss => by simp [eq_comm]⟩
  | cons x xs ih =>
    obtain ⟨b, hb, hf⟩ := h x (by simp)
    obtain ⟨r, hr, hs⟩ := ih fun y hy => h y (by simp [hy])
    unfold partTexts
    rw [clauseText_spec hf]
    have none : ∀ e, text L false b = .error e → ∀ ss, ¬ List.Forall₂ (ClauseText st.spec L) (x :: xs) ss := by
      intro e he ss hss
      cases hss with
      | cons h1 _ =>
        obtain ⟨b', h1, h2⟩ := h1
        cases hb.det h1
        rw [he] at h2; cases h2
    cases ht : text L false b with
    | error e => exact ⟨_, rfl, fun ss => by simpa using none e ht ss⟩
    | ok s =>
      simp only [hr]
      cases r with
      | error e =>
        refine ⟨_, rfl, fun ss => ?_⟩
        simp only [reduceCtorEq, false_iff]
        intro hss
        cases hss with
        | cons _ h2 => exact absurd ((hs _).2 h2) (by simp)
      | ok us =>
        refine ⟨_, rfl, fun ss => ⟨?_, fun hss => ?_⟩⟩
        · rintro ⟨⟩
          exact .cons ⟨b, hb, ht⟩ ((hs us).1 rfl)
        · cases hss with
          | cons h1 h2 =>
            obtain ⟨b', h1, h3⟩ := h1
            cases hb.det h1
            rw [ht] at h3; cases h3
            have := (hs _).2 h2
            cases this; rfl

theorem allTexts_spec {order : List Part} {L : Lang} {st : Obj} (h : Filled st) (ps : List Part) :
    ∃ r, allTexts order L st ps = (st, r) ∧
      (∀ d, r = .ok d → ∀ p ∈ ps, ∃ ss, d.get? p = some ss ∧
        List.Forall₂ (ClauseText st.spec L) (part st.spec p) ss) ∧
      ((∀ p ∈ ps, ∃ ss, List.Forall₂ (ClauseText st.spec L) (part st.spec p) ss) → ∃ d, r = .ok d) := by
  induction ps with
  | nil => exact ⟨_, rfl, by simp, fun _ => ⟨_, rfl⟩⟩
  | cons p ps ih =>
    obtain ⟨r, hr, h1, h2⟩ := ih
    obtain ⟨q, hq, h3⟩ := partTexts_spec (order := order) (L := L) (h p)
    unfold allTexts
    rw [hq]
    cases q with
    | error e =>
      refine ⟨_, rfl, by simp, fun hall => ?_⟩
      obtain ⟨ss, hss⟩ := hall p (by simp)
      exact absurd ((h3 ss).2 hss) (by simp)
    | ok ss =>
      simp only [hr]
      cases r with
      | error e =>
        refine ⟨_, rfl, by simp, fun hall => ?_⟩
        obtain ⟨d, hd⟩ := h2 fun q hq => hall q (by simp [hq])
        cases hd
      | ok d =>
        refine ⟨_, rfl, ?_, fun _ => ⟨_, rfl⟩⟩
        rintro _ ⟨⟩ q hq
        rw [Dict.get?_set]
        by_cases hpq : p = q
        · subst hpq
          exact ⟨ss, by simp, (h3 ss).1 rfl⟩
        · obtain ⟨us, hu⟩ := h1 d rfl q (by
            rcases List.mem_cons.1 hq with rfl | hq
            · exact absurd rfl hpq
            · exact hq)
          exact ⟨us, by simp [hpq, hu.1], hu.2⟩

/-- `translate` returns if and only if primed variables are where they may be, every clause has a text in
the language, and the parts can be assembled; the result is assembled from the texts of the clauses. -/
theorem translate_spec {α : Type} {order : List Part} (horder : ∀ p, p ∈ order) {L : Lang}
    {assemble : GRSpec → Dict Part (List (List Char)) → Except PyErr α} {st : Obj} (hg : Good st) :
    Good (translate order L assemble st).1 ∧ (translate order L assemble st).1.spec = st.spec ∧
    (∀ out, (translate order L assemble st).2 = .ok out →
      PrimesOk st.spec ∧ ∃ (d : Dict Part (List (List Char))) (T : Part → List (List Char)),
        (∀ p, d.get? p = some (T p)) ∧
        (∀ p, List.Forall₂ (ClauseText st.spec L) (part st.spec p) (T p)) ∧ assemble st.spec d = .ok out) ∧
    (PrimesOk st.spec → ∀ T : Part → List (List Char),
      (∀ p, List.Forall₂ (ClauseText st.spec L) (part st.spec p) (T p)) →
      ∃ d : Dict Part (List (List Char)), (∀ p, d.get? p = some (T p)) ∧
        (translate order L assemble st).2 = assemble st.spec d) := by
  have hmem : ∀ x, x ∈ clauses order st.spec ↔ ∃ p, x ∈ part st.spec p := fun x => by
    simp only [clauses, List.mem_flatMap]
    exact ⟨fun ⟨p, _, h⟩ => ⟨p, h⟩, fun ⟨p, h⟩ => ⟨p, horder p, h⟩⟩
  have htests : ∀ t ∈ syntaxTests st.spec, ∀ x ∈ t.1, x ∈ clauses order st.spec := by
    simp only [syntaxTests, List.mem_cons, List.not_mem_nil, or_false, forall_eq_or_imp, forall_eq, hmem]
    exact ⟨fun x h => ⟨.envInit, h⟩, fun x h => ⟨.sysInit, h⟩, fun x h => ⟨.envProg, h⟩,
      fun x h => ⟨.envProg, h⟩, fun x h => ⟨.envSafety, h⟩⟩
  have hint : ∀ T : Part → List (List Char),
      (∀ p, List.Forall₂ (ClauseText st.spec L) (part st.spec p) (T p)) →
      ∀ x ∈ clauses order st.spec, ∃ f, IntText st.spec x f := by
    intro T hT x hx
    obtain ⟨p, hp⟩ := (hmem x).1 hx
    obtain ⟨i, hi, rfl⟩ := List.getElem_of_mem hp
    obtain ⟨b, ⟨a, f, k1, k2, k3, k4⟩, _⟩ := (List.forall₂_iff_get.1 (hT p)).2 i hi (by
      rw [← (hT p).length_eq]; exact hi)
    exact ⟨f, a, b, k1, k2, k3, k4⟩
  have hacc : (∀ x ∈ clauses order st.spec, ∃ f, IntText st.spec x f) → Acceptable order st.spec := by
    intro h x hx
    obtain ⟨f, a, b, h1, h2, _⟩ := h x hx
    exact ⟨a, h1, h2⟩
  unfold translate
  rcases hc : checkSyntaxObj order st with ⟨st1, r1⟩
  obtain ⟨c1, c2, c3, c4⟩ := checkTests_spec hg hc
  rw [syntaxTests_iff] at c3 c4
  cases r1 with
  | error e =>
    refine ⟨c1, c2, by simp, fun hp T hT => ?_⟩
    exact absurd (c4 (hacc (hint T hT)) htests hp) (by simp)
  | ok u =>
    rcases hi : strToInt order st1 with ⟨st2, r2⟩
    obtain ⟨s1, s2, _, s4, s5⟩ := strToIntLoop_spec (order := order) c1 (fun x hx => hx) hi
    rw [c2] at s2 s4 s5
    cases r2 with
    | error e =>
      simp only [hi]
      refine ⟨s1, s2, by simp, fun _ T hT => ?_⟩
      exact absurd (s5 (hint T hT)) (by simp)
    | ok v =>
      have hfill : Filled st2 := by
        intro p x hx
        rw [s2] at hx
        obtain ⟨f, k1, k2⟩ := s4 rfl x ((hmem x).2 ⟨p, hx⟩)
        obtain ⟨b, hb⟩ := (Dict.has_iff _ _).1 k2
        obtain ⟨a, b', t1, t2, t3, t4⟩ := s1.text x f k1
        have hb' := (s1.tree f b hb).1
        rw [parse_intText t1 t3 t4] at hb'
        rw [Option.some.injEq] at hb'
        subst hb'
        exact ⟨_, by rw [s2] at *; exact ⟨a, f, t1, t2, t3, t4⟩, f, k1, hb⟩
      obtain ⟨r, hr, h1, h2⟩ := allTexts_spec (order := order) (L := L) hfill order
      rw [s2] at h1 h2
      simp only [hi, hr]
      cases r with
      | error e =>
        refine ⟨s1, s2, by simp, fun _ T hT => ?_⟩
        obtain ⟨d, hd⟩ := h2 fun p _ => ⟨T p, hT p⟩
        cases hd
      | ok d =>
        refine ⟨s1, s2, fun out ho => ⟨c3 rfl, d, fun p => (d.get? p).getD [], fun p => ?_, fun p => ?_, ?_⟩,
          fun _ T hT => ⟨d, fun p => ?_, by simp [s2]⟩⟩
        · obtain ⟨ss, k1, k2⟩ := h1 d rfl p (horder p)
          simp [k1]
        · obtain ⟨ss, k1, k2⟩ := h1 d rfl p (horder p)
          simpa [k1] using k2
        · simpa [s2] using ho
        · obtain ⟨ss, k1, k2⟩ := h1 d rfl p (horder p)
          rw [k1]
          congr 1
          exact forall₂_det k2 (hT p)

end Trans
end Tulip
