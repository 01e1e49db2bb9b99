import Verif.Spec.TransformProps

/-!
# Translation to Python and to gr1c, identifier checks (C37, C40, C41, C48)
-/

namespace Tulip

/-! ## Python evaluation: specification -/

/-- Python values of the emitted fragment. -/
inductive PyVal
  | bool (b : Bool) | int (n : Int) | str (s : String)
  deriving DecidableEq, Repr

namespace PyVal

/-- Truth value of an object. -/
def truthy : PyVal → Bool
  | bool b => b
  | int n => n ≠ 0
  | str s => s ≠ ""

/-- `bool` is a subclass of `int`. -/
def num? : PyVal → Option Int
  | bool b => some (if b then 1 else 0)
  | int n => some n
  | str _ => none

/-- Comparison operators. Order comparisons of strings are lexicographic; between a string and a
number they raise `TypeError`. -/
def compare (op : CmpOp) (a b : PyVal) : Except PyErr PyVal :=
  let eq : Bool := match a, b with
    | str s, str t => s == t
    | str _, _ | _, str _ => false
    | _, _ => a.num? == b.num?
  match op with
  | .eq => .ok (bool eq)
  | .ne | .ne2 => .ok (bool !eq)
  | .lt => order (· < ·) (· < ·)
  | .le | .le2 => order (· ≤ ·) (fun s t => ¬ t < s)
  | .gt => order (· > ·) (· > ·)
  | .ge => order (· ≥ ·) (fun s t => ¬ s < t)
where
  order (p : Int → Int → Prop) (q : String → String → Prop) [∀ x y, Decidable (p x y)]
      [∀ x y, Decidable (q x y)] : Except PyErr PyVal :=
    match a, b with
    | str s, str t => .ok (bool (decide (q s t)))
    | _, _ =>
      match a.num?, b.num? with
      | some x, some y => .ok (bool (decide (p x y)))
      | _, _ => .error .typeError

end PyVal

/-- Evaluation of an expression by Python, `eval(code, env)`. Simplification: `^` on integers is
not modelled (it is an error here). -/
def pyEval (env : String → Option PyVal) : PyExpr → Except PyErr PyVal
  | .name x => match env x with
    | some v => .ok v
    | none => .error .nameError
  | .bool b => .ok (.bool b)
  | .int n => .ok (.int n)
  | .not e => do return .bool (!(← pyEval env e).truthy)
  | .and a b => do
    let v ← pyEval env a
    if v.truthy then pyEval env b else return v
  | .or a b => do
    let v ← pyEval env a
    if v.truthy then return v else pyEval env b
  | .xor a b => do
    match ← pyEval env a, ← pyEval env b with
    | .bool x, .bool y => return .bool (x ^^ y)
    | _, _ => .error .typeError
  | .cmp op a b => do
    let v ← pyEval env a
    let w ← pyEval env b
    v.compare op w
  | .add a b => do
    match (← pyEval env a).num?, (← pyEval env b).num? with
    | some x, some y => return .int (x + y)
    | _, _ => .error .typeError
  | .sub a b => do
    match (← pyEval env a).num?, (← pyEval env b).num? with
    | some x, some y => return .int (x - y)
    | _, _ => .error .typeError

/-- Types of variables. -/
inductive Ty
  | bool | int | str
  deriving DecidableEq, Repr

/-- Well-typed formulas and terms of the propositional fragment with integer arithmetic. String
variables may be compared, string constants may not occur. -/
inductive HasTy (Γ : String → Option Ty) : Ast → Ty → Prop
  | var {x τ} : Γ x = some τ → HasTy Γ (.var x) τ
  | bool {b} : HasTy Γ (.bool b) .bool
  | num {n} : HasTy Γ (.num n) .int
  | not {a} : HasTy Γ a .bool → HasTy Γ (.un .not a) .bool
  | bin {op a b} : op ∈ [BinOp.and, .or, .xor, .imp, .bimp] → HasTy Γ a .bool → HasTy Γ b .bool →
      HasTy Γ (.bin op a b) .bool
  | eq {op a b τ} : op ∈ [CmpOp.eq, .ne] → HasTy Γ a τ → HasTy Γ b τ → HasTy Γ (.cmp op a b) .bool
  | ord {op a b} : op ∈ [CmpOp.lt, .le, .gt, .ge] → HasTy Γ a .int → HasTy Γ b .int →
      HasTy Γ (.cmp op a b) .bool
  | ar {op a b} : op ∈ [ArOp.add, .sub] → HasTy Γ a .int → HasTy Γ b .int → HasTy Γ (.ar op a b) .int

/-- The Python object for a value. -/
def Val.toPy : Val → Option PyVal
  | .bool b => some (.bool b)
  | .int n => some (.int n)
  | .str s => some (.str s)
  | .err => none

/-- The value has the type. -/
def Val.OfTy : Val → Ty → Prop
  | .bool _, .bool | .int _, .int | .str _, .str => True
  | _, _ => False

/-- The state respects the types of the variables. -/
def Respects (Γ : String → Option Ty) (v : Valuation) : Prop :=
  ∀ x τ, Γ x = some τ → (v x).OfTy τ

theorem Val.OfTy.bool {v : Val} (h : v.OfTy .bool) : ∃ b, v = .bool b := by
  cases v <;> simp_all [Val.OfTy]
theorem Val.OfTy.int {v : Val} (h : v.OfTy .int) : ∃ n, v = .int n := by
  cases v <;> simp_all [Val.OfTy]
theorem Val.OfTy.str {v : Val} (h : v.OfTy .str) : ∃ s, v = .str s := by
  cases v <;> simp_all [Val.OfTy]

theorem eval_iff_bool {p q : Prop} [Decidable p] [Decidable q] (h : p ↔ q) :
    Val.bool (decide p) = Val.bool (decide q) := by
  rw [decide_eq_decide.2 h]

/-- What the induction proves about a typed formula. -/
def PyOk (v : Valuation) (a : Ast) (τ : Ty) : Prop :=
  (eval (fun _ => v) a 0).OfTy τ ∧ ∃ e, toPy a = .ok e ∧ ∃ w, (eval (fun _ => v) a 0).toPy = some w ∧
    pyEval (fun x => (v x).toPy) e = .ok w

theorem pyOk_bool {v : Valuation} {a : Ast} (h : PyOk v a .bool) :
    ∃ e b, toPy a = .ok e ∧ eval (fun _ => v) a 0 = .bool b ∧
      pyEval (fun x => (v x).toPy) e = .ok (.bool b) := by
  obtain ⟨h1, e, he, w, hw, hv⟩ := h
  obtain ⟨b, hb⟩ := h1.bool
  rw [hb] at hw
  cases hw
  exact ⟨e, b, he, hb, hv⟩

theorem pyOk_int {v : Valuation} {a : Ast} (h : PyOk v a .int) :
    ∃ e n, toPy a = .ok e ∧ eval (fun _ => v) a 0 = .int n ∧
      pyEval (fun x => (v x).toPy) e = .ok (.int n) := by
  obtain ⟨h1, e, he, w, hw, hv⟩ := h
  obtain ⟨b, hb⟩ := h1.int
  rw [hb] at hw
  cases hw
  exact ⟨e, b, he, hb, hv⟩

theorem pyOk_str {v : Valuation} {a : Ast} (h : PyOk v a .str) :
    ∃ e s, toPy a = .ok e ∧ eval (fun _ => v) a 0 = .str s ∧
      pyEval (fun x => (v x).toPy) e = .ok (.str s) := by
  obtain ⟨h1, e, he, w, hw, hv⟩ := h
  obtain ⟨b, hb⟩ := h1.str
  rw [hb] at hw
  cases hw
  exact ⟨e, b, he, hb, hv⟩

theorem pyOk_mk {v : Valuation} {a : Ast} {e : PyExpr} {b : Bool} (h1 : toPy a = .ok e)
    (h2 : eval (fun _ => v) a 0 = .bool b) (h3 : pyEval (fun x => (v x).toPy) e = .ok (.bool b)) :
    PyOk v a .bool := ⟨by rw [h2]; trivial, e, h1, .bool b, by rw [h2]; rfl, h3⟩

theorem bool_val_of_iff {p : Prop} {b : Bool} [Decidable p] (h : p ↔ b = true) :
    Val.bool (decide p) = .bool b := by
  congr 1
  cases b <;> simp_all

theorem eval_cmp_bool {σ : Trace} {op : CmpOp} {a b : Ast} {i : Nat} {w w' : Val} {c : Bool}
    (h1 : eval σ a i = w) (h2 : eval σ b i = w') (h : Val.compare op w w' ↔ c = true) :
    eval σ (.cmp op a b) i = .bool c := by
  subst h1 h2
  simp only [eval, Val.bool.injEq]
  rw [Bool.eq_iff_iff]
  simpa using h

theorem hasTy_ok {Γ : String → Option Ty} {v : Valuation} (hv : Respects Γ v) {a : Ast} {τ : Ty}
    (h : HasTy Γ a τ) : PyOk v a τ := by
  induction h with
  | @var x τ hx =>
    have := hv x τ hx
    refine ⟨by simpa [eval] using this, .name x, rfl, ?_⟩
    simp only [eval, pyEval]
    cases hh : v x <;> simp_all [Val.toPy, Val.OfTy]
  | @bool b => exact pyOk_mk (e := .bool b) rfl (by simp [eval]) rfl
  | @num n =>
    exact ⟨by simp [eval, Val.OfTy], .int n, rfl, .int n, by simp [eval, Val.toPy], rfl⟩
  | @not a _ ih =>
    obtain ⟨e, b, h1, h2, h3⟩ := pyOk_bool ih
    refine pyOk_mk (e := .not e) (b := !b) (by simp [toPy, h1]) ?_
      (by simp [pyEval, h3, PyVal.truthy])
    simp only [eval, h2]
    exact bool_val_of_iff (by cases b <;> simp)
  | @bin op a b hop _ _ iha ihb =>
    obtain ⟨e, x, h1, h2, h3⟩ := pyOk_bool iha
    obtain ⟨e', y, h1', h2', h3'⟩ := pyOk_bool ihb
    simp only [List.mem_cons, List.not_mem_nil, or_false] at hop
    rcases hop with rfl | rfl | rfl | rfl | rfl
    · refine pyOk_mk (e := .and e e') (b := x && y) (by simp [toPy, h1, h1']) ?_ ?_
      · simp only [eval, h2, h2']
        exact bool_val_of_iff (by cases x <;> cases y <;> simp)
      · cases x <;> simp [pyEval, h3, h3', PyVal.truthy]
    · refine pyOk_mk (e := .or e e') (b := x || y) (by simp [toPy, h1, h1']) ?_ ?_
      · simp only [eval, h2, h2']
        exact bool_val_of_iff (by cases x <;> cases y <;> simp)
      · cases x <;> simp [pyEval, h3, h3', PyVal.truthy]
    · refine pyOk_mk (e := .xor e e') (b := x ^^ y) (by simp [toPy, h1, h1']) ?_ ?_
      · simp only [eval, h2, h2']
        exact bool_val_of_iff (by cases x <;> cases y <;> simp)
      · simp [pyEval, h3, h3']
    · refine pyOk_mk (e := .or (.not e) e') (b := !x || y) (by simp [toPy, h1, h1']) ?_ ?_
      · simp only [eval, h2, h2']
        exact bool_val_of_iff (by cases x <;> cases y <;> simp)
      · cases x <;> simp [pyEval, h3, h3', PyVal.truthy]
    · refine pyOk_mk (e := .cmp .eq e e') (b := x == y) (by simp [toPy, h1, h1']) ?_ ?_
      · simp only [eval, h2, h2']
        exact bool_val_of_iff (by cases x <;> cases y <;> simp)
      · cases x <;> cases y <;> simp [pyEval, h3, h3', PyVal.compare, PyVal.num?]
  | @eq op a b τ hop _ _ iha ihb =>
    simp only [List.mem_cons, List.not_mem_nil, or_false] at hop
    cases τ with
    | bool =>
      obtain ⟨e, x, h1, h2, h3⟩ := pyOk_bool iha
      obtain ⟨e', y, h1', h2', h3'⟩ := pyOk_bool ihb
      rcases hop with rfl | rfl
      · refine pyOk_mk (e := .cmp .eq e e') (b := x == y) (by simp [toPy, h1, h1']) ?_ ?_
        · exact eval_cmp_bool h2 h2' (by simp [Val.compare])
        · cases x <;> cases y <;> simp [pyEval, h3, h3', PyVal.compare, PyVal.num?]
      · refine pyOk_mk (e := .cmp .ne e e') (b := x != y) (by simp [toPy, h1, h1']) ?_ ?_
        · exact eval_cmp_bool h2 h2' (by simp [Val.compare])
        · cases x <;> cases y <;> simp [pyEval, h3, h3', PyVal.compare, PyVal.num?]
    | int =>
      obtain ⟨e, x, h1, h2, h3⟩ := pyOk_int iha
      obtain ⟨e', y, h1', h2', h3'⟩ := pyOk_int ihb
      rcases hop with rfl | rfl
      · refine pyOk_mk (e := .cmp .eq e e') (b := x == y) (by simp [toPy, h1, h1']) ?_ ?_
        · exact eval_cmp_bool h2 h2' (by simp [Val.compare])
        · simp [pyEval, h3, h3', PyVal.compare, PyVal.num?]
      · refine pyOk_mk (e := .cmp .ne e e') (b := x != y) (by simp [toPy, h1, h1']) ?_ ?_
        · exact eval_cmp_bool h2 h2' (by simp [Val.compare])
        · simp [pyEval, h3, h3', PyVal.compare, PyVal.num?, bne]
    | str =>
      obtain ⟨e, x, h1, h2, h3⟩ := pyOk_str iha
      obtain ⟨e', y, h1', h2', h3'⟩ := pyOk_str ihb
      rcases hop with rfl | rfl
      · refine pyOk_mk (e := .cmp .eq e e') (b := x == y) (by simp [toPy, h1, h1']) ?_ ?_
        · exact eval_cmp_bool h2 h2' (by simp [Val.compare])
        · simp [pyEval, h3, h3', PyVal.compare]
      · refine pyOk_mk (e := .cmp .ne e e') (b := x != y) (by simp [toPy, h1, h1']) ?_ ?_
        · exact eval_cmp_bool h2 h2' (by simp [Val.compare])
        · simp [pyEval, h3, h3', PyVal.compare, bne]
  | @ord op a b hop _ _ iha ihb =>
    obtain ⟨e, x, h1, h2, h3⟩ := pyOk_int iha
    obtain ⟨e', y, h1', h2', h3'⟩ := pyOk_int ihb
    simp only [List.mem_cons, List.not_mem_nil, or_false] at hop
    rcases hop with rfl | rfl | rfl | rfl
    · refine pyOk_mk (e := .cmp .lt e e') (b := decide (x < y)) (by simp [toPy, h1, h1']) ?_ ?_
      · exact eval_cmp_bool h2 h2' (by simp [Val.compare])
      · simp [pyEval, h3, h3', PyVal.compare, PyVal.compare.order, PyVal.num?]
    · refine pyOk_mk (e := .cmp .le e e') (b := decide (x ≤ y)) (by simp [toPy, h1, h1']) ?_ ?_
      · exact eval_cmp_bool h2 h2' (by simp [Val.compare])
      · simp [pyEval, h3, h3', PyVal.compare, PyVal.compare.order, PyVal.num?]
    · refine pyOk_mk (e := .cmp .gt e e') (b := decide (x > y)) (by simp [toPy, h1, h1']) ?_ ?_
      · exact eval_cmp_bool h2 h2' (by simp [Val.compare])
      · simp [pyEval, h3, h3', PyVal.compare, PyVal.compare.order, PyVal.num?]
    · refine pyOk_mk (e := .cmp .ge e e') (b := decide (x ≥ y)) (by simp [toPy, h1, h1']) ?_ ?_
      · exact eval_cmp_bool h2 h2' (by simp [Val.compare])
      · simp [pyEval, h3, h3', PyVal.compare, PyVal.compare.order, PyVal.num?]
  | @ar op a b hop _ _ iha ihb =>
    obtain ⟨e, x, h1, h2, h3⟩ := pyOk_int iha
    obtain ⟨e', y, h1', h2', h3'⟩ := pyOk_int ihb
    simp only [List.mem_cons, List.not_mem_nil, or_false] at hop
    rcases hop with rfl | rfl
    · refine ⟨by simp [eval, h2, h2', Val.arith, Val.OfTy], .add e e', by simp [toPy, h1, h1'],
        .int (x + y), by simp [eval, h2, h2', Val.arith, Val.toPy], ?_⟩
      simp [pyEval, h3, h3', PyVal.num?]
    · refine ⟨by simp [eval, h2, h2', Val.arith, Val.OfTy], .sub e e', by simp [toPy, h1, h1'],
        .int (x - y), by simp [eval, h2, h2', Val.arith, Val.toPy], ?_⟩
      simp [pyEval, h3, h3', PyVal.num?]

/-- **C40.** For every well-typed formula and state, the Python translation exists, evaluates
without an exception to a `bool`, and that is the truth value of the formula. -/
theorem toPy_correct {Γ : String → Option Ty} {f : Ast} (h : HasTy Γ f .bool) {v : Valuation}
    (hv : Respects Γ v) :
    ∃ e b, toPy f = .ok e ∧ pyEval (fun x => (v x).toPy) e = .ok (.bool b) ∧
      (b = true ↔ Sat (fun _ => v) 0 f) := by
  obtain ⟨e, b, h1, h2, h3⟩ := pyOk_bool (hasTy_ok hv h)
  exact ⟨e, b, h1, h3, by simp [Sat, h2]⟩

/-- A string constant is emitted without quotes: Python looks up a variable of that name. -/
theorem toPy_string_counterexample :
    ∃ e, toPy (.cmp .eq (.var "x") (.str "a")) = .ok e ∧
      pyEval (fun x => if x = "x" then some (.str "a") else none) e = .error .nameError ∧
      pyEval (fun x => if x = "x" then some (.str "a") else some (.str "b")) e =
        .ok (.bool false) := ⟨_, rfl, rfl, rfl⟩

/-- Multiplication cannot be translated. -/
theorem toPy_mul_counterexample (x y : Ast) : toPy (.ar .mul x y) = .error .keyError := rfl

/-- Non-vacuity. -/
example : HasTy (fun x => if x = "p" then some .bool else some .int)
    (.bin .imp (.var "p") (.cmp .lt (.ar .add (.var "n") (.num 1)) (.num 3))) .bool :=
  .bin (by simp) (.var rfl) (.ord (by simp) (.ar (by simp) (.var rfl) .num) .num)

/-! ## C37: `compile_init` -/

theorem mapM_toPy {Γ : String → Option Ty} {v : Valuation} (hv : Respects Γ v) {fs : List Ast}
    (h : ∀ f ∈ fs, HasTy Γ f .bool) :
    ∃ es, fs.mapM toPy = .ok es ∧ List.Forall₂ (fun f e => ∃ b : Bool,
      pyEval (fun x => (v x).toPy) e = .ok (.bool b) ∧ (b = true ↔ Sat (fun _ => v) 0 f)) fs es := by
  induction fs with
  | nil => exact ⟨[], rfl, .nil⟩
  | cons f fs ih =>
    obtain ⟨es, h1, h2⟩ := ih (fun g hg => h g (by simp [hg]))
    obtain ⟨e, b, h3, h4, h5⟩ := toPy_correct (h f (by simp)) hv
    exact ⟨e :: es, by simp [List.mapM_cons, h3, h1], .cons ⟨b, h4, h5⟩ h2⟩

theorem pyEval_foldl {v : Valuation} {fs : List Ast} {es : List PyExpr}
    (h : List.Forall₂ (fun f e => ∃ b : Bool,
      pyEval (fun x => (v x).toPy) e = .ok (.bool b) ∧ (b = true ↔ Sat (fun _ => v) 0 f)) fs es)
    {e : PyExpr} {b : Bool} (he : pyEval (fun x => (v x).toPy) e = .ok (.bool b)) :
    ∃ c : Bool, pyEval (fun x => (v x).toPy) (es.foldl .and e) = .ok (.bool c) ∧
      (c = true ↔ b = true ∧ ∀ f ∈ fs, Sat (fun _ => v) 0 f) := by
  induction h generalizing e b with
  | nil => exact ⟨b, he, by simp⟩
  | @cons f e' fs es hx _ ih =>
    obtain ⟨b', h1, h2⟩ := hx
    obtain ⟨c, h3, h4⟩ := ih (e := .and e e') (b := b && b')
      (by cases b <;> simp [pyEval, he, PyVal.truthy, h1])
    exact ⟨c, h3, by rw [h4]; simp [← h2, and_assoc]⟩

theorem pyConj_ok {v : Valuation} {fs : List Ast} {es : List PyExpr}
    (h : List.Forall₂ (fun f e => ∃ b : Bool,
      pyEval (fun x => (v x).toPy) e = .ok (.bool b) ∧ (b = true ↔ Sat (fun _ => v) 0 f)) fs es) :
    ∃ c : Bool, pyEval (fun x => (v x).toPy) (pyConj es) = .ok (.bool c) ∧
      (c = true ↔ ∀ f ∈ fs, Sat (fun _ => v) 0 f) := by
  cases h with
  | nil => exact ⟨true, rfl, by simp⟩
  | cons hx hxs =>
    obtain ⟨b, h1, h2⟩ := hx
    obtain ⟨c, h3, h4⟩ := pyEval_foldl hxs h1
    exact ⟨c, h3, by rw [h4, h2]; simp⟩

/-- **C37 (`compile_init`).** The compiled expression evaluates, on every well-typed state, to
whether the initial assumptions imply the initial guarantees. -/
theorem compileInit_correct {Γ : String → Option Ty} {envInit sysInit : List Ast}
    (he : ∀ f ∈ envInit, HasTy Γ f .bool) (hs : ∀ f ∈ sysInit, HasTy Γ f .bool)
    {v : Valuation} (hv : Respects Γ v) :
    ∃ e b, compileInit envInit sysInit = .ok e ∧
      pyEval (fun x => (v x).toPy) e = .ok (.bool b) ∧
      (b = true ↔ ((∀ f ∈ envInit, Sat (fun _ => v) 0 f) → ∀ f ∈ sysInit, Sat (fun _ => v) 0 f)) := by
  obtain ⟨es, h1, h2⟩ := mapM_toPy hv he
  obtain ⟨ss, h3, h4⟩ := mapM_toPy hv hs
  obtain ⟨a, h5, h6⟩ := pyConj_ok h2
  obtain ⟨g, h7, h8⟩ := pyConj_ok h4
  refine ⟨_, !a || g, by simp only [compileInit, h1, h3]; rfl, ?_, ?_⟩
  · cases a <;> simp [pyEval, h5, h7, PyVal.truthy]
  · rw [← h6, ← h8]; cases a <;> cases g <;> simp

/-- Non-vacuity: both sides present, and the empty assumption. -/
example : ∃ e, compileInit [.var "p"] [.not (.var "q"), .var "p"] = .ok e := ⟨_, rfl⟩
example : compileInit [] [.var "q"] = .ok (.or (.not (.bool true)) (.name "q")) := rfl

/-! ## C48: undeclared variables -/

/-- Every number and string constant is below an operator with two operands. -/
def ConstsPaired : Bool → Ast → Prop
  | b, .num _ | b, .str _ => b = true
  | _, .var _ | _, .bool _ => True
  | b, .un _ x => ConstsPaired b x
  | _, .bin _ x y | _, .cmp _ x y | _, .ar _ x y => ConstsPaired true x ∧ ConstsPaired true y
  | _, .trunc x _ => ConstsPaired true x
  | b, .ite c x y => ConstsPaired b c ∧ ConstsPaired b x ∧ ConstsPaired b y

theorem bind_ok_iff {α β : Type} {x : Except PyErr α} {f : α → Except PyErr β} {b : β} :
    (x >>= f) = .ok b ↔ ∃ a, x = .ok a ∧ f a = .ok b := by
  cases x <;> simp [bind, Except.bind]

theorem checkIdents_sound {doms : List String} {ctx : Above} {f : Ast}
    (h : checkIdents doms ctx f = .ok ()) : ∀ x ∈ f.vars, x ∈ doms := by
  induction f generalizing ctx with
  | var y =>
    simp only [checkIdents] at h
    split at h
    · intro x hx; simp only [Ast.vars, List.mem_singleton] at hx; subst hx; assumption
    · cases h
  | bool | num | str => simp [Ast.vars]
  | un op a ih => exact ih h
  | bin op a b iha ihb | cmp op a b iha ihb | ar op a b iha ihb =>
    simp only [checkIdents, bind_ok_iff] at h
    obtain ⟨_, h1, h2⟩ := h
    intro x hx
    rcases List.mem_append.1 hx with hx | hx
    · exact iha h1 x hx
    · exact ihb h2 x hx
  | trunc a n ih =>
    simp only [checkIdents, bind_ok_iff] at h
    obtain ⟨_, h1, _⟩ := h
    exact ih h1
  | ite c a b ihc iha ihb =>
    simp only [checkIdents, bind_ok_iff] at h
    obtain ⟨_, h1, _, h2, h3⟩ := h
    intro x hx
    rcases List.mem_append.1 hx with hx | hx
    · rcases List.mem_append.1 hx with hx | hx
      · exact ihc h1 x hx
      · exact iha h2 x hx
    · exact ihb h3 x hx

theorem checkIdents_paired {doms : List String} {ctx : Above} {f : Ast}
    (hc : ConstsPaired ctx.isSome f) :
    (checkIdents doms ctx f = .ok () ∧ ∀ x ∈ f.vars, x ∈ doms) ∨
      (checkIdents doms ctx f = .error .valueError ∧ ∃ x ∈ f.vars, x ∉ doms) := by
  have comb : ∀ (a b : Ast) (p q : Except PyErr Unit),
      ((p = .ok () ∧ ∀ x ∈ a.vars, x ∈ doms) ∨ (p = .error .valueError ∧ ∃ x ∈ a.vars, x ∉ doms)) →
      ((q = .ok () ∧ ∀ x ∈ b.vars, x ∈ doms) ∨ (q = .error .valueError ∧ ∃ x ∈ b.vars, x ∉ doms)) →
      (((p >>= fun _ => q) = .ok () ∧ ∀ x ∈ a.vars ++ b.vars, x ∈ doms) ∨
        ((p >>= fun _ => q) = .error .valueError ∧ ∃ x ∈ a.vars ++ b.vars, x ∉ doms)) := by
    rintro a b p q (⟨rfl, ha⟩ | ⟨rfl, y, hy, hy'⟩) hq
    · rcases hq with ⟨rfl, hb⟩ | ⟨rfl, y, hy, hy'⟩
      · left
        refine ⟨rfl, fun x hx => ?_⟩
        rcases List.mem_append.1 hx with hx | hx
        · exact ha x hx
        · exact hb x hx
      · right; exact ⟨rfl, y, List.mem_append.2 (Or.inr hy), hy'⟩
    · right; exact ⟨rfl, y, List.mem_append.2 (Or.inl hy), hy'⟩
  induction f generalizing ctx with
  | var y =>
    simp only [checkIdents, Ast.vars]
    by_cases hy : y ∈ doms
    · left; simp [hy]
    · right; simp [hy]
  | bool => left; simp [checkIdents, Ast.vars]
  | num | str =>
    left
    cases ctx with
    | none => simp [ConstsPaired] at hc
    | some c => obtain ⟨p, q, s⟩ := c; exact ⟨rfl, by simp [Ast.vars]⟩
  | un op a ih => exact ih hc
  | bin op a b iha ihb | cmp op a b iha ihb | ar op a b iha ihb =>
    exact comb a b _ _ (iha (ctx := some (a, b, false)) hc.1) (ihb (ctx := some (a, b, true)) hc.2)
  | trunc a n ih =>
    rcases ih (ctx := some (a, .num n, false)) hc with ⟨h1, h2⟩ | ⟨h1, h2⟩
    · left; exact ⟨by simp only [checkIdents, h1]; rfl, h2⟩
    · right; exact ⟨by simp only [checkIdents, h1]; rfl, h2⟩
  | ite c a b ihc iha ihb =>
    have h1 := comb a b _ _ (iha (ctx := ctx) hc.2.1) (ihb (ctx := ctx) hc.2.2)
    have h2 := comb c (.bin .and a b) _ _ (ihc (ctx := ctx) hc.1) h1
    simp only [Ast.vars, List.append_assoc] at h2 ⊢
    exact h2

/-- **C48.** The check passes only if every variable is declared. -/
theorem checkIdents_declared {doms : List String} {f : Ast}
    (h : checkIdents doms none f = .ok ()) : ∀ x ∈ f.vars, x ∈ doms := checkIdents_sound h

/-- **C48.** If constants occur only below binary operators, the check raises `ValueError` iff
some variable is not declared, and passes otherwise. -/
theorem checkIdents_iff {doms : List String} {f : Ast} (hc : ConstsPaired false f) :
    (checkIdents doms none f = .error .valueError ↔ ∃ x ∈ f.vars, x ∉ doms) ∧
      (checkIdents doms none f = .ok () ↔ ∀ x ∈ f.vars, x ∈ doms) := by
  rcases checkIdents_paired (doms := doms) (ctx := none) hc with ⟨h1, h2⟩ | ⟨h1, y, h2, h3⟩
  · refine ⟨⟨by simp [h1], ?_⟩, ⟨fun _ => h2, fun _ => h1⟩⟩
    rintro ⟨x, hx, hx'⟩; exact absurd (h2 x hx) hx'
  · refine ⟨⟨fun _ => ⟨y, h2, h3⟩, fun _ => h1⟩, ⟨by simp [h1], fun h => absurd (h y h2) h3⟩⟩

/-- The documented check of constants against domains does not happen: the check does not look
at the domains at all (it takes only the declared names in the model), and so accepts
`x = "blue"` whatever the domain of `x` is. -/
theorem checkIdents_constant_counterexample :
    checkIdents ["x"] none (.cmp .eq (.var "x") (.str "blue")) = .ok () := rfl

example : ConstsPaired false (.un .always (.bin .imp (.var "p") (.cmp .lt (.var "n") (.num 3)))) := by
  simp [ConstsPaired]

/-! ## Primed variables -/

/-- `x` occurs in `f` below an `X` (or anywhere, if `c`). -/
def PrimedIn (x : String) : Bool → Ast → Prop
  | c, .var y => c = true ∧ y = x
  | _, .bool _ | _, .num _ | _, .str _ => False
  | _, .un .next a => PrimedIn x true a
  | c, .un _ a => PrimedIn x c a
  | c, .bin _ a b | c, .cmp _ a b | c, .ar _ a b => PrimedIn x c a ∨ PrimedIn x c b
  | c, .trunc a _ => PrimedIn x c a
  | c, .ite d a b => PrimedIn x c d ∨ PrimedIn x c a ∨ PrimedIn x c b

theorem primed_children (x : String) (u : Ast) (c : Bool) :
    PrimedIn x c u ↔ (c = true ∧ u = .var x) ∨ ∃ v ∈ u.children, PrimedIn x (u.isNext || c) v := by
  cases u with
  | un op a => cases op <;> simp [PrimedIn, Ast.children, Ast.isNext]
  | _ => simp [PrimedIn, Ast.children, Ast.isNext]

theorem len_children (u : Ast) : u.len = 1 + (u.children.map Ast.len).sum := by
  cases u <;> simp [Ast.len, Ast.children, Nat.add_assoc]

theorem primedLoop_spec (n : Nat) (Q : List (Ast × Bool)) (acc : List String)
    (h : (Q.map (fun p => p.1.len)).sum ≤ n) (x : String) :
    x ∈ primedLoop n Q acc ↔ x ∈ acc ∨ ∃ p ∈ Q, PrimedIn x p.2 p.1 := by
  induction n generalizing Q acc with
  | zero =>
    cases Q with
    | nil => simp [primedLoop]
    | cons p Q =>
      have := len_children p.1
      simp at h; omega
  | succ n ih =>
    cases Q with
    | nil => simp [primedLoop]
    | cons p Q =>
      obtain ⟨u, c⟩ := p
      rw [primedLoop, ih]
      · simp only [List.mem_append, List.mem_reverse, List.mem_map, List.mem_cons,
          exists_eq_or_imp]
        rw [primed_children x u c]
        have hacc : x ∈ notePrimed u c acc ↔ x ∈ acc ∨ (c = true ∧ u = .var x) := by
          cases u <;> cases c <;> simp [notePrimed, or_comm, eq_comm]
        rw [hacc]
        constructor
        · rintro ((h | h) | ⟨q, ⟨v, hv, rfl⟩ | hq, hp⟩)
          · exact Or.inl h
          · exact Or.inr (Or.inl (Or.inl h))
          · exact Or.inr (Or.inl (Or.inr ⟨v, hv, hp⟩))
          · exact Or.inr (Or.inr ⟨q, hq, hp⟩)
        · rintro (h | (h | ⟨v, hv, hp⟩) | ⟨q, hq, hp⟩)
          · exact Or.inl (Or.inl h)
          · exact Or.inl (Or.inr h)
          · exact Or.inr ⟨_, Or.inl ⟨v, hv, rfl⟩, hp⟩
          · exact Or.inr ⟨q, Or.inr hq, hp⟩
      · have := len_children u
        simp only [List.map_cons, List.sum_cons] at h
        have e : ((u.children.map (·, u.isNext || c)).map (fun p => p.1.len)) =
            u.children.map Ast.len := by rw [List.map_map]; rfl
        rw [List.map_append, List.map_reverse, e, List.sum_append, List.sum_reverse]
        omega

/-- `collect_primed_vars` returns exactly the variables in the scope of an `X`. -/
theorem collectPrimedVars_correct (f : Ast) (x : String) :
    x ∈ collectPrimedVars f ↔ PrimedIn x false f := by
  rw [collectPrimedVars, primedLoop_spec _ _ _ (by simp)]
  simp

theorem assertNoPrimed_ok {fs : List Ast} :
    assertNoPrimed fs = .ok () ↔ ∀ f ∈ fs, ∀ x, ¬ PrimedIn x false f := by
  have : assertNoPrimed fs = .ok () ↔ fs.any (fun f => !(collectPrimedVars f).isEmpty) = false := by
    unfold assertNoPrimed; split <;> simp_all
  rw [this, List.any_eq_false]
  refine forall₂_congr fun f _ => ?_
  simp only [Bool.not_eq_true', Bool.not_eq_false, List.isEmpty_iff]
  rw [List.eq_nil_iff_forall_not_mem]
  simp [collectPrimedVars_correct]

/-- **C66.** `check_syntax` accepts iff no primed variable occurs in an initial condition or in a
liveness assumption, and no primed system variable in a safety assumption. (Primed variables in
liveness guarantees are not rejected, contrary to the error message in the code.) -/
theorem checkSyntax_iff (envInit sysInit envProg sysProg envSafety : List Ast)
    (sysVars : List String) :
    checkSyntax envInit sysInit envProg sysProg envSafety sysVars = .ok () ↔
      (∀ f ∈ envInit ++ sysInit ++ envProg, ∀ x, ¬ PrimedIn x false f) ∧
      ∀ f ∈ envSafety, ∀ x ∈ sysVars, ¬ PrimedIn x false f := by
  have h5 : (if envSafety.any (fun f => (collectPrimedVars f).any (fun x => decide (x ∈ sysVars)))
      then (.error .assertion : Except PyErr Unit) else .ok ()) = .ok () ↔
      ∀ f ∈ envSafety, ∀ x ∈ sysVars, ¬ PrimedIn x false f := by
    split
    · rename_i h
      simp only [reduceCtorEq, false_iff]
      intro hn
      obtain ⟨f, hf, hx⟩ := List.any_eq_true.1 h
      obtain ⟨x, hx, hs⟩ := List.any_eq_true.1 hx
      exact hn f hf x (of_decide_eq_true hs) ((collectPrimedVars_correct f x).1 hx)
    · rename_i h
      simp only [true_iff]
      intro f hf x hx hp
      exact h (List.any_eq_true.2 ⟨f, hf, List.any_eq_true.2
        ⟨x, (collectPrimedVars_correct f x).2 hp, decide_eq_true hx⟩⟩)
  have unit : ∀ p : Unit → Prop, (∃ a, p a) ↔ p () := fun p => ⟨fun ⟨_, h⟩ => h, fun h => ⟨_, h⟩⟩
  simp only [checkSyntax, bind_ok_iff, unit, assertNoPrimed_ok, h5, List.mem_append,
    or_imp, forall_and]
  tauto

/-- A primed variable in a liveness guarantee is accepted. -/
theorem checkSyntax_sysProg_counterexample :
    checkSyntax [] [] [] [.un .next (.var "x")] [] ["x"] = .ok () ∧
      PrimedIn "x" false (.un .next (.var "x")) := ⟨by decide +kernel, rfl, rfl⟩

end Tulip
