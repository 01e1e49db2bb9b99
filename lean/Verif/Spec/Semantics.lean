import Verif.Spec.Ast

/-!
# Semantics of formulas: the specification side

This file is not a model of code. It is the standard discrete-time semantics of first-order
linear temporal logic over infinite traces, against which the transformations of `tulip.spec`
are judged. Truth is classical; terms that are ill-typed (e.g. adding a string) evaluate to
`err`, and a comparison with an ill-typed side is false.
-/

namespace Tulip

/-- Values of variables and terms. -/
inductive Val
  | bool (b : Bool)
  | int (n : Int)
  | str (s : String)
  | err
  deriving DecidableEq, Repr

/-- A state assigns a value to every variable. -/
abbrev Valuation := String → Val

/-- An infinite execution. -/
abbrev Trace := Nat → Valuation

namespace Val

/-- Integer arithmetic; `/` is floor division, with division by zero ill-typed. -/
def arith : ArOp → Val → Val → Val
  | .add, int a, int b => int (a + b)
  | .sub, int a, int b => int (a - b)
  | .mul, int a, int b => int (a * b)
  | .div, int a, int b => if b = 0 then err else int (a.fdiv b)
  | _, _, _ => err

/-- `a <<>> n`: keep the `n` least significant bits. -/
def truncate : Val → Int → Val
  | int a, n => int (a.emod (2 ^ n.toNat))
  | _, _ => err

/-- Comparison of two values: equality on values of any type, order on integers. -/
def compare : CmpOp → Val → Val → Prop
  | .eq, a, b => a = b ∧ a ≠ err
  | .ne, a, b | .ne2, a, b => a ≠ b ∧ a ≠ err ∧ b ≠ err
  | .lt, int a, int b => a < b
  | .le, int a, int b | .le2, int a, int b => a ≤ b
  | .gt, int a, int b => a > b
  | .ge, int a, int b => a ≥ b
  | _, _, _ => False

end Val

open Classical in
/-- Value of a formula or term at position `i` of a trace. -/
noncomputable def eval (σ : Trace) : Ast → Nat → Val
  | .var x, i => σ i x
  | .bool b, _ => .bool b
  | .num n, _ => .int n
  | .str s, _ => .str s
  | .un .not a, i | .un .tilde a, i => .bool (decide (eval σ a i ≠ .bool true))
  | .un .next a, i => eval σ a (i + 1)
  | .un .always a, i => .bool (decide (∀ j, i ≤ j → eval σ a j = .bool true))
  | .un .eventually a, i => .bool (decide (∃ j, i ≤ j ∧ eval σ a j = .bool true))
  | .bin op a b, i =>
      let p := fun j => eval σ a j = .bool true
      let q := fun j => eval σ b j = .bool true
      match op with
      | .and => .bool (decide (p i ∧ q i))
      | .or => .bool (decide (p i ∨ q i))
      | .xor => .bool (decide (¬ (p i ↔ q i)))
      | .imp | .imp2 => .bool (decide (p i → q i))
      | .bimp | .bimp2 => .bool (decide (p i ↔ q i))
      | .strongUntil => .bool (decide (∃ j, i ≤ j ∧ q j ∧ ∀ k, i ≤ k → k < j → p k))
      | .weakUntil => .bool (decide
          ((∃ j, i ≤ j ∧ q j ∧ ∀ k, i ≤ k → k < j → p k) ∨ ∀ j, i ≤ j → p j))
      | .release => .bool (decide (∀ j, i ≤ j → q j ∨ ∃ k, i ≤ k ∧ k < j ∧ p k))
  | .cmp op a b, i => .bool (decide (Val.compare op (eval σ a i) (eval σ b i)))
  | .ar op a b, i => Val.arith op (eval σ a i) (eval σ b i)
  | .trunc a n, i => Val.truncate (eval σ a i) n
  | .ite c a b, i => if eval σ c i = .bool true then eval σ a i else eval σ b i

/-- A formula holds at position `i` of a trace. -/
def Sat (σ : Trace) (i : Nat) (f : Ast) : Prop := eval σ f i = .bool true

section
variable {σ : Trace} {i : Nat} {a b c : Ast}

@[simp] theorem sat_var {x : String} : Sat σ i (.var x) ↔ σ i x = .bool true := by simp [Sat, eval]
@[simp] theorem sat_bool {x : Bool} : Sat σ i (.bool x) ↔ x = true := by simp [Sat, eval]
@[simp] theorem sat_num {x : Int} : Sat σ i (.num x) ↔ False := by simp [Sat, eval]
@[simp] theorem sat_str {x : String} : Sat σ i (.str x) ↔ False := by simp [Sat, eval]
@[simp] theorem sat_not : Sat σ i (.un .not a) ↔ ¬ Sat σ i a := by simp [Sat, eval]
@[simp] theorem sat_tilde : Sat σ i (.un .tilde a) ↔ ¬ Sat σ i a := by simp [Sat, eval]
@[simp] theorem sat_next : Sat σ i (.un .next a) ↔ Sat σ (i + 1) a := by simp [Sat, eval]
@[simp] theorem sat_always : Sat σ i (.un .always a) ↔ ∀ j, i ≤ j → Sat σ j a := by
  simp [Sat, eval]
@[simp] theorem sat_eventually : Sat σ i (.un .eventually a) ↔ ∃ j, i ≤ j ∧ Sat σ j a := by
  simp [Sat, eval]
@[simp] theorem sat_and : Sat σ i (.bin .and a b) ↔ Sat σ i a ∧ Sat σ i b := by simp [Sat, eval]
@[simp] theorem sat_or : Sat σ i (.bin .or a b) ↔ Sat σ i a ∨ Sat σ i b := by simp [Sat, eval]
@[simp] theorem sat_xor : Sat σ i (.bin .xor a b) ↔ ¬ (Sat σ i a ↔ Sat σ i b) := by
  simp [Sat, eval]
@[simp] theorem sat_imp : Sat σ i (.bin .imp a b) ↔ (Sat σ i a → Sat σ i b) := by
  simp only [Sat, eval, Val.bool.injEq, decide_eq_true_eq]
@[simp] theorem sat_imp2 : Sat σ i (.bin .imp2 a b) ↔ (Sat σ i a → Sat σ i b) := by
  simp only [Sat, eval, Val.bool.injEq, decide_eq_true_eq]
@[simp] theorem sat_bimp : Sat σ i (.bin .bimp a b) ↔ (Sat σ i a ↔ Sat σ i b) := by
  simp [Sat, eval]
@[simp] theorem sat_bimp2 : Sat σ i (.bin .bimp2 a b) ↔ (Sat σ i a ↔ Sat σ i b) := by
  simp [Sat, eval]
@[simp] theorem sat_until : Sat σ i (.bin .strongUntil a b) ↔
    ∃ j, i ≤ j ∧ Sat σ j b ∧ ∀ k, i ≤ k → k < j → Sat σ k a := by simp [Sat, eval]
@[simp] theorem sat_weakUntil : Sat σ i (.bin .weakUntil a b) ↔
    (∃ j, i ≤ j ∧ Sat σ j b ∧ ∀ k, i ≤ k → k < j → Sat σ k a) ∨ ∀ j, i ≤ j → Sat σ j a := by
  simp [Sat, eval]
@[simp] theorem sat_release : Sat σ i (.bin .release a b) ↔
    ∀ j, i ≤ j → Sat σ j b ∨ ∃ k, i ≤ k ∧ k < j ∧ Sat σ k a := by simp [Sat, eval]
@[simp] theorem sat_cmp {op : CmpOp} : Sat σ i (.cmp op a b) ↔
    Val.compare op (eval σ a i) (eval σ b i) := by simp [Sat, eval]
@[simp] theorem sat_ite : Sat σ i (.ite c a b) ↔
    (Sat σ i c ∧ Sat σ i a) ∨ (¬ Sat σ i c ∧ Sat σ i b) := by
  simp only [Sat, eval]; split <;> simp [*]
end

/-- The value of a formula depends only on the variables that occur in it. -/
theorem eval_congr {σ τ : Trace} (f : Ast) (h : ∀ j, ∀ x ∈ f.vars, σ j x = τ j x) (i : Nat) :
    eval σ f i = eval τ f i := by
  induction f generalizing i with
  | var x => exact h i x (by simp [Ast.vars])
  | bool | num | str => rfl
  | un op a ih =>
    have ih := ih (fun j x hx => h j x (by simpa [Ast.vars] using hx))
    cases op <;> simp only [eval] <;> rw [funext ih]
  | bin op a b iha ihb =>
    have iha := iha (fun j x hx => h j x (by simp [Ast.vars, hx]))
    have ihb := ihb (fun j x hx => h j x (by simp [Ast.vars, hx]))
    simp only [eval]; rw [funext iha, funext ihb]
  | cmp op a b iha ihb =>
    have iha := iha (fun j x hx => h j x (by simp [Ast.vars, hx]))
    have ihb := ihb (fun j x hx => h j x (by simp [Ast.vars, hx]))
    simp only [eval]; rw [funext iha, funext ihb]
  | ar op a b iha ihb =>
    have iha := iha (fun j x hx => h j x (by simp [Ast.vars, hx]))
    have ihb := ihb (fun j x hx => h j x (by simp [Ast.vars, hx]))
    simp only [eval]; rw [funext iha, funext ihb]
  | trunc a n ih =>
    have ih := ih (fun j x hx => h j x (by simpa [Ast.vars] using hx))
    simp only [eval, ih]
  | ite c a b ihc iha ihb =>
    have ihc := ihc (fun j x hx => h j x (by simp [Ast.vars, hx]))
    have iha := iha (fun j x hx => h j x (by simp [Ast.vars, hx]))
    have ihb := ihb (fun j x hx => h j x (by simp [Ast.vars, hx]))
    simp only [eval]; rw [funext ihc, funext iha, funext ihb]

theorem sat_congr {σ τ : Trace} {f : Ast} (h : ∀ j, ∀ x ∈ f.vars, σ j x = τ j x) (i : Nat) :
    Sat σ i f ↔ Sat τ i f := by simp [Sat, eval_congr f h i]

/-- Overwrite one variable of a trace by a Boolean signal. -/
def Trace.set (σ : Trace) (x : String) (a : Nat → Bool) : Trace :=
  fun i y => if y = x then .bool (a i) else σ i y

@[simp] theorem Trace.set_same {σ : Trace} {x : String} {a : Nat → Bool} {i : Nat} :
    σ.set x a i x = .bool (a i) := by simp [Trace.set]

/-- Formulas that do not mention `x` are unaffected by overwriting `x`. -/
theorem sat_set {σ : Trace} {x : String} {a : Nat → Bool} {f : Ast} (h : x ∉ f.vars) (i : Nat) :
    Sat (σ.set x a) i f ↔ Sat σ i f :=
  sat_congr (fun j y hy => by
    have : y ≠ x := fun e => h (e ▸ hy)
    simp [Trace.set, this]) i

end Tulip
