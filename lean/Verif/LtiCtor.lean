import Verif.Hybrid
import Verif.Abstract.CreateLM

/-!
# The constructor of `LtiSysDyn`, and the constructors of hybrid systems from its arguments

`tulip/hybrid.py:140-330,521-549,817-867`. Unlike in `Verif/Hybrid.lean`, the arguments that are not arrays,
polytopes or regions are modelled. Warnings are not modelled.
-/

namespace Tulip

namespace Hyb

open Abs

variable {R P X : Type} [Field R]

/-- An argument where an array is expected: `None`, a `list`, an array that has not two dimensions, or an array
with two dimensions. -/
inductive ArrArg (R : Type) where
  | none
  | list
  | flat
  | mat (m : Mat R)

/-- The argument `domain`: `None`, a `Polytope` or `Region` with its attribute `dim`, or something else. -/
inductive DomArg (P : Type) where
  | none
  | set (dim : Nat) (d : P)
  | other

/-- The arguments `Uset` and `Wset`: `None`, a `Polytope` (its `dim` is the number of columns of its matrix), or
something else without an attribute `dim`. A `Region` is not modelled. -/
inductive HullArg (R : Type) where
  | none
  | poly (h : HP R)
  | other

/-- `_assert_2d_array`, `tulip/hybrid.py:1001-1010`. `None` and lists have no attribute `ndim`. -/
def assert2d : ArrArg R → Except PyErr (Mat R)
  | .mat m => .ok m
  | .flat => .error .valueError
  | .none => .error .attribute
  | .list => .error .attribute

/-- `_assert_square_array`, `tulip/hybrid.py:987-998`. -/
def assertSquare (a : ArrArg R) : Except PyErr (Mat R) := do
  let m ← assert2d a
  if m.rows = m.cols then .ok m else .error .valueError

/-- `a_array.shape` for the argument `A`; it is an array with two dimensions or `None` here. -/
def shapeOf : ArrArg R → Except PyErr (Mat R)
  | .mat m => .ok m
  | _ => .error .attribute

/-- `_check_domain`, `tulip/hybrid.py:212-228`. -/
def checkDomain (dom : DomArg P) (cols : Nat) : Except PyErr Unit :=
  match dom with
  | .none => .ok ()
  | .set d _ => if d = cols then .ok () else .error .valueError
  | .other => .error .attribute

/-- `_check_b_array`, `tulip/hybrid.py:230-248`. -/
def checkB (A B : ArrArg R) : Except PyErr Unit := do
  let b ← assert2d B
  let a ← shapeOf A
  if a.rows = b.rows then .ok () else .error .valueError

/-- `_check_uset`, `tulip/hybrid.py:250-277`. -/
def checkU (A B : ArrArg R) (U : HullArg R) : Except PyErr Unit := do
  let a ← assertSquare A
  let b ← shapeOf B
  match U with
  | .none => .ok ()
  | .poly u => if u.A.cols = b.cols ∨ u.A.cols = b.cols + a.cols then .ok () else .error .valueError
  | .other => .error .attribute

/-- `_check_e_array`, `tulip/hybrid.py:279-306`. -/
def checkE (A E : ArrArg R) (W : HullArg R) : Except PyErr Unit := do
  let e ← assert2d E
  let a ← shapeOf A
  if a.rows ≠ e.rows then .error .valueError
  else match W with
    | .none => .ok ()
    | .poly w => if w.A.cols = e.cols then .ok () else .error .valueError
    | .other => .error .attribute

/-- `_check_k_array`, `tulip/hybrid.py:308-330`. -/
def checkK (A K : ArrArg R) : Except PyErr Unit := do
  let k ← assert2d K
  let a ← shapeOf A
  if a.rows ≠ k.rows then .error .valueError
  else if k.cols = 1 then .ok () else .error .valueError

/-- `len(A)`. -/
def lenOf : ArrArg R → Except PyErr Nat
  | .mat m => .ok m.rows
  | .list => .ok 0
  | .flat => .ok 1
  | .none => .error .typeError

/-- The attribute `Wset`: the argument, or `pc.Polytope()`. -/
inductive WAttr (R : Type) where
  | given (w : HullArg R)
  | empty

/-- The attributes of an `LtiSysDyn`, except for those of time. -/
structure LtiObj (R P : Type) where
  A : ArrArg R
  B : ArrArg R
  E : ArrArg R
  K : ArrArg R
  U : HullArg R
  W : WAttr R
  domain : DomArg P

/-- `if x is not None: check`. -/
def whenGiven (x : ArrArg R) (c : Except PyErr Unit) : Except PyErr Unit :=
  match x with
  | .none => .ok ()
  | _ => c

/-- The test of the type of `Uset`, `tulip/hybrid.py:166-169`. -/
def typeU : HullArg R → Except PyErr Unit
  | .other => .error .typeError
  | _ => .ok ()

/-- The test of the type of `domain`, `tulip/hybrid.py:170-180`. -/
def typeDom : DomArg P → Except PyErr Unit
  | .other => .error .typeError
  | _ => .ok ()

/-- The attribute `K`, `tulip/hybrid.py:194-198`. `K.reshape(K.size, 1)` does not change `K`, which has one
column here. -/
def fillK (A K : ArrArg R) : Except PyErr (ArrArg R) :=
  match K with
  | .none => (lenOf A).map fun n => if n ≠ 0 then .mat (Mat.zeros n 1) else .none
  | _ => .ok K

/-- The attributes `E` and `Wset`, `tulip/hybrid.py:199-204`. -/
def fillE (A E : ArrArg R) (W : HullArg R) : Except PyErr (ArrArg R × WAttr R) :=
  match E with
  | .none => (lenOf A).map fun n => if n ≠ 0 then (.mat (Mat.zeros n 1), .empty) else (.none, .given W)
  | _ => .ok (E, .given W)

/-- `LtiSysDyn.__init__`, `tulip/hybrid.py:140-210`, for the new object `self`. -/
def newLti (h : Heap) (self : Nat) (A B E K : ArrArg R) (U W : HullArg R) (dom : DomArg P) (t : Time) :
    Except PyErr (Heap × LtiObj R P) := do
  typeU U
  typeDom dom
  whenGiven A (assertSquare A >>= fun a => checkDomain dom a.cols)
  whenGiven B (checkB A B >>= fun _ => checkU A B U)
  whenGiven E (checkE A E W)
  whenGiven K (checkK A K)
  let K' ← fillK A K
  let EW ← fillE A E W
  checkTimeData t
  .ok (h.write self t, ⟨A, B, EW.1, K', U, EW.2, dom⟩)

/-- `if A is None: A = list()`, `tulip/hybrid.py:539-546`. -/
def orList : ArrArg R → ArrArg R
  | .none => .list
  | a => a

/-- `B.shape[1]` of an attribute of an `LtiSysDyn`. -/
def colsOf : ArrArg R → Except PyErr Nat
  | .mat m => .ok m.cols
  | _ => .error .attribute

/-- `PwaSysDyn.from_lti`, `tulip/hybrid.py:521-549`. The objects have the identities `idL` and `idP`. -/
def pwaFromLti (G : Geom P X) (isEmpty : P → Bool) (h : Heap) (idL idP : Nat) (A B E K : ArrArg R)
    (U W : HullArg R) (dom : DomArg P) : Except PyErr (Heap × Pwa P) := do
  let (h, o) ← newLti h idL (orList A) (orList B) (orList E) (orList K) U W dom ⟨none, none⟩
  match o.domain with
  | .other => .error .typeError
  | .none => .error .valueError
  | .set _ d => do
    let n ← colsOf o.A
    let m ← colsOf o.B
    let p ← colsOf o.E
    newPwa G isEmpty h idP [⟨idL, n, m, p, d⟩] (some d) ⟨none, none⟩ true

/-- `SwitchedSysDyn.from_pwa`, `tulip/hybrid.py:817-833`, for a given list of systems. -/
def switchedFromPwa (G : Geom P X) (isEmpty : P → Bool) (h : Heap) (idP idS : Nat) (subs : List (Lti P))
    (dom : Option P) : Except PyErr (Heap × Switched P) := do
  let (h, s) ← newPwa G isEmpty h idP subs dom ⟨none, none⟩ true
  newSwitched h idS (1, 1) [((.num 0, .num 0), .pwa s)] none none ⟨none, none⟩ true

/-- `SwitchedSysDyn.from_lti`, `tulip/hybrid.py:835-867`. -/
def switchedFromLti (G : Geom P X) (isEmpty : P → Bool) (h : Heap) (idL idP idS : Nat) (A B E K : ArrArg R)
    (U W : HullArg R) (dom : DomArg P) : Except PyErr (Heap × Switched P) := do
  let (h, s) ← pwaFromLti G isEmpty h idL idP (orList A) (orList B) (orList E) (orList K) U W dom
  newSwitched h idS (1, 1) [((.num 0, .num 0), .pwa s)] none none ⟨none, none⟩ true

end Hyb

end Tulip
