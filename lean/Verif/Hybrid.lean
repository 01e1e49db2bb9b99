import Verif.Basic
import Verif.Abstract.Geometry
import Mathlib.Algebra.Order.Ring.Rat

/-!
# Hybrid systems

The constructors of `tulip/hybrid.py`. Systems are Python objects that may be shared between several parents,
and the constructors write to them, so a system is identified by a number and the attributes
`time_semantics` and `timestep` of all objects are a heap. The matrices and polytopes of a system are not
written; of the matrices, only the dimensions are read. Warnings are not modelled.
-/

namespace Tulip

namespace Hyb

open Abs

/-- What can be given as a timestep: an `int` or `float`, the `float` that is not a number, a number of another
type (for example `Fraction`) and something that cannot be compared to a number (for example a `str`). -/
inductive Step where
  | num (q : Rat)
  | nan
  | otherNum (q : Rat)
  | text (s : String)
  deriving DecidableEq, Repr

/-- The attributes `time_semantics` and `timestep` of a system. -/
structure Time where
  semantics : Option String
  step : Option Step
  deriving DecidableEq, Repr

/-- The value of `a != b` of two timesteps: numbers compare by value, and `nan` differs from itself. -/
def Step.ne : Step → Step → Bool
  | .nan, _ => true
  | _, .nan => true
  | .num p, .num q => p != q
  | .num p, .otherNum q => p != q
  | .otherNum p, .num q => p != q
  | .otherNum p, .otherNum q => p != q
  | .text s, .text t => s != t
  | _, _ => true

/-- `a != b` of two timesteps or `None`. -/
def stepNe : Option Step → Option Step → Bool
  | none, none => false
  | some a, some b => a.ne b
  | _, _ => true

/-- `_check_time_data` (`tulip/hybrid.py:910-938`). The comparison `timestep <= 0` precedes the test of the
type; it raises `TypeError` for a `str` and is false for `nan`. -/
def checkTimeData (t : Time) : Except PyErr Unit :=
  if t.semantics ≠ some "sampled" ∧ t.semantics ≠ some "discrete" ∧ t.semantics ≠ none then
    .error .valueError
  else if t.semantics = some "discrete" ∧ t.step ≠ none then .error .valueError
  else match t.step with
    | none => .ok ()
    | some (.num q) => if q ≤ 0 then .error .valueError else .ok ()
    | some .nan => .ok ()
    | some (.otherNum q) => if q ≤ 0 then .error .valueError else .error .typeError
    | some (.text _) => .error .typeError

/-- The time data of the objects, by identity. -/
abbrev Heap := Nat → Time

/-- Assign `system.time_semantics` and `system.timestep`. -/
def Heap.write (h : Heap) (i : Nat) (t : Time) : Heap := fun j => if j = i then t else h j

/-- An `LtiSysDyn`: its identity, `A.shape[1]`, `B.shape[1]`, `E.shape[1]` and `domain`. -/
structure Lti (P : Type) where
  id : Nat
  n : Nat
  m : Nat
  p : Nat
  domain : P

/-- A `PwaSysDyn`: its identity, `list_subsys` and `domain`. -/
structure Pwa (P : Type) where
  id : Nat
  subs : List (Lti P)
  domain : Option P

variable {P X : Type}

/-- `_push_time_data` (`tulip/hybrid.py:870-907`) on a list of `LtiSysDyn`. -/
def pushLti (h : Heap) (systems : List (Lti P)) (t : Time) : Heap :=
  systems.foldl (fun h s => h.write s.id t) h

/-- `_push_time_data` (`tulip/hybrid.py:870-907`) on a list of `PwaSysDyn`. -/
def pushPwa (h : Heap) (systems : List (Pwa P)) (t : Time) : Heap :=
  systems.foldl (fun h s => pushLti (h.write s.id t) s.subs t) h

/-- The loop of `_check_time_consistency` over adjacent systems (`tulip/hybrid.py:961-974`). -/
def checkAdjacent : List Time → Except PyErr Unit
  | a :: b :: l =>
    if stepNe a.step b.step then .error .valueError
    else if a.semantics ≠ b.semantics then .error .valueError
    else checkAdjacent (b :: l)
  | _ => .ok ()

/-- `_check_time_consistency` (`tulip/hybrid.py:941-985`), on the time data of the list of systems.
`system_list[0]` raises `IndexError` for an empty list. -/
def checkTimeConsistency (systems : List Time) (t : Time) : Except PyErr Unit := do
  checkAdjacent systems
  match systems with
  | [] => .error .indexError
  | a :: _ =>
    if stepNe a.step t.step then .error .valueError
    else if a.semantics ≠ t.semantics then .error .valueError
    else .ok ()

/-- The loop of `PwaSysDyn.__init__` over the subsystems (`tulip/hybrid.py:468-479`): what is left uncovered. -/
def coverLoop (G : Geom P X) (n m p : Nat) : List (Lti P) → P → Except PyErr P
  | [], rest => .ok rest
  | s :: l, rest =>
    let rest := G.diff rest s.domain
    if n ≠ s.n ∨ m ≠ s.m ∨ p ≠ s.p then .error .valueError
    else coverLoop G n m p l rest

/-- `any(pc.is_fulldim(…) for x in combinations(list_subsys, 2))` (`tulip/hybrid.py:483-487`). -/
def overlapping (G : Geom P X) : List (Lti P) → Bool
  | [] => false
  | s :: l => l.any (fun s' => G.fulldim (G.inter s.domain s'.domain)) || overlapping G l

/-- The checks of the domains in `PwaSysDyn.__init__` (`tulip/hybrid.py:455-487`). `isEmpty` is `pc.is_empty`. -/
def checkDomains (G : Geom P X) (isEmpty : P → Bool) (subs : List (Lti P)) (domain : Option P) :
    Except PyErr Unit :=
  match subs with
  | [] => .ok ()
  | s :: l =>
    match domain with
    | none => .error .valueError
    | some dom => do
      let rest ← coverLoop G s.n s.m s.p (s :: l) dom
      if isEmpty rest = false then .error .valueError
      else if overlapping G (s :: l) then .error .valueError
      else .ok ()

/-- `PwaSysDyn.__init__` (`tulip/hybrid.py:413-503`). `self` is the identity of the new object. The types of the
arguments `domain` (`Polytope` or `Region`) and `list_subsys` are not modelled. -/
def newPwa (G : Geom P X) (isEmpty : P → Bool) (h : Heap) (self : Nat) (subs : List (Lti P))
    (domain : Option P) (t : Time) (overwrite : Bool) : Except PyErr (Heap × Pwa P) := do
  checkDomains G isEmpty subs domain
  checkTimeData t
  let h ← (if overwrite then .ok (pushLti h subs t)
    else (checkTimeConsistency (subs.map fun s => h s.id) t).map fun _ => h)
  .ok (h.write self t, ⟨self, subs, domain⟩)

/-- A label of a mode: a given label or an integer. -/
inductive Lbl where
  | name (s : String)
  | num (n : Nat)
  deriving DecidableEq, Repr

/-- `SwitchedSysDyn._check_labels` (`tulip/hybrid.py:763-783`). -/
def checkLabels (n : Nat) (labels : Option (List Lbl)) : Except PyErr (Option (List Lbl)) :=
  match labels with
  | none => .ok none
  | some l => if l.length = n then .ok labels else .error .valueError

/-- The properties `env_labels` and `disc_sys_labels` (`tulip/hybrid.py:810-815`). -/
def labelsOr (n : Nat) : Option (List Lbl) → List Lbl
  | some l => l
  | none => (List.range n).map .num

/-- `all_mode_combs` (`tulip/hybrid.py:785-792`). -/
def allModes (env sys : List Lbl) : List (Lbl × Lbl) :=
  env.flatMap fun a => sys.map fun b => (a, b)

/-- A value of the argument `dynamics`: a `PwaSysDyn`, or an object of another type. -/
inductive Value (P : Type) where
  | pwa (s : Pwa P)
  | other

/-- `sys` if it is a `PwaSysDyn`. -/
def Value.toPwa : Value P → Option (Pwa P)
  | .pwa s => some s
  | .other => none

/-- A `SwitchedSysDyn`. -/
structure Switched (P : Type) where
  id : Nat
  size : Nat × Nat
  env : List Lbl
  sys : List Lbl
  dynamics : Dict (Lbl × Lbl) (Pwa P)

/-- The values of `dynamics` if they are all of type `PwaSysDyn`. -/
def pwaValues : List ((Lbl × Lbl) × Value P) → Option (List ((Lbl × Lbl) × Pwa P))
  | [] => some []
  | (k, v) :: l =>
    match v.toPwa, pwaValues l with
    | some s, some r => some ((k, s) :: r)
    | _, _ => none

/-- `SwitchedSysDyn.__init__` (`tulip/hybrid.py:631-728`). The type of `cts_ss` is not modelled. -/
def newSwitched (h : Heap) (self : Nat) (size : Nat × Nat) (dynamics : Dict (Lbl × Lbl) (Value P))
    (env sys : Option (List Lbl)) (t : Time) (overwrite : Bool) :
    Except PyErr (Heap × Switched P) := do
  let env ← checkLabels size.1 env
  let sys ← checkLabels size.2 sys
  let envL := labelsOr size.1 env
  let sysL := labelsOr size.2 sys
  if dynamics.any (fun kv => !(allModes envL sysL).contains kv.1) then .error .valueError
  else match pwaValues dynamics with
    | none => .error .typeError
    | some dyn => do
      checkTimeData t
      let h ← (if overwrite then .ok (pushPwa h (dyn.map (·.2)) t)
        else (checkTimeConsistency (dyn.map fun kv => h kv.2.id) t).map fun _ => h)
      .ok (h.write self t, ⟨self, size, envL, sysL, dyn⟩)

end Hyb

end Tulip
