import Verif.Abstract.Mat
import Verif.Basic
import Mathlib.Data.Nat.Digits.Defs

/-!
# The polytope of inputs and initial states, `tulip/abstract/feasible.py:478-781`

`createLM` returns arrays `L`, `M` such that the vectors with `L [x(0)' u(0)' ... u(N-1)']' <= M` are
those of the admissible initial states and inputs. The package `polytope` is a parameter: the functions
`pc.is_fulldim` and `pc.extreme`.
-/

namespace Tulip

namespace Abs

variable {R : Type} [Field R] [LinearOrder R] [IsStrictOrderedRing R]

/-- A `pc.Polytope`: the points with `A x <= b`. The array `b` has as many elements as `A` has rows. -/
structure HP (R : Type) where
  A : Mat R
  b : Nat → R

/-- The attributes of a `LtiSysDyn` (`tulip/hybrid.py:84-211`) that `feasible.py` reads. -/
structure Lti (R : Type) where
  A : Mat R
  B : Mat R
  E : Mat R
  K : Mat R
  /-- `Uset` -/
  U : HP R
  /-- `Wset` -/
  W : HP R

/-- The functions of the package `polytope` that `createLM` calls. -/
structure Pc (R : Type) where
  /-- `pc.is_fulldim` -/
  fulldim : HP R → Bool
  /-- `pc.extreme`: an array with a vertex in each row. -/
  extreme : HP R → Mat R

/-- `P.b.reshape(P.b.size, 1)`. -/
def HP.bcol (P : HP R) : Mat R := ⟨P.A.rows, 1, fun i _ => P.b i⟩

/-- `np.base_repr(i, base=base, padding=padding)`, the last digit first. -/
def baseRepr (i base padding : Nat) : Except PyErr (List Nat) :=
  if base > 36 ∨ base < 2 then .error .valueError
  else .ok (Nat.digits base i ++ List.replicate padding 0)

/-- `int(ind[-j - 1])`: the digits from 10 on are letters, for which `int` raises `ValueError`. -/
def intDigit (ind : List Nat) (j : Nat) : Except PyErr Nat :=
  match ind[j]? with
  | none => .error .indexError
  | some d => if d < 10 then .ok d else .error .valueError

/-- The loop over `j` in `get_max_extreme`, `feasible.py:736-743`: the rows of column `i`. -/
def dnColumn (V : Mat R) (i : Nat) (ind : List Nat) (N : Nat) (DN : Mat R) : Except PyErr (Mat R) :=
  (List.range N).foldlM (fun DN j => do
    let d ← intDigit ind j
    .ok (DN.setBlock (j * V.cols) i ⟨V.cols, 1, fun c _ => V.get d c⟩)) DN

/-- `DN_extreme`, `feasible.py:727-743`. -/
def dnExtreme (V : Mat R) (N : Nat) : Except PyErr (Mat R) :=
  (List.range (V.rows ^ N)).foldlM (fun DN i => do
    let ind ← baseRepr i V.rows N
    dnColumn V i ind N DN) (Mat.zeros (V.cols * N) (V.rows ^ N))

/-- The largest of `f 0`, ..., `f k`. -/
def maxUpTo (f : Nat → R) : Nat → R
  | 0 => f 0
  | k + 1 => max (maxUpTo f k) (f (k + 1))

/-- `np.amax(A, axis=1)`, as a column; an array with no columns raises `ValueError`. -/
def amax (A : Mat R) : Except PyErr (Mat R) :=
  match A.cols with
  | 0 => .error .valueError
  | c + 1 => .ok ⟨A.rows, 1, fun i _ => maxUpTo (A.get i) c⟩

/-- `get_max_extreme`, `feasible.py:679-747`. -/
def getMaxExtreme (pc : Pc R) (G : Mat R) (D : HP R) (N : Nat) : Except PyErr (Mat R) := do
  let DN ← dnExtreme (pc.extreme D) N
  amax (G.dot DN)

/-- `X[r0:r0 + B.rows, :] = B`, with the checks of `numpy`: the array `B` must have as many columns as
`X`, or one column, which is then repeated. -/
def setRows (X : Mat R) (r0 : Nat) (B : Mat R) : Except PyErr (Mat R) :=
  if B.cols = X.cols then .ok (X.setBlock r0 0 B)
  else if B.cols = 1 then .ok (X.setBlock r0 0 ⟨B.rows, X.cols, fun i _ => B.get i 0⟩)
  else .error .valueError

/-- `np.vstack([A, B])`, with the check of `numpy`. -/
def vstackE (A B : Mat R) : Except PyErr (Mat R) :=
  if A.cols = B.cols then .ok (A.vstack B) else .error .valueError

/-- `B_diag`, `E_diag` after `k` iterations, `feasible.py:567-571`. -/
def blockDiags (B : Mat R) : Nat → Mat R
  | 0 => B
  | k + 1 => (blockDiags B k).blockDiag2 B

/-- The variables of the loop of `createLM`. -/
structure LM (R : Type) where
  Lk : Mat R
  LU : Mat R
  Mk : Mat R
  MU : Mat R
  Gk : Mat R
  GU : Mat R
  An : Mat R
  Ak : Mat R
  sumVert : Nat

/-- `A_k` at the end of iteration `i`, `feasible.py:655-661`. -/
def nextAk (A Ak : Mat R) (i : Nat) : Mat R := (A.dot Ak).setBlock 0 (i * A.cols) (Mat.eye A.cols)

/-- `Gk` and `GU` in iteration `i`, `feasible.py:588-606`. -/
def stepG (s : Lti R) (N : Nat) (Ediag : Mat R) (p : Nat) (Li : HP R) (i : Nat) (st : LM R) :
    Except PyErr (Mat R × Mat R) := do
  let m := s.B.cols
  let n := s.A.cols
  let Gk ← setRows st.Gk st.sumVert ((Li.A.dot st.Ak).dot Ediag)
  if s.U.A.cols = m + n ∧ i < N then
    let dMult ← vstackE (Mat.zeros m (p * N)) (st.Ak.dot Ediag)
    .ok (Gk, st.GU.setBlock (s.U.A.rows * i) 0 (s.U.A.dot dMult))
  else .ok (Gk, st.GU)

/-- `AB_line` in an iteration, `feasible.py:608`. -/
def abLine (st : LM R) (Bdiag : Mat R) : Mat R := st.An.hstack (st.Ak.dot Bdiag)

/-- `LU` and `MU` in iteration `i`, `feasible.py:619-651`. With a set `Uset` of another dimension, no
row is written. -/
def stepU (s : Lti R) (N : Nat) (Khat ABline : Mat R) (i : Nat) (st : LM R) : Mat R × Mat R :=
  let m := s.B.cols
  let n := s.A.cols
  let LUn := s.U.A.rows
  if s.U.A.cols = m then (st.LU.setBlock (i * LUn) (n + m * i) s.U.A, st.MU)
  else if s.U.A.cols = m + n then
    let ukLine := (Mat.zeros m (n + m * N)).setBlock 0 (n + m * i) (Mat.eye m)
    let aMult := ukLine.vstack ABline
    let bMult := (Mat.zeros (m + n) 1).setBlock m 0 (st.Ak.dot Khat)
    (st.LU.setBlock (i * LUn) 0 (s.U.A.dot aMult),
      st.MU.setBlock (i * LUn) 0
        ((st.MU.rowsFrom (i * LUn) ((i + 1) * LUn)).sub (s.U.A.dot bMult)))
  else (st.LU, st.MU)

/-- An iteration of the loop of `createLM`, `feasible.py:576-661`. -/
def stepLM (s : Lti R) (N : Nat) (Bdiag Ediag Khat : Mat R) (p : Nat) (listP : List (HP R))
    (ind : List Nat) (st : LM R) (i : Nat) : Except PyErr (LM R) :=
  match listP[i]? with
  | none => .error .indexError
  | some Li => do
    let Mk := st.Mk.setBlock st.sumVert 0 (Li.bcol.sub ((Li.A.dot st.Ak).dot Khat))
    let g ← if i ∈ ind then stepG s N Ediag p Li i st else .ok (st.Gk, st.GU)
    let ABline := abLine st Bdiag
    let Lk := st.Lk.setBlock st.sumVert 0 (Li.A.dot ABline)
    if i ≥ N then .ok { st with Mk := Mk, Gk := g.1, GU := g.2, Lk := Lk }
    else
      let lu := stepU s N Khat ABline i st
      .ok { Lk := Lk, LU := lu.1, Mk := Mk, MU := lu.2, Gk := g.1, GU := g.2,
            An := s.A.dot st.An, Ak := nextAk s.A st.Ak i, sumVert := st.sumVert + Li.A.rows }

/-- `E` after the test of the disturbances, `feasible.py:549-552`. -/
def effE (pc : Pc R) (s : Lti R) : Mat R :=
  if s.E.allZero then s.E
  else if pc.fulldim s.W then s.E else Mat.zeros s.K.rows s.K.cols

/-- The variables before the loop, `feasible.py:553-574`. -/
def initLM (s : Lti R) (N : Nat) (listP : List (HP R)) : LM R :=
  let n := s.A.cols
  let m := s.B.cols
  let p := s.E.cols
  let sumlen := (listP.map (·.A.rows)).sum
  let LUn := s.U.A.rows
  { Lk := Mat.zeros sumlen (n + N * m), LU := Mat.zeros (LUn * N) (n + N * m),
    Mk := Mat.zeros sumlen 1, MU := s.U.bcol.tile N,
    Gk := Mat.zeros sumlen (p * N), GU := Mat.zeros (LUn * N) (p * N),
    An := Mat.eye n, Ak := Mat.zeros n (n * N), sumVert := 0 }

/-- `createLM`, `feasible.py:478-676`, with a list of polytopes. With `N = 0`, the shapes of `A_k` and of
`B_diag` do not agree in `A_k.dot(B_diag)`. The other shapes agree for the systems that the constructor
of `LtiSysDyn` accepts and for polytopes of the dimension of the state. -/
def createLM (pc : Pc R) (s : Lti R) (N : Nat) (listP : List (HP R)) (ind : Option (List Nat)) :
    Except PyErr (Mat R × Mat R) :=
  if N = 0 then .error .valueError
  else do
    let ind := ind.getD (List.range' 1 N)
    let E := effE pc s
    let st ← (List.range (N + 1)).foldlM
      (stepLM s N (blockDiags s.B (N - 1)) (blockDiags E (N - 1)) (s.K.tile N) s.E.cols listP ind)
      (initLM s N listP)
    let Dhat ← if st.Gk.allZero then
        .ok (Mat.zeros ((listP.map (·.A.rows)).sum + s.U.A.rows * N) 1)
      else getMaxExtreme pc (st.Gk.vstack st.GU) s.W N
    .ok (st.Lk.vstack st.LU, (st.Mk.vstack st.MU).sub Dhat)

/-- `createLM` with polytopes for the first, the intermediate and the last state,
`feasible.py:533-534`. -/
def createLM3 (pc : Pc R) (s : Lti R) (N : Nat) (P1 Pk PN : HP R) : Except PyErr (Mat R × Mat R) :=
  createLM pc s N ([P1] ++ List.replicate (N - 1) Pk ++ [PN]) none

end Abs

end Tulip
