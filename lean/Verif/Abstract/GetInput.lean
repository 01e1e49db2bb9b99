import Verif.Abstract.CreateLM

/-!
# The inputs that implement a transition, `tulip/abstract/find_controller.py:105-568`

`get_input` computes inputs that lead from a state of a cell of the partition to another cell. The solvers
of linear and quadratic programs, and the functions of the package `polytope`, are parameters.
-/

namespace Tulip

namespace Abs

variable {R : Type} [Field R] [LinearOrder R] [IsStrictOrderedRing R]

/-- A region of the partition: `parts` are the polytopes of a `pc.Region`; a `pc.Polytope` has none, and is
`poly`. -/
structure Cell (R : Type) where
  parts : List (HP R)
  poly : HP R

/-- The argument `ord` (`find_controller.py:492-542`). -/
inductive Norm
  | one | two | inf | other
  deriving DecidableEq, Repr

/-- What `get_input` calls (`find_controller.py:315-321,345,448-460,534,558`). -/
structure Tools (R : Type) extends Pc R where
  /-- `solve_feasible(P1, P2, ssys, N=1, closed_loop=False, trans_set=P1)` -/
  pre : HP R → HP R → HP R
  /-- `pc.qhull` of the vertices of polytopes -/
  qhull : List (HP R) → HP R
  /-- The center that `pc.cheby_ball` returns -/
  center : HP R → Nat → R
  /-- `lpsolve(c, G, h)`: the solution and the cost, with the status 0 -/
  lp : Mat R → Mat R → Mat R → Option ((Nat → R) × R)
  /-- `cvxopt.solvers.qp(P, q, G, h)`: the solution and the cost, with the status `optimal` -/
  qp : Mat R → Mat R → Mat R → Mat R → Option ((Nat → R) × R)

/-- The results of `get_input_helper` (`find_controller.py:535-568`): the inputs and the cost, an `_InputHelperLPException`, or another
exception. -/
inductive Help (R : Type)
  | ok (u : Nat → Nat → R) (cost : R)
  | lpFail
  | err (e : PyErr)

/-- The list of polytopes with `closed_loop`, `find_controller.py:445-452`: the polytope `P3` after `k`
iterations of the loop, and the list. -/
def closedList (T : Tools R) (P1 P3 : HP R) : Nat → HP R × List (HP R)
  | 0 => (P3, [P3])
  | k + 1 =>
    let (temp, l) := closedList T P1 P3 k
    let temp := T.pre P1 temp
    (temp, temp :: l)

/-- `list_P` and `disturbance_ind`, `find_controller.py:443-460`. -/
def helperList (T : Tools R) (P1 P3 : HP R) (N : Nat) (closedLoop : Bool) :
    List (HP R) × Option (List Nat) :=
  if closedLoop then (P1 :: (closedList T P1 P3 (N - 1)).2, some [1])
  else (P1 :: (List.replicate (N - 1) P1 ++ [P3]), none)

/-- A vector as a column (`x0` in `find_controller.py:467,524`). -/
def col (n : Nat) (x : Nat → R) : Mat R := ⟨n, 1, fun i _ => x i⟩

/-- `Lu` and `M`, `find_controller.py:461-467`. -/
def helperLuM (s : Lti R) (x0 : Nat → R) (rows0 : Nat) (L M : Mat R) : Mat R × Mat R :=
  let L := L.rowsFrom rows0 L.rows
  let M := M.rowsFrom rows0 M.rows
  let Lx := L.colsFrom 0 s.A.cols
  let Lu := L.colsFrom s.A.cols L.cols
  (Lu, M.sub (Lx.dot (col s.A.cols x0)))

/-- The variables of the loop, `find_controller.py:472-475`: `A_it`, `A_row`, `A_K`, `A_N`. -/
structure FreeForced (R : Type) where
  Ait : Mat R
  Arow : Mat R
  AK : Mat R
  AN : Mat R

/-- The loop, `find_controller.py:476-490`, after `k` iterations. -/
def freeForced (A : Mat R) (N : Nat) : Nat → FreeForced R
  | 0 => ⟨A, Mat.zeros A.cols (A.cols * N), Mat.zeros (A.cols * N) (A.cols * N),
      Mat.zeros (A.cols * N) A.cols⟩
  | i + 1 =>
    let st := freeForced A N i
    let Arow := (A.dot st.Arow).setBlock 0 (i * A.cols) (Mat.eye A.cols)
    ⟨A.dot st.Ait, Arow, st.AK.setBlock (i * A.cols) 0 Arow, st.AN.setBlock (i * A.cols) 0 st.Ait⟩

/-- `Ct`, `find_controller.py:468-470,491`. -/
def ctMat (s : Lti R) (N : Nat) : Mat R := (freeForced s.A N N).AK.dot (blockDiags s.B (N - 1))

/-- `c_LP`, `G_LP`, `h_LP` for `ord = 1`, `find_controller.py:493-512`. -/
def lp1 (n m N : Nat) (Rm r Q Ct Lu M : Mat R) : Mat R × Mat R × Mat R :=
  ((Mat.ones 1 (N * (n + m))).hstack (r.T.dot Ct),
    (((((Mat.eye (N * n)).neg.hstack (Mat.zeros (N * n) (N * m))).hstack (Rm.dot Ct).neg).vstack
      ((((Mat.eye (N * n)).neg.hstack (Mat.zeros (N * n) (N * m))).hstack (Rm.dot Ct)).vstack
      ((((Mat.zeros (N * m) (N * n)).hstack (Mat.eye (N * m)).neg).hstack Q.neg).vstack
      (((Mat.zeros (N * m) (N * n)).hstack (Mat.eye (N * m)).neg).hstack Q)))).vstack
      ((Mat.zeros Lu.rows (N * n + N * m)).hstack Lu)),
    (Mat.zeros (2 * N * (n + m)) 1).vstack M)

/-- `c_LP`, `G_LP`, `h_LP` for `ord = np.inf`, `find_controller.py:543-557`. -/
def lpInf (n m N : Nat) (Rm r Q Ct Lu M : Mat R) : Mat R × Mat R × Mat R :=
  ((Mat.ones 1 2).hstack (r.T.dot Ct),
    (((((Mat.ones (N * n) 1).neg.hstack (Mat.zeros (N * n) 1)).hstack (Rm.dot Ct).neg).vstack
      ((((Mat.ones (N * n) 1).neg.hstack (Mat.zeros (N * n) 1)).hstack (Rm.dot Ct)).vstack
      ((((Mat.zeros (N * m) 1).hstack (Mat.ones (N * m) 1).neg).hstack Q.neg).vstack
      (((Mat.zeros (N * m) 1).hstack (Mat.ones (N * m) 1).neg).hstack Q)))).vstack
      ((Mat.zeros Lu.rows 2).hstack Lu)),
    (Mat.zeros (2 * N * (n + m)) 1).vstack M)

/-- `P` and `q` for `ord = 2`, `find_controller.py:516-529`. -/
def qp2 (s : Lti R) (x0 : Nat → R) (N : Nat) (Rm r Q Ct : Mat R) : Mat R × Mat R :=
  let Q2 := Q.T.dot Q
  let R2 := Rm.T.dot Rm
  let st := freeForced s.A N N
  let free := ((col s.A.cols x0).T.dot st.AN.T).add (st.AK.dot (s.K.tile N)).T
  (Q2.add ((Ct.T.dot R2).dot Ct),
    ((free.dot (R2.dot Ct)).add (Mat.smul (1 / 2) (r.T.dot Ct))).T)

/-- `u.reshape(N, m)` of the last `N * m` elements of a vector with `len` elements,
`find_controller.py:539-541,565-568`, for `m > 0`. -/
def lastInputs (m N len : Nat) (v : Nat → R) (k j : Nat) : R := v (len - N * m + (k * m + j))

/-- `get_input_helper`, `find_controller.py:398-568`, for arguments with the shapes that the products of
arrays need. The argument `solver` is `None` when `solverNone`. -/
def getInputHelper (T : Tools R) (x0 : Nat → R) (s : Lti R) (P1 P3 : HP R) (N : Nat) (Rm r Q : Mat R)
    (ord : Norm) (closedLoop solverNone : Bool) : Help R :=
  let n := s.A.cols
  let m := s.B.cols
  let lp := helperList T P1 P3 N closedLoop
  match createLM T.toPc s N lp.1 lp.2 with
  | .error e => .err e
  | .ok (L, M) =>
    let LuM := helperLuM s x0 P1.A.rows L M
    let Ct := ctMat s N
    let fin : Mat R × Mat R × Mat R → Help R := fun cGh =>
      match T.lp cGh.1 cGh.2.1 cGh.2.2 with
      | none => .lpFail
      | some (v, cost) => .ok (lastInputs m N cGh.2.1.cols v) cost
    match ord with
    | .one => fin (lp1 n m N Rm r Q Ct LuM.1 LuM.2)
    | .inf => fin (lpInf n m N Rm r Q Ct LuM.1 LuM.2)
    | .two =>
      let Pq := qp2 s x0 N Rm r Q Ct
      if !solverNone then .err .exception
      else match T.qp Pq.1 Pq.2 LuM.1 LuM.2 with
        | none => .err .runtime
        | some (v, cost) => .ok (lastInputs m N LuM.1.cols v) cost
    | .other => .err .unboundLocal

/-- The attributes of `AbstractPwa` that `get_input` reads (`find_controller.py:250-258`). A transition system is the list of its
transitions. -/
structure PwaAbs (R : Type) where
  regions : List (Cell R)
  ts : Option (List (Nat × Nat))
  origRegions : List (Cell R)
  orig : Option (List Nat)
  N : Nat
  conservative : Bool
  closedLoop : Bool

/-- The polytope `P1` for the intermediate states, `find_controller.py:299-337`. -/
def stayPoly (T : Tools R) (ab : PwaAbs R) (start : Nat) (Pstart : Cell R) : Except PyErr (HP R) :=
  match (if ab.conservative then none else ab.orig) with
  | none =>
    match Pstart.parts with
    | [] => .ok Pstart.poly
    | [P] => .ok P
    | P :: Q :: l => .ok (T.qhull (P :: Q :: l))
  | some orig =>
    match orig[start]? with
    | none => .error .indexError
    | some i =>
      match ab.origRegions[i]? with
      | none => .error .indexError
      | some c =>
        match c.parts with
        | [] => .error .assertion
        | [P] => .ok P
        | _ => .error .exception

/-- `R[...] += mid_weight * np.eye(n)`, `find_controller.py:346-351,384-389`, for an array of floats. -/
def addMid (Rm : Mat R) (n N : Nat) (w : R) : Mat R :=
  ⟨Rm.rows, Rm.cols, fun i j =>
    if n * (N - 1) ≤ i ∧ i < n * N ∧ n * (N - 1) ≤ j ∧ j < n * N then
      Rm.get i j + w * (if i - n * (N - 1) = j - n * (N - 1) then 1 else 0)
    else Rm.get i j⟩

/-- `r[idx, 0] += w * xc`, `find_controller.py:352,373,390`. -/
def addCenter (r : Mat R) (n N : Nat) (w : R) (xc : Nat → R) : Mat R :=
  ⟨r.rows, r.cols, fun i j =>
    if (N - 1) * n ≤ i ∧ i < N * n ∧ j = 0 then r.get i j + w * xc (i - (N - 1) * n) else r.get i j⟩

/-- The variables of the loop over the polytopes of the target: `R`, `r`, and `low_u`, `low_cost` if the
cost is not infinite. -/
structure Best (R : Type) where
  Rm : Mat R
  r : Mat R
  best : Option ((Nat → Nat → R) × R)

/-- An iteration of the loop over the polytopes of the target, `find_controller.py:342-376`. -/
def tryPart (T : Tools R) (x0 : Nat → R) (s : Lti R) (P1 : HP R) (N : Nat) (Q : Mat R) (w : R) (ord : Norm)
    (closedLoop solverNone : Bool) (st : Best R) (P3 : HP R) : Except PyErr (Best R) :=
  if w > 0 then
    let n := s.A.cols
    let xc := T.center P3
    let Rm := addMid st.Rm n N w
    let r := addCenter st.r n N (-w) xc
    match getInputHelper T x0 s P1 P3 N Rm r Q ord closedLoop solverNone with
    | .err e => .error e
    | .lpFail => .ok ⟨Rm, addCenter r n N w xc, st.best⟩
    | .ok u cost =>
      let best := match st.best with
        | none => some (u, cost)
        | some (u', low) => if cost < low then some (u, cost) else some (u', low)
      .ok ⟨Rm, addCenter r n N w xc, best⟩
  else .ok st

/-- The arguments `R`, `r`, `Q`, `mid_weight` after the defaults, `find_controller.py:265-280`; `x0` has
`xn` elements. -/
def inputDefaults (s : Lti R) (xn N : Nat) (Rm r Q : Option (Mat R)) (w : R) : Mat R × Mat R × Mat R × R :=
  let w := if Rm.isNone ∧ Q.isNone ∧ r.isNone ∧ w = 0 then 3 else w
  (Rm.getD (Mat.zeros (N * xn) (N * xn)), r.getD (Mat.zeros (N * xn) 1), Q.getD (Mat.eye (N * s.B.cols)), w)

/-- `get_input`, `find_controller.py:105-395`, for nonnegative `start` and `end`, and arrays `r`, `Q`, `R` of
floats: the inputs, and the arrays `R` and `r` at the end (the
arrays of the caller, if they were given, are modified). -/
def getInput (T : Tools R) (x0 : Nat → R) (xn : Nat) (s : Lti R) (ab : PwaAbs R) (start stop : Nat)
    (Rm r Q : Option (Mat R)) (ord : Norm) (w : R) (solverNone : Bool) :
    Except PyErr ((Nat → Nat → R) × Mat R × Mat R) := do
  let (Rm, r, Q, w) := inputDefaults s xn ab.N Rm r Q w
  if Rm.rows ≠ Rm.cols ∨ Rm.rows ≠ ab.N * xn then .error .exception
  else if Q.rows ≠ Q.cols ∨ Q.rows ≠ ab.N * s.B.cols then .error .exception
  else if (ab.ts.map fun t => decide ((start, stop) ∈ t)) = some false then .error .exception
  else
    match ab.regions[start]?, ab.regions[stop]? with
    | some Pstart, some Pend => do
      let P1 ← stayPoly T ab start Pstart
      match Pend.parts with
      | [] =>
        let n := s.A.cols
        let Rr := if w > 0 then (addMid Rm n ab.N w, addCenter r n ab.N (-w) (T.center Pend.poly))
          else (Rm, r)
        match getInputHelper T x0 s P1 Pend.poly ab.N Rr.1 Rr.2 Q ord ab.closedLoop solverNone with
        | .err e => .error e
        | .lpFail => .error .runtime
        | .ok u _ => .ok (u, Rr)
      | P :: l => do
        let st ← (P :: l).foldlM (tryPart T x0 s P1 ab.N Q w ord ab.closedLoop solverNone) ⟨Rm, r, none⟩
        match st.best with
        | none => .error .exception
        | some (u, _) => .ok (u, st.Rm, st.r)
    | _, _ => .error .indexError

end Abs

end Tulip
