import Verif.LtiCtor
import Verif.Abstract.CreateLMProps

/-!
# Theorems about the constructor of `LtiSysDyn`
-/

namespace Tulip

namespace Hyb

open Abs

variable {R P X : Type} [Field R]

/-! ## Specification -/

/-- The arguments that describe `s(t + 1) = A s(t) + B u(t) + E d(t) + K` as the documentation says: arrays with
matching shapes, and sets with matching dimensions; all but `A` may be `None`. -/
structure Describes (A B E K : ArrArg R) (U W : HullArg R) (dom : DomArg P) (a : Mat R) : Prop where
  A : A = .mat a
  square : a.rows = a.cols
  B : B = .none ∨ ∃ b, B = .mat b ∧ b.rows = a.rows ∧
    ∀ u, U = .poly u → u.A.cols = b.cols ∨ u.A.cols = b.cols + a.cols
  U : U = .none ∨ ∃ u, U = .poly u
  E : E = .none ∨ ∃ e, E = .mat e ∧ e.rows = a.rows ∧ (W = .none ∨ ∃ w, W = .poly w ∧ w.A.cols = e.cols)
  K : K = .none ∨ ∃ k, K = .mat k ∧ k.rows = a.rows ∧ k.cols = 1
  domain : dom = .none ∨ ∃ n d, dom = .set n d ∧ n = a.cols

/-- The attribute `E` after the construction: 0 if it is not given (`None` for a system without states). -/
def defaultE (a : Mat R) : ArrArg R → ArrArg R
  | .none => if a.rows = 0 then .none else .mat (Mat.zeros a.rows 1)
  | e => e

/-- The attribute `K` after the construction. -/
def defaultK (a : Mat R) : ArrArg R → ArrArg R
  | .none => if a.rows = 0 then .none else .mat (Mat.zeros a.rows 1)
  | k => k

/-- The attribute `Wset` after the construction: the argument is ignored if `E` is not given. -/
def defaultW (a : Mat R) (E : ArrArg R) (W : HullArg R) : WAttr R :=
  match E with
  | .none => if a.rows = 0 then .given W else .empty
  | _ => .given W

/-- The attributes as the numbers and sets that `createLM` reads. The matrix of the empty polytope has no rows;
`p0` is what it stands for. -/
def LtiObj.toLti (o : LtiObj R P) (p0 : HP R) : Option (Abs.Lti R) :=
  match o.A, o.B, o.E, o.K, o.U, o.W with
  | .mat A, .mat B, .mat E, .mat K, .poly U, .given (.poly W) => some ⟨A, B, E, K, U, W⟩
  | .mat A, .mat B, .mat E, .mat K, .poly U, .empty => some ⟨A, B, E, K, U, p0⟩
  | _, _, _, _, _, _ => none

/-! ## Proofs -/

theorem hbind_ok {α β : Type} {x : Except PyErr α} {f : α → Except PyErr β} {b : β} :
    (x >>= f) = .ok b ↔ ∃ a, x = .ok a ∧ f a = .ok b := by
  cases x <;> simp [bind, Except.bind]

theorem typeU_ok (U : HullArg R) (u : Unit) : typeU U = .ok u ↔ (U = .none ∨ ∃ p, U = .poly p) := by
  cases U <;> simp [typeU]

theorem typeDom_ok (d : DomArg P) (u : Unit) : typeDom d = .ok u ↔ (d = .none ∨ ∃ n p, d = .set n p) := by
  cases d <;> simp [typeDom]

theorem assert2d_ok (a : ArrArg R) (m : Mat R) : assert2d a = .ok m ↔ a = .mat m := by
  cases a <;> simp [assert2d]

theorem shapeOf_ok (a : ArrArg R) (m : Mat R) : shapeOf a = .ok m ↔ a = .mat m := by
  cases a <;> simp [shapeOf]

theorem assertSquare_ok (a : ArrArg R) (m : Mat R) : assertSquare a = .ok m ↔ a = .mat m ∧ m.rows = m.cols := by
  unfold assertSquare
  rw [hbind_ok]
  constructor
  · rintro ⟨m', h1, h2⟩
    split at h2
    · rename_i h
      cases h2
      exact ⟨(assert2d_ok _ _).1 h1, h⟩
    · cases h2
  · rintro ⟨h1, h2⟩
    exact ⟨m, (assert2d_ok _ _).2 h1, if_pos h2⟩

theorem ite_ok (c : Prop) [Decidable c] (e : PyErr) (u : Unit) :
    (if c then (.ok () : Except PyErr Unit) else .error e) = .ok u ↔ c := by
  split <;> simp [*]

theorem checkB_ok (a : Mat R) (B : ArrArg R) (u : Unit) :
    checkB (.mat a) B = .ok u ↔ ∃ b, B = .mat b ∧ b.rows = a.rows := by
  unfold checkB
  simp only [hbind_ok, assert2d_ok, shapeOf_ok, ite_ok, ArrArg.mat.injEq, exists_eq_left', eq_comm (a := a.rows)]

theorem checkU_ok (a b : Mat R) (ha : a.rows = a.cols) (U : HullArg R) (hU : typeU U = .ok ()) (u : Unit) :
    checkU (.mat a) (.mat b) U = .ok u ↔ ∀ p, U = .poly p → p.A.cols = b.cols ∨ p.A.cols = b.cols + a.cols := by
  unfold checkU
  simp only [hbind_ok, assertSquare_ok, shapeOf_ok, ArrArg.mat.injEq, and_assoc, exists_eq_left', ha, true_and]
  cases U
  · simp
  · simp only [ite_ok, HullArg.poly.injEq, forall_eq']
  · cases hU

theorem checkE_ok (a : Mat R) (E : ArrArg R) (W : HullArg R) (u : Unit) :
    checkE (.mat a) E W = .ok u ↔
      ∃ e, E = .mat e ∧ e.rows = a.rows ∧ (W = .none ∨ ∃ w, W = .poly w ∧ w.A.cols = e.cols) := by
  unfold checkE
  simp only [hbind_ok, assert2d_ok, shapeOf_ok, ArrArg.mat.injEq, exists_eq_left']
  refine exists_congr fun e => and_congr_right fun _ => ?_
  by_cases h : a.rows = e.rows
  · rw [if_neg (by simp [h])]
    cases W
    · simp [h]
    · simp [ite_ok, h]
    · simp
  · rw [if_pos h]
    simp only [reduceCtorEq, false_iff]
    exact fun h' => h h'.1.symm

theorem checkK_ok (a : Mat R) (K : ArrArg R) (u : Unit) :
    checkK (.mat a) K = .ok u ↔ ∃ k, K = .mat k ∧ k.rows = a.rows ∧ k.cols = 1 := by
  unfold checkK
  simp only [hbind_ok, assert2d_ok, shapeOf_ok, ArrArg.mat.injEq, exists_eq_left']
  refine exists_congr fun k => and_congr_right fun _ => ?_
  by_cases h : a.rows = k.rows
  · rw [if_neg (by simp [h]), ite_ok]
    simp [h]
  · rw [if_pos h]
    simp only [reduceCtorEq, false_iff]
    exact fun h' => h h'.1.symm

theorem checkDomain_ok (dom : DomArg P) (hd : typeDom dom = .ok ()) (n : Nat) (u : Unit) :
    checkDomain dom n = .ok u ↔ dom = .none ∨ ∃ k d, dom = .set k d ∧ k = n := by
  cases dom
  · simp [checkDomain]
  · simp [checkDomain, ite_ok]
  · cases hd

theorem whenGiven_ok (x : ArrArg R) (c : Except PyErr Unit) (u : Unit) :
    whenGiven x c = .ok u ↔ x = .none ∨ x ≠ .none ∧ c = .ok () := by
  cases x <;> simp [whenGiven]

theorem fillK_ok (a : Mat R) (K : ArrArg R) (K' : ArrArg R) :
    fillK (.mat a) K = .ok K' ↔ K' = defaultK a K := by
  cases K <;> simp [fillK, defaultK, lenOf, Except.map, eq_comm]

theorem fillE_ok (a : Mat R) (E : ArrArg R) (W : HullArg R) (EW) :
    fillE (.mat a) E W = .ok EW ↔ EW = (defaultE a E, defaultW a E W) := by
  cases E
  · by_cases h : a.rows = 0 <;> simp [fillE, defaultE, defaultW, lenOf, Except.map, h, eq_comm]
  all_goals simp [fillE, defaultE, defaultW, eq_comm]

/-- `LtiSysDyn` accepts exactly the arguments that describe a system, and what its attributes are. -/
theorem newLti_ok_iff (h : Heap) (self : Nat) (A B E K : ArrArg R) (U W : HullArg R) (dom : DomArg P) (t : Time)
    (res : Heap × LtiObj R P) :
    newLti h self A B E K U W dom t = .ok res ↔
      ∃ a, Describes A B E K U W dom a ∧ checkTimeData t = .ok () ∧
        res = (h.write self t, ⟨A, B, defaultE a E, defaultK a K, U, defaultW a E W, dom⟩) := by
  unfold newLti
  simp only [hbind_ok, whenGiven_ok]
  constructor
  · rintro ⟨⟨⟩, hU, ⟨⟩, hD, ⟨⟩, hA, ⟨⟩, hB, ⟨⟩, hE, ⟨⟩, hK, K', hK', EW, hEW, ⟨⟩, ht, hres⟩
    rcases hA with rfl | ⟨_, ⟨a, ha, hdom⟩⟩
    · -- without `A`
      exfalso
      cases K
      · simp [fillK, lenOf, Except.map] at hK'
      all_goals simp [checkK, assert2d, shapeOf] at hK
    · obtain ⟨rfl, hsq⟩ := (assertSquare_ok _ _).1 ha
      refine ⟨a, ⟨rfl, hsq, ?_, (typeU_ok _ _).1 hU, ?_, ?_, (checkDomain_ok dom hD _ _).1 hdom⟩, ht, ?_⟩
      · rcases hB with rfl | ⟨_, ⟨⟩, hB, hBU⟩
        · exact Or.inl rfl
        · obtain ⟨b, rfl, hb⟩ := (checkB_ok _ _ _).1 hB
          exact Or.inr ⟨b, rfl, hb, (checkU_ok a b hsq U hU _).1 hBU⟩
      · exact hE.imp_right fun h => (checkE_ok _ _ _ _).1 h.2
      · exact hK.imp_right fun h => (checkK_ok _ _ _).1 h.2
      · rw [fillK_ok] at hK'
        rw [fillE_ok] at hEW
        subst hK' hEW
        cases hres
        rfl
  · rintro ⟨a, ⟨rfl, hsq, hB, hU, hE, hK, hD⟩, ht, rfl⟩
    have hU' : typeU U = .ok () := (typeU_ok _ _).2 hU
    have hD' : typeDom dom = .ok () := (typeDom_ok _ _).2 (hD.imp_right fun ⟨n, d, h, _⟩ => ⟨n, d, h⟩)
    refine ⟨(), hU', (), hD', (), Or.inr ⟨by simp, a, (assertSquare_ok _ _).2 ⟨rfl, hsq⟩,
      (checkDomain_ok dom hD' _ _).2 hD⟩, (), ?_, (), ?_, (), ?_, _, (fillK_ok _ _ _).2 rfl, _, (fillE_ok _ _ _ _).2 rfl,
      (), ht, rfl⟩
    · rcases hB with rfl | ⟨b, rfl, hb, hu⟩
      · exact Or.inl rfl
      · exact Or.inr ⟨by simp, (), (checkB_ok _ _ _).2 ⟨b, rfl, hb⟩, (checkU_ok a b hsq U hU' _).2 hu⟩
    · rcases hE with rfl | he
      · exact Or.inl rfl
      · refine Or.inr ⟨?_, (checkE_ok _ _ _ _).2 he⟩
        obtain ⟨e, rfl, _⟩ := he
        simp
    · rcases hK with rfl | hk
      · exact Or.inl rfl
      · refine Or.inr ⟨?_, (checkK_ok _ _ _).2 hk⟩
        obtain ⟨e, rfl, _⟩ := hk
        simp

/-- Without `A`, which is optional, the constructor always raises an exception. -/
theorem newLti_without_A (h : Heap) (self : Nat) (B E K : ArrArg R) (U W : HullArg R) (dom : DomArg P) (t : Time)
    (res : Heap × LtiObj R P) : newLti h self .none B E K U W dom t ≠ .ok res := by
  rw [Ne, newLti_ok_iff]
  rintro ⟨a, hd, _⟩
  cases hd.A

/-- A constructed system with states, whose inputs and sets are given, has the shapes that the theorems about
`createLM` and `get_input` assume. -/
theorem newLti_shaped [LinearOrder R] [IsStrictOrderedRing R] (h : Heap) (self : Nat) (A B E K : ArrArg R)
    (U W : HullArg R) (dom : DomArg P) (t : Time) (h' : Heap) (o : LtiObj R P)
    (hok : newLti h self A B E K U W dom t = .ok (h', o)) (p0 : HP R) (s : Abs.Lti R) (hs : o.toLti p0 = some s)
    (hpos : 0 < s.A.cols) :
    s.Shaped ∧ (E = .none → ¬ s.Disturbed) ∧ (E ≠ .none → s.W.A.cols = s.E.cols) ∧
      (K = .none → ∀ i, s.K.get i 0 = 0) := by
  obtain ⟨a, hd, _, he⟩ := (newLti_ok_iff h self A B E K U W dom t _).1 hok
  cases he
  obtain ⟨rfl, hsq, hB, hU, hE, hK, hD⟩ := hd
  rcases hB with rfl | ⟨b, rfl, hb, hu⟩
  · simp [LtiObj.toLti] at hs
  rcases hU with rfl | ⟨u, rfl⟩
  · simp [LtiObj.toLti] at hs
  have hu := hu u rfl
  -- `K`
  have hk : ∀ k, defaultK a K = .mat k → k.rows = a.rows ∧ k.cols = 1 ∧ (K = .none → ∀ i, k.get i 0 = 0) := by
    intro k hk
    rcases hK with rfl | ⟨k', rfl, h1, h2⟩
    · unfold defaultK at hk
      split at hk
      · split at hk
        · cases hk
        · cases hk
          exact ⟨rfl, rfl, fun _ _ => rfl⟩
      · simp at *
    · cases hk
      exact ⟨h1, h2, by simp⟩
  have hz : ∀ e : Mat R, e = Mat.zeros a.rows 1 → e.rows = a.rows ∧ ∀ i j, e.get i j = 0 := by
    rintro e rfl
    exact ⟨rfl, fun _ _ => rfl⟩
  unfold LtiObj.toLti at hs
  dsimp only at hs
  split at hs
  · rename_i A1 B1 E1 K1 U1 W1 hA1 hB1 hE1 hK1 hU1 hW1
    cases hs
    cases hA1
    cases hB1
    cases hU1
    obtain ⟨k1, k2, k3⟩ := hk K1 hK1
    rcases hE with rfl | ⟨e, rfl, he, hW⟩
    · unfold defaultW at hW1
      dsimp only at hW1
      have h0 : a.cols ≠ 0 := Nat.pos_iff_ne_zero.1 hpos
      rw [if_neg (by rw [hsq]; exact h0)] at hW1
      cases hW1
    · cases hE1
      cases hW1
      refine ⟨⟨hsq, hpos, by rw [← hsq]; exact hb, by rw [← hsq]; exact he, ⟨by rw [← hsq]; exact k1, k2⟩, hu⟩,
        by simp, fun _ => ?_, k3⟩
      rcases hW with h | ⟨w, hw, hw'⟩
      · cases h
      · cases hw
        exact hw'
  · rename_i A1 B1 E1 K1 U1 hA1 hB1 hE1 hK1 hU1 hW1
    cases hs
    cases hA1
    cases hB1
    cases hU1
    obtain ⟨k1, k2, k3⟩ := hk K1 hK1
    rcases hE with rfl | ⟨e, rfl, he, hW⟩
    · unfold defaultE at hE1
      dsimp only at hE1
      have h0 : a.cols ≠ 0 := Nat.pos_iff_ne_zero.1 hpos
      rw [if_neg (by rw [hsq]; exact h0)] at hE1
      cases hE1
      refine ⟨⟨hsq, hpos, by rw [← hsq]; exact hb, by rw [← hsq]; rfl, ⟨by rw [← hsq]; exact k1, k2⟩, hu⟩,
        fun _ => ?_, by simp, k3⟩
      rintro ⟨i, _, j, _, hij⟩
      exact hij rfl
    · cases hW1
  · cases hs

/-- `PwaSysDyn.from_lti` succeeds only if all of `A`, `B`, `E`, `K` and `domain` are given, although they are
optional. -/
theorem pwaFromLti_needs_all (G : Geom P X) (isEmpty : P → Bool) (h : Heap) (idL idP : Nat) (A B E K : ArrArg R)
    (U W : HullArg R) (dom : DomArg P) (res) (hok : pwaFromLti G isEmpty h idL idP A B E K U W dom = .ok res) :
    ∃ a b e k n d, A = .mat a ∧ B = .mat b ∧ E = .mat e ∧ K = .mat k ∧ dom = .set n d := by
  unfold pwaFromLti at hok
  rw [hbind_ok] at hok
  obtain ⟨⟨h1, o⟩, hn, hok⟩ := hok
  obtain ⟨a, hd, _, he⟩ := (newLti_ok_iff _ _ _ _ _ _ _ _ _ _ _).1 hn
  cases he
  obtain ⟨hA, _, hB, _, hE, hK, _⟩ := hd
  have key : ∀ x : ArrArg R, (orList x = .none ∨ ∃ m, orList x = .mat m) → ∃ m, x = .mat m := by
    intro x hx
    cases x
    · simp [orList] at hx
    · simp [orList] at hx
    · simp [orList] at hx
    · exact ⟨_, rfl⟩
  obtain ⟨a', rfl⟩ := key A (Or.inr ⟨a, hA⟩)
  obtain ⟨b, rfl⟩ := key B (hB.imp_right fun ⟨m, h, _⟩ => ⟨m, h⟩)
  obtain ⟨e, rfl⟩ := key E (hE.imp_right fun ⟨m, h, _⟩ => ⟨m, h⟩)
  obtain ⟨k, rfl⟩ := key K (hK.imp_right fun ⟨m, h, _⟩ => ⟨m, h⟩)
  dsimp only at hok
  cases dom with
  | none => cases hok
  | other => cases hok
  | set n d => exact ⟨a', b, e, k, n, d, rfl, rfl, rfl, rfl, rfl⟩

/-- What `PwaSysDyn.from_lti` returns: a system with one subsystem and the same domain. -/
theorem pwaFromLti_ok (G : Geom P X) (isEmpty : P → Bool) (h : Heap) (idL idP : Nat) (a b e k : Mat R)
    (U W : HullArg R) (n : Nat) (d : P) (hempty : isEmpty (G.diff d d) = true)
    (hd : Describes (.mat a) (.mat b) (.mat e) (.mat k) U W (.set n d) a) :
    ∃ h', pwaFromLti G isEmpty h idL idP (.mat a) (.mat b) (.mat e) (.mat k) U W (.set n d) =
      .ok (h', ⟨idP, [⟨idL, a.cols, b.cols, e.cols, d⟩], some d⟩) := by
  unfold pwaFromLti
  have hn := (newLti_ok_iff h idL (.mat a) (.mat b) (.mat e) (.mat k) U W (.set n d) ⟨none, none⟩ _).2
    ⟨a, hd, rfl, rfl⟩
  show ∃ h', (newLti h idL (.mat a) (.mat b) (.mat e) (.mat k) U W (.set n d) ⟨none, none⟩ >>= _) = _
  rw [hn, ok_bind]
  refine ⟨(pushLti (h.write idL ⟨none, none⟩) [⟨idL, a.cols, b.cols, e.cols, d⟩] ⟨none, none⟩).write idP
    ⟨none, none⟩, ?_⟩
  simp only [colsOf, defaultE, ok_bind, newPwa, checkDomains, coverLoop, overlapping]
  simp only [ne_eq, not_true_eq_false, or_self, if_false, ok_bind, hempty, Bool.true_eq_false, List.any_nil,
    Bool.or_self, Bool.false_eq_true, checkTimeData, if_true]
  rfl

/-- `SwitchedSysDyn.from_pwa` adds one mode `(0, 0)`: it succeeds when `PwaSysDyn` does. -/
theorem switchedFromPwa_ok (G : Geom P X) (isEmpty : P → Bool) (h : Heap) (idP idS : Nat) (subs : List (Lti P))
    (dom : Option P) (h' : Heap) (s : Pwa P) (hs : newPwa G isEmpty h idP subs dom ⟨none, none⟩ true = .ok (h', s)) :
    ∃ h'', switchedFromPwa G isEmpty h idP idS subs dom =
      .ok (h'', ⟨idS, (1, 1), [.num 0], [.num 0], [((.num 0, .num 0), s)]⟩) := by
  unfold switchedFromPwa
  rw [hs, ok_bind]
  exact ⟨_, rfl⟩

/-- Likewise for `SwitchedSysDyn.from_lti`. -/
theorem switchedFromLti_ok_iff (G : Geom P X) (isEmpty : P → Bool) (h : Heap) (idL idP idS : Nat) (A B E K : ArrArg R)
    (U W : HullArg R) (dom : DomArg P) (s : Pwa P) :
    (∃ h'', switchedFromLti G isEmpty h idL idP idS A B E K U W dom =
      .ok (h'', ⟨idS, (1, 1), [.num 0], [.num 0], [((.num 0, .num 0), s)]⟩)) ↔
    ∃ h', pwaFromLti G isEmpty h idL idP A B E K U W dom = .ok (h', s) := by
  have e : ∀ x : ArrArg R, orList (orList x) = orList x := fun x => by cases x <;> rfl
  have e' : pwaFromLti G isEmpty h idL idP (orList A) (orList B) (orList E) (orList K) U W dom =
      pwaFromLti G isEmpty h idL idP A B E K U W dom := by
    unfold pwaFromLti
    rw [e, e, e, e]
  unfold switchedFromLti
  rw [e']
  rcases pwaFromLti G isEmpty h idL idP A B E K U W dom with err | ⟨h', s'⟩
  · simp
  · rw [ok_bind]
    constructor
    · rintro ⟨h'', he⟩
      cases he
      exact ⟨h', rfl⟩
    · rintro ⟨h'', he⟩
      cases he
      exact ⟨_, rfl⟩

/-! ## Examples -/

/-- A matrix of rational numbers, by its rows. -/
def ratMat (c : Nat) (l : List (List Rat)) : Mat Rat := ⟨l.length, c, fun i j => (l.getD i []).getD j 0⟩

/-- Two states, one input, constraints on the input and the states; no disturbances. -/
example : Describes (R := Rat) (P := Unit) (.mat (ratMat 2 [[1, 1], [0, 1]])) (.mat (ratMat 1 [[0], [1]])) .none .none
    (.poly ⟨ratMat 3 [[1, 0, 0], [-1, 1, 1]], fun _ => 1⟩) .none (.set 2 ()) (ratMat 2 [[1, 1], [0, 1]]) where
  A := rfl
  square := rfl
  B := Or.inr ⟨_, rfl, rfl, by rintro u ⟨⟩; exact Or.inr rfl⟩
  U := Or.inr ⟨_, rfl⟩
  E := Or.inl rfl
  K := Or.inl rfl
  domain := Or.inr ⟨_, _, rfl, rfl⟩

/-- With disturbances. -/
example : Describes (R := Rat) (P := Unit) (.mat (ratMat 1 [[1]])) (.mat (ratMat 1 [[1]])) (.mat (ratMat 2 [[1, 1]]))
    (.mat (ratMat 1 [[5]])) (.poly ⟨ratMat 1 [[1]], fun _ => 1⟩) (.poly ⟨ratMat 2 [[1, 0]], fun _ => 1⟩) (.set 1 ())
    (ratMat 1 [[1]]) where
  A := rfl
  square := rfl
  B := Or.inr ⟨_, rfl, rfl, by rintro u ⟨⟩; exact Or.inl rfl⟩
  U := Or.inr ⟨_, rfl⟩
  E := Or.inr ⟨_, rfl, rfl, Or.inr ⟨_, rfl, rfl⟩⟩
  K := Or.inr ⟨_, rfl, rfl, rfl⟩
  domain := Or.inr ⟨_, _, rfl, rfl⟩

end Hyb

end Tulip
