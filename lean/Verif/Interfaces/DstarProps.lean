import Verif.Interfaces.Dstar
import Verif.Interfaces.LbtProps
import Verif.Gridworld.DumpProps

/-!
# C142: the reader of the automata that `ltl2dstar` prints
-/

namespace Tulip
namespace Dstar

open Gw Lbt

/-! ## Specification -/

/-- A deterministic automaton with the states `0, …, n - 1` over the subsets of `ap`. The subset with the number `a` has the
propositions whose bits in `a` are 1. `sig q` has `(true, i)` if `q` is in `L` of the pair `i`, `(false, i)` if it is in `U`. -/
structure Source where
  kind : List Char
  version : List Char
  edgeType : List Char
  n : Nat
  pairs : Nat
  start : Nat
  ap : List (List Char)
  sig : Nat → List (Bool × Nat)
  next : Nat → Nat → Nat
  /-- What follows the number of a state in its line. -/
  note : Nat → List (List Char)

def sigWord (s : Bool × Nat) : List Char := (if s.1 then '+' else '-') :: digitsOf s.2

/-- The words of the lines before the states. -/
def headWords (D : Source) : List (List (List Char)) :=
  [[D.kind, D.version, D.edgeType],
   [c!"States:", digitsOf D.n],
   [c!"Acceptance-Pairs:", digitsOf D.pairs],
   [c!"Start:", digitsOf D.start],
   c!"AP:" :: digitsOf D.ap.length :: D.ap.map fun x => '"' :: x ++ ['"'],
   [c!"---"]]

/-- The words of the lines for a state: its number, its signature and the successors for the subsets. -/
def stateWords (D : Source) (q : Nat) : List (List (List Char)) :=
  (c!"State:" :: digitsOf q :: D.note q) :: (c!"Acc-Sig:" :: (D.sig q).map sigWord) ::
    (List.range (2 ^ D.ap.length)).map fun a => [digitsOf (D.next q a)]

def fileWords (D : Source) : List (List (List Char)) := headWords D ++ (List.range D.n).flatMap (stateWords D)

/-- A text of the automaton: with any space between the words, empty lines and comments. -/
def TextOf (lines : List (List Char)) (D : Source) : Prop :=
  (∀ l ∈ lines, l ≠ []) ∧
    (lines.map words).filter (fun w => decide (w ≠ [] ∧ w.head? ≠ some c!"Comment:")) = fileWords D

/-- The kind of automaton does not end in a colon, names have no quotation marks at their ends, numbers are in range. -/
structure Source.Ok (D : Source) : Prop where
  kind : D.kind.getLast? ≠ some ':'
  ap : ∀ x ∈ D.ap, x ≠ [] ∧ x.head? ≠ some '"' ∧ x.getLast? ≠ some '"'
  sig : ∀ q < D.n, ∀ s ∈ D.sig q, s.2 < D.pairs
  next : ∀ q < D.n, ∀ a < 2 ^ D.ap.length, D.next q a < D.n

/-- The numbers of the subsets with which the automaton goes from `q` to `r`, among the first `c`. -/
def letters (D : Source) (q : Nat) (r : Int) (c : Nat) : List Nat := (List.range c).filter fun a => (D.next q a : Int) = r

/-- The propositions in the subset with the number `a`. -/
def subset (ap : List (List Char)) (a : Nat) : List (List Char) :=
  ((List.range ap.length).filter fun i => a.testBit i).map fun i => ap.getD i []

/-- The literals of the conjunction that describes the subset. -/
def literals (ap : List (List Char)) (a : Nat) : List (Bool × List Char) :=
  (List.range ap.length).map fun i => (a.testBit i, ap.getD i [])

def literalText (l : Bool × List Char) : List Char := if l.1 then l.2 else '!' :: l.2

/-- The text of a disjunction of conjunctions of literals. -/
def dnfText (cs : List (List (Bool × List Char))) : List Char :=
  joinWith c!" | " (cs.map fun c => c!"(" ++ joinWith c!" & " (c.map literalText) ++ c!")")

/-- The disjunction holds for a set of propositions. -/
def Holds (cs : List (List (Bool × List Char))) (v : List Char → Bool) : Prop := ∃ c ∈ cs, ∀ l ∈ c, v l.2 = l.1

/-- What is read for the pair `i`: nothing if no state has it in its signature. -/
def PairOk (P : List (Nat × Bool × Nat)) (i : Nat) (o : Option Pair) : Prop :=
  (o = none ↔ ∀ e ∈ P, e.2.2 ≠ i) ∧
    ∀ p, o = some p → (∀ x : Int, x ∈ p.L ↔ ∃ e ∈ P, e.2 = (true, i) ∧ (e.1 : Int) = x) ∧
      (∀ x : Int, x ∈ p.U ↔ ∃ e ∈ P, e.2 = (false, i) ∧ (e.1 : Int) = x)

/-- The signatures of all states. -/
def sigs (D : Source) (n : Nat) : List (Nat × Bool × Nat) := (List.range n).flatMap fun q => (D.sig q).map fun s => (q, s)

/-! ## Words -/

theorem toInt_digits (n : Nat) : toInt (digitsOf n) = .ok (n : Int) := by
  rw [toInt, pyInt_digits]

theorem digits_last (n : Nat) : (digitsOf n).getLast? ≠ some ':' := by
  intro h
  have := digitsOf_all n ':' (List.mem_of_getLast? h)
  revert this; decide

theorem digits_ne (n : Nat) (w : List Char) (c : Char) (hc : c ∈ w) (h : isDig c = false) : digitsOf n ≠ w := by
  rintro rfl
  rw [digitsOf_all n c hc] at h
  cases h

theorem unquote_quote {x : List Char} (h : x ≠ [] ∧ x.head? ≠ some '"' ∧ x.getLast? ≠ some '"') :
    unquote ('"' :: x ++ ['"']) = x := by
  obtain ⟨h0, h1, h2⟩ := h
  cases x with
  | nil => exact absurd rfl h0
  | cons c x =>
    have hc : c ≠ '"' := by rintro rfl; exact h1 rfl
    have e1 : (('"' :: (c :: x) ++ ['"']) : List Char).dropWhile (· = '"') = (c :: x) ++ ['"'] := by
      simp [List.dropWhile, hc]
    rw [unquote, e1]
    have e2 : (((c :: x) ++ ['"']).reverse.dropWhile (· = '"')) = (c :: x).reverse := by
      rw [List.reverse_append]
      simp only [List.reverse_singleton, List.singleton_append]
      rw [List.dropWhile_cons_of_pos (by simp)]
      rw [← List.head?_reverse] at h2
      generalize (c :: x).reverse = l at h2
      cases l with
      | nil => rfl
      | cons d l =>
        have : d ≠ '"' := by rintro rfl; exact h2 rfl
        simp [List.dropWhile, this]
    rw [e2, List.reverse_reverse]

theorem bit_iff (k i : Nat) : ((k >>> i) &&& 1 ≠ 0) ↔ k.testBit i = true := by
  rw [Nat.testBit, Nat.and_comm]
  simp

theorem genApsubset_eq (AP : List (List Char)) (k : Nat) : genApsubset AP k = subset AP k := by
  have h : AP.zipIdx = (List.range AP.length).map fun i => (AP.getD i [], i) := by
    apply List.ext_getElem
    · simp
    · intro i h1 h2
      simp at h1
      simp [List.getD_eq_getElem?_getD, h1]
  rw [genApsubset, subset, h, List.filter_map, List.map_map]
  congr 1
  apply List.filter_congr
  intro i _
  simp only [Function.comp_apply]
  rw [Bool.eq_iff_iff, decide_eq_true_iff]
  exact bit_iff k i

theorem genApformula_eq (AP : List (List Char)) (k : Nat) :
    genApformula AP k = joinWith c!" & " ((literals AP k).map literalText) := by
  have h : AP.zipIdx = (List.range AP.length).map fun i => (AP.getD i [], i) := by
    apply List.ext_getElem
    · simp
    · intro i h1 h2
      simp at h1
      simp [List.getD_eq_getElem?_getD, h1]
  rw [genApformula, literals, h, List.map_map, List.map_map]
  congr 1
  apply List.map_congr_left
  intro i _
  simp only [Function.comp_apply, literalText]
  by_cases hb : k.testBit i = true
  · rw [if_pos ((bit_iff k i).2 hb), if_pos hb]
  · rw [if_neg (fun h => hb ((bit_iff k i).1 h)), if_neg hb]

theorem joinWith_snoc (sep x : List Char) {l : List (List Char)} (h : l ≠ []) :
    joinWith sep (l ++ [x]) = joinWith sep l ++ sep ++ x := by
  induction l with
  | nil => exact absurd rfl h
  | cons y l ih =>
    cases l with
    | nil => simp [joinWith]
    | cons z l =>
      have := ih (by simp)
      simp only [List.cons_append, joinWith] at this ⊢
      rw [this]
      simp

/-! ## Signatures -/

theorem mem_addTo {s : List Int} {x y : Int} : y ∈ addTo s x ↔ y ∈ s ∨ y = x := by
  unfold addTo
  split
  · constructor
    · exact Or.inl
    · rintro (h | rfl)
      · exact h
      · assumption
  · simp

theorem readSig_step (D : Source) (q : Nat) (A : Aut) (F : List (Option Pair)) (hF : A.F = some F) (hl : F.length = D.pairs)
    (P : List (Nat × Bool × Nat)) (hP : ∀ i < D.pairs, ∃ o, F[i]? = some o ∧ PairOk P i o) (s : Bool × Nat) (hs : s.2 < D.pairs) :
    ∃ F', readSig q A (sigWord s) = .ok { A with F := some F' } ∧ F'.length = D.pairs ∧
      ∀ i < D.pairs, ∃ o, F'[i]? = some o ∧ PairOk (P ++ [(q, s)]) i o := by
  obtain ⟨b, k⟩ := s
  simp only at hs
  have h1 : toInt ((sigWord (b, k)).drop 1) = .ok (k : Int) := toInt_digits k
  have h2 : place F.length (k : Int) = .ok k := by
    rw [place, if_pos ⟨by omega, by omega⟩]; rfl
  obtain ⟨o, ho, ho1, ho2⟩ := hP k hs
  refine ⟨F.set k (some (if b then { (o.getD ⟨[], []⟩) with L := addTo (o.getD ⟨[], []⟩).L q }
    else { (o.getD ⟨[], []⟩) with U := addTo (o.getD ⟨[], []⟩).U q })), ?_, by simp [hl], ?_⟩
  · simp only [readSig, h1, ok_bind, hF, attr, h2, ho, Option.join_some]
    cases b <;> rfl
  · intro i hi
    by_cases hik : k = i
    · subst hik
      refine ⟨_, by rw [List.getElem?_set, if_pos rfl, if_pos (by omega)], ⟨⟨fun h => by simp at h, fun h => ?_⟩, ?_⟩⟩
      · exact absurd rfl (h (q, b, k) (by simp))
      · intro p hp
        have hp := (Option.some.inj hp).symm
        subst hp
        have hb : (∀ x : Int, x ∈ (o.getD ⟨[], []⟩).L ↔ ∃ e ∈ P, e.2 = (true, k) ∧ (e.1 : Int) = x) ∧
            (∀ x : Int, x ∈ (o.getD ⟨[], []⟩).U ↔ ∃ e ∈ P, e.2 = (false, k) ∧ (e.1 : Int) = x) := by
          cases o with
          | none =>
            have := ho1.1 rfl
            constructor <;>
            · intro x
              simp only [Option.getD_none, List.not_mem_nil, false_iff, not_exists, not_and]
              intro e he h
              exact absurd (congrArg Prod.snd h) (this e he)
          | some p => exact ho2 p rfl
        cases b
        · refine ⟨fun x => ?_, fun x => ?_⟩
          · simp only [Bool.false_eq_true, if_false, hb.1, List.mem_append, List.mem_singleton]
            constructor
            · rintro ⟨e, he, h⟩
              exact ⟨e, Or.inl he, h⟩
            · rintro ⟨e, he | rfl, h, h'⟩
              · exact ⟨e, he, h, h'⟩
              · simp at h
          · simp only [Bool.false_eq_true, if_false, mem_addTo, hb.2, List.mem_append, List.mem_singleton]
            constructor
            · rintro (⟨e, he, h⟩ | rfl)
              · exact ⟨e, Or.inl he, h⟩
              · exact ⟨_, Or.inr rfl, rfl, rfl⟩
            · rintro ⟨e, he | rfl, h, h'⟩
              · exact Or.inl ⟨e, he, h, h'⟩
              · exact Or.inr h'.symm
        · refine ⟨fun x => ?_, fun x => ?_⟩
          · simp only [if_true, mem_addTo, hb.1, List.mem_append, List.mem_singleton]
            constructor
            · rintro (⟨e, he, h⟩ | rfl)
              · exact ⟨e, Or.inl he, h⟩
              · exact ⟨_, Or.inr rfl, rfl, rfl⟩
            · rintro ⟨e, he | rfl, h, h'⟩
              · exact Or.inl ⟨e, he, h, h'⟩
              · exact Or.inr h'.symm
          · simp only [if_true, hb.2, List.mem_append, List.mem_singleton]
            constructor
            · rintro ⟨e, he, h⟩
              exact ⟨e, Or.inl he, h⟩
            · rintro ⟨e, he | rfl, h, h'⟩
              · exact ⟨e, he, h, h'⟩
              · simp at h
    · obtain ⟨o', h3, h4, h5⟩ := hP i hi
      refine ⟨o', by rw [List.getElem?_set, if_neg hik]; exact h3, ?_, ?_⟩
      · rw [h4]
        constructor
        · intro h e he
          rcases List.mem_append.1 he with he | he
          · exact h e he
          · rw [List.mem_singleton.1 he]; exact hik
        · exact fun h e he => h e (List.mem_append_left _ he)
      · intro p hp
        have key : ∀ (b' : Bool) (x : Int), (∃ e ∈ P, e.2 = (b', i) ∧ (e.1 : Int) = x) ↔
            ∃ e ∈ P ++ [(q, b, k)], e.2 = (b', i) ∧ (e.1 : Int) = x := by
          intro b' x
          constructor
          · rintro ⟨e, he, h⟩
            exact ⟨e, List.mem_append_left _ he, h⟩
          · rintro ⟨e, he, h, h'⟩
            rcases List.mem_append.1 he with he | he
            · exact ⟨e, he, h, h'⟩
            · rw [List.mem_singleton.1 he] at h
              exact absurd (congrArg Prod.snd h) hik
        exact ⟨fun x => by rw [← key]; exact (h5 p hp).1 x, fun x => by rw [← key]; exact (h5 p hp).2 x⟩

theorem readSigs (D : Source) (q : Nat) (ss : List (Bool × Nat)) : ∀ (A : Aut) (F : List (Option Pair)), A.F = some F →
    F.length = D.pairs → ∀ P : List (Nat × Bool × Nat), (∀ i < D.pairs, ∃ o, F[i]? = some o ∧ PairOk P i o) →
    (∀ s ∈ ss, s.2 < D.pairs) →
    ∃ F', (ss.map sigWord).foldlM (readSig q) A = .ok { A with F := some F' } ∧ F'.length = D.pairs ∧
      ∀ i < D.pairs, ∃ o, F'[i]? = some o ∧ PairOk (P ++ ss.map fun s => (q, s)) i o := by
  induction ss with
  | nil =>
    intro A F hF hl P hP _
    exact ⟨F, by rw [← hF]; rfl, hl, by simpa using hP⟩
  | cons s ss ih =>
    intro A F hF hl P hP hs
    obtain ⟨F1, h1, h2, h3⟩ := readSig_step D q A F hF hl P hP s (hs s (by simp))
    obtain ⟨F2, h4, h5, h6⟩ := ih { A with F := some F1 } F1 rfl h2 _ h3 fun s h => hs s (by simp [h])
    refine ⟨F2, ?_, h5, by simpa using h6⟩
    rw [List.map_cons, List.foldlM_cons, h1, ok_bind, h4]

/-! ## Transitions -/

/-- The attributes of the edge from `q` to `r` after the first `c` transitions of `q`. -/
def edgeOf (D : Source) (q : Nat) (r : Int) (c : Nat) : Option Edge :=
  if letters D q r c = [] then none
  else some ⟨dnfText ((letters D q r c).map (literals D.ap)), (letters D q r c).map (subset D.ap)⟩

/-- The state of the reader before the subset `c` of the state `Q`. -/
structure Inv (D : Source) (Q c : Nat) (A : Aut) : Prop where
  autType : A.autType = D.kind
  start : A.start = some (D.start : Int)
  ap : A.ap = some D.ap
  nodes : ∀ x, x ∈ A.nodes → ∃ k < D.n, x = (k : Int)
  seen : ∀ k < Q, (k : Int) ∈ A.nodes
  edges : ∀ x y : Int, A.edges.get? (x, y) =
    if 0 ≤ x then edgeOf D x.toNat y (if x.toNat < Q then 2 ^ D.ap.length else if x.toNat = Q then c else 0) else none

theorem letters_succ (D : Source) (q : Nat) (r : Int) (c : Nat) :
    letters D q r (c + 1) = letters D q r c ++ if (D.next q c : Int) = r then [c] else [] := by
  rw [letters, List.range_succ, List.filter_append, letters]
  congr 1
  by_cases h : (D.next q c : Int) = r <;> simp [h]

theorem readTrans_step {D : Source} (hD : D.Ok) {Q c : Nat} {A : Aut} (hQ : Q < D.n) (hc : c < 2 ^ D.ap.length)
    (h : Inv D Q c A) : ∃ A', readTrans (Q : Int) c A (digitsOf (D.next Q c)) = .ok A' ∧ Inv D Q (c + 1) A' ∧ A'.F = A.F ∧
      ∀ x ∈ A.nodes, x ∈ A'.nodes := by
  simp only [readTrans, toInt_digits, ok_bind, h.ap, attr]
  refine ⟨_, rfl, ⟨h.autType, h.start, rfl, ?_, ?_, ?_⟩, rfl, fun x hx => mem_addTo.2 (Or.inl (mem_addTo.2 (Or.inl hx)))⟩
  · intro x hx
    rcases mem_addTo.1 hx with hx | rfl
    · rcases mem_addTo.1 hx with hx | rfl
      · exact h.nodes x hx
      · exact ⟨Q, hQ, rfl⟩
    · exact ⟨_, hD.next Q hQ c hc, rfl⟩
  · intro k hk
    exact mem_addTo.2 (Or.inl (mem_addTo.2 (Or.inl (h.seen k hk))))
  · intro x y
    simp only [Dict.get?_set, Prod.mk.injEq]
    have hQQ := h.edges (Q : Int) (D.next Q c : Int)
    simp only [Int.natCast_nonneg, if_true, Int.toNat_natCast, Nat.lt_irrefl, if_false] at hQQ
    by_cases hx : (Q : Int) = x
    · subst hx
      have hxy := h.edges (Q : Int) y
      simp only [Int.natCast_nonneg, if_true, Int.toNat_natCast, Nat.lt_irrefl, if_false] at hxy ⊢
      by_cases hy : (D.next Q c : Int) = y
      · subst hy
        simp only [and_self, if_true]
        rw [hQQ]
        simp only [edgeOf, letters_succ, if_true]
        by_cases hn : letters D Q (D.next Q c) c = []
        · simp only [hn, if_true, List.nil_append, List.cons_ne_nil, if_false, List.map_cons, List.map_nil,
            genApsubset_eq, genApformula_eq, dnfText, joinWith]
        · simp only [hn, if_false, List.append_eq_nil_iff, List.cons_ne_nil, and_false, List.map_append, List.map_cons, List.map_nil,
            genApsubset_eq, genApformula_eq, dnfText]
          rw [joinWith_snoc]
          simpa using hn
      · simp only [hy, and_false, if_false]
        rw [hxy]
        simp only [edgeOf, letters_succ, hy, if_false, List.append_nil]
    · simp only [hx, false_and, if_false]
      rw [h.edges x y]
      by_cases h0 : 0 ≤ x
      · have hne : x.toNat ≠ Q := by omega
        simp only [h0, if_true, hne, if_false]
      · simp only [h0, if_false]

theorem readLine_trans {D : Source} (hD : D.Ok) {Q c : Nat} {A : Aut} (hQ : Q < D.n) (hc : c < 2 ^ D.ap.length)
    (h : Inv D Q c A) : ∃ A', readLine ⟨some A, Q, c⟩ [digitsOf (D.next Q c)] = .ok ⟨some A', Q, c + 1⟩ ∧ Inv D Q (c + 1) A' ∧
      A'.F = A.F ∧ ∀ x ∈ A.nodes, x ∈ A'.nodes := by
  obtain ⟨A', h1, h2⟩ := readTrans_step hD hQ hc h
  refine ⟨A', ?_, h2⟩
  have e := digits_ne (D.next Q c)
  simp only [readLine, List.length_nil, OfNat.zero_ne_ofNat, and_false, if_false]
  rw [if_neg (e _ 'C' (by decide) (by decide)), if_neg (e _ 'S' (by decide) (by decide)), if_neg (e _ 'A' (by decide) (by decide)),
    if_neg (e _ 'S' (by decide) (by decide)), if_neg (e _ 'A' (by decide) (by decide)), if_neg (e _ 'S' (by decide) (by decide)),
    if_neg (e _ 'A' (by decide) (by decide)), if_pos ⟨Int.natCast_nonneg _, e _ '-' (by decide) (by decide)⟩]
  simp only [attr, ok_bind, h1]

theorem readTranses {D : Source} (hD : D.Ok) {Q : Nat} (hQ : Q < D.n) : ∀ (m c : Nat), c + m = 2 ^ D.ap.length → ∀ A : Aut, Inv D Q c A →
    ∃ A', ((List.range' c m).map fun a => [digitsOf (D.next Q a)]).foldlM readLine ⟨some A, Q, c⟩ =
      .ok ⟨some A', Q, 2 ^ D.ap.length⟩ ∧ Inv D Q (2 ^ D.ap.length) A' ∧ A'.F = A.F ∧ ∀ x ∈ A.nodes, x ∈ A'.nodes := by
  intro m
  induction m with
  | zero =>
    intro c hc A h
    have : c = 2 ^ D.ap.length := by omega
    subst this
    exact ⟨A, rfl, h, rfl, fun _ h => h⟩
  | succ m ih =>
    intro c hc A h
    obtain ⟨A1, h1, h2, h3, h7⟩ := readLine_trans hD hQ (by omega) h
    obtain ⟨A2, h4, h5, h6, h8⟩ := ih (c + 1) (by omega) A1 h2
    refine ⟨A2, ?_, h5, h6.trans h3, fun x hx => h8 x (h7 x hx)⟩
    rw [List.range'_succ, List.map_cons, List.foldlM_cons, h1, ok_bind, h4]

/-! ## States -/

theorem inv_next {D : Source} {Q : Nat} {A : Aut} (h : Inv D Q (2 ^ D.ap.length) A) (hQ : (Q : Int) ∈ A.nodes) : Inv D (Q + 1) 0 A := by
  refine ⟨h.autType, h.start, h.ap, h.nodes, ?_, ?_⟩
  · intro k hk
    rcases Nat.lt_succ_iff_lt_or_eq.1 hk with hk | rfl
    · exact h.seen k hk
    · exact hQ
  · intro x y
    rw [h.edges x y]
    by_cases h0 : 0 ≤ x
    · simp only [h0, if_true]
      congr 1
      rcases Nat.lt_trichotomy x.toNat Q with hx | hx | hx
      · rw [if_pos hx, if_pos (by omega)]
      · rw [if_neg (by omega), if_pos hx, if_pos (by omega)]
      · rw [if_neg (by omega), if_neg (by omega), if_neg (by omega), ite_self]
    · simp only [h0, if_false]

theorem readState_step {D : Source} (hD : D.Ok) {Q : Nat} (hQ : Q < D.n) {A : Aut} (h : Inv D Q 0 A) {F : List (Option Pair)}
    (hF : A.F = some F) (hl : F.length = D.pairs) (hP : ∀ i < D.pairs, ∃ o, F[i]? = some o ∧ PairOk (sigs D Q) i o) (last : Int) (c : Nat) :
    ∃ A' F', (stateWords D Q).foldlM readLine ⟨some A, last, c⟩ = .ok ⟨some A', Q, 2 ^ D.ap.length⟩ ∧ Inv D (Q + 1) 0 A' ∧
      A'.F = some F' ∧ F'.length = D.pairs ∧ ∀ i < D.pairs, ∃ o, F'[i]? = some o ∧ PairOk (sigs D (Q + 1)) i o := by
  have e1 : readLine ⟨some A, last, c⟩ (c!"State:" :: digitsOf Q :: D.note Q) =
      .ok ⟨some { A with nodes := addTo A.nodes Q }, Q, 0⟩ := by
    have hcol : ¬ ((c!"State:").getLast? ≠ some ':' ∧ (digitsOf Q :: D.note Q).length = 2) := by
      rintro ⟨h, _⟩; exact h (by decide)
    simp only [readLine]
    rw [if_neg hcol, if_neg (by decide), if_neg (by decide), if_neg (by decide), if_neg (by decide), if_neg (by decide), if_pos trivial]
    simp only [item, List.getElem?_cons_succ, List.getElem?_cons_zero, ok_bind, toInt_digits, attr]
  have hs : sigs D (Q + 1) = sigs D Q ++ (D.sig Q).map fun s => (Q, s) := by
    simp [sigs, List.range_succ]
  obtain ⟨F', h1, h2, h3⟩ := readSigs D Q (D.sig Q) { A with nodes := addTo A.nodes Q } F hF hl (sigs D Q) hP (hD.sig Q hQ)
  rw [← hs] at h3
  have e2 : readLine ⟨some { A with nodes := addTo A.nodes Q }, Q, 0⟩ (c!"Acc-Sig:" :: (D.sig Q).map sigWord) =
      .ok ⟨some { A with nodes := addTo A.nodes Q, F := some F' }, Q, 0⟩ := by
    have hcol : ¬ ((c!"Acc-Sig:").getLast? ≠ some ':' ∧ ((D.sig Q).map sigWord).length = 2) := by
      rintro ⟨h, _⟩; exact h (by decide)
    simp only [readLine]
    rw [if_neg hcol, if_neg (by decide), if_neg (by decide), if_neg (by decide), if_neg (by decide), if_neg (by decide), if_neg (by decide),
      if_pos trivial]
    by_cases hn : (D.sig Q).map sigWord = []
    · rw [if_pos hn]
      rw [hn] at h1
      have : F' = F := by
        have := congrArg (fun r : Except PyErr Aut => match r with | .ok a => a.F | .error _ => none) h1
        simp only [List.foldlM_nil, pure_eq_ok, hF] at this
        exact (Option.some.inj this).symm
      rw [this, ← hF]
    · rw [if_neg hn]
      simp only [attr, ok_bind, h1]
  have hI : Inv D Q 0 { A with nodes := addTo A.nodes Q, F := some F' } := by
    refine ⟨h.autType, h.start, h.ap, ?_, ?_, h.edges⟩
    · intro x hx
      rcases mem_addTo.1 hx with hx | rfl
      · exact h.nodes x hx
      · exact ⟨Q, hQ, rfl⟩
    · intro k hk
      exact mem_addTo.2 (Or.inl (h.seen k hk))
  obtain ⟨A2, h4, h5, h6, h7⟩ := readTranses hD hQ (2 ^ D.ap.length) 0 (by omega) _ hI
  refine ⟨A2, F', ?_, ?_, h6, h2, h3⟩
  · rw [stateWords, List.foldlM_cons, e1, ok_bind, List.foldlM_cons, e2, ok_bind, List.range_eq_range', h4]
  · exact inv_next h5 (h7 _ (mem_addTo.2 (Or.inr rfl)))

theorem readStates {D : Source} (hD : D.Ok) {A : Aut} (h : Inv D 0 0 A) {F : List (Option Pair)}
    (hF : A.F = some F) (hl : F.length = D.pairs) (hP : ∀ i < D.pairs, ∃ o, F[i]? = some o ∧ PairOk [] i o) :
    ∀ n ≤ D.n, ∃ s A' F', ((List.range n).flatMap (stateWords D)).foldlM readLine ⟨some A, -1, 0⟩ = .ok s ∧ s.A = some A' ∧
      Inv D n 0 A' ∧ A'.F = some F' ∧ F'.length = D.pairs ∧ ∀ i < D.pairs, ∃ o, F'[i]? = some o ∧ PairOk (sigs D n) i o := by
  intro n
  induction n with
  | zero => intro _; exact ⟨_, A, F, rfl, rfl, h, hF, hl, hP⟩
  | succ n ih =>
    intro hn
    obtain ⟨s, A1, F1, h1, h2, h3, h4, h5, h6⟩ := ih (by omega)
    obtain ⟨A2, F2, h7, h8⟩ := readState_step hD (by omega) h3 h4 h5 h6 s.last s.counter
    refine ⟨⟨some A2, n, 2 ^ D.ap.length⟩, A2, F2, ?_, rfl, h8⟩
    rw [List.range_succ, List.flatMap_append, List.foldlM_append, h1, ok_bind]
    have : s = ⟨some A1, s.last, s.counter⟩ := by rw [← h2]
    rw [this]
    simpa using h7

/-! ## Lines -/

theorem readLine_skip (s : St) (w : List (List Char)) (h : ¬ (w ≠ [] ∧ w.head? ≠ some c!"Comment:")) : readLine s w = .ok s := by
  cases w with
  | nil => rfl
  | cons p rest =>
    have hp : p = c!"Comment:" := by
      by_contra hp
      exact h ⟨by simp, by simpa using hp⟩
    subst hp
    have hcol : ¬ ((c!"Comment:").getLast? ≠ some ':' ∧ rest.length = 2) := by
      rintro ⟨h, _⟩; exact h (by decide)
    simp only [readLine]
    rw [if_neg hcol, if_pos trivial]

theorem foldlM_filter (ws : List (List (List Char))) : ∀ s : St, ws.foldlM readLine s =
    (ws.filter fun w => decide (w ≠ [] ∧ w.head? ≠ some c!"Comment:")).foldlM readLine s := by
  induction ws with
  | nil => intro s; rfl
  | cons w ws ih =>
    intro s
    rw [List.foldlM_cons]
    by_cases h : w ≠ [] ∧ w.head? ≠ some c!"Comment:"
    · rw [List.filter_cons_of_pos (by simpa using h), List.foldlM_cons]
      congr 1
      funext s
      exact ih s
    · rw [List.filter_cons_of_neg (by simpa using h), readLine_skip s w h, ok_bind, ih]

theorem readHead {D : Source} (hD : D.Ok) : (headWords D).foldlM readLine {} =
    .ok ⟨some { autType := D.kind, F := some (List.replicate D.pairs none), start := some (D.start : Int), ap := some D.ap }, -1, 0⟩ := by
  have e1 : readLine {} [D.kind, D.version, D.edgeType] = .ok ⟨some { autType := D.kind }, -1, 0⟩ := by
    simp only [readLine]
    rw [if_pos ⟨hD.kind, rfl⟩]
  have e2 : ∀ s, readLine s [c!"States:", digitsOf D.n] = .ok s := by
    intro s
    simp only [readLine]
    rw [if_neg (by simp), if_neg (by decide), if_pos trivial]
    simp only [item, List.getElem?_cons_succ, List.getElem?_cons_zero, ok_bind, toInt_digits]
  have e3 : ∀ A : Aut, readLine ⟨some A, -1, 0⟩ [c!"Acceptance-Pairs:", digitsOf D.pairs] =
      .ok ⟨some { A with F := some (List.replicate D.pairs none) }, -1, 0⟩ := by
    intro A
    simp only [readLine]
    rw [if_neg (by simp), if_neg (by decide), if_neg (by decide), if_pos trivial]
    simp only [item, List.getElem?_cons_succ, List.getElem?_cons_zero, ok_bind, toInt_digits, attr, Int.toNat_natCast]
  have e4 : ∀ A : Aut, readLine ⟨some A, -1, 0⟩ [c!"Start:", digitsOf D.start] =
      .ok ⟨some { A with start := some (D.start : Int) }, -1, 0⟩ := by
    intro A
    simp only [readLine]
    rw [if_neg (by simp), if_neg (by decide), if_neg (by decide), if_neg (by decide), if_pos trivial]
    simp only [item, List.getElem?_cons_succ, List.getElem?_cons_zero, ok_bind, toInt_digits, attr]
  have hap : (D.ap.map fun x => '"' :: x ++ ['"']).map unquote = D.ap := by
    rw [List.map_map]
    conv_rhs => rw [← List.map_id D.ap]
    exact List.map_congr_left fun x hx => unquote_quote (hD.ap x hx)
  have e5 : ∀ A : Aut, readLine ⟨some A, -1, 0⟩ (c!"AP:" :: digitsOf D.ap.length :: D.ap.map fun x => '"' :: x ++ ['"']) =
      .ok ⟨some { A with ap := some D.ap }, -1, 0⟩ := by
    intro A
    have hcol : ¬ ((c!"AP:").getLast? ≠ some ':' ∧ (digitsOf D.ap.length :: D.ap.map fun x => '"' :: x ++ ['"']).length = 2) := by
      rintro ⟨h, _⟩; exact h (by decide)
    simp only [readLine]
    rw [if_neg hcol, if_neg (by decide), if_neg (by decide), if_neg (by decide), if_neg (by decide), if_pos trivial]
    simp only [item, List.getElem?_cons_succ, List.getElem?_cons_zero, ok_bind, toInt_digits, attr, List.drop_succ_cons, List.drop_zero]
    rw [hap, if_pos rfl]
  have e6 : ∀ A : Aut, readLine ⟨some A, -1, 0⟩ [c!"---"] = .ok ⟨some A, -1, 0⟩ := by
    intro A
    simp only [readLine]
    rw [if_neg (by decide), if_neg (by decide), if_neg (by decide), if_neg (by decide), if_neg (by decide), if_neg (by decide),
      if_neg (by decide), if_neg (by decide), if_neg (by decide)]
  simp only [headWords, List.foldlM_cons, List.foldlM_nil, e1, e2, e3, e4, e5, e6, ok_bind, pure_eq_ok]

/-- **C142.** For every text of a deterministic automaton that `ltl2dstar` prints, with any space, empty lines and comments,
the reader returns an automaton of the same kind, with the same start state, propositions and states. There is an edge from
`q` to `r` exactly if the automaton goes from `q` to `r` with some subset of the propositions. The subsets of the edge are those with
which it does, in the order of their numbers, and the formula is the disjunction of their descriptions. The acceptance pairs are
those of the signatures, and `None` for a pair that is in no signature. -/
theorem readdstar_correct {D : Source} (hD : D.Ok) {lines : List (List Char)} (h : TextOf lines D) :
    ∃ A F, readdstar lines = .ok (some A) ∧ A.autType = D.kind ∧ A.start = some (D.start : Int) ∧ A.ap = some D.ap ∧
      (∀ x, x ∈ A.nodes ↔ ∃ k < D.n, x = (k : Int)) ∧
      (∀ x y, (A.edges.get? (x, y)).isSome → ∃ q < D.n, ∃ r < D.n, x = (q : Int) ∧ y = (r : Int)) ∧
      (∀ q < D.n, ∀ r : Nat, A.edges.get? ((q : Int), (r : Int)) =
        match (List.range (2 ^ D.ap.length)).filter fun a => D.next q a = r with
        | [] => none
        | l => some ⟨dnfText (l.map (literals D.ap)), l.map (subset D.ap)⟩) ∧
      A.F = some F ∧ F.length = D.pairs ∧ ∀ i < D.pairs, ∃ o, F[i]? = some o ∧ PairOk (sigs D D.n) i o := by
  have h0 : Inv D 0 0 { autType := D.kind, F := some (List.replicate D.pairs none), start := some (D.start : Int), ap := some D.ap } := by
    refine ⟨rfl, rfl, rfl, by simp, by simp, ?_⟩
    intro x y
    simp [edgeOf, letters]
  obtain ⟨s, A, F, h1, h2, h3, h4, h5, h6⟩ := readStates hD h0 rfl (by simp) (by
    intro i hi
    exact ⟨none, by simp [hi], ⟨fun _ e he => by simp at he, fun _ => rfl⟩, fun p hp => by cases hp⟩) D.n (Nat.le_refl _)
  refine ⟨A, F, ?_, h3.autType, h3.start, h3.ap, ?_, ?_, ?_, h4, h5, h6⟩
  · have ht : lines.takeWhile (· ≠ []) = lines := by
      rw [List.takeWhile_eq_self_iff]
      intro l hl
      simpa using h.1 l hl
    rw [readdstar, ht, foldlM_filter, h.2, fileWords, List.foldlM_append, readHead hD, ok_bind, h1, ok_bind, h2]
  · intro x
    exact ⟨h3.nodes x, fun ⟨k, hk, e⟩ => e ▸ h3.seen k hk⟩
  · intro x y hs
    rw [h3.edges x y] at hs
    by_cases hx : 0 ≤ x
    · rw [if_pos hx] at hs
      by_cases hq : x.toNat < D.n
      · rw [if_pos hq, edgeOf] at hs
        cases hl : letters D x.toNat y (2 ^ D.ap.length) with
        | nil => rw [hl] at hs; simp at hs
        | cons a l =>
          have ha : a ∈ letters D x.toNat y (2 ^ D.ap.length) := by rw [hl]; simp
          simp only [letters, List.mem_filter, List.mem_range, decide_eq_true_eq] at ha
          exact ⟨x.toNat, hq, D.next x.toNat a, hD.next _ hq _ ha.1, by omega, ha.2.symm⟩
      · rw [if_neg hq, ite_self, edgeOf] at hs
        simp [letters] at hs
    · rw [if_neg hx] at hs
      cases hs
  · intro q hq r
    rw [h3.edges, if_pos (Int.natCast_nonneg q), Int.toNat_natCast, if_pos hq, edgeOf]
    have : letters D q (r : Int) (2 ^ D.ap.length) = (List.range (2 ^ D.ap.length)).filter fun a => D.next q a = r := by
      apply List.filter_congr
      intro a _
      simp
    rw [this]
    cases (List.range (2 ^ D.ap.length)).filter fun a => decide (D.next q a = r) with
    | nil => rfl
    | cons a l => rfl

/-- **C142.** For every state and every set of propositions that are true, the formula of exactly one edge holds: that to the successor
for the subset. -/
theorem formula_step (D : Source) (q r : Nat) (v : List Char → Bool) :
    Holds (((List.range (2 ^ D.ap.length)).filter fun a => D.next q a = r).map (literals D.ap)) v ↔
      D.next q (Nat.ofBits fun i : Fin D.ap.length => v D.ap[i]) = r := by
  have hb : ∀ a < 2 ^ D.ap.length, (∀ l ∈ literals D.ap a, v l.2 = l.1) ↔ (Nat.ofBits fun i : Fin D.ap.length => v D.ap[i]) = a := by
    intro a ha
    simp only [literals, List.mem_map, List.mem_range, forall_exists_index, and_imp]
    constructor
    · intro h
      apply Nat.eq_of_testBit_eq
      intro i
      by_cases hi : i < D.ap.length
      · rw [Nat.testBit_ofBits_lt _ _ hi]
        have := h _ i hi rfl
        simpa [hi] using this
      · rw [Nat.testBit_ofBits_ge _ _ (by omega)]
        exact (Nat.testBit_lt_two_pow (Nat.lt_of_lt_of_le ha (Nat.pow_le_pow_right (by omega) (by omega)))).symm
    · rintro rfl l i hi rfl
      simp only []
      rw [Nat.testBit_ofBits_lt _ _ hi]
      simp [hi]
  simp only [Holds, List.mem_map, List.mem_filter, List.mem_range, decide_eq_true_eq, exists_exists_and_eq_and]
  constructor
  · rintro ⟨a, ⟨ha, hr⟩, h⟩
    rw [(hb a ha).1 h, hr]
  · intro h
    exact ⟨_, ⟨Nat.ofBits_lt_two_pow _, h⟩, (hb _ (Nat.ofBits_lt_two_pow _)).2 rfl⟩

/-! ## Language -/

/-- The run of the automaton on a word, given by the numbers of subsets. -/
def Source.run (D : Source) (w : Nat → Nat) : Nat → Nat
  | 0 => D.start
  | i + 1 => D.next (D.run w i) (w i)

/-- Infinitely often. -/
def Often (P : Nat → Prop) : Prop := ∀ N, ∃ k ≥ N, P k

/-- The automaton accepts a word with the condition of Rabin: for some pair, states of `L` occur infinitely often, those of `U` do not. -/
def Source.Rabin (D : Source) (w : Nat → Nat) : Prop :=
  ∃ i < D.pairs, Often (fun k => (true, i) ∈ D.sig (D.run w k)) ∧ ¬ Often (fun k => (false, i) ∈ D.sig (D.run w k))

/-- The condition of Streett. -/
def Source.Streett (D : Source) (w : Nat → Nat) : Prop :=
  ∀ i < D.pairs, Often (fun k => (true, i) ∈ D.sig (D.run w k)) → Often (fun k => (false, i) ∈ D.sig (D.run w k))

/-- A run of the automaton that is read: from its start state, by edges that have the subsets of the word. -/
def Aut.Run (A : Aut) (w : Nat → List (List Char)) (ρ : Nat → Int) : Prop :=
  A.start = some (ρ 0) ∧ ∀ i, ∃ e, A.edges.get? (ρ i, ρ (i + 1)) = some e ∧ w i ∈ e.subsets

/-- The conditions on the pairs that are read; a pair that is `None` has no states. -/
def Aut.Rabin (A : Aut) (ρ : Nat → Int) : Prop :=
  ∃ F p, A.F = some F ∧ some p ∈ F ∧ Often (fun k => ρ k ∈ p.L) ∧ ¬ Often (fun k => ρ k ∈ p.U)

/-- The condition of Streett on the pairs that are read. -/
def Aut.Streett (A : Aut) (ρ : Nat → Int) : Prop :=
  ∀ F p, A.F = some F → some p ∈ F → Often (fun k => ρ k ∈ p.L) → Often (fun k => ρ k ∈ p.U)

theorem subset_inj {ap : List (List Char)} (hap : ap.Nodup) {a b : Nat} (ha : a < 2 ^ ap.length) (hb : b < 2 ^ ap.length)
    (h : subset ap a = subset ap b) : a = b := by
  have key : ∀ (a i : Nat) (hi : i < ap.length), ap[i] ∈ subset ap a ↔ a.testBit i = true := by
    intro a i hi
    simp only [subset, List.mem_map, List.mem_filter, List.mem_range]
    constructor
    · rintro ⟨j, ⟨hj, hb⟩, e⟩
      rw [List.getD_eq_getElem?_getD, List.getElem?_eq_getElem hj] at e
      have : j = i := (List.Nodup.getElem_inj_iff hap).1 e
      rwa [this] at hb
    · intro hb
      exact ⟨i, ⟨hi, hb⟩, by rw [List.getD_eq_getElem?_getD, List.getElem?_eq_getElem hi]; rfl⟩
  apply Nat.eq_of_testBit_eq
  intro i
  by_cases hi : i < ap.length
  · rw [Bool.eq_iff_iff, ← key a i hi, ← key b i hi, h]
  · have hle : 2 ^ ap.length ≤ 2 ^ i := Nat.pow_le_pow_right (by omega) (by omega)
    rw [Nat.testBit_lt_two_pow (Nat.lt_of_lt_of_le ha hle), Nat.testBit_lt_two_pow (Nat.lt_of_lt_of_le hb hle)]

/-- **C142.** The automaton that is read has exactly one run on each word over the subsets of the propositions, the run of the given
automaton, and accepts the same words, both with the condition of Rabin and with that of Streett. -/
theorem readdstar_language {D : Source} (hD : D.Ok) (hs : D.start < D.n) (hap : D.ap.Nodup) {lines : List (List Char)} (h : TextOf lines D) :
    ∃ A, readdstar lines = .ok (some A) ∧ ∀ w : Nat → Nat, (∀ i, w i < 2 ^ D.ap.length) → ∀ ρ : Nat → Int,
      (A.Run (fun i => subset D.ap (w i)) ρ ↔ ∀ i, ρ i = (D.run w i : Int)) ∧
      (A.Run (fun i => subset D.ap (w i)) ρ → (A.Rabin ρ ↔ D.Rabin w) ∧ (A.Streett ρ ↔ D.Streett w)) := by
  obtain ⟨A, F, h1, h2, h3, h4, h5, h6, h7, h8, h9, h10⟩ := readdstar_correct hD h
  refine ⟨A, h1, fun w hw ρ => ?_⟩
  have hrun : ∀ i, D.run w i < D.n := by
    intro i
    induction i with
    | zero => exact hs
    | succ i ih => exact hD.next _ ih _ (hw i)
  have hedge : ∀ q < D.n, ∀ a < 2 ^ D.ap.length, ∀ y : Int,
      (∃ e, A.edges.get? ((q : Int), y) = some e ∧ subset D.ap a ∈ e.subsets) ↔ y = (D.next q a : Int) := by
    intro q hq a ha y
    constructor
    · rintro ⟨e, he, hm⟩
      obtain ⟨_, _, r, _, _, rfl⟩ := h6 _ _ (by rw [he]; rfl)
      rw [h7 q hq r] at he
      have hin : ∀ l : List Nat, (match l with | [] => none | l => some (⟨dnfText (l.map (literals D.ap)), l.map (subset D.ap)⟩ : Edge)) =
          some e → e.subsets = l.map (subset D.ap) := by
        intro l hl
        cases l with
        | nil => cases hl
        | cons b l => injection hl with hl; rw [← hl]
      rw [hin _ he] at hm
      obtain ⟨b, hb, hba⟩ := List.mem_map.1 hm
      simp only [List.mem_filter, List.mem_range, decide_eq_true_eq] at hb
      rw [← hb.2, subset_inj hap hb.1 ha hba]
    · rintro rfl
      rw [h7 q hq]
      have hin : a ∈ (List.range (2 ^ D.ap.length)).filter fun b => D.next q b = D.next q a := by
        simp [ha]
      cases hl : (List.range (2 ^ D.ap.length)).filter fun b => decide (D.next q b = D.next q a) with
      | nil => rw [hl] at hin; cases hin
      | cons b l =>
        rw [hl] at hin
        exact ⟨_, rfl, List.mem_map_of_mem hin⟩
  have hiff : A.Run (fun i => subset D.ap (w i)) ρ ↔ ∀ i, ρ i = (D.run w i : Int) := by
    constructor
    · rintro ⟨hst, hstep⟩ i
      induction i with
      | zero =>
        rw [h3] at hst
        exact (Option.some.inj hst).symm
      | succ i ih =>
        have := hstep i
        rw [ih] at this
        exact (hedge _ (hrun i) _ (hw i) _).1 this
    · intro hr
      refine ⟨by rw [h3, hr 0]; rfl, fun i => ?_⟩
      rw [hr i, hr (i + 1)]
      exact (hedge _ (hrun i) _ (hw i) _).2 rfl
  refine ⟨hiff, fun hR => ?_⟩
  have hr := hiff.1 hR
  -- the sets of a pair contain a state of the run exactly if its signature says so
  have hmem : ∀ (b : Bool) (i : Nat) (k : Nat),
      (∃ e ∈ sigs D D.n, e.2 = (b, i) ∧ (e.1 : Int) = ρ k) ↔ (b, i) ∈ D.sig (D.run w k) := by
    intro b i k
    rw [hr k]
    simp only [sigs, List.mem_flatMap, List.mem_range, List.mem_map]
    constructor
    · rintro ⟨e, ⟨q, hq, s, hs, rfl⟩, he, hq'⟩
      have he : s = (b, i) := he
      have hq' : q = D.run w k := Int.ofNat.inj hq'
      rw [← he, ← hq']; exact hs
    · intro hb
      exact ⟨(D.run w k, b, i), ⟨_, hrun k, _, hb, rfl⟩, rfl, rfl⟩
  have hnone : ∀ i, (∀ e ∈ sigs D D.n, e.2.2 ≠ i) → ∀ b k, (b, i) ∉ D.sig (D.run w k) := by
    intro i hi b k hb
    obtain ⟨e, he, he', _⟩ := (hmem b i k).2 hb
    exact hi e he (congrArg Prod.snd he')
  have hsome : ∀ i < D.pairs, ∀ p, F[i]? = some (some p) →
      (Often (fun k => ρ k ∈ p.L) ↔ Often (fun k => (true, i) ∈ D.sig (D.run w k))) ∧
      (Often (fun k => ρ k ∈ p.U) ↔ Often (fun k => (false, i) ∈ D.sig (D.run w k))) := by
    intro i hi p hp
    obtain ⟨o, ho, _, hL⟩ := h10 i hi
    rw [ho] at hp
    obtain ⟨hL, hU⟩ := hL p (Option.some.inj hp)
    simp only [Often, hL, hU, hmem, and_self]
  constructor
  · constructor
    · rintro ⟨F', p, hF', hp, ho⟩
      rw [h8] at hF'
      have hF' := Option.some.inj hF'
      subst hF'
      obtain ⟨i, hi, hip⟩ := List.getElem_of_mem hp
      have hs := hsome i (by omega) p (by rw [List.getElem?_eq_getElem hi, hip])
      rw [hs.1, hs.2] at ho
      exact ⟨i, by omega, ho⟩
    · rintro ⟨i, hi, ho⟩
      obtain ⟨o, ho', hn, _⟩ := h10 i hi
      cases o with
      | none =>
        obtain ⟨k, _, hk⟩ := ho.1 0
        exact absurd hk (hnone i (hn.1 rfl) _ _)
      | some p =>
        rw [← (hsome i hi p ho').1, ← (hsome i hi p ho').2] at ho
        exact ⟨F, p, h8, List.mem_of_getElem? ho', ho⟩
  · constructor
    · intro hA i hi ho
      obtain ⟨o, ho', hn, _⟩ := h10 i hi
      cases o with
      | none =>
        obtain ⟨k, _, hk⟩ := ho 0
        exact absurd hk (hnone i (hn.1 rfl) _ _)
      | some p =>
        rw [← (hsome i hi p ho').2]
        exact hA F p h8 (List.mem_of_getElem? ho') ((hsome i hi p ho').1.2 ho)
    · intro hS F' p hF' hp ho
      rw [h8] at hF'
      have hF' := Option.some.inj hF'
      subst hF'
      obtain ⟨i, hi, hip⟩ := List.getElem_of_mem hp
      have hs := hsome i (by omega) p (by rw [List.getElem?_eq_getElem hi, hip])
      rw [hs.2]
      exact hS i (by omega) (hs.1.1 ho)

/-! ### Example -/

/-- The automaton for `p` until `q`; the pair 1 is in no signature. -/
def untilSource : Source where
  kind := c!"DRA"
  version := c!"v2"
  edgeType := c!"explicit"
  n := 3
  pairs := 2
  start := 0
  ap := [c!"p", c!"q"]
  sig := fun q => if q = 1 then [(true, 0)] else if q = 2 then [(false, 0)] else []
  next := fun q a => if q = 0 then (if a = 0 then 2 else if a = 1 then 0 else 1) else q
  note := fun q => if q = 0 then [c!"\"pUq\""] else []

def untilText : List (List Char) := [
  c!"DRA v2 explicit\n", c!"Comment: \"Until\" States: 7\n", c!"States: 3\n", c!"Acceptance-Pairs: 2\n", c!"Start: 0\n",
  c!"AP: 2 \"p\" \"q\"\n", c!"---\n",
  c!"State: 0 \"pUq\"\n", c!"Acc-Sig:\n", c!"2\n", c!"0\n", c!"1\n", c!"1\n", c!"\n",
  c!"State: 1\n", c!"Acc-Sig: +0\n", c!"1\n", c!"1\n", c!"1\n", c!"1\n",
  c!"State:  2\n", c!"Acc-Sig: -0\n", c!" 2\n", c!"2\n", c!"2\n", c!"2\n"]

theorem until_ok : untilSource.Ok ∧ TextOf untilText untilSource ∧ untilSource.start < untilSource.n ∧ untilSource.ap.Nodup := by
  exact ⟨⟨by decide, by decide, by decide, by decide⟩, ⟨by decide +kernel, by decide +kernel⟩, by decide, by decide⟩

/-- The word with `p` and then `q` is accepted, and that with `p` forever is not. -/
example : untilSource.Rabin (fun i => if i = 0 then 1 else 2) ∧ ¬ untilSource.Rabin (fun _ => 1) := by
  have h1 : ∀ k, untilSource.run (fun i => if i = 0 then 1 else 2) (k + 2) = 1 := by
    intro k
    induction k with
    | zero => decide
    | succ k ih => rw [Source.run, ih]; rfl
  have h2 : ∀ k, untilSource.run (fun _ => 1) k = 0 := by
    intro k
    induction k with
    | zero => rfl
    | succ k ih => rw [Source.run, ih]; rfl
  refine ⟨⟨0, by decide, fun N => ⟨N + 2, by omega, by beta_reduce; rw [h1]; decide⟩, fun h => ?_⟩, ?_⟩
  · obtain ⟨k, hk, h⟩ := h 2
    obtain ⟨j, rfl⟩ := Nat.exists_eq_add_of_le' hk
    rw [h1] at h
    revert h; decide
  · rintro ⟨i, _, h, _⟩
    obtain ⟨k, _, h⟩ := h 0
    rw [h2] at h
    cases h

def untilAut : Option Aut :=
  match readdstar untilText with
  | .ok a => a
  | .error _ => none

example : (untilAut.bind (·.edges.get? (0, 1))) =
      some ⟨c!"(!p & q) | (p & q)", [[c!"q"], [c!"p", c!"q"]]⟩ ∧
    (untilAut.bind (·.edges.get? (1, 0))) = none ∧ (untilAut.bind (·.F)) = some [some ⟨[1], [2]⟩, none] := by
  decide +kernel

end Dstar
end Tulip
