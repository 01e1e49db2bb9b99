import Verif.Gridworld.Spec
import Verif.Gridworld.WorldProps
import Verif.Spec.GRSpecProps
import Verif.Synth.ToSpecProps

/-!
# Specifications of grid worlds (C51)

The traces that satisfy the specification of a grid world are the traces that encode legal trajectories.
-/

namespace Tulip

namespace Gw

open Synth (mapE FormFor UnitFor Means IsName)

/-! ### Specification -/

/-- The cell is inside the grid. -/
def Inside (A : Arr) (k : Int × Int) : Prop := 0 ≤ k.1 ∧ k.1 < A.rows ∧ 0 ≤ k.2 ∧ k.2 < A.cols

/-- The trajectory starts in an initial cell, each of its steps leads to a free cell that is the same cell or shares a
side with it, and it visits every goal infinitely often. -/
def Legal (A : Arr) (inits goals : List (Int × Int)) (p : Nat → Int × Int) : Prop :=
  p 0 ∈ inits ∧ (∀ t, Free A (p (t + 1)) ∧ (p (t + 1) = p t ∨ Adjacent (p t) (p (t + 1)))) ∧
    ∀ g ∈ goals, ∀ t, ∃ t', t ≤ t' ∧ p t' = g

/-- The variable of the row. -/
def rowVar (pre : List Char) : String := String.ofList (pre ++ c!"_r")

/-- The variable of the column. -/
def colVar (pre : List Char) : String := String.ofList (pre ++ c!"_c")

/-- The variable of a cell. -/
def cellVar (pre : List Char) (i j : Int) : String :=
  String.ofList (pre ++ c!"_" ++ intChars i ++ c!"_" ++ intChars j)

/-- The values of the two integer variables are the coordinates. -/
def EncodesInt (pre : List Char) (σ : Trace) (p : Nat → Int × Int) : Prop :=
  ∀ t, σ t (rowVar pre) = .int (p t).1 ∧ σ t (colVar pre) = .int (p t).2

/-- The values of the two integer variables are in their domains. -/
def InDomain (pre : List Char) (A : Arr) (σ : Trace) : Prop :=
  ∀ t, ∃ r c : Int, σ t (rowVar pre) = .int r ∧ 0 ≤ r ∧ r ≤ A.rows - 1 ∧
    σ t (colVar pre) = .int c ∧ 0 ≤ c ∧ c ≤ A.cols - 1

/-- Of the Boolean variables of the cells, exactly the one of the current cell is true. -/
def EncodesBool (pre : List Char) (offset : Int × Int) (A : Arr) (σ : Trace) (p : Nat → Int × Int) : Prop :=
  ∀ t k, Inside A k → (σ t (cellVar pre (k.1 + offset.1) (k.2 + offset.2)) = .bool true ↔ k = p t)

/-- The side of the specification that the trajectories of the world constrain. -/
def sideOf (controlled : Bool) (s : GRSpec) : Trace → Prop :=
  if controlled then s.Guarantee else s.Assumption

/-- The other side has no constraints. -/
def OtherEmpty (controlled : Bool) (s : GRSpec) : Prop :=
  if controlled then s.envVars = [] ∧ s.envInit = [] ∧ s.envSafety = [] ∧ s.envProg = []
  else s.sysVars = [] ∧ s.sysInit = [] ∧ s.sysSafety = [] ∧ s.sysProg = []

/-- The variables of the side. -/
def varsOf (controlled : Bool) (s : GRSpec) : Dict String Dom := if controlled then s.sysVars else s.envVars

/-! ### Names -/

theorem isName_append {pre suf : List Char} (hp : IsIdent (String.ofList pre)) (hu : '_' ∈ suf)
    (hs : ∀ d ∈ suf, ('0' ≤ d ∧ d ≤ '9') ∨ d = '_' ∨ d = 'r' ∨ d = 'c') :
    IsName (String.ofList (pre ++ suf)) := by
  obtain ⟨c, cs, e, h1, h2⟩ := hp
  rw [String.toList_ofList] at e
  refine ⟨⟨c, cs ++ suf, by rw [String.toList_ofList, e]; rfl, h1, ?_⟩, ?_⟩
  · intro d hd
    rcases List.mem_append.1 hd with hd | hd
    · exact h2 d hd
    · rcases hs d hd with h | h | h | h
      · exact Or.inr (Or.inl h)
      · exact Or.inr (Or.inr (Or.inr (Or.inl h)))
      · subst h; exact Or.inl (by decide)
      · subst h; exact Or.inl (by decide)
  · unfold IsReserved
    rw [String.toList_ofList]
    rintro (h | h)
    · have : '_' ∈ pre ++ suf := List.mem_append_right _ hu
      simp only [List.mem_cons, List.not_mem_nil, or_false] at h
      rcases h with h | h | h | h | h | h | h | h <;> rw [h] at this <;> revert this <;> decide
    · have : '_' ∈ (pre ++ suf).map Char.toUpper :=
        List.mem_map.2 ⟨'_', List.mem_append_right _ hu, by decide⟩
      simp only [List.mem_cons, List.not_mem_nil, or_false] at h
      rcases h with h | h <;> rw [h] at this <;> revert this <;> decide

theorem isName_rowVar {pre : List Char} (hp : IsIdent (String.ofList pre)) : IsName (rowVar pre) :=
  isName_append hp (by simp) (by simp)

theorem isName_colVar {pre : List Char} (hp : IsIdent (String.ofList pre)) : IsName (colVar pre) :=
  isName_append hp (by simp) (by simp)

theorem isDig_char {c : Char} (h : isDig c = true) : '0' ≤ c ∧ c ≤ '9' := by
  simp only [isDig, Bool.and_eq_true, decide_eq_true_eq] at h
  exact ⟨Char.le_def.2 (UInt32.le_iff_toNat_le.2 h.1), Char.le_def.2 (UInt32.le_iff_toNat_le.2 h.2)⟩

theorem isName_cellVar {pre : List Char} (hp : IsIdent (String.ofList pre)) {i j : Int} (hi : 0 ≤ i)
    (hj : 0 ≤ j) : IsName (cellVar pre i j) := by
  obtain ⟨m, rfl⟩ := Int.eq_ofNat_of_zero_le hi
  obtain ⟨n, rfl⟩ := Int.eq_ofNat_of_zero_le hj
  have := isName_append (suf := c!"_" ++ digitsOf m ++ c!"_" ++ digitsOf n) hp (by simp) (by
    intro d hd
    simp only [List.mem_append, List.mem_singleton] at hd
    rcases hd with ((h | h) | h) | h
    · exact Or.inr (Or.inl h)
    · exact Or.inl (isDig_char (digitsOf_all m d h))
    · exact Or.inr (Or.inl h)
    · exact Or.inl (isDig_char (digitsOf_all n d h)))
  have e : cellVar pre (m : Int) (n : Int) =
      String.ofList (pre ++ (c!"_" ++ digitsOf m ++ c!"_" ++ digitsOf n)) := by
    unfold cellVar
    simp only [intChars, List.append_assoc]
  rw [e]
  exact this

/-! ### Lists of formulas -/

theorem mapE_ok {α β : Type} {f : α → Except PyErr β} {R : α → β → Prop} {l : List α}
    (h : ∀ x ∈ l, ∃ y, f x = .ok y ∧ R x y) : ∃ ys, mapE f l = .ok ys ∧ List.Forall₂ R l ys := by
  induction l with
  | nil => exact ⟨[], rfl, .nil⟩
  | cons x l ih =>
    obtain ⟨y, h1, h2⟩ := h x (by simp)
    obtain ⟨ys, h3, h4⟩ := ih fun x hx => h x (by simp [hx])
    exact ⟨y :: ys, by simp only [mapE, h1, h3, ok_bind]; rfl, .cons h2 h4⟩

theorem or_of_forall₂ {α : Type _} {P : α → Trace → Nat → Prop} {xs : List α} {fs : List (List Char)}
    (hne : xs ≠ []) (h : List.Forall₂ (fun x f => UnitFor f (P x)) xs fs) :
    FormFor (joinWith c!" || " fs) (fun σ i => ∃ x ∈ xs, P x σ i) := by
  obtain ⟨ps, h1, h2, h3⟩ := Synth.forall₂_pairs h
  have hps : ps ≠ [] := by rintro rfl; exact hne h1.symm
  have := Synth.form_join_or (f := fun p : α × List Char => p.2) (P := fun p => P p.1) hps h3
  rw [h2] at this
  refine this.congr fun σ i => ?_
  rw [← h1]
  simp only [List.mem_map]
  constructor
  · rintro ⟨p, hp, h⟩; exact ⟨p.1, ⟨p, hp, rfl⟩, h⟩
  · rintro ⟨_, ⟨p, hp, rfl⟩, h⟩; exact ⟨p, hp, h⟩

theorem unit_not_word {s : List Char} {t : Ast} (h : UnitStr s t) (hs : s.head? ≠ some '=') :
    UnitStr (c!"!" ++ s) (.un .not t) := by
  refine ⟨by simpa using h.clean, ?_⟩
  have : lex (c!"!" ++ s) = .un .not :: lex s := by
    rw [List.cons_append, List.nil_append, lex_cons]
    cases s with
    | nil => simp [lexStep]
    | cons c s =>
      have : c ≠ '=' := fun e => hs (by simp [e])
      simp [lexStep, this]
  rw [this]; exact h.reads.un _

theorem not_word {s : List Char} {P : Trace → Nat → Prop} (h : UnitFor s P) (hs : s.head? ≠ some '=') :
    UnitFor (c!"!" ++ s) (fun σ i => ¬ P σ i) := by
  obtain ⟨t, h1, h2⟩ := h.ex
  exact ⟨_, unit_not_word h1 hs, fun σ i => by simp [h2]⟩

/-- A disjunction over several lines. -/
theorem chain_join_nl {x' : Ast} {xs : List (List Char)} {ts : List Ast} {s : List Char}
    (hs : ChainStr (binLevel .or) (s ++ [')']) x') (h : List.Forall₂ UnitStr (xs.map Synth.pstr) ts) :
    ChainStr (binLevel .or) (s ++ [')'] ++ ((xs.map Synth.pstr).map (c!"\n|| " ++ ·)).flatten)
      (foldBin .or x' ts) := by
  induction xs generalizing s x' ts with
  | nil => cases h; simpa [foldBin] using hs
  | cons y ys ih =>
    rw [List.map_cons] at h
    cases h with
    | @cons _ u _ us hy hys =>
      obtain ⟨hc, e, st', h1, h2⟩ := hs
      have step : ChainStr (binLevel .or) (s ++ [')'] ++ c!"\n|| " ++ c!"(" ++ y ++ [')']) (.bin .or x' u) := by
        have hyc := hy.clean
        refine ⟨?_, ?_⟩
        · have h1 : '#' ∉ s := fun hm => hc (by simp [hm])
          have h2 : '#' ∉ y := fun hm => hyc (by simp [Synth.pstr, hm])
          simp [h1, h2]
        have hs' : '#' ∉ s := fun hm => hc (by simp [hm])
        have hl : lex (s ++ [')'] ++ c!"\n|| " ++ c!"(" ++ y ++ [')']) =
            lex (s ++ [')']) ++ .bin .or :: lex (Synth.pstr y) := by
          have e1 : s ++ [')'] ++ c!"\n|| " ++ c!"(" ++ y ++ [')'] =
              s ++ ')' :: ('\n' :: '|' :: '|' :: ' ' :: Synth.pstr y) := by simp [Synth.pstr]
          have h3 := lex_append (c := ')') ('\n' :: '|' :: '|' :: ' ' :: Synth.pstr y) hs' (Or.inl rfl)
          have h4 := lex_append (c := ')') [] hs' (Or.inl rfl)
          have h5 : ∀ r, lex (')' :: r) = .rparen :: lex r := fun r => by simp [lex_cons, lexStep]
          have h6 : ∀ r, lex ('\n' :: r) = lex r := fun r => by rw [lex_cons]; rfl
          rw [e1, h3, h4, h5, h5, h6]
          have h7 := connective_or2.2.2 (Synth.pstr y)
          simp only [List.cons_append, List.nil_append] at h7
          rw [h7]
          simp
        obtain ⟨e2, st2, h3, h4⟩ := hy.reads (.bin .or x' :: []) trivial
        refine ⟨e2, st2, ?_, fun l hl' => ?_⟩
        · rw [hl, prun_append, h1]
          simp only [Option.bind_some, prun, pstep, h2 _ (Nat.le_refl _), h3]
        · have hle : l ≤ 5 := by have := connective_or2.2.1; omega
          rw [h4 l hle, reduceAll]
          have : reduces (binLevel .or) true l = true := by simp [reduces]; omega
          simp [this, reduceAll]
      have := ih step hys
      simpa [foldBin, Synth.pstr] using this

/-- A disjunction over several lines. -/
theorem or_lines {α : Type _} {P : α → Trace → Nat → Prop} {xs : List α} {fs : List (List Char)}
    (hne : xs ≠ []) (h : List.Forall₂ (fun x f => FormFor f (P x)) xs fs) :
    FormFor (joinWith c!"\n|| " (fs.map Synth.pstr)) (fun σ i => ∃ x ∈ xs, P x σ i) := by
  cases h with
  | nil => exact absurd rfl hne
  | @cons x f xs fs hx hxs =>
    obtain ⟨t, ht, hs⟩ := hx.paren.ex
    have hex : ∃ ts, List.Forall₂ UnitStr (fs.map Synth.pstr) ts ∧
        ∀ σ i, (∃ u ∈ ts, Sat σ i u) ↔ ∃ x ∈ xs, P x σ i := by
      clear hne ht hs hx
      induction hxs with
      | nil => exact ⟨[], by simp, by simp⟩
      | cons hy _ ih =>
        obtain ⟨ts, h1, h2⟩ := ih
        obtain ⟨t, h3, h4⟩ := hy.paren.ex
        exact ⟨t :: ts, by simp [h1, h3], fun σ i => by simp [h2, h4]⟩
    obtain ⟨ts, h1, h2⟩ := hex
    have hc := chain_join_nl (s := c!"(" ++ f) (by
      have := ht.chain (L := binLevel .or) (by decide)
      simpa [Synth.pstr] using this) h1
    rw [List.map_cons, joinWith_cons_eq]
    have e : c!"(" ++ f ++ [')'] = Synth.pstr f := by simp [Synth.pstr]
    rw [e] at hc
    exact ⟨hc.clean, _, hc.parse, fun σ i => by simp [sat_foldBin_or, h2, hs]⟩

/-! ### Cells -/

/-- The texts of the cells are formulas that say that the agent is in the cell. -/
structure Texts (w : World) (A : Arr) (nonbool : Bool) (At : Int × Int → Trace → Nat → Prop) : Prop where
  cur : ∀ k, Inside A k → ∃ s, getitem w k false nonbool = .ok s ∧ UnitFor s (At k) ∧
    s.head? ≠ some '='
  nxt : ∀ k, Inside A k → ∃ s, getitem w k true nonbool = .ok s ∧
    UnitFor s (fun σ i => At k σ (i + 1)) ∧ s.head? ≠ some '='

theorem denotes_inside {A : Arr} {k : Int × Int} (h : Inside A k) : Denotes A k k :=
  ⟨h.1, h.2.1, h.2.2.1, h.2.2.2, Or.inl rfl, Or.inl rfl⟩

theorem inside_indices {A : Arr} {k : Int × Int} : k ∈ indices A.rows A.cols ↔ Inside A k :=
  mem_indices _ _ _

/-- The texts with integer variables. -/
theorem texts_int {w : World} {A : Arr} (hw : w.W = some A) (ho : w.offset = (0, 0))
    (hr : IsName (rowVar w.pre)) (hc : IsName (colVar w.pre)) :
    Texts w A true (fun k σ t => σ t (rowVar w.pre) = .int k.1 ∧ σ t (colVar w.pre) = .int k.2) := by
  have fr := fun n => Synth.parse_eq_int hr n
  have fc := fun n => Synth.parse_eq_int hc n
  simp only [rowVar, colVar, String.toList_ofList] at fr fc
  constructor
  · intro k hk
    unfold getitem
    rw [(keyOf_ok hw).2 (denotes_inside hk), ok_bind]
    refine ⟨_, rfl, ?_, by simp⟩
    have := (Synth.form_join_and (f := fun b : Bool => Synth.pstr (if b then w.pre ++ c!"_r" ++ c!" = " ++
      intChars k.1 else w.pre ++ c!"_c" ++ c!" = " ++ intChars k.2)) (xs := [true, false])
      (P := fun b σ t => if b then σ t (rowVar w.pre) = .int k.1 else σ t (colVar w.pre) = .int k.2)
      (by simp) (by
        intro b _
        cases b
        · simpa [colVar] using (fc k.2).paren
        · simpa [rowVar] using (fr k.1).paren)).paren
    refine UnitFor.congr ?_ (fun σ i => and_comm)
    simpa [joinWith, Synth.pstr, ho] using this
  · intro k hk
    unfold getitem
    rw [(keyOf_ok hw).2 (denotes_inside hk), ok_bind]
    refine ⟨_, rfl, ?_, by simp⟩
    have := (Synth.form_join_and (f := fun b : Bool => Synth.pstr (c!"X " ++ Synth.pstr
      (if b then w.pre ++ c!"_r" ++ c!" = " ++ intChars k.1 else w.pre ++ c!"_c" ++ c!" = " ++
      intChars k.2))) (xs := [true, false])
      (P := fun b σ t => if b then σ (t + 1) (rowVar w.pre) = .int k.1
        else σ (t + 1) (colVar w.pre) = .int k.2)
      (by simp) (by
        intro b _
        cases b
        · simpa [colVar] using (fc k.2).next_space_paren.form.paren
        · simpa [rowVar] using (fr k.1).next_space_paren.form.paren)).paren
    refine UnitFor.congr ?_ (fun σ i => and_comm)
    simpa [joinWith, Synth.pstr, ho] using this

/-- The texts with Boolean variables. -/
theorem texts_bool {w : World} {A : Arr} (hw : w.W = some A)
    (hn : ∀ k, Inside A k → IsName (cellVar w.pre (k.1 + w.offset.1) (k.2 + w.offset.2))) :
    Texts w A false (fun k σ t =>
      σ t (cellVar w.pre (k.1 + w.offset.1) (k.2 + w.offset.2)) = .bool true) := by
  have head : ∀ k, Inside A k → (cellVar w.pre (k.1 + w.offset.1) (k.2 + w.offset.2)).toList.head? ≠
      some '=' := by
    intro k hk
    obtain ⟨c, cs, e, h, _⟩ := (hn k hk).1
    rw [e]
    simp only [List.head?_cons, ne_eq, Option.some.injEq]
    rintro rfl
    revert h; decide
  constructor
  · intro k hk
    unfold getitem
    rw [(keyOf_ok hw).2 (denotes_inside hk), ok_bind]
    refine ⟨_, rfl, ?_, ?_⟩
    · have := UnitFor.ident (hn k hk).1 (hn k hk).2
      simpa [cellVar] using this
    · have := head k hk
      simpa [cellVar] using this
  · intro k hk
    unfold getitem
    rw [(keyOf_ok hw).2 (denotes_inside hk), ok_bind]
    refine ⟨_, rfl, ?_, by simp⟩
    obtain ⟨t, h1, h2⟩ := (UnitFor.ident (hn k hk).1 (hn k hk).2).ex
    have := unit_next h1
    refine ⟨.un .next t, ?_, fun σ i => by simp [h2]⟩
    simpa [cellVar] using this

/-! ### Safety formulas -/

theorem mem_specMoves {A : Arr} {k : Int × Int} (hk : Inside A k) (n : Int × Int) :
    n ∈ specMoves A k ↔ n = k ∨ (Adjacent k n ∧ Free A n) := by
  obtain ⟨i, j⟩ := k
  obtain ⟨i', j'⟩ := n
  simp only [Inside] at hk
  simp only [specMoves, List.mem_cons, List.mem_append, List.mem_ite_nil_right,
    List.not_mem_nil, or_false, Adjacent, Free, Prod.mk.injEq]
  constructor
  · rintro (h | ((⟨⟨a, b⟩, e1, e2⟩ | ⟨⟨a, b⟩, e1, e2⟩) | ⟨⟨a, b⟩, e1, e2⟩) | ⟨⟨a, b⟩, e1, e2⟩)
    · exact Or.inl h
    all_goals
      subst e1 e2
      exact Or.inr ⟨by omega, by omega, by omega, by omega, by omega, b⟩
  · rintro (h | ⟨⟨e, h | h⟩ | ⟨e, h | h⟩, a, b, c, d, f⟩)
    · exact Or.inl h
    · subst e h
      exact Or.inr (Or.inr ⟨⟨by omega, f⟩, rfl, rfl⟩)
    · subst e
      have : j' = j - 1 := by omega
      subst this
      exact Or.inr (Or.inl (Or.inl (Or.inr ⟨⟨by omega, f⟩, rfl, rfl⟩)))
    · subst e h
      exact Or.inr (Or.inl (Or.inr ⟨⟨by omega, f⟩, rfl, rfl⟩))
    · subst e
      have : i' = i - 1 := by omega
      subst this
      exact Or.inr (Or.inl (Or.inl (Or.inl ⟨⟨by omega, f⟩, rfl, rfl⟩)))

section
variable {w : World} {A : Arr} {nonbool : Bool} {At : Int × Int → Trace → Nat → Prop}

theorem transText_form (ht : Texts w A nonbool At) {k : Int × Int} (hk : Inside A k) :
    ∃ s, transText w A nonbool k = .ok s ∧ FormFor s (fun σ i => At k σ i →
      ∃ n, (n = k ∨ (Adjacent k n ∧ Free A n)) ∧ At n σ (i + 1)) := by
  obtain ⟨c, h1, h2, _⟩ := ht.cur k hk
  obtain ⟨ns, h3, h4⟩ := mapE_ok (l := specMoves A k)
    (f := fun n => getitem w n true nonbool)
    (R := fun n s => UnitFor s (fun σ i => At n σ (i + 1))) (by
      intro n hn
      have : Inside A n := by
        rcases (mem_specMoves hk n).1 hn with rfl | h
        · exact hk
        · exact ⟨h.2.1, h.2.2.1, h.2.2.2.1, h.2.2.2.2.1⟩
      obtain ⟨s, h5, h6, _⟩ := ht.nxt n this
      exact ⟨s, h5, h6⟩)
  unfold transText
  rw [h1, ok_bind, h3, ok_bind]
  refine ⟨_, rfl, ?_⟩
  have := h2.imp (or_of_forall₂ (by simp [specMoves]) h4).paren
  have e : c ++ c!" -> " ++ Synth.pstr (joinWith c!" || " ns) =
      c ++ c!" -> (" ++ joinWith c!" || " ns ++ c!")" := by simp [Synth.pstr]
  rw [e] at this
  refine this.congr fun σ i => ?_
  simp only [mem_specMoves hk]

theorem staticText_form (ht : Texts w A nonbool At) {k : Int × Int} (hk : Inside A k) :
    ∃ s, staticText w nonbool k = .ok s ∧ FormFor s (fun σ i => ¬ At k σ (i + 1)) := by
  obtain ⟨c, h1, h2, _⟩ := ht.nxt k hk
  unfold staticText
  rw [h1, ok_bind]
  refine ⟨_, rfl, ?_⟩
  have := h2.form.not_paren.form
  simpa [Synth.pstr] using this

theorem mutexText_form (ht : Texts w A false At) {free : List (Int × Int)}
    (hf : ∀ k ∈ free, Inside A k) {k : Int × Int} (hk : Inside A k) :
    ∃ s, mutexText w free k = .ok (Synth.pstr s) ∧ FormFor s (fun σ i => At k σ (i + 1) ∧
      ∀ n ∈ free, k ≠ n → ¬ At n σ (i + 1)) := by
  obtain ⟨c, h1, h2, _⟩ := ht.nxt k hk
  obtain ⟨ns, h3, h4⟩ := mapE_ok (l := free.filter fun n => decide (k ≠ n))
    (f := fun n => getitem w n true false)
    (R := fun n s => UnitFor (c!"(!" ++ s ++ c!")") (fun σ i => ¬ At n σ (i + 1))) (by
      intro n hn
      obtain ⟨s, h5, h6, h7⟩ := ht.nxt n (hf n (List.mem_filter.1 hn).1)
      have := (not_word h6 h7).form.paren
      exact ⟨s, h5, by simpa [Synth.pstr] using this⟩)
  unfold mutexText
  rw [h1, ok_bind, h3, ok_bind]
  refine ⟨joinWith c!" && " (c :: ns.map fun n => c!"(!" ++ n ++ c!")"), by simp [Synth.pstr], ?_⟩
  obtain ⟨ps, p1, p2, p3⟩ := Synth.forall₂_pairs h4
  have := Synth.form_join_and
    (f := fun x : Option ((Int × Int) × List Char) => match x with
      | none => c
      | some p => c!"(!" ++ p.2 ++ c!")")
    (P := fun x σ i => match x with
      | none => At k σ (i + 1)
      | some p => ¬ At p.1 σ (i + 1))
    (xs := none :: ps.map some) (by simp) (by
      intro x hx
      rcases List.mem_cons.1 hx with rfl | hx
      · exact h2
      · obtain ⟨p, hp, rfl⟩ := List.mem_map.1 hx
        exact p3 p hp)
  have e : (none :: ps.map some).map (fun x : Option ((Int × Int) × List Char) => match x with
      | none => c
      | some p => c!"(!" ++ p.2 ++ c!")") = c :: ns.map fun n => c!"(!" ++ n ++ c!")" := by
    rw [← p2]
    simp [Function.comp_def]
  rw [e] at this
  refine this.congr fun σ i => ?_
  have hmem : ∀ n, n ∈ free ∧ k ≠ n ↔ ∃ p ∈ ps, p.1 = n := by
    intro n
    have : n ∈ free.filter (fun n => decide (k ≠ n)) ↔ ∃ p ∈ ps, p.1 = n := by
      rw [← p1, List.mem_map]
    rw [← this, List.mem_filter, decide_eq_true_eq]
  constructor
  · intro h
    refine ⟨h none (by simp), ?_⟩
    intro n hn hkn
    obtain ⟨p, hp, rfl⟩ := (hmem n).1 ⟨hn, hkn⟩
    exact h (some p) (List.mem_cons_of_mem _ (List.mem_map_of_mem hp))
  · intro h x hx
    rcases List.mem_cons.1 hx with rfl | hx
    · exact h.1
    · obtain ⟨p, hp, rfl⟩ := List.mem_map.1 hx
      obtain ⟨a, b⟩ := (hmem p.1).2 ⟨p, hp, rfl⟩
      exact h.2 p.1 a b

/-- The meaning of the safety formulas in a position. -/
def SafeAt (A : Arr) (nonbool : Bool) (At : Int × Int → Trace → Nat → Prop) (σ : Trace) (i : Nat) : Prop :=
  (∀ k, Free A k → At k σ i → ∃ n, (n = k ∨ (Adjacent k n ∧ Free A n)) ∧ At n σ (i + 1)) ∧
    (∀ k, Inside A k → ¬ Free A k → ¬ At k σ (i + 1)) ∧
    (nonbool = false → ∃ k, Free A k ∧ At k σ (i + 1) ∧ ∀ n, Free A n → k ≠ n → ¬ At n σ (i + 1))

theorem safetyTexts_means (ht : Texts w A nonbool At) (hA : Coded A) (hne : ∃ k, Free A k) :
    ∃ ss, safetyTexts w A nonbool = .ok ss ∧ Means ss (SafeAt A nonbool At) := by
  have hfree : ∀ k, k ∈ (indices A.rows A.cols).filter (fun k => decide (A.cell k.1 k.2 ≠ 1)) ↔
      Free A k := by
    intro k
    rw [List.mem_filter, inside_indices, decide_eq_true_eq]
    constructor
    · rintro ⟨h, h1⟩
      exact ⟨h.1, h.2.1, h.2.2.1, h.2.2.2,
        (hA k.1 k.2 h.1 h.2.1 h.2.2.1 h.2.2.2).resolve_right h1⟩
    · intro h
      exact ⟨⟨h.1, h.2.1, h.2.2.1, h.2.2.2.1⟩, by rw [h.2.2.2.2]; decide⟩
  have hocc : ∀ k, k ∈ (indices A.rows A.cols).filter (fun k => decide (A.cell k.1 k.2 = 1)) ↔
      Inside A k ∧ ¬ Free A k := by
    intro k
    rw [List.mem_filter, inside_indices, decide_eq_true_eq]
    constructor
    · rintro ⟨h, h1⟩
      exact ⟨h, fun hf => by have := hf.2.2.2.2; omega⟩
    · rintro ⟨h, h1⟩
      refine ⟨h, (hA k.1 k.2 h.1 h.2.1 h.2.2.1 h.2.2.2).resolve_left fun h0 => h1 ?_⟩
      exact ⟨h.1, h.2.1, h.2.2.1, h.2.2.2, h0⟩
  have hins : ∀ k, Free A k → Inside A k := fun k h => ⟨h.1, h.2.1, h.2.2.1, h.2.2.2.1⟩
  obtain ⟨trans, t1, t2⟩ := mapE_ok (f := transText w A nonbool)
    (l := (indices A.rows A.cols).filter fun k => decide (A.cell k.1 k.2 ≠ 1))
    (R := fun k s => FormFor s (fun σ i => At k σ i →
      ∃ n, (n = k ∨ (Adjacent k n ∧ Free A n)) ∧ At n σ (i + 1)))
    (fun k hk => transText_form ht (hins k ((hfree k).1 hk)))
  obtain ⟨static, s1, s2⟩ := mapE_ok (f := staticText w nonbool)
    (l := (indices A.rows A.cols).filter fun k => decide (A.cell k.1 k.2 = 1))
    (R := fun k s => FormFor s (fun σ i => ¬ At k σ (i + 1)))
    (fun k hk => staticText_form ht ((hocc k).1 hk).1)
  have hmutex : ∃ m, (if nonbool = true then (.ok [] : Except PyErr (List (List Char))) else do
      let disj ← mapE (mutexText w ((indices A.rows A.cols).filter
        fun k => decide (A.cell k.1 k.2 ≠ 1)))
        ((indices A.rows A.cols).filter fun k => decide (A.cell k.1 k.2 ≠ 1))
      .ok [joinWith c!"\n|| " disj]) = .ok m ∧ Means m (fun σ i => nonbool = false →
        ∃ k, Free A k ∧ At k σ (i + 1) ∧ ∀ n, Free A n → k ≠ n → ¬ At n σ (i + 1)) := by
    cases nonbool with
    | true => exact ⟨[], rfl, Synth.means_nil.congr (by simp)⟩
    | false =>
      obtain ⟨ms, m1, m2⟩ := mapE_ok (f := mutexText w ((indices A.rows A.cols).filter
          fun k => decide (A.cell k.1 k.2 ≠ 1)))
        (l := (indices A.rows A.cols).filter fun k => decide (A.cell k.1 k.2 ≠ 1))
        (R := fun k s => ∃ s', s = Synth.pstr s' ∧ FormFor s' (fun σ i => At k σ (i + 1) ∧
          ∀ n ∈ (indices A.rows A.cols).filter (fun k => decide (A.cell k.1 k.2 ≠ 1)),
            k ≠ n → ¬ At n σ (i + 1))) (by
          intro k hk
          obtain ⟨s, h1, h2⟩ := mutexText_form ht (fun n hn => hins n ((hfree n).1 hn))
            (hins k ((hfree k).1 hk))
          exact ⟨_, h1, s, rfl, h2⟩)
      have hex : ∃ fs, ms = fs.map Synth.pstr ∧ List.Forall₂ (fun k s' => FormFor s' (fun σ i =>
          At k σ (i + 1) ∧ ∀ n ∈ (indices A.rows A.cols).filter
            (fun k => decide (A.cell k.1 k.2 ≠ 1)), k ≠ n → ¬ At n σ (i + 1)))
          ((indices A.rows A.cols).filter fun k => decide (A.cell k.1 k.2 ≠ 1)) fs := by
        clear m1
        revert m2
        generalize (indices A.rows A.cols).filter (fun k => decide (A.cell k.1 k.2 ≠ 1)) = L
        have : ∀ L', List.Forall₂ (fun k s => ∃ s', s = Synth.pstr s' ∧ FormFor s' (fun σ i =>
            At k σ (i + 1) ∧ ∀ n ∈ L, k ≠ n → ¬ At n σ (i + 1))) L' ms →
            ∃ fs, ms = fs.map Synth.pstr ∧ List.Forall₂ (fun k s' => FormFor s' (fun σ i =>
              At k σ (i + 1) ∧ ∀ n ∈ L, k ≠ n → ¬ At n σ (i + 1))) L' fs := by
          intro L' h
          induction h with
          | nil => exact ⟨[], rfl, .nil⟩
          | cons h _ ih =>
            obtain ⟨s', rfl, h'⟩ := h
            obtain ⟨fs, rfl, h''⟩ := ih
            exact ⟨s' :: fs, rfl, .cons h' h''⟩
        exact this L
      obtain ⟨fs, rfl, hfs⟩ := hex
      simp only [Bool.false_eq_true, if_false]
      rw [m1, ok_bind]
      refine ⟨_, rfl, ?_⟩
      obtain ⟨k0, hk0⟩ := hne
      have hf := or_lines (List.ne_nil_of_mem ((hfree k0).2 hk0)) hfs
      refine hf.means.congr fun σ i => ?_
      simp only [hfree, true_imp_iff]
  obtain ⟨m, m1, m2⟩ := hmutex
  unfold safetyTexts
  simp only
  rw [t1, ok_bind, s1, ok_bind, m1, ok_bind]
  refine ⟨_, rfl, ?_⟩
  refine (((Synth.means_of_forall₂ t2).append (Synth.means_of_forall₂ s2)).append m2).congr fun σ i => ?_
  simp only [hfree, hocc, SafeAt, and_imp, and_assoc]

/-! ### Initial conditions and goals -/

theorem indices_nodup (m n : Nat) : (indices m n).Nodup := by
  unfold indices
  refine List.nodup_flatMap.2 ⟨?_, ?_⟩
  · intro i _
    refine List.Nodup.map_on ?_ List.nodup_range
    intro a _ b _ e
    simpa using e
  · refine List.nodup_range.imp ?_
    intro a b hab x h1 h2
    simp only [List.mem_map] at h1 h2
    obtain ⟨_, _, rfl⟩ := h1
    obtain ⟨_, _, e⟩ := h2
    have := congrArg Prod.fst e
    simp only at this
    omega

/-- The names of the variables of the cells. -/
theorem names_ok (hw : w.W = some A) :
    mapE (fun k => getitem w k false false) (indices A.rows A.cols) =
      .ok ((indices A.rows A.cols).map fun k => cellName w.pre (k.1 + w.offset.1) (k.2 + w.offset.2)) := by
  obtain ⟨ys, h1, h2⟩ := mapE_ok (f := fun k => getitem w k false false) (l := indices A.rows A.cols)
    (R := fun k s => s = cellName w.pre (k.1 + w.offset.1) (k.2 + w.offset.2)) (by
      intro k hk
      refine ⟨_, ?_, rfl⟩
      unfold getitem
      rw [(keyOf_ok hw).2 (denotes_inside (inside_indices.1 hk)), ok_bind]
      simp [cellName])
  rw [h1]
  congr 1
  clear h1
  revert h2
  generalize indices A.rows A.cols = l
  intro h2
  induction h2 with
  | nil => rfl
  | cons h _ ih => rw [List.map_cons, h, ih]

theorem initText_int (ht : Texts w A true At) (names : List (List Char)) {k : Int × Int} (hk : Inside A k) :
    ∃ s, initText w names true k = .ok s ∧ UnitFor s (At k) := by
  obtain ⟨s, h1, h2, _⟩ := ht.cur k hk
  unfold initText
  rw [h1, ok_bind]
  exact ⟨_, rfl, h2⟩

theorem initText_bool (hw : w.W = some A)
    (hn : ∀ k, Inside A k → IsName (cellVar w.pre (k.1 + w.offset.1) (k.2 + w.offset.2)))
    {names : List (List Char)}
    (hnames : names.Perm ((indices A.rows A.cols).map fun k =>
      cellName w.pre (k.1 + w.offset.1) (k.2 + w.offset.2)))
    {k : Int × Int} (hk : Inside A k) :
    ∃ s, initText w names false k = .ok s ∧ UnitFor s (fun σ t => ∀ k', Inside A k' →
      (σ t (cellVar w.pre (k'.1 + w.offset.1) (k'.2 + w.offset.2)) = .bool true ↔ k' = k)) := by
  have hg : getitem w k false false =
      .ok (cellVar w.pre (k.1 + w.offset.1) (k.2 + w.offset.2)).toList := by
    unfold getitem
    rw [(keyOf_ok hw).2 (denotes_inside hk), ok_bind]
    simp [cellVar]
  unfold initText
  rw [hg, ok_bind]
  refine ⟨_, rfl, ?_⟩
  simp only [Bool.false_eq_true, if_false]
  have := (Synth.form_join_and
    (f := fun x : Option (List Char) => match x with
      | none => (cellVar w.pre (k.1 + w.offset.1) (k.2 + w.offset.2)).toList
      | some n => c!"!" ++ n)
    (P := fun x σ t => match x with
      | none => σ t (cellVar w.pre (k.1 + w.offset.1) (k.2 + w.offset.2)) = .bool true
      | some n => σ t (String.ofList n) ≠ .bool true)
    (xs := none :: (names.filter fun n => decide (n ≠
      (cellVar w.pre (k.1 + w.offset.1) (k.2 + w.offset.2)).toList)).map some) (by simp) (by
      intro x hx
      rcases List.mem_cons.1 hx with rfl | hx
      · exact UnitFor.ident (hn k hk).1 (hn k hk).2
      · obtain ⟨n, hm, rfl⟩ := List.mem_map.1 hx
        obtain ⟨k', hk', rfl⟩ := List.mem_map.1 (hnames.mem_iff.1 (List.mem_filter.1 hm).1)
        have hi := hn k' (inside_indices.1 hk')
        have := UnitFor.not_ident hi.1 hi.2
        simpa [cellVar, cellName] using this)).paren
  have e : c!"(" ++ joinWith c!" && " ((cellVar w.pre (k.1 + w.offset.1) (k.2 + w.offset.2)).toList ::
      (names.filter fun n => decide (n ≠ (cellVar w.pre (k.1 + w.offset.1)
        (k.2 + w.offset.2)).toList)).map (c!"!" ++ ·)) ++ c!")" =
      Synth.pstr (joinWith c!" && " ((none :: (names.filter fun n => decide (n ≠
      (cellVar w.pre (k.1 + w.offset.1) (k.2 + w.offset.2)).toList)).map some).map
        (fun x : Option (List Char) => match x with
          | none => (cellVar w.pre (k.1 + w.offset.1) (k.2 + w.offset.2)).toList
          | some n => c!"!" ++ n))) := by
    simp [Synth.pstr, Function.comp_def]
  rw [e]
  refine this.congr fun σ t => ?_
  constructor
  · intro h k' hk'
    constructor
    · intro h1
      by_contra hne
      refine h (some (cellName w.pre (k'.1 + w.offset.1) (k'.2 + w.offset.2))) ?_ ?_
      · refine List.mem_cons_of_mem _ (List.mem_map_of_mem (List.mem_filter.2 ⟨hnames.mem_iff.2
          (List.mem_map.2 ⟨k', inside_indices.2 hk', rfl⟩), ?_⟩))
        rw [decide_eq_true_eq]
        intro e
        have e' : cellName w.pre (k'.1 + w.offset.1) (k'.2 + w.offset.2) =
            cellName w.pre (k.1 + w.offset.1) (k.2 + w.offset.2) := by
          simpa [cellVar, cellName] using e
        have := cellName_inj e'
        exact hne (Prod.ext (by omega) (by omega))
      · simpa [cellVar, cellName] using h1
    · rintro rfl
      exact h none (by simp)
  · intro h x hx
    rcases List.mem_cons.1 hx with rfl | hx
    · exact (h k hk).2 rfl
    · obtain ⟨n, hm, rfl⟩ := List.mem_map.1 hx
      rw [List.mem_filter, decide_eq_true_eq] at hm
      obtain ⟨k', hk', rfl⟩ := List.mem_map.1 (hnames.mem_iff.1 hm.1)
      intro h1
      have : k' = k := (h k' (inside_indices.1 hk')).1 (by simpa [cellVar, cellName] using h1)
      subst this
      exact hm.2 (by simp [cellVar, cellName])

end

/-- A specification whose parts have the meanings given. -/
theorem side_of_means {init safety prog : List (List Char)} {α : Type _} {goals : List α}
    {I S : Trace → Nat → Prop} {G : α → Trace → Nat → Prop}
    (hi : Means init I) (hs : Means safety S)
    (hg : List.Forall₂ (fun x f => FormFor f (G x)) goals prog) (σ : Trace) :
    SideMeaning init safety prog σ ↔
      I σ 0 ∧ (∀ i, S σ i) ∧ ∀ g ∈ goals, ∀ i, ∃ j, i ≤ j ∧ G g σ j := by
  have h1 : (∀ c ∈ init, Holds σ 0 c) ↔ I σ 0 := hi.holds σ 0
  have h2 : (∀ c ∈ safety, ∀ i, Holds σ i c) ↔ ∀ i, S σ i := by
    constructor
    · intro h i
      exact (hs.holds σ i).1 fun c hc => h c hc i
    · intro h c hc i
      exact (hs.holds σ i).2 (h i) c hc
  have h3 : (∀ c ∈ prog, ∀ i, ∃ j, i ≤ j ∧ Holds σ j c) ↔
      ∀ g ∈ goals, ∀ i, ∃ j, i ≤ j ∧ G g σ j := by
    induction hg with
    | nil => simp
    | cons h _ ih =>
      simp only [List.mem_cons, forall_eq_or_imp, ih]
      have : ∀ j, Holds σ j _ ↔ _ := fun j => h.holds σ j
      simp only [this]
  unfold SideMeaning
  rw [h1, h2, h3]

/-- The parts of a specification: texts of the initial cells, of the steps and of the goals. -/
theorem spec_parts {w : World} {A : Arr} {order : List (List Char) → List (List Char)} {offset : Int × Int}
    {controlled nonbool : Bool} {At Init : Int × Int → Trace → Nat → Prop}
    {names : List (List Char)} {vars : Dict String Dom}
    (hw : w.W = some A) (hA : Coded A) (hi : w.inits ≠ []) (hif : ∀ k ∈ w.inits, Free A k)
    (hgi : ∀ k ∈ w.goals, Inside A k)
    (ht : Texts { w with offset := if nonbool then (0, 0) else offset } A nonbool At)
    (hv : specVars { w with offset := if nonbool then (0, 0) else offset } A order nonbool =
      .ok (names, vars))
    (hinit : ∀ k, Inside A k → ∃ s, initText { w with offset := if nonbool then (0, 0) else offset }
      names nonbool k = .ok s ∧ UnitFor s (Init k)) :
    ∃ s, spec w order offset controlled nonbool = .ok s ∧ OtherEmpty controlled s ∧
      varsOf controlled s = vars ∧
      ∀ σ, sideOf controlled s σ ↔ (∃ k ∈ w.inits, Init k σ 0) ∧ (∀ i, SafeAt A nonbool At σ i) ∧
        ∀ g ∈ w.goals, ∀ i, ∃ j, i ≤ j ∧ At g σ j := by
  have hins : ∀ k, Free A k → Inside A k := fun k h => ⟨h.1, h.2.1, h.2.2.1, h.2.2.2.1⟩
  obtain ⟨safety, s1, s2⟩ := safetyTexts_means ht hA (by
    obtain ⟨k, hk⟩ := List.exists_mem_of_ne_nil _ hi
    exact ⟨k, hif k hk⟩)
  obtain ⟨inits, i1, i2⟩ := mapE_ok (l := w.inits)
    (f := initText { w with offset := if nonbool then (0, 0) else offset } names nonbool)
    (R := fun k s => UnitFor s (Init k)) (fun k hk => hinit k (hins k (hif k hk)))
  obtain ⟨prog, p1, p2⟩ := mapE_ok (l := w.goals)
    (f := fun k => getitem { w with offset := if nonbool then (0, 0) else offset } k false nonbool)
    (R := fun k s => FormFor s (At k)) (by
      intro k hk
      obtain ⟨s, h1, h2, _⟩ := ht.cur k (hgi k hk)
      exact ⟨s, h1, h2.form⟩)
  have hf := or_of_forall₂ hi i2
  have hne : joinWith c!" || " inits ≠ [] := by
    intro e
    rw [e] at hf
    obtain ⟨_, t, h, _⟩ := hf.ex
    have h0 : parse [] = none := by decide +kernel
    rw [h0] at h
    cases h
  have hside := side_of_means hf.means s2 p2
  have e : spec w order offset controlled nonbool = (do
      let w' := { w with offset := if nonbool then (0, 0) else offset }
      let safety ← safetyTexts w' A nonbool
      let (names, vars) ← specVars w' A order nonbool
      let inits ← mapE (initText w' names nonbool) w.inits
      let init := joinWith c!" || " inits
      let init := if init = [] then [] else [init]
      let prog ← mapE (fun k => getitem w' k false nonbool) w.goals
      if controlled then GRSpec.make [] vars [] init [] safety [] prog
      else GRSpec.make vars [] init [] safety [] prog []) := by
    unfold spec
    split
    · rename_i h; rw [hw] at h; cases h
    · rename_i B h; rw [hw] at h; cases h; rfl
  rw [e]
  simp only
  rw [s1, ok_bind, hv, ok_bind]
  simp only
  rw [i1, ok_bind, p1, ok_bind, if_neg hne]
  cases controlled with
  | true =>
    refine ⟨_, rfl, ⟨rfl, rfl, rfl, rfl⟩, rfl, ?_⟩
    exact hside
  | false =>
    have : checkVars vars [] = true := by simp [checkVars, Dict.has]
    refine ⟨_, by simp only [Bool.false_eq_true, if_false, GRSpec.make, this, if_true]; rfl,
      ⟨rfl, rfl, rfl, rfl⟩, rfl, ?_⟩
    exact hside

/-- **C51.** With integer variables: the specification constrains one side only, its variables are the row and the
column with the bounds of the grid, and the traces with values in the domains that satisfy it are exactly those
that encode a legal trajectory. -/
theorem spec_int (w : World) (A : Arr) (order : List (List Char) → List (List Char)) (offset : Int × Int)
    (controlled : Bool) (hw : w.W = some A) (hA : Coded A) (hi : w.inits ≠ [])
    (hif : ∀ k ∈ w.inits, Free A k) (hgi : ∀ k ∈ w.goals, Inside A k)
    (hp : IsIdent (String.ofList w.pre)) :
    ∃ s, spec w order offset controlled true = .ok s ∧ OtherEmpty controlled s ∧
      varsOf controlled s = [(rowVar w.pre, .range 0 (A.rows - 1)), (colVar w.pre, .range 0 (A.cols - 1))] ∧
      ∀ σ, (InDomain w.pre A σ ∧ sideOf controlled s σ) ↔
        ∃ p, EncodesInt w.pre σ p ∧ Legal A w.inits w.goals p := by
  have hins : ∀ k, Free A k → Inside A k := fun k h => ⟨h.1, h.2.1, h.2.2.1, h.2.2.2.1⟩
  have hvne : rowVar w.pre ≠ colVar w.pre := by
    intro e
    simp [rowVar, colVar] at e
  have ht := texts_int (w := { w with offset := (0, 0) }) hw rfl (isName_rowVar hp) (isName_colVar hp)
  obtain ⟨s, h1, h2, h3, h4⟩ := spec_parts (controlled := controlled) (nonbool := true) (order := order)
    (offset := offset) hw hA hi hif hgi ht rfl (fun k hk => initText_int ht _ hk)
  refine ⟨s, h1, h2, ?_, ?_⟩
  · rw [h3]
    have : ¬ (String.ofList (w.pre ++ c!"_r") = String.ofList (w.pre ++ c!"_c")) := hvne
    simp [Dict.set, rowVar, colVar]
  · intro σ
    rw [h4 σ]
    constructor
    · rintro ⟨hd, ⟨k0, hk0, hi0⟩, hs, hg⟩
      choose r c e1 e2 e3 e4 e5 e6 using hd
      have hat : ∀ k t, (σ t (rowVar w.pre) = .int k.1 ∧ σ t (colVar w.pre) = .int k.2) ↔
          k = (r t, c t) := by
        intro k t
        rw [e1, e4]
        constructor
        · rintro ⟨a, b⟩
          injection a with a; injection b with b
          exact Prod.ext a.symm b.symm
        · rintro rfl
          exact ⟨rfl, rfl⟩
      have hinside : ∀ t, Inside A (r t, c t) := fun t =>
        ⟨e2 t, by have := e3 t; simp only; omega, e5 t, by have := e6 t; simp only; omega⟩
      have hk0' : k0 = (r 0, c 0) := (hat k0 0).1 hi0
      have hfr : ∀ t, Free A (r t, c t) := by
        intro t
        cases t with
        | zero => rw [← hk0']; exact hif k0 hk0
        | succ t =>
          by_contra hn
          exact (hs t).2.1 _ (hinside (t + 1)) hn ((hat _ _).2 rfl)
      refine ⟨fun t => (r t, c t), fun t => ⟨e1 t, e4 t⟩, by rw [hk0'] at hk0; exact hk0, ?_, ?_⟩
      · intro t
        refine ⟨hfr (t + 1), ?_⟩
        obtain ⟨n, hn, hn'⟩ := (hs t).1 _ (hfr t) ((hat _ _).2 rfl)
        have := (hat n (t + 1)).1 hn'
        subst this
        exact hn.imp id (·.1)
      · intro g hg' t
        obtain ⟨j, h5, h6⟩ := hg g hg' t
        exact ⟨j, h5, ((hat g j).1 h6).symm⟩
    · rintro ⟨p, hp, hp0, hstep, hgoal⟩
      have hfr : ∀ t, Free A (p t) := by
        intro t
        cases t with
        | zero => exact hif _ hp0
        | succ t => exact (hstep t).1
      have hat : ∀ k t, (σ t (rowVar w.pre) = .int k.1 ∧ σ t (colVar w.pre) = .int k.2) ↔ k = p t := by
        intro k t
        rw [(hp t).1, (hp t).2]
        constructor
        · rintro ⟨a, b⟩
          injection a with a; injection b with b
          exact Prod.ext a.symm b.symm
        · rintro rfl
          exact ⟨rfl, rfl⟩
      refine ⟨?_, ⟨p 0, hp0, (hat _ _).2 rfl⟩, ?_, ?_⟩
      · intro t
        have := hins _ (hfr t)
        exact ⟨_, _, (hp t).1, this.1, by have := this.2.1; omega, (hp t).2, this.2.2.1,
          by have := this.2.2.2; omega⟩
      · intro t
        refine ⟨?_, ?_, by simp⟩
        · intro k _ hk
          have := (hat k t).1 hk
          subst this
          exact ⟨p (t + 1), (hstep t).2.imp id (⟨·, (hstep t).1⟩), (hat _ _).2 rfl⟩
        · intro k _ hnf hk
          have := (hat k (t + 1)).1 hk
          subst this
          exact hnf (hfr _)
      · intro g hg t
        obtain ⟨t', h5, h6⟩ := hgoal g hg t
        exact ⟨t', h5, (hat g t').2 h6.symm⟩

/-- **C51.** With Boolean variables: the specification constrains one side only, its variables are those of all
cells, and the traces that satisfy it are exactly those that encode a legal trajectory. -/
theorem spec_bool (w : World) (A : Arr) (order : List (List Char) → List (List Char))
    (horder : ∀ l : List (List Char), l.Nodup → (order l).Perm l) (offset : Int × Int)
    (controlled : Bool) (hw : w.W = some A) (hA : Coded A) (hi : w.inits ≠ [])
    (hif : ∀ k ∈ w.inits, Free A k) (hgi : ∀ k ∈ w.goals, Inside A k)
    (hp : IsIdent (String.ofList w.pre)) (ho : 0 ≤ offset.1 ∧ 0 ≤ offset.2) :
    ∃ s, spec w order offset controlled false = .ok s ∧ OtherEmpty controlled s ∧
      (varsOf controlled s).Perm ((indices A.rows A.cols).map fun k =>
        (cellVar w.pre (k.1 + offset.1) (k.2 + offset.2), Dom.boolean)) ∧
      ∀ σ, sideOf controlled s σ ↔
        ∃ p, EncodesBool w.pre offset A σ p ∧ Legal A w.inits w.goals p := by
  have hins : ∀ k, Free A k → Inside A k := fun k h => ⟨h.1, h.2.1, h.2.2.1, h.2.2.2.1⟩
  have hn : ∀ k, Inside A k → IsName (cellVar w.pre (k.1 + offset.1) (k.2 + offset.2)) := fun k hk =>
    isName_cellVar hp (by have := hk.1; omega) (by have := hk.2.2.1; omega)
  have ht := texts_bool (w := { w with offset := offset }) hw hn
  have hnm := names_ok (w := { w with offset := offset }) hw
  have hperm := horder ((indices A.rows A.cols).map fun k =>
    cellName w.pre (k.1 + offset.1) (k.2 + offset.2)) (by
      refine List.Nodup.map_on ?_ (indices_nodup _ _)
      intro a _ b _ e
      have := cellName_inj e
      exact Prod.ext (by omega) (by omega))
  have hv : specVars { w with offset := offset } A order false =
      .ok (order ((indices A.rows A.cols).map fun k => cellName w.pre (k.1 + offset.1) (k.2 + offset.2)),
        (order ((indices A.rows A.cols).map fun k =>
          cellName w.pre (k.1 + offset.1) (k.2 + offset.2))).map
            fun n => (String.ofList n, Dom.boolean)) := by
    unfold specVars
    simp only [Bool.false_eq_true, if_false]
    rw [hnm, ok_bind]
  obtain ⟨s, h1, h2, h3, h4⟩ := spec_parts (controlled := controlled) (nonbool := false) (order := order)
    (offset := offset) hw hA hi hif hgi ht hv
    (fun k hk => initText_bool (w := { w with offset := offset }) hw hn hperm hk)
  refine ⟨s, h1, h2, ?_, ?_⟩
  · rw [h3]
    have := hperm.map fun n => (String.ofList n, Dom.boolean)
    simpa [Function.comp_def, cellVar, cellName] using this
  · intro σ
    rw [h4 σ]
    constructor
    · rintro ⟨⟨k0, hk0, hi0⟩, hs, hg⟩
      have hex : ∀ t, ∃ k, Free A k ∧ (t = 0 → k = k0) ∧ ∀ k', Inside A k' →
          (σ t (cellVar w.pre (k'.1 + offset.1) (k'.2 + offset.2)) = .bool true ↔ k' = k) := by
        intro t
        cases t with
        | zero => exact ⟨k0, hif k0 hk0, fun _ => rfl, hi0⟩
        | succ t =>
          obtain ⟨k, a, b, c⟩ := (hs t).2.2 rfl
          refine ⟨k, a, by omega, fun k' hk' => ⟨fun h => ?_, ?_⟩⟩
          · by_cases hf : Free A k'
            · by_contra hne
              exact c k' hf (Ne.symm hne) h
            · exact absurd h ((hs t).2.1 k' hk' hf)
          · rintro rfl
            exact b
      choose p a b c using hex
      refine ⟨p, c, (b 0 rfl).symm ▸ hk0, ?_, ?_⟩
      · intro t
        refine ⟨a (t + 1), ?_⟩
        obtain ⟨n, hn1, hn2⟩ := (hs t).1 (p t) (a t) ((c t _ (hins _ (a t))).2 rfl)
        have hin : Inside A n := by
          rcases hn1 with rfl | h
          · exact hins _ (a t)
          · exact hins _ h.2
        have := (c (t + 1) n hin).1 hn2
        subst this
        exact hn1.imp id (·.1)
      · intro g hg' t
        obtain ⟨j, h5, h6⟩ := hg g hg' t
        exact ⟨j, h5, ((c j g (hgi g hg')).1 h6).symm⟩
    · rintro ⟨p, hp, hp0, hstep, hgoal⟩
      have hfr : ∀ t, Free A (p t) := by
        intro t
        cases t with
        | zero => exact hif _ hp0
        | succ t => exact (hstep t).1
      have hat : ∀ t, σ t (cellVar w.pre ((p t).1 + offset.1) ((p t).2 + offset.2)) = .bool true :=
        fun t => (hp t _ (hins _ (hfr t))).2 rfl
      refine ⟨⟨p 0, hp0, hp 0⟩, ?_, ?_⟩
      · intro t
        refine ⟨?_, ?_, fun _ => ⟨p (t + 1), hfr _, hat _, ?_⟩⟩
        · intro k hk h
          have := (hp t k (hins k hk)).1 h
          subst this
          exact ⟨p (t + 1), (hstep t).2.imp id (⟨·, (hstep t).1⟩), hat _⟩
        · intro k hk hnf h
          have := (hp (t + 1) k hk).1 h
          subst this
          exact hnf (hfr _)
        · intro n hn1 hne h
          exact hne ((hp (t + 1) n (hins n hn1)).1 h).symm
      · intro g hg t
        obtain ⟨t', h5, h6⟩ := hgoal g hg t
        subst h6
        exact ⟨t', h5, hat t'⟩

/-- The cases of the theorems: a grid with a wall. -/
example : Coded wallArr ∧ wallWorld.inits ≠ [] ∧ (∀ k ∈ wallWorld.inits, Free wallArr k) ∧
    (∀ k ∈ wallWorld.goals, Inside wallArr k) ∧ IsIdent (String.ofList wallWorld.pre) := by
  refine ⟨?_, by simp [wallWorld], ?_, ?_, isIdent_of_check (by decide +kernel)⟩
  · intro i j _ _ _ _
    simp only [wallArr]
    split <;> simp
  · simp [wallWorld, wallArr, Free]
  · simp [wallWorld, wallArr, Inside]

/-- A legal trajectory of the example that goes around the wall and back for ever. -/
def patrol (t : Nat) : Int × Int :=
  match t % 12 with
  | 0 => (0, 0) | 1 => (0, 1) | 2 => (0, 2) | 3 => (1, 2) | 4 => (2, 2) | 5 => (2, 1) | 6 => (2, 0)
  | 7 => (2, 1) | 8 => (2, 2) | 9 => (1, 2) | 10 => (0, 2) | _ => (0, 1)

example : Legal wallArr wallWorld.inits wallWorld.goals patrol := by
  refine ⟨by simp [wallWorld, patrol], ?_, ?_⟩
  · intro t
    have h : t % 12 < 12 := Nat.mod_lt _ (by decide)
    have e : (t + 1) % 12 = (t % 12 + 1) % 12 := by omega
    unfold patrol
    rw [e]
    generalize t % 12 = m at h
    have : m = 0 ∨ m = 1 ∨ m = 2 ∨ m = 3 ∨ m = 4 ∨ m = 5 ∨ m = 6 ∨ m = 7 ∨ m = 8 ∨ m = 9 ∨ m = 10 ∨
      m = 11 := by omega
    rcases this with rfl | rfl | rfl | rfl | rfl | rfl | rfl | rfl | rfl | rfl | rfl | rfl <;>
      simp [Free, Adjacent, wallArr]
  · intro g hg t
    simp only [wallWorld, List.mem_singleton] at hg
    subst hg
    refine ⟨12 * t + 6, by omega, ?_⟩
    have : (12 * t + 6) % 12 = 6 := by omega
    simp only [patrol, this]

end Gw

end Tulip
