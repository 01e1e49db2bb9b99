import Verif.Spec.TransRead

/-!
# The input files for gr1c and slugs mean the specification (C86)

A file is split into its statements or sections here, without the functions that wrote it; formulas are
read with the grammar of `tulip.spec`, in which `[]`, `<>`, `&`, `!`, comparisons and `'` mean the same as
in the languages of gr1c and slugs.
-/

namespace Tulip
namespace Trans

open Cache Omega

/-! ## Spec: reading files -/

/-- One statement `NAME:body`, without its semicolon. -/
def statement (s : List Char) : List Char × List Char :=
  let t := s.dropWhile isSpace
  (t.takeWhile (· ≠ ':'), (t.dropWhile (· ≠ ':')).drop 1)

/-- The statements of a gr1c file: they end with `;`, and what is after the last one is not a statement. -/
def statements (s : List Char) : List (List Char × List Char) :=
  (Gw.splitOn ';' s).dropLast.map statement

/-- The words of a text. -/
def words (s : List Char) : List (List Char) := (Gw.splitOn ' ' s).filter fun w => !w.isEmpty

/-- Declarations of variables for gr1c: `x` is Boolean, `x [a, b]` has the integer values from `a` to
`b`. -/
def readDecls : List (List Char) → Option (List (List Char × Dom))
  | [] => some []
  | v :: ('[' :: lo) :: hi :: r =>
    if lo.getLast? = some ',' ∧ hi.getLast? = some ']' then do
      let a ← Gw.pyInt lo.dropLast
      let b ← Gw.pyInt hi.dropLast
      let ds ← readDecls r
      return (v, .range a b) :: ds
    else none
  | v :: r => do
    let ds ← readDecls r
    return (v, .boolean) :: ds

/-- The values that a solver sees: strings are replaced by their indices. -/
def solverDom : Dom → Dom
  | .strs l => .range 0 ((l.length : Int) - 1)
  | d => d

/-- Names with letters, digits and underscores only. -/
def Plain (x : String) : Prop := x.toList ≠ [] ∧ ∀ c ∈ x.toList, c.isAlphanum = true ∨ c = '_'

/-- A section of a gr1c file: an empty one is no condition. -/
def Says (τ : Trace) (body : List Char) : Prop := body = [] ∨ Holds τ 0 body

/-- The conjuncts of a formula. -/
def conjuncts : Ast → List Ast
  | .bin .and a b => conjuncts a ++ conjuncts b
  | a => [a]

/-- A section of a gr1c file that is a conjunction of formulas `[] a`, at one step: all `a` hold there. -/
def SaysStep (τ : Trace) (i : Nat) (body : List Char) : Prop :=
  body = [] ∨ ∃ f, Tulip.parse body = some f ∧ ∀ c ∈ conjuncts f, ∃ a, c = .un .always a ∧ Sat τ i a

/-- The clauses that gr1c can express. -/
def Gr1cClause (g : GRSpec) (x : List Char) : Prop :=
  ∃ b, ClauseTree g x b ∧ Within [.not, .always, .eventually, .next] [.and, .or, .imp, .bimp]
    [.eq, .ne, .lt, .le, .gt, .ge] [] (fun _ => True) b

/-- The clauses that slugs can express. -/
def SlugsClause (g : GRSpec) (x : List Char) : Prop :=
  ∃ b, ClauseTree g x b ∧ Within [.not, .always, .eventually, .next] [.and, .or, .imp, .bimp]
    [.eq, .ne, .lt, .le, .gt, .ge] [.add, .sub] (fun _ => True) b

/-- Below `X` there is no temporal operator, in all clauses. -/
def NoNesting (g : GRSpec) : Prop := ∀ p, ∀ x ∈ part g p, ∀ a, Tulip.parse x = some a → OneStep a

/-- The lines of a section of a slugs file: from the line `[NAME]` to the next line with `[` in front;
blank lines do not count. -/
def sectionOf (name : List Char) (lines : List (List Char)) : List (List Char) :=
  ((lines.dropWhile fun l => l ≠ c!"[" ++ name ++ c!"]").drop 1).takeWhile (fun l =>
    l.head? ≠ some '[') |>.filter fun l => l.any fun c => !isSpace c

def slugsLines (name : List Char) (s : List Char) : List (List Char) := sectionOf name (Gw.splitOn '\n' s)

/-- A declaration for slugs: `x`, or `x: a...b`. -/
def readSlugsVar (l : List Char) : Option (List Char × Dom) :=
  match l.dropWhile (· ≠ ':') with
  | [] => some (l, .boolean)
  | _ :: r => match Gw.splitOn '.' r with
    | [lo, [], [], hi] => do
      let a ← Gw.pyInt lo
      let b ← Gw.pyInt hi
      return (l.takeWhile (· ≠ ':'), .range a b)
    | _ => none

/-! ## The languages -/

theorem gr1c_readable : Readable gr1c id primedVar .bool where
  un op o h hp := by
    rw [List.map_id]
    cases op <;> simp only [gr1c, gr1cUn, Option.some.injEq, reduceCtorEq] at h <;> subst h
    · exact ⟨by decide, fun r => lex_unText rfl⟩
    · exact ⟨by decide, fun r => by simp [lex_cons, lexStep]⟩
    · exact ⟨by decide, fun r => by simp [lex_cons, lexStep]⟩
  bin op o h := by
    rw [List.map_id]
    cases op <;> simp only [gr1c, gr1cBin, Option.some.injEq, reduceCtorEq] at h <;> subst h
    all_goals exact ⟨by decide, fun r => lex_binText rfl⟩
  cmp op o h := by rw [List.map_id]; exact h
  ar op o h := by cases h
  bool b := by rw [List.map_id]; exact prints_bool b
  var p x s h1 h2 h := by
    rw [List.map_id]
    cases h
    cases p with
    | false => simpa [primedVar] using prints_var h1 h2
    | true => exact prints_primed h1 h2
  space := rfl
  lpar := rfl
  rpar := rfl
  num n := List.map_id _

theorem prints_upper (b : Bool) : Prints (if b then c!"TRUE" else c!"FALSE") (.bool b) := by
  refine ⟨by cases b <;> decide, [.tf b], reads_toks (t := .bool b) trivial, fun rest hd => ?_⟩
  cases b
  · exact lex_word (c := 'F') (w := c!"ALSE") (by decide) (by decide) hd.nameChar
  · exact lex_word (c := 'T') (w := c!"RUE") (by decide) (by decide) hd.nameChar

theorem slugs_readable : Readable slugs id primedVar .bool where
  un := gr1c_readable.un
  bin := gr1c_readable.bin
  cmp op o h := by rw [List.map_id]; exact h
  ar op o h := by
    rw [List.map_id]
    cases op <;> simp only [slugs, reduceCtorEq, Option.some.injEq] at h <;> subst h <;> rfl
  bool b := by rw [List.map_id]; exact prints_upper b
  var := gr1c_readable.var
  space := rfl
  lpar := rfl
  rpar := rfl
  num n := List.map_id _

theorem gr1c_iff {b : Ast} (hb : NoStrConst b) : (∃ s, text gr1c false b = .ok s) ↔
    Within [.not, .always, .eventually, .next] [.and, .or, .imp, .bimp]
      [.eq, .ne, .lt, .le, .gt, .ge] [] (fun _ => True) b :=
  text_iff (fun op => by cases op <;> simp [gr1c, gr1cUn]) (fun op => by cases op <;> simp [gr1c, gr1cBin])
    (fun op => by cases op <;> simp [gr1c, cmpText]) (fun op => by simp [gr1c])
    (fun p x => by simp [gr1c]) hb false

theorem slugs_iff {b : Ast} (hb : NoStrConst b) : (∃ s, text slugs false b = .ok s) ↔
    Within [.not, .always, .eventually, .next] [.and, .or, .imp, .bimp]
      [.eq, .ne, .lt, .le, .gt, .ge] [.add, .sub] (fun _ => True) b :=
  text_iff (fun op => by cases op <;> simp [slugs, gr1cUn]) (fun op => by cases op <;> simp [slugs, gr1cBin])
    (fun op => by cases op <;> simp [slugs, cmpText]) (fun op => by cases op <;> simp [slugs])
    (fun p x => by simp [slugs]) hb false

theorem gr1cUn_chars : ∀ op o, gr1cUn op = some o → ∀ c ∈ o, TextChar c := by
  intro op o h c hc
  cases op <;> simp only [gr1cUn, Option.some.injEq, reduceCtorEq] at h <;> subst h <;>
    revert c <;> unfold TextChar <;> decide

theorem gr1cBin_chars : ∀ op o, gr1cBin op = some o → ∀ c ∈ o, TextChar c := by
  intro op o h c hc
  cases op <;> simp only [gr1cBin, Option.some.injEq, reduceCtorEq] at h <;> subst h <;>
    revert c <;> unfold TextChar <;> decide

theorem cmpText_chars : ∀ op o, cmpText op = some o → ∀ c ∈ o, TextChar c := by
  intro op o h c hc
  cases op <;> simp only [cmpText, Option.some.injEq, reduceCtorEq] at h <;> subst h <;>
    revert c <;> unfold TextChar <;> decide

theorem primed_chars : ∀ (p : Bool) x s, IsIdent x → (.ok (x.toList ++ if p then c!"'" else []) : Except PyErr (List Char)) = .ok s →
    ∀ c ∈ s, TextChar c := by
  intro p x s hx h c hc
  cases h
  rcases List.mem_append.1 hc with hc | hc
  · exact ident_nameChar hx c hc
  · cases p
    · cases hc
    · right
      simp only [if_true, List.mem_singleton] at hc
      subst hc; decide

theorem gr1c_chars {b : Ast} (hn : Named b) (hs : NoStrConst b) {s : List Char}
    (h : text gr1c false b = .ok s) : ∀ c ∈ s, TextChar c :=
  text_chars (L := gr1c) (by unfold TextChar; decide) gr1cUn_chars gr1cBin_chars cmpText_chars
    (by intro op o h; cases h) (by intro b; cases b <;> unfold TextChar <;> decide) intChars_nameChar primed_chars hn hs h

theorem slugs_chars {b : Ast} (hn : Named b) (hs : NoStrConst b) {s : List Char}
    (h : text slugs false b = .ok s) : ∀ c ∈ s, TextChar c :=
  text_chars (L := slugs) (by unfold TextChar; decide) gr1cUn_chars gr1cBin_chars cmpText_chars
    (by
      intro op o h c hc
      cases op <;> simp only [slugs, Option.some.injEq, reduceCtorEq] at h <;> subst h <;>
        revert c <;> unfold TextChar <;> decide)
    (by intro b; cases b <;> unfold TextChar <;> decide) intChars_nameChar primed_chars hn hs h

/-! ## Clauses -/

/-- The text of a clause reads, with primed variables for `X`. -/
theorem clause_primes {g : GRSpec} {L : Lang} (R : Readable L id primedVar .bool) (hL : L.primes = true)
    {x s : List Char} (h : ClauseText g L x s) :
    ∃ a b, Tulip.parse x = some a ∧ subConstants (strVars g) none a = .ok b ∧ ClauseTree g x b ∧
      text L false b = .ok s ∧ Prints s (readTree true primedVar .bool false b) := by
  obtain ⟨b, h1, h2⟩ := h
  have hp := text_prints R h1.named.1 h1.named.2 h2
  rw [List.map_id, hL] at hp
  obtain ⟨a, f, k1, k2, k3, k4⟩ := h1
  exact ⟨a, b, k1, k3, ⟨a, f, k1, k2, k3, k4⟩, h2, hp⟩

theorem clause_holds {g : GRSpec} {L : Lang} (R : Readable L id primedVar .bool) (hL : L.primes = true)
    {x s : List Char} (h : ClauseText g L x s)
    (hu : ∀ a, Tulip.parse x = some a → StrUse (strVars g) a) (ho : ∀ a, Tulip.parse x = some a → OneStep a)
    {σ : Trace} (hσ : InDomains (strVars g) σ) (i : Nat) :
    Holds (encode (strVars g) σ) i s ↔ Holds σ i x := by
  obtain ⟨a, b, h1, h2, _, _, hp⟩ := clause_primes R hL h
  rw [holds_iff hp.parse, holds_iff h1]
  obtain ⟨b', k1, _, k3⟩ := subConstants_correct (hu a h1)
  rw [h2] at k1; cases k1
  rw [← k3 σ hσ i]
  simp only [Sat, eval_primes (oneStep_sub (ho a h1) h2)]

/-! ## gr1c -/

/-- What follows the colon of a section. -/
def sectionBody (pre : List Char) (T : List (List Char)) : List Char :=
  if T.isEmpty then [] else ' ' :: gr1cFormula pre T

theorem gr1cSection_eq (T : List (List Char)) (name pre : List Char) :
    gr1cSection T name pre = name ++ ':' :: (sectionBody pre T ++ c!";\n") := by
  unfold gr1cSection sectionBody
  split <;> simp

theorem says_iff {g : GRSpec} {xs T : List (List Char)} (h : List.Forall₂ (ClauseText g gr1c) xs T)
    (hu : ∀ x ∈ xs, ∀ a, Tulip.parse x = some a → StrUse (strVars g) a)
    (ho : ∀ x ∈ xs, ∀ a, Tulip.parse x = some a → OneStep a)
    {σ : Trace} (hσ : InDomains (strVars g) σ) :
    (Says (encode (strVars g) σ) (sectionBody [] T) ↔ ∀ x ∈ xs, Holds σ 0 x) ∧
    (Says (encode (strVars g) σ) (sectionBody c!"[]" T) ↔ ∀ x ∈ xs, ∀ i, Holds σ i x) ∧
    (Says (encode (strVars g) σ) (sectionBody c!"[]<>" T) ↔ ∀ x ∈ xs, Recurs σ x) := by
  have hread : ∀ s ∈ T, '#' ∉ s ∧ ∃ b, Tulip.parse s = some b := by
    have : ∀ s ∈ T, ∃ x, ClauseText g gr1c x s := by
      clear hu ho
      induction h with
      | nil => simp
      | cons h1 _ ih =>
        intro s hs
        rcases List.mem_cons.1 hs with rfl | hs
        · exact ⟨_, h1⟩
        · exact ih s hs
    intro s hs
    obtain ⟨x, hx⟩ := this s hs
    obtain ⟨a, b, _, _, _, _, hp⟩ := clause_primes gr1c_readable rfl hx
    exact ⟨hp.1, _, hp.parse⟩
  have key : ∀ (pre : List Char) (P : List Char → Prop),
      (∀ s b, UnitStr s b → ∃ b', UnitStr (pre ++ s) b') →
      (∀ s ∈ T, Holds (encode (strVars g) σ) 0 (pre ++ (c!"(" ++ s ++ c!")")) ↔ P s) →
      (Says (encode (strVars g) σ) (sectionBody pre T) ↔ ∀ s ∈ T, P s) := by
    intro pre P hpre hP
    unfold Says sectionBody
    by_cases hT : T = []
    · simp [hT]
    · rw [if_neg (by simpa using hT)]
      simp only [reduceCtorEq, false_or]
      rw [holds_congr (lex_space _), gr1cFormula, holds_joined separator_line (by simpa using hT)]
      · simp only [List.mem_map, forall_exists_index, and_imp, forall_apply_eq_imp_iff₂]
        refine forall₂_congr fun s hs => ?_
        rw [← hP s hs]
        simp
      · intro u hu
        obtain ⟨s, hs, rfl⟩ := List.mem_map.1 hu
        obtain ⟨h1, b, h2⟩ := hread s hs
        obtain ⟨b', hb'⟩ := hpre _ _ (unit_paren h1 h2)
        exact ⟨b', by simpa using hb'⟩
  have back : ∀ (P Q : List Char → Prop),
      (∀ x s, (∀ i, Holds (encode (strVars g) σ) i s ↔ Holds σ i x) → (Q s ↔ P x)) →
      ((∀ s ∈ T, Q s) ↔ ∀ x ∈ xs, P x) := fun P Q hpq =>
    forall_mem_of_forall₂ h fun x hx y hy =>
      hpq x y fun i => clause_holds gr1c_readable rfl hy (hu x hx) (ho x hx) hσ i
  refine ⟨?_, ?_, ?_⟩
  · rw [key [] (fun s => Holds (encode (strVars g) σ) 0 s) (fun s b h => ⟨b, h⟩) fun s hs => by
      obtain ⟨h1, b, h2⟩ := hread s hs
      exact holds_paren h1 h2 _ _]
    exact back _ _ fun x s hxs => hxs 0
  · rw [key c!"[]" (fun s => ∀ i, Holds (encode (strVars g) σ) i s) (fun s b h => ⟨_, unit_always h⟩) fun s hs => by
      obtain ⟨h1, b, h2⟩ := hread s hs
      exact holds_always h1 h2 _]
    exact back _ _ fun x s hxs => forall_congr' hxs
  · rw [key c!"[]<>" (fun s => Recurs (encode (strVars g) σ) s)
      (fun s b h => ⟨_, unit_always (unit_eventually h)⟩) fun s hs => by
      obtain ⟨h1, b, h2⟩ := hread s hs
      exact holds_recurs h1 h2 _]
    exact back _ _ fun x s hxs => forall_congr' fun i => exists_congr fun j => and_congr Iff.rfl (hxs j)

theorem conjuncts_foldBin (t : Ast) (ts : List Ast) :
    conjuncts (foldBin .and t ts) = conjuncts t ++ ts.flatMap conjuncts := by
  induction ts generalizing t with
  | nil => simp [foldBin]
  | cons u us ih => rw [foldBin, ih, conjuncts]; simp

theorem saysStep_iff {g : GRSpec} {xs T : List (List Char)} (h : List.Forall₂ (ClauseText g gr1c) xs T)
    (hu : ∀ x ∈ xs, ∀ a, Tulip.parse x = some a → StrUse (strVars g) a)
    (ho : ∀ x ∈ xs, ∀ a, Tulip.parse x = some a → OneStep a)
    {σ : Trace} (hσ : InDomains (strVars g) σ) (i : Nat) :
    SaysStep (encode (strVars g) σ) i (sectionBody c!"[]" T) ↔ ∀ x ∈ xs, Holds σ i x := by
  rw [← forall_mem_of_forall₂ h (P := fun x => Holds σ i x) (Q := fun s => Holds (encode (strVars g) σ) i s)
    fun x hx y hy => clause_holds gr1c_readable rfl hy (hu x hx) (ho x hx) hσ i]
  have hread : ∃ bs, List.Forall₂ (fun s b => '#' ∉ s ∧ Tulip.parse s = some b) T bs := by
    clear hu ho
    induction h with
    | nil => exact ⟨[], .nil⟩
    | cons h1 _ ih =>
      obtain ⟨bs, hbs⟩ := ih
      obtain ⟨a, b, _, _, _, _, hp⟩ := clause_primes gr1c_readable rfl h1
      exact ⟨_ :: bs, .cons ⟨hp.1, hp.parse⟩ hbs⟩
  obtain ⟨bs, hbs⟩ := hread
  unfold SaysStep sectionBody
  cases hbs with
  | nil => simp
  | @cons s b T bs hsb hbs =>
    rw [if_neg (by simp)]
    simp only [reduceCtorEq, false_or]
    have hun : ∀ {T : List (List Char)} {bs : List Ast},
        List.Forall₂ (fun s b => '#' ∉ s ∧ Tulip.parse s = some b) T bs →
        List.Forall₂ UnitStr (T.map fun s => c!"[]" ++ c!"(" ++ s ++ c!")") (bs.map fun b => .un .always b) := by
      intro T bs h
      induction h with
      | nil => exact .nil
      | cons h1 _ ih => exact .cons (by simpa using unit_always (unit_paren h1.1 h1.2)) ih
    have h1 : UnitStr (c!"[]" ++ c!"(" ++ s ++ c!")") (.un .always b) := by
      simpa using unit_always (unit_paren hsb.1 hsb.2)
    have hp : Tulip.parse (' ' :: gr1cFormula c!"[]" (s :: T)) =
        some (foldBin .and (.un .always b) (bs.map fun b => .un .always b)) := by
      rw [parse_congr (lex_space _), gr1cFormula, List.map_cons]
      exact (chain_join_sep separator_line h1 (hun hbs)).parse
    rw [hp]
    simp only [Option.some.injEq, exists_eq_left', conjuncts_foldBin]
    have e : (bs.map fun b => Ast.un .always b).flatMap conjuncts = bs.map fun b => .un .always b := by
      clear hp hbs
      induction bs with
      | nil => rfl
      | cons b bs ih => simp only [List.map_cons, List.flatMap_cons, ih]; rfl
    rw [e]
    simp only [conjuncts, List.mem_append, List.mem_singleton, List.mem_map]
    rw [List.forall_mem_cons]
    constructor
    · intro hc
      refine ⟨?_, ?_⟩
      · obtain ⟨a, e, ha⟩ := hc _ (.inl rfl)
        cases e
        exact (holds_iff hsb.2).2 ha
      · intro u hu'
        have : ∃ c ∈ bs, Tulip.parse u = some c := by
          clear hp hc e h
          induction hbs with
          | nil => cases hu'
          | cons h1 _ ih =>
            rcases List.mem_cons.1 hu' with rfl | hu'
            · exact ⟨_, List.mem_cons_self, h1.2⟩
            · obtain ⟨c, h2, h3⟩ := ih hu'
              exact ⟨c, List.mem_cons_of_mem _ h2, h3⟩
        obtain ⟨c, hc1, hc2⟩ := this
        obtain ⟨a, e, ha⟩ := hc _ (.inr ⟨c, hc1, rfl⟩)
        cases e
        exact (holds_iff hc2).2 ha
    · rintro ⟨h2, h3⟩ c (rfl | ⟨d, hd, rfl⟩)
      · exact ⟨b, rfl, (holds_iff hsb.2).1 h2⟩
      · have : ∃ u ∈ T, Tulip.parse u = some d := by
          clear hp e h3 h
          induction hbs with
          | nil => cases hd
          | cons h1 _ ih =>
            rcases List.mem_cons.1 hd with rfl | hd
            · exact ⟨_, List.mem_cons_self, h1.2⟩
            · obtain ⟨u, h2, h3⟩ := ih hd
              exact ⟨u, List.mem_cons_of_mem _ h2, h3⟩
        obtain ⟨u, hu1, hu2⟩ := this
        exact ⟨d, rfl, (holds_iff hu2).1 (h3 u hu1)⟩

theorem splitOn_cons {sep : Char} {a : List Char} (h : sep ∉ a) (b : List Char) :
    Gw.splitOn sep (a ++ sep :: b) = a :: Gw.splitOn sep b := by
  unfold Gw.splitOn
  rw [Gw.splitOn_append, Gw.splitOn_none _ h]
  simp

theorem splitOn_single {sep : Char} {a : List Char} (h : sep ∉ a) : Gw.splitOn sep a = [a] := by
  unfold Gw.splitOn
  rw [Gw.splitOn_none _ h]
  simp

theorem words_space (r : List Char) : words (' ' :: r) = words r := by
  have := splitOn_cons (sep := ' ') (a := []) (by simp) r
  simp only [List.nil_append] at this
  simp [words, this]

theorem words_cons {w r : List Char} (hw : ' ' ∉ w) (hne : w ≠ []) (hr : r = [] ∨ ∃ r', r = ' ' :: r') :
    words (' ' :: (w ++ r)) = w :: words r := by
  rw [words_space]
  have hf : (!w.isEmpty) = true := by cases w <;> simp_all
  rcases hr with rfl | ⟨r', rfl⟩
  · have : Gw.splitOn ' ' ([] : List Char) = [[]] := rfl
    simp [words, splitOn_single hw, hf, this]
  · rw [words_space]
    simp [words, splitOn_cons hw, hf]

/-- The text of a declaration. -/
def declText (p : String × Dom) : List Char :=
  match solverDom p.2 with
  | .range lo hi => ' ' :: (p.1.toList ++ (' ' :: ((c!"[" ++ intChars lo ++ c!",") ++
      ' ' :: (intChars hi ++ c!"]"))))
  | _ => ' ' :: p.1.toList

theorem gr1cVar_ok {p : String × Dom} {t : List Char} :
    gr1cVar p = .ok t ↔ (∀ l, p.2 = .strs l → l ≠ []) ∧ t = declText p := by
  obtain ⟨v, d⟩ := p
  cases d with
  | boolean => simp [gr1cVar, declText, solverDom, eq_comm]
  | range lo hi => simp [gr1cVar, declText, solverDom, eq_comm]
  | strs l =>
    by_cases hl : l = []
    · simp [gr1cVar, hl]
    · have : gr1cVar (v, .strs l) = .ok (declText (v, .strs l)) := by
        simp [gr1cVar, declText, solverDom, hl]
      rw [this, Except.ok.injEq]
      constructor
      · rintro rfl
        exact ⟨fun l' h => by cases h; exact hl, rfl⟩
      · exact fun h => h.2.symm

theorem mapM_gr1cVar {vars : Dict String Dom} {ts : List (List Char)} :
    vars.mapM gr1cVar = .ok ts ↔ (∀ v l, (v, .strs l) ∈ vars → l ≠ []) ∧ ts = vars.map declText := by
  induction vars generalizing ts with
  | nil => simp [eq_comm]
  | cons p ps ih =>
    simp only [List.mapM_cons, bind_ok_iff, pure_eq_ok, Except.ok.injEq, gr1cVar_ok, ih, List.mem_cons,
      List.map_cons]
    constructor
    · rintro ⟨t, ⟨h1, rfl⟩, r, ⟨h2, rfl⟩, rfl⟩
      exact ⟨fun v l h => by rcases h with rfl | h; exacts [h1 l rfl, h2 v l h], rfl⟩
    · rintro ⟨h, rfl⟩
      exact ⟨_, ⟨fun l hl => h p.1 l (.inl (by rw [← hl])), rfl⟩, _, ⟨fun v l hv => h v l (.inr hv), rfl⟩, rfl⟩

theorem Plain.clean {x : String} (h : Plain x) {c : Char} (hc : c.isAlphanum = false) (hu : c ≠ '_') :
    c ∉ x.toList := fun hm => by
  rcases h.2 c hm with h | h
  · rw [h] at hc; cases hc
  · exact hu h

theorem intChars_clean (n : Int) {c : Char} (h1 : c.isAlphanum = false) (h2 : c ≠ '-') : c ∉ intChars n := by
  have hd : ∀ n : Nat, c ∉ digitsOf n := fun n h => by
    have hx := Gw.digitsOf_all n _ h
    simp only [isDig, Bool.and_eq_true, decide_eq_true_eq] at hx
    have : c.isAlphanum = true := by
      rw [Char.isAlphanum, Bool.or_eq_true]
      right
      unfold Char.isDigit
      rw [Bool.and_eq_true, decide_eq_true_eq, decide_eq_true_eq]
      exact ⟨hx.1, hx.2⟩
    rw [this] at h1; cases h1
  cases n with
  | ofNat n => exact hd n
  | negSucc n =>
    simp only [intChars, List.mem_cons, not_or]
    exact ⟨h2, hd _⟩

theorem readDecls_correct {vars : Dict String Dom} (h : ∀ v ∈ vars.keys, Plain v) :
    readDecls (words (vars.map declText).flatten) =
      some (vars.map fun p => (p.1.toList, solverDom p.2)) := by
  induction vars with
  | nil => rfl
  | cons p ps ih =>
    have hp : Plain p.1 := h p.1 (by simp [Dict.keys])
    have ih := ih fun v hv => h v (by simp only [Dict.keys, List.map_cons, List.mem_cons] at hv ⊢; exact .inr hv)
    have hrest : (ps.map declText).flatten = [] ∨ ∃ r, (ps.map declText).flatten = ' ' :: r := by
      cases ps with
      | nil => exact .inl rfl
      | cons q qs =>
        right
        simp only [List.map_cons, List.flatten_cons, declText]
        split <;> exact ⟨_, rfl⟩
    have hsp : ' ' ∉ p.1.toList := hp.clean (by decide) (by decide)
    simp only [List.map_cons, List.flatten_cons]
    generalize hr : (ps.map declText).flatten = rest at ih hrest
    cases hd : solverDom p.2 with
    | strs l => cases hp2 : p.2 <;> simp [hp2, solverDom] at hd
    | boolean =>
      have e : declText p ++ rest = ' ' :: (p.1.toList ++ rest) := by simp [declText, hd]
      rw [e, words_cons hsp hp.1 hrest, readDecls, ih]
      · rfl
      · intro lo hi r hw
        cases ps with
        | nil => subst hr; simp [words, Gw.splitOn, Gw.splitOnFrom] at hw
        | cons q qs =>
          have hq : Plain q.1 := h q.1 (by simp [Dict.keys])
          obtain ⟨m, hm, hm'⟩ : ∃ m, rest = ' ' :: (q.1.toList ++ m) ∧ (m = [] ∨ ∃ r', m = ' ' :: r') := by
            rw [← hr]
            simp only [List.map_cons, List.flatten_cons]
            have hqs : (qs.map declText).flatten = [] ∨ ∃ r, (qs.map declText).flatten = ' ' :: r := by
              cases qs with
              | nil => exact .inl rfl
              | cons q' qs' =>
                right
                simp only [List.map_cons, List.flatten_cons, declText]
                split <;> exact ⟨_, rfl⟩
            cases hd' : solverDom q.2 with
            | range a b => exact ⟨_, by simp [declText, hd']; rfl, .inr ⟨_, rfl⟩⟩
            | boolean => exact ⟨_, by simp [declText, hd'], hqs⟩
            | strs l => exact ⟨_, by simp [declText, hd'], hqs⟩
          rw [hm, words_cons (hq.clean (by decide) (by decide)) hq.1 hm'] at hw
          have : '[' ∈ q.1.toList := by
            rw [List.cons.injEq] at hw
            rw [hw.1]; simp
          exact hq.clean (c := '[') (by decide) (by decide) this
    | range a b =>
      have e : declText p ++ rest = ' ' :: (p.1.toList ++ (' ' :: ((c!"[" ++ intChars a ++ c!",") ++
          ' ' :: (intChars b ++ c!"]" ++ rest)))) := by simp [declText, hd]
      have h1 : ' ' ∉ c!"[" ++ intChars a ++ c!"," := by
        simp [intChars_clean a (c := ' ') (by decide) (by decide)]
      have h2 : ' ' ∉ intChars b ++ c!"]" := by
        simp [intChars_clean b (c := ' ') (by decide) (by decide)]
      rw [e, words_cons hsp hp.1 (.inr ⟨_, rfl⟩), words_cons h1 (by simp) (.inr ⟨_, rfl⟩),
        words_cons h2 (by simp) hrest]
      simp [readDecls, ih, Gw.pyInt_intChars]

/-- The body of a statement. -/
def body (s name : List Char) : List Char := ((Dict.get? (statements s) name).getD [])

theorem texts_chars {g : GRSpec} {L : Lang} (hc : ∀ {b s}, Named b → NoStrConst b → text L false b = .ok s →
    ∀ c ∈ s, TextChar c) {xs T : List (List Char)} (h : List.Forall₂ (ClauseText g L) xs T) :
    ∀ s ∈ T, ∀ c ∈ s, TextChar c := by
  induction h with
  | nil => simp
  | cons h1 _ ih =>
    intro s hs
    rcases List.mem_cons.1 hs with rfl | hs
    · obtain ⟨b, h2, h3⟩ := h1
      exact hc h2.named.1 h2.named.2 h3
    · exact ih s hs

theorem joinWith_mem {sep : List Char} {ss : List (List Char)} {c : Char} (h : c ∈ joinWith sep ss) :
    c ∈ sep ∨ ∃ s ∈ ss, c ∈ s := by
  cases ss with
  | nil => cases h
  | cons x xs =>
    rw [joinWith_cons_eq, List.mem_append] at h
    rcases h with h | h
    · exact .inr ⟨x, by simp, h⟩
    · simp only [List.mem_flatten, List.mem_map, exists_exists_and_eq_and, List.mem_append] at h
      obtain ⟨s, hs, h | h⟩ := h
      · exact .inl h
      · exact .inr ⟨s, by simp [hs], h⟩

theorem sectionBody_clean {pre : List Char} {T : List (List Char)} (hp : ';' ∉ pre)
    (h : ∀ s ∈ T, ∀ c ∈ s, TextChar c) : ';' ∉ sectionBody pre T := by
  unfold sectionBody
  split
  · simp
  · intro hm
    rcases List.mem_cons.1 hm with hm | hm
    · cases hm
    · rcases joinWith_mem hm with hm | ⟨s, hs, hm⟩
      · revert hm; decide
      · obtain ⟨u, hu, rfl⟩ := List.mem_map.1 hs
        simp only [List.mem_append, List.mem_singleton] at hm
        rcases hm with ((hm | hm) | hm) | hm
        · exact hp hm
        · cases hm
        · exact (h u hu _ hm).ne (d := ';') (by decide) (by decide) rfl
        · cases hm

theorem declText_clean {vars : Dict String Dom} (h : ∀ v ∈ vars.keys, Plain v) :
    ';' ∉ (vars.map declText).flatten := by
  intro hm
  simp only [List.mem_flatten, List.mem_map, exists_exists_and_eq_and] at hm
  obtain ⟨p, hp, hm⟩ := hm
  have hv := (h p.1 (List.mem_map_of_mem hp)).clean (c := ';') (by decide) (by decide)
  have hn := fun n => intChars_clean n (c := ';') (by decide) (by decide)
  unfold declText at hm
  split at hm <;> simp [hv, hn] at hm

/-- **C86 (gr1c).** After any history as in C84, `translate(spec, 'gr1c')` returns if and only if primed
variables are where they may be, every clause can be expressed, and no variable has an empty list of
values. The specification does not change. The file has eight statements. The declarations are those of
the specification, with the indices of the values for string variables. If `X` is not nested, a trace
satisfies the clauses of each part, as initial conditions, at all times, or again and again, if and only if
the trace with strings replaced by indices satisfies the formula in the section of that part. The formulas
for transitions are conjunctions of formulas `[] a`, and at each step the `a` hold if and only if the clauses
do. The section of the initial condition of the environment is empty if and only if there is none. -/
theorem translateGr1c_correct {order : List Part} (horder : ∀ p, p ∈ order) (g0 : GRSpec) {ops : List Op}
    (hops : KeepsVars order (new g0) ops) :
    let st := run order (new g0) ops
    let g := st.spec
    (translateGr1c order st).1.spec = g ∧
    ((∃ s, (translateGr1c order st).2 = .ok s) ↔
      PrimesOk g ∧ (∀ p, ∀ x ∈ part g p, Gr1cClause g x) ∧
        ∀ v l, (v, .strs l) ∈ g.envVars ++ g.sysVars → l ≠ []) ∧
    ∀ s, (translateGr1c order st).2 = .ok s → (∀ v ∈ g.envVars.keys ++ g.sysVars.keys, Plain v) →
      (statements s).map (·.1) = [c!"ENV", c!"SYS", c!"ENVINIT", c!"ENVTRANS", c!"ENVGOAL", c!"SYSINIT",
        c!"SYSTRANS", c!"SYSGOAL"] ∧
      readDecls (words (body s c!"ENV")) = some (g.envVars.map fun p => (p.1.toList, solverDom p.2)) ∧
      readDecls (words (body s c!"SYS")) = some (g.sysVars.map fun p => (p.1.toList, solverDom p.2)) ∧
      (WellUsed g → NoNesting g → ∀ σ, InDomains (strVars g) σ →
        let τ := encode (strVars g) σ
        (Says τ (body s c!"ENVINIT") ↔ ∀ x ∈ g.envInit, Holds σ 0 x) ∧
        (Says τ (body s c!"ENVTRANS") ↔ ∀ x ∈ g.envSafety, ∀ i, Holds σ i x) ∧
        (Says τ (body s c!"ENVGOAL") ↔ ∀ x ∈ g.envProg, Recurs σ x) ∧
        (Says τ (body s c!"SYSINIT") ↔ ∀ x ∈ g.sysInit, Holds σ 0 x) ∧
        (Says τ (body s c!"SYSTRANS") ↔ ∀ x ∈ g.sysSafety, ∀ i, Holds σ i x) ∧
        (Says τ (body s c!"SYSGOAL") ↔ ∀ x ∈ g.sysProg, Recurs σ x) ∧
        (∀ i, SaysStep τ i (body s c!"ENVTRANS") ↔ ∀ x ∈ g.envSafety, Holds σ i x) ∧
        (∀ i, SaysStep τ i (body s c!"SYSTRANS") ↔ ∀ x ∈ g.sysSafety, Holds σ i x)) ∧
      (body s c!"ENVINIT" = [] ↔ g.envInit = []) := by
  intro st g
  have hgood : Good st := good_run (good_new g0) hops
  obtain ⟨_, t2, t3, t4⟩ := translate_spec horder (L := gr1c) (assemble := toGr1c) hgood
  refine ⟨t2, ⟨?_, ?_⟩, ?_⟩
  · rintro ⟨s, hs⟩
    obtain ⟨h1, d, T, hd, hT, ha⟩ := t3 s hs
    refine ⟨h1, (clauses_iff (W := _) fun b hb => gr1c_iff hb).1 ⟨T, hT⟩, ?_⟩
    simp only [toGr1c, dget, hd, look, bind_ok_iff, mapM_gr1cVar] at ha
    obtain ⟨_, ⟨h2, _⟩, _, ⟨h3, _⟩, _⟩ := ha
    intro v l hv
    rcases List.mem_append.1 hv with hv | hv
    · exact h2 v l hv
    · exact h3 v l hv
  · rintro ⟨h1, h2, h3⟩
    obtain ⟨T, hT⟩ := (clauses_iff (L := gr1c) fun b hb => gr1c_iff hb).2 h2
    obtain ⟨d, hd, he⟩ := t4 h1 T hT
    have e1 := (mapM_gr1cVar (vars := g.envVars)).2 ⟨fun v l hv => h3 v l (List.mem_append_left _ hv), rfl⟩
    have e2 := (mapM_gr1cVar (vars := g.sysVars)).2 ⟨fun v l hv => h3 v l (List.mem_append_right _ hv), rfl⟩
    have : ∃ s, toGr1c g d = .ok s := by
      simp only [toGr1c, dget, hd, look, e1, e2, ok_bind]
      exact ⟨_, rfl⟩
    obtain ⟨s, hs⟩ := this
    exact ⟨s, he.trans hs⟩
  · intro s hs hplain
    obtain ⟨h1, d, T, hd, hT, ha⟩ := t3 s hs
    simp only [toGr1c, dget, hd, look, bind_ok_iff, mapM_gr1cVar, ok_bind, pure_eq_ok,
      Except.ok.injEq, gr1cSection_eq] at ha
    obtain ⟨_, ⟨_, rfl⟩, _, ⟨_, rfl⟩, ha⟩ := ha
    have hchars := fun p => texts_chars (fun hn hs h => gr1c_chars hn hs h) (hT p)
    have q1 : ∀ p, ';' ∉ sectionBody [] (T p) := fun p => sectionBody_clean (by simp) (hchars p)
    have q2 : ∀ p, ';' ∉ sectionBody c!"[]" (T p) := fun p => sectionBody_clean (by decide) (hchars p)
    have q3 : ∀ p, ';' ∉ sectionBody c!"[]<>" (T p) := fun p => sectionBody_clean (by decide) (hchars p)
    have q4 : ';' ∉ (g.envVars.map declText).flatten := declText_clean fun v hv => hplain v (by simp [hv])
    have q5 : ';' ∉ (g.sysVars.map declText).flatten := declText_clean fun v hv => hplain v (by simp [hv])
    have hst : statements s = [(c!"ENV", (g.envVars.map declText).flatten),
        (c!"SYS", (g.sysVars.map declText).flatten), (c!"ENVINIT", sectionBody [] (T .envInit)),
        (c!"ENVTRANS", sectionBody c!"[]" (T .envSafety)), (c!"ENVGOAL", sectionBody c!"[]<>" (T .envProg)),
        (c!"SYSINIT", sectionBody [] (T .sysInit)), (c!"SYSTRANS", sectionBody c!"[]" (T .sysSafety)),
        (c!"SYSGOAL", sectionBody c!"[]<>" (T .sysProg))] := by
      have e : s = (c!"ENV:" ++ (g.envVars.map declText).flatten) ++ ';' ::
          ((c!"\nSYS:" ++ (g.sysVars.map declText).flatten) ++ ';' ::
          ((c!"\nENVINIT:" ++ sectionBody [] (T .envInit)) ++ ';' ::
          ((c!"\nENVTRANS:" ++ sectionBody c!"[]" (T .envSafety)) ++ ';' ::
          ((c!"\nENVGOAL:" ++ sectionBody c!"[]<>" (T .envProg)) ++ ';' ::
          ((c!"\n\nSYSINIT:" ++ sectionBody [] (T .sysInit)) ++ ';' ::
          ((c!"\nSYSTRANS:" ++ sectionBody c!"[]" (T .sysSafety)) ++ ';' ::
          ((c!"\nSYSGOAL:" ++ sectionBody c!"[]<>" (T .sysProg)) ++ ';' :: c!"\n"))))))) := by
        rw [← ha]; simp; rfl
      unfold statements
      rw [e, splitOn_cons (by simp [q4]), splitOn_cons (by simp [q5]), splitOn_cons (by simp [q1]),
        splitOn_cons (by simp [q2]), splitOn_cons (by simp [q3]), splitOn_cons (by simp [q1]),
        splitOn_cons (by simp [q2]), splitOn_cons (by simp [q3]), splitOn_single (by decide)]
      rfl
    have hb : body s c!"ENV" = (g.envVars.map declText).flatten ∧
        body s c!"SYS" = (g.sysVars.map declText).flatten ∧
        body s c!"ENVINIT" = sectionBody [] (T .envInit) ∧
        body s c!"ENVTRANS" = sectionBody c!"[]" (T .envSafety) ∧
        body s c!"ENVGOAL" = sectionBody c!"[]<>" (T .envProg) ∧
        body s c!"SYSINIT" = sectionBody [] (T .sysInit) ∧
        body s c!"SYSTRANS" = sectionBody c!"[]" (T .sysSafety) ∧
        body s c!"SYSGOAL" = sectionBody c!"[]<>" (T .sysProg) := by
      simp only [body, hst]
      exact ⟨rfl, rfl, rfl, rfl, rfl, rfl, rfl, rfl⟩
    obtain ⟨b1, b2, b3, b4, b5, b6, b7, b8⟩ := hb
    refine ⟨by rw [hst]; rfl, ?_, ?_, fun hu ho σ hσ => ?_, ?_⟩
    · rw [b1]; exact readDecls_correct fun v hv => hplain v (by simp [hv])
    · rw [b2]; exact readDecls_correct fun v hv => hplain v (by simp [hv])
    rotate_left
    · rw [b3]
      have hl := (hT .envInit).length_eq
      have hl : g.envInit.length = (T .envInit).length := hl
      cases hx : T .envInit with
      | nil =>
        rw [hx] at hl
        simp [sectionBody, List.eq_nil_of_length_eq_zero hl]
      | cons t ts =>
        rw [hx] at hl
        have : g.envInit ≠ [] := fun e => by simp [e] at hl
        simp [sectionBody, this]
    · simp only [b3, b4, b5, b6, b7, b8]
      have key := fun p => says_iff (hT p) (hu p) (ho p) hσ
      exact ⟨(key .envInit).1, (key .envSafety).2.1, (key .envProg).2.2, (key .sysInit).1,
        (key .sysSafety).2.1, (key .sysProg).2.2,
        saysStep_iff (hT .envSafety) (hu .envSafety) (ho .envSafety) hσ,
        saysStep_iff (hT .sysSafety) (hu .sysSafety) (ho .sysSafety) hσ⟩

/-! ## slugs -/

/-- A line that is not blank. -/
def nonblank (l : List Char) : Bool := l.any fun c => !isSpace c

def header (name : List Char) : List Char := c!"[" ++ name ++ c!"]"

theorem sectionOf_blocks {Bs : List (List Char × List (List Char))}
    (hls : ∀ b ∈ Bs, ∀ l ∈ b.2, l.head? ≠ some '[') (hnd : (Bs.map (·.1)).Nodup)
    {n : List Char} {ls : List (List Char)} (hm : (n, ls) ∈ Bs) :
    sectionOf n (Bs.flatMap (fun b => header b.1 :: b.2) ++ [[]]) = ls.filter nonblank := by
  induction Bs with
  | nil => cases hm
  | cons b bs ih =>
    rw [List.map_cons, List.nodup_cons] at hnd
    rcases List.mem_cons.1 hm with rfl | hm
    · clear ih
      simp only [sectionOf, header, List.flatMap_cons, List.cons_append, List.nil_append]
      rw [List.dropWhile_cons_of_neg (by simp), List.drop_one, List.tail_cons, List.append_assoc,
        List.takeWhile_append_of_pos (by
          intro l hl
          simpa using hls (n, ls) (by simp) l hl), List.filter_append]
      have : List.filter (fun l => l.any fun c => !isSpace c) (List.takeWhile (fun l => decide (l.head? ≠ some '['))
          (List.flatMap (fun b : List Char × List (List Char) => ('[' :: (b.1 ++ c!"]")) :: b.2) bs ++ [[]])) = [] := by
        cases bs with
        | nil => simp
        | cons b' bs' => simp
      rw [this]
      exact List.append_nil _
    · have ih := ih (fun b' hb' => hls b' (by simp [hb'])) hnd.2 hm
      rw [← ih]
      have hne : b.1 ≠ n := fun e => hnd.1 (e ▸ List.mem_map_of_mem (f := Prod.fst) hm)
      unfold sectionOf
      congr 3
      have e1 : ∀ r : List (List Char), List.flatMap (fun b : List Char × List (List Char) => header b.1 :: b.2)
          (b :: bs) ++ r = header b.1 :: (b.2 ++ (List.flatMap (fun b => header b.1 :: b.2) bs ++ r)) := by
        intro r; simp
      rw [e1, List.dropWhile_cons_of_pos (by
        apply decide_eq_true
        intro e
        simp [header] at e
        exact hne e)]
      rw [List.dropWhile_append_of_pos]
      intro l hl
      simp only [ne_eq, decide_eq_true_eq]
      rintro rfl
      exact hls b (by simp) _ hl (by simp)

/-- The lines of a file made of blocks. -/
theorem lines_blocks {Bs : List (List Char × List Char)} (hn : ∀ b ∈ Bs, '\n' ∉ b.1)
    (hc : ∀ b ∈ Bs, b.2 = [] ∨ ∃ c, b.2 = c ++ c!"\n") :
    Gw.splitOn '\n' (Bs.flatMap fun b => header b.1 ++ '\n' :: b.2) =
      (Bs.map fun b => (b.1, (Gw.splitOn '\n' b.2).dropLast)).flatMap (fun b => header b.1 :: b.2) ++ [[]] := by
  induction Bs with
  | nil => rfl
  | cons b bs ih =>
    have ih := ih (fun b hb => hn b (by simp [hb])) (fun b hb => hc b (by simp [hb]))
    have h1 : '\n' ∉ header b.1 := by simp [header, hn b (by simp)]
    rw [List.flatMap_cons, List.append_assoc, List.cons_append, splitOn_cons h1]
    simp only [List.map_cons, List.flatMap_cons, List.cons_append, List.append_assoc, List.cons.injEq, true_and]
    rcases hc b (by simp) with e | ⟨c, e⟩
    · rw [e]
      simp only [List.nil_append]
      rw [ih]
      rfl
    · rw [e]
      have h2 : ∀ r, Gw.splitOn '\n' (c ++ c!"\n" ++ r) = Gw.splitOn '\n' c ++ Gw.splitOn '\n' r := by
        intro r
        have := Gw.splitOn_append '\n' c r []
        simpa [Gw.splitOn] using this
      have h3 := h2 []
      rw [List.append_nil, show Gw.splitOn '\n' ([] : List Char) = [[]] from rfl] at h3
      rw [h2, h3, List.dropLast_concat, ih]

theorem text_head {L : Lang} (hb : ∀ b, ∃ c r, L.bool b = c :: r ∧ c ≠ '[' ∧ isSpace c = false)
    (hv : ∀ p x s, IsIdent x → L.var p x = .ok s → ∃ c r, s = c :: r ∧ c ≠ '[' ∧ isSpace c = false)
    {b : Ast} (hn : Named b) (hs : NoStrConst b) {p : Bool} {s : List Char}
    (h : text L p b = .ok s) : ∃ c r, s = c :: r ∧ c ≠ '[' ∧ isSpace c = false := by
  induction b generalizing p s with
  | var x => exact hv p x s hn.1 h
  | bool b => cases h; exact hb b
  | num n =>
    cases h
    have hd : ∀ n : Nat, ∃ c r, digitsOf n = c :: r ∧ c ≠ '[' ∧ isSpace c = false := by
      intro n
      cases hd : digitsOf n with
      | nil => exact absurd hd (digitsOf_spec n).2.1
      | cons c r =>
        have hc := Gw.digitsOf_all n c (by rw [hd]; simp)
        refine ⟨c, r, rfl, ?_, ?_⟩
        · rintro rfl; revert hc; decide
        · cases hi : isSpace c with
          | false => rfl
          | true =>
            simp only [isSpace, Bool.or_eq_true, decide_eq_true_eq] at hi
            rcases hi with ((((rfl | rfl) | rfl) | rfl) | rfl) | rfl <;> revert hc <;> decide
    cases n with
    | ofNat n => exact hd n
    | negSucc n => exact ⟨'-', _, rfl, by decide, by decide⟩
  | str => exact hs.elim
  | un op a ih =>
    simp only [text] at h
    split at h
    · exact ih hn hs h
    · simp only [bind_ok_iff, look_ok, pure_eq_ok, Except.ok.injEq] at h
      obtain ⟨o, ho, u, hu, rfl⟩ := h
      exact ⟨'(', _, rfl, by decide, by decide⟩
  | bin op a d =>
    simp only [text, bind_ok_iff, look_ok, pure_eq_ok, Except.ok.injEq] at h
    obtain ⟨o, ho, u, hu, v, hv, rfl⟩ := h
    exact ⟨'(', _, rfl, by decide, by decide⟩
  | cmp op a d =>
    simp only [text, bind_ok_iff, look_ok, pure_eq_ok, Except.ok.injEq] at h
    obtain ⟨o, ho, u, hu, v, hv, rfl⟩ := h
    exact ⟨'(', _, rfl, by decide, by decide⟩
  | ar op a d =>
    simp only [text, bind_ok_iff, look_ok, pure_eq_ok, Except.ok.injEq] at h
    obtain ⟨o, ho, u, hu, v, hv, rfl⟩ := h
    exact ⟨'(', _, rfl, by decide, by decide⟩
  | trunc => cases h
  | ite => cases h

theorem ident_head {x : String} (h : IsIdent x) : ∃ c r, x.toList = c :: r ∧ c ≠ '[' ∧ isSpace c = false := by
  obtain ⟨c, cs, e, h1, _⟩ := isWord_of_isIdent h
  refine ⟨c, cs, e, ?_, ?_⟩
  · rintro rfl; revert h1; decide
  · cases hi : isSpace c with
    | false => rfl
    | true =>
      simp only [isSpace, Bool.or_eq_true, decide_eq_true_eq] at hi
      rcases hi with ((((rfl | rfl) | rfl) | rfl) | rfl) | rfl <;> revert h1 <;> decide

/-- What is known of the text of a clause for slugs. -/
structure SlugsText (s : List Char) : Prop where
  unit : ∃ b, UnitStr s b
  line : '\n' ∉ s
  head : ∃ c r, s = c :: r ∧ c ≠ '[' ∧ isSpace c = false

theorem slugsText {g : GRSpec} {x s : List Char} (h : ClauseText g slugs x s) : SlugsText s := by
  obtain ⟨a, b, _, _, h3, h4, hp⟩ := clause_primes slugs_readable rfl h
  refine ⟨⟨_, hp.unit⟩, fun hm => ?_, ?_⟩
  · exact (slugs_chars h3.named.1 h3.named.2 h4 _ hm).ne (d := '\n') (by decide) (by decide) rfl
  · refine text_head (L := slugs) (fun b => ?_) (fun p x s hx e => ?_) h3.named.1 h3.named.2 h4
    · cases b
      · exact ⟨'F', _, rfl, by decide, by decide⟩
      · exact ⟨'T', _, rfl, by decide, by decide⟩
    · cases e
      obtain ⟨c, r, e, h1, h2⟩ := ident_head hx
      exact ⟨c, _, by rw [e]; rfl, h1, h2⟩

/-- The lines of a section with one formula on each line. -/
theorem lines_each {T : List (List Char)} (hne : T ≠ []) (h : ∀ s ∈ T, SlugsText s) (pre : List Char)
    (hpre : pre = [] ∨ pre = c!" ") :
    List.Forall₂ (fun s l => lex l = lex s ∧ nonblank l = true ∧ l.head? ≠ some '[') T
      (Gw.splitOn '\n' (pre ++ joinWith c!" \n " T)) := by
  induction T generalizing pre with
  | nil => exact absurd rfl hne
  | cons x xs ih =>
    obtain ⟨⟨b, hb⟩, hl, c, r, e, hc1, hc2⟩ := h x (by simp)
    have hpn : '\n' ∉ pre := by rcases hpre with rfl | rfl <;> decide
    have hlex : ∀ u, lex (pre ++ u) = lex u := by
      intro u; rcases hpre with rfl | rfl
      · rfl
      · exact lex_space u
    have facts : ∀ post, lex (x ++ post) = lex x → lex (pre ++ (x ++ post)) = lex x ∧
        nonblank (pre ++ (x ++ post)) = true ∧ (pre ++ (x ++ post)).head? ≠ some '[' := by
      intro post hp
      refine ⟨(hlex _).trans hp, ?_, ?_⟩
      · simp [nonblank, e, hc2]
      · rcases hpre with rfl | rfl
        · simpa [e] using hc1
        · simp
    cases xs with
    | nil =>
      simp only [joinWith]
      rw [splitOn_single (by simp [hpn, hl])]
      exact .cons (by simpa using facts [] (by simp)) .nil
    | cons y ys =>
      have e2 : pre ++ joinWith c!" \n " (x :: y :: ys) =
          (pre ++ (x ++ c!" ")) ++ '\n' :: (c!" " ++ joinWith c!" \n " (y :: ys)) := by simp [joinWith]
      rw [e2, splitOn_cons (by simp [hpn, hl])]
      refine .cons (facts c!" " ?_) (ih (by simp) (fun s hs => h s (by simp [hs])) c!" " (.inr rfl))
      have := lex_append (c := ' ') [] hb.clean (.inr rfl)
      simpa using this

theorem filter_texts {T : List (List Char)} (h : ∀ s ∈ T, SlugsText s) : (T.filter fun x => !x.isEmpty) = T := by
  rw [List.filter_eq_self]
  intro s hs
  obtain ⟨_, _, c, r, e, _⟩ := h s hs
  simp [e]

/-- The content of a section. -/
def slugsContent (r : List (List Char)) (sep : List Char) : List Char :=
  if r.isEmpty then [] else joinWith (c!" " ++ sep ++ c!" ") (r.filter fun x => !x.isEmpty) ++ c!"\n\n"

theorem slugsSection_eq (r : List (List Char)) (name sep : List Char) :
    slugsSection r name sep = header name ++ '\n' :: slugsContent r sep := by
  unfold slugsSection header slugsContent
  split <;> simp

theorem slugsContent_end (r : List (List Char)) (sep : List Char) :
    slugsContent r sep = [] ∨ ∃ c, slugsContent r sep = c ++ c!"\n" := by
  unfold slugsContent
  split
  · exact .inl rfl
  · exact .inr ⟨joinWith (c!" " ++ sep ++ c!" ") (r.filter fun x => !x.isEmpty) ++ c!"\n", by simp⟩

theorem splitOn_last (c : List Char) :
    (Gw.splitOn '\n' (c ++ c!"\n\n")).dropLast = Gw.splitOn '\n' c ++ [[]] := by
  have e1 := Gw.splitOn_append '\n' c c!"\n" []
  have : c ++ c!"\n\n" = c ++ '\n' :: c!"\n" := by simp
  rw [this]
  unfold Gw.splitOn
  rw [e1]
  have : Gw.splitOnFrom '\n' [] c!"\n" = [[], []] := by decide
  rw [this]
  have : Gw.splitOnFrom '\n' [] c ++ [[], []] = (Gw.splitOnFrom '\n' [] c ++ [[]]) ++ [[]] := by simp
  rw [this, List.dropLast_concat]

theorem content_each {T : List (List Char)} (h : ∀ s ∈ T, SlugsText s) :
    (∀ l ∈ (Gw.splitOn '\n' (slugsContent T c!"\n")).dropLast, l.head? ≠ some '[') ∧
    ∀ P : List Char → Prop, (∀ s l, lex l = lex s → (P l ↔ P s)) →
      ((∀ l ∈ ((Gw.splitOn '\n' (slugsContent T c!"\n")).dropLast).filter nonblank, P l) ↔ ∀ s ∈ T, P s) := by
  unfold slugsContent
  by_cases hT : T = []
  · subst hT
    exact ⟨by simp [Gw.splitOn, Gw.splitOnFrom], by simp [Gw.splitOn, Gw.splitOnFrom]⟩
  · rw [if_neg (by simpa using hT), filter_texts h, splitOn_last]
    have hl := lines_each hT h [] (.inl rfl)
    simp only [List.nil_append] at hl
    have e : c!" " ++ c!"\n" ++ c!" " = c!" \n " := rfl
    rw [e]
    generalize Gw.splitOn '\n' (joinWith c!" \n " T) = ls at hl
    have hall : ∀ l ∈ ls, nonblank l = true ∧ l.head? ≠ some '[' := by
      clear h hT
      induction hl with
      | nil => simp
      | cons h1 _ ih =>
        intro l hl
        rcases List.mem_cons.1 hl with rfl | hl
        · exact h1.2
        · exact ih l hl
    refine ⟨fun l hl => ?_, fun P hP => ?_⟩
    · rcases List.mem_append.1 hl with hl | hl
      · exact (hall l hl).2
      · rw [List.mem_singleton] at hl; subst hl; simp
    · rw [List.filter_append, List.filter_eq_self.2 fun l hl => (hall l hl).1]
      have : List.filter nonblank [([] : List Char)] = [] := rfl
      rw [this, List.append_nil]
      exact forall_mem_of_forall₂ hl fun s _ l hsl => hP s l hsl.1

theorem content_conj {T : List (List Char)} (h : ∀ s ∈ T, SlugsText s) :
    (∀ l ∈ (Gw.splitOn '\n' (slugsContent T c!"&")).dropLast, l.head? ≠ some '[') ∧
    ∀ τ i, ((∀ l ∈ ((Gw.splitOn '\n' (slugsContent T c!"&")).dropLast).filter nonblank, Holds τ i l) ↔
      ∀ s ∈ T, Holds τ i s) := by
  unfold slugsContent
  by_cases hT : T = []
  · subst hT
    exact ⟨by simp [Gw.splitOn, Gw.splitOnFrom], by simp [Gw.splitOn, Gw.splitOnFrom]⟩
  · rw [if_neg (by simpa using hT), filter_texts h, splitOn_last]
    have e : c!" " ++ c!"&" ++ c!" " = c!" & " := rfl
    have hn : '\n' ∉ joinWith c!" & " T := fun hm => by
      rcases joinWith_mem hm with hm | ⟨s, hs, hm⟩
      · revert hm; decide
      · exact (h s hs).line hm
    rw [e, splitOn_single hn]
    obtain ⟨c, r, hj, hc1, hc2⟩ : ∃ c r, joinWith c!" & " T = c :: r ∧ c ≠ '[' ∧ isSpace c = false := by
      cases T with
      | nil => exact absurd rfl hT
      | cons x xs =>
        obtain ⟨_, _, c, r, e, h1, h2⟩ := h x (by simp)
        exact ⟨c, _, by rw [joinWith_cons_eq, e]; rfl, h1, h2⟩
    refine ⟨fun l hl => ?_, fun τ i => ?_⟩
    · simp only [List.cons_append, List.nil_append, List.mem_cons, List.not_mem_nil, or_false] at hl
      rcases hl with rfl | rfl
      · simpa [hj] using hc1
      · simp
    · have hb : nonblank (joinWith c!" & " T) = true := by simp [nonblank, hj, hc2]
      have : List.filter nonblank ([joinWith c!" & " T] ++ [[]]) = [joinWith c!" & " T] := by
        rw [List.filter_append, List.filter_eq_self.2 (by simpa using hb)]; rfl
      rw [this]
      simp only [List.mem_singleton, forall_eq]
      exact holds_joined separator_and hT (fun s hs => (h s hs).unit) τ i

/-- The text of a declaration for slugs. -/
def slugsDecl (p : String × Dom) : List Char :=
  match p.2 with
  | .range lo hi => p.1.toList ++ ':' :: ' ' :: (intChars lo ++ '.' :: ('.' :: ('.' :: intChars hi)))
  | _ => p.1.toList

theorem mapM_slugsVar {vars : Dict String Dom} {ts : List (List Char)} :
    vars.mapM slugsVar = .ok ts ↔ (∀ v l, (v, .strs l) ∉ vars) ∧ ts = vars.map slugsDecl := by
  induction vars generalizing ts with
  | nil => simp [eq_comm]
  | cons p ps ih =>
    have hp : ∀ t, slugsVar p = .ok t ↔ (∀ l, p.2 ≠ .strs l) ∧ t = slugsDecl p := by
      intro t
      obtain ⟨v, d⟩ := p
      cases d <;> simp [slugsVar, slugsDecl, eq_comm]
    simp only [List.mapM_cons, bind_ok_iff, pure_eq_ok, Except.ok.injEq, hp, ih, List.mem_cons,
      List.map_cons, not_or]
    constructor
    · rintro ⟨t, ⟨h1, rfl⟩, r, ⟨h2, rfl⟩, rfl⟩
      exact ⟨fun v l => ⟨fun e => h1 l (by rw [← e]), h2 v l⟩, rfl⟩
    · rintro ⟨h, rfl⟩
      exact ⟨_, ⟨fun l hl => (h p.1 l).1 (by rw [← hl]), rfl⟩, _, ⟨fun v l => (h v l).2, rfl⟩, rfl⟩

theorem takeWhile_stop {c : Char} {a b : List Char} (h : c ∉ a) :
    (a ++ c :: b).takeWhile (· ≠ c) = a ∧ (a ++ c :: b).dropWhile (· ≠ c) = c :: b := by
  induction a with
  | nil => simp
  | cons d a ih =>
    simp only [List.mem_cons, not_or] at h
    have := ih h.2
    have hd : decide (d ≠ c) = true := decide_eq_true (Ne.symm h.1)
    rw [List.cons_append, List.takeWhile_cons, List.dropWhile_cons, if_pos hd, if_pos hd, this.1, this.2]
    exact ⟨rfl, rfl⟩

theorem readSlugsVar_correct {p : String × Dom} (hp : Plain p.1) (hd : ∀ l, p.2 ≠ .strs l) :
    readSlugsVar (slugsDecl p) = some (p.1.toList, p.2) := by
  obtain ⟨v, d⟩ := p
  have hv : ':' ∉ v.toList := hp.clean (by decide) (by decide)
  cases d with
  | boolean =>
    have : v.toList.dropWhile (· ≠ ':') = [] := by
      rw [List.dropWhile_eq_nil_iff]
      intro c hc
      simp only [ne_eq, decide_not, Bool.not_eq_eq_eq_not, Bool.not_true, decide_eq_false_iff_not]
      rintro rfl; exact hv hc
    simp only [slugsDecl, readSlugsVar, this]
  | range lo hi =>
    obtain ⟨h1, h2⟩ := takeWhile_stop (b := ' ' :: (intChars lo ++ '.' :: ('.' :: ('.' :: intChars hi)))) hv
    have n1 : '.' ∉ ' ' :: intChars lo := by
      simp [intChars_clean lo (c := '.') (by decide) (by decide)]
    have n2 : '.' ∉ intChars hi := intChars_clean hi (by decide) (by decide)
    have h3 : Gw.splitOn '.' (' ' :: (intChars lo ++ '.' :: ('.' :: ('.' :: intChars hi)))) =
        [' ' :: intChars lo, [], [], intChars hi] := by
      have e := splitOn_cons n1 ('.' :: ('.' :: intChars hi))
      have e2 := splitOn_cons (sep := '.') (a := []) (by simp) ('.' :: intChars hi)
      have e3 := splitOn_cons (sep := '.') (a := []) (by simp) (intChars hi)
      simp only [List.nil_append] at e2 e3
      rw [List.cons_append] at e
      rw [e, e2, e3, splitOn_single n2]
    have h4 : Gw.pyInt (' ' :: intChars lo) = some lo := by
      rw [LtlFile.pyInt_space]; exact Gw.pyInt_intChars lo
    simp only [slugsDecl, readSlugsVar, h1, h2, h3, h4, Gw.pyInt_intChars]
    rfl
  | strs l => exact absurd rfl (hd l)

theorem decl_lines {vars : Dict String Dom} (h : ∀ v ∈ vars.keys, Plain v) (hd : ∀ v l, (v, .strs l) ∉ vars) :
    let ls := (Gw.splitOn '\n' (joinWith c!"\n" (vars.map slugsDecl) ++ c!"\n\n")).dropLast
    (∀ l ∈ ls, l.head? ≠ some '[') ∧ ls.filter nonblank = vars.map slugsDecl := by
  intro ls
  have hline : ∀ p ∈ vars, '\n' ∉ slugsDecl p ∧ nonblank (slugsDecl p) = true ∧ (slugsDecl p).head? ≠ some '[' := by
    intro p hp
    have hv := h p.1 (List.mem_map_of_mem hp)
    have hn := fun n => intChars_clean n (c := '\n') (by decide) (by decide)
    have hhead : ∀ r, nonblank (p.1.toList ++ r) = true ∧ (p.1.toList ++ r).head? ≠ some '[' := by
      intro r
      cases e : p.1.toList with
      | nil => exact absurd e hv.1
      | cons c cs =>
        have hc := hv.2 c (by rw [e]; simp)
        refine ⟨?_, ?_⟩
        · have : isSpace c = false := by
            cases hi : isSpace c with
            | false => rfl
            | true =>
              simp only [isSpace, Bool.or_eq_true, decide_eq_true_eq] at hi
              rcases hi with ((((rfl | rfl) | rfl) | rfl) | rfl) | rfl <;> revert hc <;> decide
          simp [nonblank, this]
        · simp only [List.cons_append, List.head?_cons, ne_eq, Option.some.injEq]
          rintro rfl; revert hc; decide
    refine ⟨?_, ?_⟩
    · unfold slugsDecl
      split <;> simp [hv.clean (c := '\n') (by decide) (by decide), hn]
    · unfold slugsDecl
      split
      · exact hhead _
      · simpa using hhead []
  have hsplit : ∀ ps : List (String × Dom), ps ≠ [] → (∀ p ∈ ps, '\n' ∉ slugsDecl p) →
      Gw.splitOn '\n' (joinWith c!"\n" (ps.map slugsDecl)) = ps.map slugsDecl := by
    intro ps
    induction ps with
    | nil => exact fun h => absurd rfl h
    | cons p ps ih =>
      intro _ hl
      cases ps with
      | nil => simpa [joinWith] using splitOn_single (hl p (by simp))
      | cons q qs =>
        have := ih (by simp) fun p hp => hl p (by simp [hp])
        simp only [List.map_cons, joinWith] at this ⊢
        rw [List.append_assoc, List.cons_append, splitOn_cons (hl p (by simp))]
        simp only [List.nil_append]
        rw [this]
  have e : ls = Gw.splitOn '\n' (joinWith c!"\n" (vars.map slugsDecl)) ++ [[]] := splitOn_last _
  by_cases hv : vars = []
  · subst hv
    rw [e]
    exact ⟨by simp [joinWith, Gw.splitOn, Gw.splitOnFrom], by
      simp [joinWith, Gw.splitOn, Gw.splitOnFrom, nonblank]⟩
  · rw [e, hsplit vars hv fun p hp => (hline p hp).1]
    refine ⟨fun l hl => ?_, ?_⟩
    · rcases List.mem_append.1 hl with hl | hl
      · obtain ⟨p, hp, rfl⟩ := List.mem_map.1 hl
        exact (hline p hp).2.2
      · rw [List.mem_singleton] at hl; subst hl; simp
    · rw [List.filter_append, List.filter_eq_self.2]
      · simp [nonblank]
      · intro l hl
        obtain ⟨p, hp, rfl⟩ := List.mem_map.1 hl
        exact (hline p hp).2.1

theorem sub_nil {ctx : Above} {a b : Ast} (h : subConstants [] ctx a = .ok b) : b = a := by
  induction a generalizing ctx b with
  | var x => cases h; rfl
  | bool | num => cases h; rfl
  | str s =>
    simp only [subConstants, bind_ok_iff, Dict.get?_nil, reduceCtorEq, and_false, exists_false] at h
  | un op a ih =>
    simp only [subConstants, bind_ok_iff, pure_eq_ok, Except.ok.injEq] at h
    obtain ⟨u, hu, rfl⟩ := h
    rw [ih hu]
  | bin op a c iha ihc =>
    simp only [subConstants, bind_ok_iff, pure_eq_ok, Except.ok.injEq] at h
    obtain ⟨u, hu, v, hv, rfl⟩ := h
    rw [iha hu, ihc hv]
  | cmp op a c iha ihc =>
    simp only [subConstants, bind_ok_iff, pure_eq_ok, Except.ok.injEq] at h
    obtain ⟨u, hu, v, hv, rfl⟩ := h
    rw [iha hu, ihc hv]
  | ar op a c iha ihc =>
    simp only [subConstants, bind_ok_iff, pure_eq_ok, Except.ok.injEq] at h
    obtain ⟨u, hu, v, hv, rfl⟩ := h
    rw [iha hu, ihc hv]
  | trunc a n ih =>
    simp only [subConstants, bind_ok_iff, pure_eq_ok, Except.ok.injEq] at h
    obtain ⟨u, hu, rfl⟩ := h
    rw [ih hu]
  | ite c a d ihc iha ihd =>
    simp only [subConstants, bind_ok_iff, pure_eq_ok, Except.ok.injEq] at h
    obtain ⟨u, hu, v, hv, w, hw, rfl⟩ := h
    rw [ihc hu, iha hv, ihd hw]

theorem update_mem {κ α : Type} [DecidableEq κ] {d e : Dict κ α} {p : κ × α} (h : p ∈ d.update e) :
    p ∈ d ∨ p ∈ e := by
  have hset : ∀ (d : Dict κ α) k v, p ∈ d.set k v → p ∈ d ∨ p = (k, v) := by
    intro d k v
    induction d with
    | nil => simp [Dict.set]
    | cons q qs ih =>
      simp only [Dict.set]
      split
      · rename_i hq
        simp only [List.mem_cons, hq]; tauto
      · simp only [List.mem_cons]
        rintro (h | h)
        · exact .inl (.inl h)
        · rcases ih h with h | h
          · exact .inl (.inr h)
          · exact .inr h
  have : ∀ (e d : Dict κ α), p ∈ e.foldl (fun d q => d.set q.1 q.2) d → p ∈ d ∨ p ∈ e := by
    intro e
    induction e with
    | nil => simp
    | cons q qs ih =>
      intro d h
      rcases ih _ h with h | h
      · rcases hset d _ _ h with h | h
        · exact .inl h
        · exact .inr (by simp [h])
      · exact .inr (by simp [h])
  exact this e d h

theorem strVars_nil {g : GRSpec} (h : ∀ v l, (v, .strs l) ∉ g.envVars ++ g.sysVars) : strVars g = [] := by
  unfold strVars
  rw [List.filterMap_eq_nil_iff]
  intro p hp
  have := update_mem hp
  obtain ⟨v, d⟩ := p
  cases d with
  | boolean | range => rfl
  | strs l => exact absurd (List.mem_append.2 this) (h v l)

/-- **C86 (slugs).** After any history as in C84, `translate(spec, 'slugs')` returns if and only if primed
variables are where they may be, every clause can be expressed, and no variable has string values. The
specification does not change. The sections `INPUT` and `OUTPUT` declare the variables of the environment
and of the system with their ranges. If `X` is not nested, a trace satisfies the lines of each of the other
sections, at its first step, at all steps or again and again, if and only if it satisfies the clauses of
that part. -/
theorem translateSlugs_correct {order : List Part} (horder : ∀ p, p ∈ order) (g0 : GRSpec) {ops : List Op}
    (hops : KeepsVars order (new g0) ops) :
    let st := run order (new g0) ops
    let g := st.spec
    (translateSlugs order st).1.spec = g ∧
    ((∃ s, (translateSlugs order st).2 = .ok s) ↔
      PrimesOk g ∧ (∀ p, ∀ x ∈ part g p, SlugsClause g x) ∧
        ∀ v l, (v, .strs l) ∉ g.envVars ++ g.sysVars) ∧
    ∀ s, (translateSlugs order st).2 = .ok s → (∀ v ∈ g.envVars.keys ++ g.sysVars.keys, Plain v) →
      (slugsLines c!"INPUT" s).map readSlugsVar = g.envVars.map (fun p => some (p.1.toList, p.2)) ∧
      (slugsLines c!"OUTPUT" s).map readSlugsVar = g.sysVars.map (fun p => some (p.1.toList, p.2)) ∧
      (NoNesting g → ∀ σ,
        ((∀ l ∈ slugsLines c!"ENV_INIT" s, Holds σ 0 l) ↔ ∀ x ∈ g.envInit, Holds σ 0 x) ∧
        (∀ i, (∀ l ∈ slugsLines c!"ENV_TRANS" s, Holds σ i l) ↔ ∀ x ∈ g.envSafety, Holds σ i x) ∧
        ((∀ l ∈ slugsLines c!"ENV_LIVENESS" s, Recurs σ l) ↔ ∀ x ∈ g.envProg, Recurs σ x) ∧
        ((∀ l ∈ slugsLines c!"SYS_INIT" s, Holds σ 0 l) ↔ ∀ x ∈ g.sysInit, Holds σ 0 x) ∧
        (∀ i, (∀ l ∈ slugsLines c!"SYS_TRANS" s, Holds σ i l) ↔ ∀ x ∈ g.sysSafety, Holds σ i x) ∧
        ((∀ l ∈ slugsLines c!"SYS_LIVENESS" s, Recurs σ l) ↔ ∀ x ∈ g.sysProg, Recurs σ x)) := by
  intro st g
  have hgood : Good st := good_run (good_new g0) hops
  obtain ⟨_, t2, t3, t4⟩ := translate_spec horder (L := slugs) (assemble := toSlugs) hgood
  refine ⟨t2, ⟨?_, ?_⟩, ?_⟩
  · rintro ⟨s, hs⟩
    obtain ⟨h1, d, T, hd, hT, ha⟩ := t3 s hs
    refine ⟨h1, (clauses_iff (W := _) fun b hb => slugs_iff hb).1 ⟨T, hT⟩, ?_⟩
    simp only [toSlugs, slugsVars, dget, hd, look, bind_ok_iff, mapM_slugsVar] at ha
    obtain ⟨_, ⟨_, ⟨h2, _⟩, _⟩, _, ⟨_, ⟨h3, _⟩, _⟩, _⟩ := ha
    intro v l hv
    rcases List.mem_append.1 hv with hv | hv
    · exact h2 v l hv
    · exact h3 v l hv
  · rintro ⟨h1, h2, h3⟩
    obtain ⟨T, hT⟩ := (clauses_iff (L := slugs) fun b hb => slugs_iff hb).2 h2
    obtain ⟨d, hd, he⟩ := t4 h1 T hT
    have e1 := (mapM_slugsVar (vars := g.envVars)).2 ⟨fun v l hv => h3 v l (List.mem_append_left _ hv), rfl⟩
    have e2 := (mapM_slugsVar (vars := g.sysVars)).2 ⟨fun v l hv => h3 v l (List.mem_append_right _ hv), rfl⟩
    have : ∃ s, toSlugs g d = .ok s := by
      simp only [toSlugs, slugsVars, dget, hd, look, e1, e2, ok_bind, pure_eq_ok]
      exact ⟨_, rfl⟩
    obtain ⟨s, hs⟩ := this
    exact ⟨s, he.trans hs⟩
  · intro s hs hplain
    obtain ⟨h1, d, T, hd, hT, ha⟩ := t3 s hs
    simp only [toSlugs, slugsVars, dget, hd, look, bind_ok_iff, mapM_slugsVar, ok_bind, pure_eq_ok,
      Except.ok.injEq, slugsSection_eq] at ha
    obtain ⟨_, ⟨_, ⟨n1, rfl⟩, rfl⟩, _, ⟨_, ⟨n2, rfl⟩, rfl⟩, ha⟩ := ha
    have htext : ∀ p, ∀ s ∈ T p, SlugsText s := by
      intro p
      have := hT p
      generalize part st.spec p = xs at this
      generalize T p = ss at this
      induction this with
      | nil => simp
      | cons h1 _ ih =>
        intro s hs
        rcases List.mem_cons.1 hs with rfl | hs
        · exact slugsText h1
        · exact ih s hs
    have hp1 : ∀ v ∈ g.envVars.keys, Plain v := fun v hv => hplain v (by simp [hv])
    have hp2 : ∀ v ∈ g.sysVars.keys, Plain v := fun v hv => hplain v (by simp [hv])
    obtain ⟨d1, d2⟩ := decl_lines hp1 n1
    obtain ⟨d3, d4⟩ := decl_lines hp2 n2
    have ce := fun p => content_each (htext p)
    have cc := fun p => content_conj (htext p)
    let Bs : List (List Char × List Char) := [
      (c!"INPUT", joinWith c!"\n" (g.envVars.map slugsDecl) ++ c!"\n\n"),
      (c!"OUTPUT", joinWith c!"\n" (g.sysVars.map slugsDecl) ++ c!"\n\n"),
      (c!"ENV_TRANS", slugsContent (T .envSafety) c!"\n"),
      (c!"ENV_LIVENESS", slugsContent (T .envProg) c!"\n"),
      (c!"ENV_INIT", slugsContent (T .envInit) c!"&"),
      (c!"SYS_TRANS", slugsContent (T .sysSafety) c!"\n"),
      (c!"SYS_LIVENESS", slugsContent (T .sysProg) c!"\n"),
      (c!"SYS_INIT", slugsContent (T .sysInit) c!"&")]
    have hBs : s = Bs.flatMap fun b => header b.1 ++ '\n' :: b.2 := by
      rw [← ha]
      simp [Bs, header]
      rfl
    have hend : ∀ c : List Char, c ++ c!"\n\n" = [] ∨ ∃ c', c ++ c!"\n\n" = c' ++ c!"\n" :=
      fun c => .inr ⟨c ++ c!"\n", by simp⟩
    have hlines := lines_blocks (Bs := Bs) (by simp [Bs]) (by
      simp only [Bs, List.mem_cons, List.not_mem_nil, or_false, forall_eq_or_imp, forall_eq]
      exact ⟨hend _, hend _, slugsContent_end _ _, slugsContent_end _ _, slugsContent_end _ _,
        slugsContent_end _ _, slugsContent_end _ _, slugsContent_end _ _⟩)
    have hsec : ∀ n c, (n, c) ∈ Bs → slugsLines n s = ((Gw.splitOn '\n' c).dropLast).filter nonblank := by
      intro n c hm
      unfold slugsLines
      rw [hBs, hlines]
      refine sectionOf_blocks ?_ ?_ (List.mem_map_of_mem (f := fun b => (b.1, (Gw.splitOn '\n' b.2).dropLast)) hm)
      · simp only [Bs, List.map_cons, List.map_nil, List.mem_cons, List.not_mem_nil, or_false,
          forall_eq_or_imp, forall_eq]
        exact ⟨d1, d3, (ce _).1, (ce _).1, (cc _).1, (ce _).1, (ce _).1, (cc _).1⟩
      · simp only [Bs, List.map_cons, List.map_nil]
        decide
    have hvars : ∀ (vars : Dict String Dom), (∀ v ∈ vars.keys, Plain v) → (∀ v l, (v, .strs l) ∉ vars) →
        (vars.map slugsDecl).map readSlugsVar = vars.map fun p => some (p.1.toList, p.2) := by
      intro vars hp hn
      rw [List.map_map]
      refine List.map_congr_left fun p hpm => ?_
      exact readSlugsVar_correct (hp p.1 (List.mem_map_of_mem hpm)) fun l hl => hn p.1 l (by
        rw [← hl]; exact hpm)
    refine ⟨?_, ?_, fun ho σ => ?_⟩
    · rw [hsec _ _ (List.mem_cons_self ..), d2, hvars _ hp1 n1]
    · rw [hsec _ _ (List.mem_cons_of_mem _ (List.mem_cons_self ..)), d4, hvars _ hp2 n2]
    · have hstr : strVars g = [] := strVars_nil fun v l hv => by
        rcases List.mem_append.1 hv with hv | hv
        · exact n1 v l hv
        · exact n2 v l hv
      have back : ∀ p (P : List Char → Prop), (∀ x s, (∀ i, Holds σ i s ↔ Holds σ i x) → (P s ↔ P x)) →
          ((∀ s ∈ T p, P s) ↔ ∀ x ∈ part g p, P x) := fun p P hP =>
        forall_mem_of_forall₂ (hT p) fun x hx s hs => hP x s fun i => by
          obtain ⟨a, b, k1, k2, _, _, hp⟩ := clause_primes slugs_readable rfl hs
          have hstr' : strVars st.spec = [] := hstr
          rw [hstr'] at k2
          cases sub_nil k2
          rw [holds_iff hp.parse, holds_iff k1]
          simp only [Sat, eval_primes (ho p x hx a k1)]
      have each : ∀ p (P : List Char → Prop), (∀ x s, (∀ i, Holds σ i s ↔ Holds σ i x) → (P s ↔ P x)) →
          ((∀ l ∈ ((Gw.splitOn '\n' (slugsContent (T p) c!"\n")).dropLast).filter nonblank, P l) ↔
            ∀ x ∈ part g p, P x) := fun p P hP =>
        ((ce p).2 P fun s l e => hP s l fun i => holds_congr e σ i).trans (back p P hP)
      have conj : ∀ p, (∀ l ∈ ((Gw.splitOn '\n' (slugsContent (T p) c!"&")).dropLast).filter nonblank,
          Holds σ 0 l) ↔ ∀ x ∈ part g p, Holds σ 0 x := fun p =>
        ((cc p).2 σ 0).trans (back p (Holds σ 0) fun x s h => h 0)
      have recs : ∀ x s, (∀ i, Holds σ i s ↔ Holds σ i x) → (Recurs σ s ↔ Recurs σ x) :=
        fun x y hxy => forall_congr' fun i => exists_congr fun j => and_congr Iff.rfl (hxy j)
      refine ⟨?_, fun i => ?_, ?_, ?_, fun i => ?_, ?_⟩
      · rw [hsec _ (slugsContent (T .envInit) c!"&") (by simp [Bs])]; exact conj .envInit
      · rw [hsec _ (slugsContent (T .envSafety) c!"\n") (by simp [Bs])]
        exact each .envSafety _ fun x s h => h i
      · rw [hsec _ (slugsContent (T .envProg) c!"\n") (by simp [Bs])]; exact each .envProg _ recs
      · rw [hsec _ (slugsContent (T .sysInit) c!"&") (by simp [Bs])]; exact conj .sysInit
      · rw [hsec _ (slugsContent (T .sysSafety) c!"\n") (by simp [Bs])]
        exact each .sysSafety _ fun x s h => h i
      · rw [hsec _ (slugsContent (T .sysProg) c!"\n") (by simp [Bs])]; exact each .sysProg _ recs

/-! ## Non-vacuity -/

section
/-- A specification with next values, a string-valued variable, an integer and a Boolean one. -/
def gate : GRSpec :=
  { garage2 with envSafety := [c!"park -> X(!park)"]
                 sysSafety := [c!"loc = \"lot\" -> X(n = 2)"] }

example : (∀ p, p ∈ parts) ∧ KeepsVars parts (new gate) [.parse, .strToInt] :=
  ⟨by intro p; cases p <;> decide, by rintro g ⟨⟩, by rintro g ⟨⟩, trivial⟩

example : (translateGr1c parts (run parts (new gate) [.parse, .strToInt])).2.toOption = some (
    c!"ENV: park;\nSYS: loc [0, 1] n [0, 3];\nENVINIT:;\nENVTRANS: [](( park -> ( ! park' ) ));\n" ++
    c!"ENVGOAL: []<>(( ! park ));\n\nSYSINIT: (( loc = 0 ));\n" ++
    c!"SYSTRANS: [](( ( loc = 1 ) -> ( n' = 2 ) ));\nSYSGOAL: []<>(( ( loc = 1 ) & ( n > 1 ) ));\n") := by
  decide +kernel

/-- The same without strings. -/
def gateInt : GRSpec :=
  { gate with sysVars := [("loc", .range 0 1), ("n", .range 0 3)]
              sysInit := [c!"loc = 0"]
              sysSafety := [c!"loc = 1 -> X(n = 2)"]
              sysProg := [c!"loc = 1 && n > 1"] }

example : (translateSlugs parts (run parts (new gateInt) [.parse])).2.toOption = some (
    c!"[INPUT]\npark\n\n[OUTPUT]\nloc: 0...1\nn: 0...3\n\n[ENV_TRANS]\n( park -> ( ! park' ) )\n\n" ++
    c!"[ENV_LIVENESS]\n( ! park )\n\n[ENV_INIT]\n[SYS_TRANS]\n( ( loc = 1 ) -> ( n' = 2 ) )\n\n" ++
    c!"[SYS_LIVENESS]\n( ( loc = 1 ) & ( n > 1 ) )\n\n[SYS_INIT]\n( loc = 0 )\n\n") := by
  decide +kernel

example : ∀ v ∈ gate.envVars.keys ++ gate.sysVars.keys, Plain v := by
  have h : gate.envVars.keys ++ gate.sysVars.keys = ["park", "loc", "n"] := by decide
  rw [h]
  simp only [List.mem_cons, List.not_mem_nil, or_false, forall_eq_or_imp, forall_eq]
  refine ⟨?_, ?_, ?_⟩ <;> exact ⟨by decide, by decide⟩

example : NoNesting gateInt := by
  intro p x hx a ha
  have h : ∀ y b, Tulip.parse y = some b → OneStep b → x = y → OneStep a := by
    rintro y b hy hb rfl
    rw [hy] at ha; cases ha; exact hb
  cases p <;> simp only [part, gateInt, gate, garage2, garage, List.mem_singleton, List.not_mem_nil] at hx
  · exact h _ (.cmp .eq (.var "loc") (.num 0)) (by decide +kernel) (by simp [OneStep]) hx
  · exact h _ (.bin .imp (.var "park") (.un .next (.un .not (.var "park")))) (by decide +kernel)
      (by simp [OneStep, NoTemporal]) hx
  · exact h _ (.bin .imp (.cmp .eq (.var "loc") (.num 1)) (.un .next (.cmp .eq (.var "n") (.num 2))))
      (by decide +kernel) (by simp [OneStep, NoTemporal]) hx
  · exact h _ (.un .not (.var "park")) (by decide +kernel) (by simp [OneStep]) hx
  · exact h _ (.bin .and (.cmp .eq (.var "loc") (.num 1)) (.cmp .gt (.var "n") (.num 1)))
      (by decide +kernel) (by simp [OneStep]) hx

/-- With nested `X` the translation for gr1c speaks about another step: `X (X n = 2)` becomes `n' = 2`. -/
theorem nested_next_counterexample :
    let g := { gateInt with sysSafety := [c!"X(X(n = 2))"] }
    (translateGr1c parts (new g)).2.toOption.map (fun s => (statements s).lookup c!"SYSTRANS") =
      some (some c!" [](( n' = 2 ))") := by
  decide +kernel
end

end Trans
end Tulip
