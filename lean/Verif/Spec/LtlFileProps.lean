import Verif.Spec.LtlFile
import Verif.Gridworld.DumpProps
import Verif.Gridworld.WorldProps
import Mathlib.Data.List.TakeWhile

/-!
# Files with LTL formulas: reading what was written

C35: `LTL.loads(f.dumps())` is `f`.
-/

namespace Tulip

namespace LtlFile

open Gw

/-! ### Specification -/

/-- A text without the characters that separate the parts of a file. -/
def Plain (s : List Char) : Prop := ∀ c ∈ s, c ≠ '#' ∧ c ≠ ':' ∧ c ≠ ';' ∧ c ≠ '%'

/-- A name of a variable: a plain text that neither starts nor ends with whitespace. -/
def NameOk (s : List Char) : Prop := Plain s ∧ strip s = s

/-- A Boolean domain, a range, or a nonempty set of integers. -/
def IntDom : VDom → Prop
  | .boolean => True
  | .range _ _ => True
  | .values l => l ≠ [] ∧ ∀ v ∈ l, ∃ n, v = .int n
  | .other => False

/-- A table of variables of a specification. -/
def TableOk (vars : Dict (List Char) VDom) : Prop :=
  vars.Wf ∧ ∀ p ∈ vars, NameOk p.1 ∧ IntDom p.2

/-- Equality of domains: sets are equal if they have the same elements. -/
def SameDom : VDom → VDom → Prop
  | .values l, .values l' => ∀ v, v ∈ l ↔ v ∈ l'
  | d, d' => d = d'

/-- The same variables, in the same order, with the same domains. -/
def SameTable (a b : Dict (List Char) VDom) : Prop :=
  List.Forall₂ (fun p q => p.1 = q.1 ∧ SameDom p.2 q.2) a b

/-- A formula that can be written in a file: no comment and no separator of sections. -/
def FormulaOk (s : List Char) : Prop := '#' ∉ s ∧ ¬ c!"%%\n" <:+: s

/-! ### Searching and splitting -/

theorem infix_split {pat a b : List Char} {c : Char} (hc : c ∉ pat) (h : pat <:+: a ++ c :: b) :
    pat <:+: a ∨ pat <:+: b := by
  obtain ⟨s, t, h⟩ := h
  rw [List.append_assoc] at h
  rcases List.append_eq_append_iff.mp h with ⟨u, h1, h2⟩ | ⟨u, h1, h2⟩
  · -- `a = s ++ u`, `pat ++ t = u ++ c :: b`
    rcases List.append_eq_append_iff.mp h2 with ⟨v, h3, h4⟩ | ⟨v, h3, h4⟩
    · subst h1 h3; exact .inl ⟨s, v, by simp⟩
    · cases v with
      | nil => subst h1 h3; exact .inl ⟨s, [], by simp⟩
      | cons x v =>
        obtain ⟨rfl, _⟩ := List.cons.inj h4
        exact absurd (by rw [h3]; simp) hc
  · cases u with
    | nil =>
      rw [List.nil_append] at h2
      cases pat with
      | nil => exact .inl (List.nil_infix)
      | cons x pat =>
        obtain ⟨rfl, _⟩ := List.cons.inj h2
        exact absurd (by simp) hc
    | cons x u =>
      obtain ⟨rfl, h3⟩ := List.cons.inj h2
      exact .inr ⟨u, t, by rw [h3]; simp⟩

theorem not_infix_of_not_mem {pat s : List Char} {c : Char} (hc : c ∈ pat) (hs : c ∉ s) :
    ¬ pat <:+: s := fun h => hs (h.subset hc)

theorem find_none {pat s : List Char} (h : ¬ pat <:+: s) : find pat s = none := by
  induction s with
  | nil =>
    unfold find
    cases pat with
    | nil => exact absurd List.nil_infix h
    | cons x l => rfl
  | cons c s ih =>
    unfold find
    rw [if_neg, ih]
    · rfl
    · exact fun h' => h (h'.trans (List.suffix_cons c s).isInfix)
    · intro h'
      exact h (List.isPrefixOf_iff_prefix.mp h').isInfix

theorem find_prefix (pat t : List Char) : find pat (pat ++ t) = some 0 := by
  cases pat with
  | nil => cases t <;> simp [find]
  | cons x l =>
    show find (x :: l) (x :: (l ++ t)) = _
    unfold find
    rw [if_pos]
    rw [List.isPrefixOf_iff_prefix, ← List.cons_append]
    exact List.prefix_append _ _

/-- The first occurrence after a character that is not in the pattern. -/
theorem find_after {pat : List Char} {c : Char} (hc : c ∉ pat) {a : List Char} (ha : ¬ pat <:+: a)
    (t : List Char) : find pat (a ++ c :: (pat ++ t)) = some (a.length + 1) := by
  induction a with
  | nil =>
    show find pat (c :: (pat ++ t)) = _
    unfold find
    rw [if_neg, find_prefix]
    · rfl
    · intro h
      cases pat with
      | nil => exact ha List.nil_infix
      | cons x l =>
        have := List.isPrefixOf_iff_prefix.mp h
        rw [List.cons_prefix_cons] at this
        exact hc (by simp [this.1])
  | cons x a ih =>
    rw [List.cons_append]
    unfold find
    rw [if_neg, ih]
    · rfl
    · exact fun h' => ha (h'.trans (List.suffix_cons x a).isInfix)
    · intro h
      obtain ⟨u, h⟩ := List.isPrefixOf_iff_prefix.mp h
      rw [← List.cons_append] at h
      rcases List.append_eq_append_iff.mp h with ⟨v, h1, h2⟩ | ⟨v, h1, h2⟩
      · exact ha ⟨[], v, by rw [h1]; simp⟩
      · cases v with
        | nil => exact ha ⟨[], [], by rw [h1]; simp⟩
        | cons y v =>
          obtain ⟨rfl, _⟩ := List.cons.inj h2
          exact hc (by rw [h1]; simp)

theorem splitStrFrom_none {sep s : List Char} (h : ¬ sep <:+: s) (cur : List Char) :
    splitStrFrom sep 0 cur s = [cur ++ s] := by
  induction s generalizing cur with
  | nil => simp [splitStrFrom]
  | cons c s ih =>
    unfold splitStrFrom
    rw [if_neg, ih fun h' => h (h'.trans (List.suffix_cons c s).isInfix)]
    · simp
    · exact fun h' => h (List.isPrefixOf_iff_prefix.mp h').isInfix

theorem splitStrFrom_skip (sep a : List Char) (cur t : List Char) :
    splitStrFrom sep a.length cur (a ++ t) = splitStrFrom sep 0 cur t := by
  induction a with
  | nil => rfl
  | cons c a ih => exact ih

/-- The part before the first separator, when its first character does not occur there. -/
theorem splitStrFrom_sep {x : Char} {sep a : List Char} (ha : x ∉ a) (cur t : List Char) :
    splitStrFrom (x :: sep) 0 cur (a ++ (x :: sep ++ t)) =
      (cur ++ a) :: splitStrFrom (x :: sep) 0 [] t := by
  induction a generalizing cur with
  | nil =>
    show splitStrFrom (x :: sep) 0 cur (x :: (sep ++ t)) = _
    conv => lhs; unfold splitStrFrom
    rw [if_pos]
    · have := splitStrFrom_skip (x :: sep) sep [] t
      simp only [List.length_cons, Nat.add_sub_cancel]
      rw [this]
      simp
    · rw [List.isPrefixOf_iff_prefix, ← List.cons_append]
      exact List.prefix_append _ _
  | cons c a ih =>
    have hc : x ≠ c := fun e => ha (by simp [e])
    rw [List.cons_append]
    conv => lhs; unfold splitStrFrom
    rw [if_neg, ih fun h => ha (by simp [h])]
    · simp
    · intro h
      have := List.isPrefixOf_iff_prefix.mp h
      rw [List.cons_prefix_cons] at this
      exact hc this.1

theorem replaceStr_header {x : Char} {pat t : List Char} (h : ¬ (x :: pat) <:+: t) :
    replaceStr (x :: pat) [] (x :: pat ++ t) = t := by
  unfold replaceStr splitStr
  have := splitStrFrom_sep (x := x) (sep := pat) (a := []) (by simp) [] t
  rw [List.nil_append] at this
  rw [this, splitStrFrom_none h]
  simp [joinWith]

theorem replaceStr_none {pat t : List Char} (h : ¬ pat <:+: t) : replaceStr pat [] t = t := by
  unfold replaceStr splitStr
  rw [splitStrFrom_none h]
  simp [joinWith]

/-! ### Comments -/

theorem strip_plain {a : List Char} (h : '#' ∉ a) (t : List Char) :
    stripFrom false (a ++ t) = a ++ stripFrom false t := by
  induction a with
  | nil => rfl
  | cons c a ih =>
    have hc : c ≠ '#' := fun e => h (by simp [e])
    rw [List.cons_append]
    conv => lhs; unfold stripFrom
    rw [if_neg hc, ih fun h' => h (by simp [h'])]
    rfl

theorem strip_comment {a : List Char} (h : '\n' ∉ a) (t : List Char) :
    stripFrom true (a ++ '\n' :: t) = stripFrom false t := by
  induction a with
  | nil => rfl
  | cons c a ih =>
    have hc : c ≠ '\n' := fun e => h (by simp [e])
    rw [List.cons_append]
    conv => lhs; unfold stripFrom
    rw [if_neg hc, ih fun h' => h (by simp [h'])]

/-! ### Whitespace -/

theorem strip_space {c : Char} (hc : isSpace c = true) (s : List Char) : strip (c :: s) = strip s := by
  unfold strip lstrip
  rw [List.dropWhile_cons_of_pos hc]

theorem strip_space_end {c : Char} (hc : isSpace c = true) (s : List Char) : strip (s ++ [c]) = strip s := by
  unfold strip lstrip
  rw [List.dropWhile_append]
  split
  · rename_i h
    rw [List.isEmpty_iff.mp h, List.dropWhile_cons_of_pos hc]
    rfl
  · rw [List.reverse_append, List.reverse_singleton, List.singleton_append,
      List.dropWhile_cons_of_pos hc]

theorem strip_nonempty {s : List Char} {c : Char} (hs : c ∈ s) (hc : isSpace c = false) :
    (strip s).isEmpty = false := by
  cases h : (strip s).isEmpty with
  | false => rfl
  | true =>
    exfalso
    have h := List.isEmpty_iff.mp h
    unfold strip lstrip at h
    rw [List.reverse_eq_nil_iff, List.dropWhile_eq_nil_iff] at h
    rw [← List.takeWhile_append_dropWhile (p := isSpace) (l := s), List.mem_append] at hs
    rcases hs with hs | hs
    · rw [List.mem_takeWhile_imp hs] at hc; cases hc
    · rw [h c (by simpa using hs)] at hc; cases hc

theorem pyInt_space (s : List Char) : pyInt (' ' :: s) = pyInt s := by
  unfold pyInt
  rw [strip_space (by decide)]

/-! ### Domains -/

/-- The text of a domain. -/
def domText : VDom → List Char
  | .boolean => c!"boolean"
  | .range lo hi => c!"[" ++ intChars lo ++ c!", " ++ intChars hi ++ c!"]"
  | .values l => c!"{" ++ joinWith c!", " (l.map Val.text) ++ c!"}"
  | .other => []

/-- Domains with a text that can be read: the texts of the elements of a set have no separators. -/
def TextDom : VDom → Prop
  | .boolean => True
  | .range _ _ => True
  | .values l => l ≠ [] ∧ ∀ v ∈ l, Plain v.text ∧ ',' ∉ v.text
  | .other => False

/-- What is read from the texts of the elements: all but the first one have a space in front. -/
def reread : List Val → List Val
  | [] => []
  | v :: l => readVal v.text :: l.map fun w => readVal (' ' :: w.text)

/-- What is read for a domain. -/
def reload : VDom → VDom
  | .values l => .values (reread l).dedup
  | d => d

theorem domainStr_ok {d : VDom} (h : TextDom d) : domainStr d = .ok (domText d) := by
  cases d <;> first | rfl | exact h.elim

theorem intChars_chars (n : Int) : ∀ c ∈ intChars n, isDig c = true ∨ c = '-' := by
  intro c hc
  cases n with
  | ofNat n => exact .inl (digitsOf_all n c hc)
  | negSucc n =>
    rcases List.mem_cons.mp hc with rfl | hc
    · exact .inr rfl
    · exact .inl (digitsOf_all _ c hc)

theorem not_mem_intChars {c : Char} (h1 : isDig c = false) (h2 : c ≠ '-') (n : Int) : c ∉ intChars n := by
  intro h
  rcases intChars_chars n c h with h | h
  · rw [h] at h1; cases h1
  · exact h2 h

theorem plain_intChars (n : Int) : Plain (intChars n) := by
  intro c hc
  refine ⟨?_, ?_, ?_, ?_⟩ <;> rintro rfl <;> exact not_mem_intChars (by decide) (by decide) n hc

theorem plain_append {s t : List Char} (hs : Plain s) (ht : Plain t) : Plain (s ++ t) := by
  intro c hc
  rcases List.mem_append.mp hc with hc | hc
  · exact hs c hc
  · exact ht c hc

theorem plain_join {sep : List Char} (hsep : Plain sep) (l : List (List Char)) (h : ∀ s ∈ l, Plain s) :
    Plain (joinWith sep l) := by
  induction l with
  | nil => intro c hc; cases hc
  | cons s l ih =>
    cases l with
    | nil => exact h s (by simp)
    | cons t l =>
      unfold joinWith
      exact plain_append (plain_append (h s (by simp)) hsep) (ih fun u hu => h u (by simp [hu]))

instance (s : List Char) : Decidable (Plain s) := by unfold Plain; infer_instance

theorem plain_domText {d : VDom} (h : TextDom d) : Plain (domText d) := by
  cases d with
  | boolean => show Plain c!"boolean"; decide
  | range lo hi =>
    exact plain_append (plain_append (plain_append (plain_append (by decide) (plain_intChars _))
      (by decide)) (plain_intChars _)) (by decide)
  | values l =>
    refine plain_append (plain_append (by decide) (plain_join (by decide) _ ?_)) (by decide)
    intro s hs
    obtain ⟨v, hv, rfl⟩ := List.mem_map.mp hs
    exact (h.2 v hv).1
  | other => exact h.elim

theorem splitOn_joined (l : List (List Char)) (t : List Char) (h : ∀ s ∈ t :: l, ',' ∉ s) :
    splitOn ',' (joinWith c!", " (t :: l)) = t :: l.map (' ' :: ·) := by
  unfold splitOn
  suffices H : ∀ cur, splitOnFrom ',' cur (joinWith c!", " (t :: l)) = (cur ++ t) :: l.map (' ' :: ·) by
    simpa using H []
  induction l generalizing t with
  | nil =>
    intro cur
    exact splitOn_none ',' (h t (by simp)) cur
  | cons s l ih =>
    intro cur
    have e : joinWith c!", " (t :: s :: l) = t ++ ',' :: (c!" " ++ joinWith c!", " (s :: l)) := by
      rw [joinWith]; simp
    rw [e, splitOn_append, splitOn_none ',' (h t (by simp))]
    have := ih s (fun u hu => h u (by simp at hu ⊢; tauto)) c!" "
    have e2 : splitOnFrom ',' [] (c!" " ++ joinWith c!", " (s :: l)) =
        splitOnFrom ',' c!" " (joinWith c!", " (s :: l)) := rfl
    rw [e2, this]
    rfl

theorem readSet_text {l : List Val} (h : TextDom (.values l)) :
    readSet (domText (.values l)) = .ok (reload (.values l)) := by
  obtain ⟨hne, hl⟩ := h
  cases l with
  | nil => exact absurd rfl hne
  | cons v l =>
    unfold readSet domText
    rw [if_neg (by rw [List.getLast?_append]; simp)]
    have e : ((c!"{" ++ joinWith c!", " ((v :: l).map Val.text) ++ c!"}").drop 1).dropLast =
        joinWith c!", " (v.text :: l.map Val.text) := by
      simp
    rw [e, splitOn_joined]
    · simp [reload, reread, Function.comp_def]
    · intro s hs
      rw [← List.map_cons (f := Val.text)] at hs
      obtain ⟨w, hw, rfl⟩ := List.mem_map.mp hs
      exact (hl w hw).2

theorem readRange_text (lo hi : Int) :
    readRange (domText (.range lo hi)) = .ok (.range lo hi) := by
  have hc : ∀ n, ',' ∉ intChars n := not_mem_intChars (by decide) (by decide)
  have hb : ∀ n, ']' ∉ intChars n := not_mem_intChars (by decide) (by decide)
  have e : splitOn ',' (domText (.range lo hi)) = ['[' :: intChars lo, ' ' :: (intChars hi ++ c!"]")] := by
    have e1 : domText (.range lo hi) =
        ('[' :: intChars lo) ++ ',' :: (' ' :: (intChars hi ++ c!"]")) := by
      simp [domText]
    unfold splitOn
    rw [e1, splitOn_append, splitOn_none ',' (by simp [hc]), splitOn_none ',' (by simp [hc])]
    rfl
  unfold readRange
  rw [e]
  simp only [List.drop_one, List.tail_cons, pyInt_intChars]
  rw [if_neg (by simp)]
  have e2 : (' ' :: (intChars hi ++ c!"]")).takeWhile (· ≠ ']') = ' ' :: intChars hi := by
    rw [List.takeWhile_cons_of_pos (by decide), List.takeWhile_append_of_pos]
    · simp
    · intro c hc
      simp only [ne_eq, decide_not, Bool.not_eq_eq_eq_not, Bool.not_true, decide_eq_false_iff_not]
      rintro rfl
      exact hb _ hc
  rw [e2, pyInt_space, pyInt_intChars]

theorem readDomain_text {d : VDom} (h : TextDom d) : readDomain (domText d) = .ok (reload d) := by
  cases d with
  | boolean => rfl
  | range lo hi =>
    unfold readDomain
    have : (domText (.range lo hi)).head? = some '[' := rfl
    rw [this]
    exact readRange_text lo hi
  | values l =>
    unfold readDomain
    have : (domText (.values l)).head? = some '{' := rfl
    rw [this]
    exact readSet_text h
  | other => exact h.elim

theorem domText_head {d : VDom} (h : TextDom d) : ∃ c s, domText d = c :: s ∧ isSpace c = false := by
  cases d with
  | boolean => exact ⟨'b', _, rfl, by decide⟩
  | range lo hi => exact ⟨'[', _, rfl, by decide⟩
  | values l => exact ⟨'{', _, rfl, by decide⟩
  | other => exact h.elim

/-! ### Declarations -/

/-- A table with names and domains that can be read. -/
def TextTable (vars : Dict (List Char) VDom) : Prop :=
  ∀ p ∈ vars, NameOk p.1 ∧ TextDom p.2

/-- A declaration. -/
def piece (p : List Char × VDom) : List Char := p.1 ++ c!" : " ++ domText p.2

/-- The declarations of a table. -/
def decls (vars : Dict (List Char) VDom) : List Char := vars.flatMap fun p => piece p ++ c!";\n"

theorem dumpVars_ok {vars : Dict (List Char) VDom} (h : TextTable vars) :
    dumpVars vars = .ok (decls vars) := by
  induction vars with
  | nil => rfl
  | cons p l ih =>
    unfold dumpVars
    rw [domainStr_ok (h p (by simp)).2, ih fun q hq => h q (by simp [hq])]
    simp [decls, piece]

theorem readDecl_piece {p : List Char × VDom} (h : NameOk p.1) (hd : TextDom p.2)
    (vars : Dict (List Char) VDom) :
    readDecl vars ('\n' :: piece p) = .ok (vars.set p.1 (reload p.2)) := by
  unfold readDecl
  rw [strip_nonempty (c := ':') (by simp [piece]) (by decide)]
  have e : splitOn ':' ('\n' :: piece p) = ['\n' :: (p.1 ++ c!" "), ' ' :: domText p.2] := by
    have e1 : '\n' :: piece p = ('\n' :: (p.1 ++ c!" ")) ++ ':' :: (' ' :: domText p.2) := by
      simp [piece]
    have h1 : ':' ∉ p.1 := fun hc => (h.1 _ hc).2.1 rfl
    have h2 : ':' ∉ domText p.2 := fun hc => (plain_domText hd _ hc).2.1 rfl
    unfold splitOn
    rw [e1, splitOn_append, splitOn_none ':' (by simp [h1]), splitOn_none ':' (by simp [h2])]
    rfl
  rw [e]
  obtain ⟨c, s, hs, hc⟩ := domText_head hd
  have e2 : lstrip (' ' :: domText p.2) = domText p.2 := by
    unfold lstrip
    rw [List.dropWhile_cons_of_pos (by decide), hs, List.dropWhile_cons_of_neg (by simp [hc])]
  simp only [Bool.false_eq_true, if_false]
  rw [e2, readDomain_text hd, strip_space (by decide), strip_space_end (by decide), h.2]
  rfl

/-- The section after its header. -/
def body (vars : Dict (List Char) VDom) : List Char := c!"\n" ++ decls vars ++ c!"\n"

theorem splitOn_body {vars : Dict (List Char) VDom} (h : TextTable vars) :
    splitOn ';' (body vars) = vars.map (fun p => '\n' :: piece p) ++ [c!"\n\n"] := by
  unfold splitOn body
  induction vars with
  | nil => rfl
  | cons p l ih =>
    have hp := h p (by simp)
    have h1 : ';' ∉ p.1 := fun hc => (hp.1.1 _ hc).2.2.1 rfl
    have h2 : ';' ∉ domText p.2 := fun hc => (plain_domText hp.2 _ hc).2.2.1 rfl
    have e : c!"\n" ++ decls (p :: l) ++ c!"\n" =
        ('\n' :: piece p) ++ ';' :: (c!"\n" ++ decls l ++ c!"\n") := by
      simp [decls]
    rw [e, splitOn_append, splitOn_none ';' (by simp [piece, h1, h2]),
      ih fun q hq => h q (by simp [hq])]
    rfl

theorem set_new {κ α : Type} [DecidableEq κ] (d : Dict κ α) (k : κ) (v : α) (h : k ∉ d.map (·.1)) :
    d.set k v = d ++ [(k, v)] := by
  induction d with
  | nil => rfl
  | cons p d ih =>
    have h1 : p.1 ≠ k := fun e => h (by simp [e])
    show (if p.1 = k then _ else _) = _
    rw [if_neg h1, ih fun h' => h (by simp at h' ⊢; tauto)]
    rfl

theorem readDecls_body {vars : Dict (List Char) VDom} (h : TextTable vars) (hw : vars.Wf) :
    readDecls [] (splitOn ';' (body vars)) = .ok (vars.map fun p => (p.1, reload p.2)) := by
  rw [splitOn_body h]
  suffices H : ∀ (acc : Dict (List Char) VDom), (∀ p ∈ vars, p.1 ∉ acc.map (·.1)) →
      readDecls acc (vars.map (fun p => '\n' :: piece p) ++ [c!"\n\n"]) =
        .ok (acc ++ vars.map fun p => (p.1, reload p.2)) by
    simpa using H [] (by simp)
  replace hw : (vars.map (·.1)).Nodup := hw
  induction vars with
  | nil =>
    intro acc _
    simp [readDecls, readDecl, show (strip c!"\n\n").isEmpty = true from by decide]
  | cons p l ih =>
    intro acc hacc
    have hp := h p (by simp)
    rw [List.map_cons, List.cons_append, readDecls, readDecl_piece hp.1 hp.2, ok_bind,
      set_new _ _ _ (hacc p (by simp)), ih (fun q hq => h q (by simp [hq]))]
    · simp
    · rw [List.map_cons, List.nodup_cons] at hw
      exact hw.2
    · intro q hq
      rw [List.map_cons, List.nodup_cons] at hw
      have : q.1 ≠ p.1 := fun e => hw.1 (e ▸ List.mem_map_of_mem hq)
      simp only [List.map_append, List.map_cons, List.map_nil, List.mem_append, List.mem_singleton]
      rintro (h' | h')
      · exact hacc q (by simp [hq]) h'
      · exact this h'

/-- Neither header occurs in a table. -/
theorem not_infix_decls {pat : List Char} (h1 : ':' ∈ pat) (h2 : ' ' ∉ pat) (h3 : '\n' ∉ pat)
    (h4 : 1 < pat.length) {vars : Dict (List Char) VDom} (h : TextTable vars) :
    ¬ pat <:+: decls vars := by
  induction vars with
  | nil =>
    exact not_infix_of_not_mem h1 (by simp [decls])
  | cons p l ih =>
    have hp := h p (by simp)
    have e : decls (p :: l) = p.1 ++ ' ' :: (c!":" ++ ' ' :: ((domText p.2 ++ c!";") ++ '\n' :: decls l)) := by
      simp [decls, piece]
    rw [e]
    intro hi
    rcases infix_split h2 hi with hi | hi
    · exact not_infix_of_not_mem h1 (fun hc => (hp.1.1 _ hc).2.1 rfl) hi
    rcases infix_split h2 hi with hi | hi
    · have := hi.length_le
      simp at this
      omega
    rcases infix_split h3 hi with hi | hi
    · refine not_infix_of_not_mem h1 ?_ hi
      simp only [List.mem_append, not_or]
      exact ⟨fun hc => (plain_domText hp.2 _ hc).2.1 rfl, by decide⟩
    · exact ih (fun q hq => h q (by simp [hq])) hi

theorem not_infix_body {pat : List Char} (h1 : ':' ∈ pat) (h2 : ' ' ∉ pat) (h3 : '\n' ∉ pat)
    (h4 : 1 < pat.length) {vars : Dict (List Char) VDom} (h : TextTable vars) :
    ¬ pat <:+: body vars := by
  have e : body vars = [] ++ '\n' :: (decls vars ++ '\n' :: []) := by simp [body]
  rw [e]
  intro hi
  rcases infix_split h3 hi with hi | hi
  · exact not_infix_of_not_mem h1 (by simp) hi
  rcases infix_split h3 hi with hi | hi
  · exact not_infix_decls h1 h2 h3 h4 h hi
  · exact not_infix_of_not_mem h1 (by simp) hi

/-! ### Sections -/

/-- A section as it is written. -/
def sectionText (header : List Char) (vars : Dict (List Char) VDom) : List Char :=
  if vars.isEmpty then [] else header ++ c!"\n" ++ decls vars

/-- A section as it is read. -/
def bodyText (vars : Dict (List Char) VDom) : List Char := if vars.isEmpty then [] else body vars

theorem sections_text {i o : Dict (List Char) VDom} (hi : TextTable i) (ho : TextTable o)
    (hne : ¬ (i = [] ∧ o = [])) :
    sections (sectionText c!"INPUT:" i ++ sectionText c!"\nOUTPUT:" o ++ c!"\n") =
      (bodyText i, bodyText o) := by
  have NI : ∀ {v : Dict (List Char) VDom}, TextTable v → ¬ c!"INPUT:" <:+: body v := fun h =>
    not_infix_body (by decide) (by decide) (by decide) (by decide) h
  have NO : ∀ {v : Dict (List Char) VDom}, TextTable v → ¬ c!"OUTPUT:" <:+: body v := fun h =>
    not_infix_body (by decide) (by decide) (by decide) (by decide) h
  cases i with
  | nil =>
    cases o with
    | nil => exact absurd ⟨rfl, rfl⟩ hne
    | cons p o =>
      have e : sectionText c!"INPUT:" [] ++ sectionText c!"\nOUTPUT:" (p :: o) ++ c!"\n" =
          [] ++ '\n' :: (c!"OUTPUT:" ++ body (p :: o)) := by
        simp [sectionText, body]
      rw [e]
      unfold sections
      rw [find_after (by decide) (not_infix_of_not_mem (c := ':') (by decide) (by simp)), find_none]
      · simp only [Option.getD_some, List.length_nil]
        have e2 : ([] ++ '\n' :: (c!"OUTPUT:" ++ body (p :: o))).drop (0 + 1) =
            c!"OUTPUT:" ++ body (p :: o) := rfl
        rw [e2]
        have := replaceStr_header (x := 'O') (pat := c!"UTPUT:") (NO ho)
        exact Prod.ext (by rfl) this
      · intro h
        rcases infix_split (by decide) h with h | h
        · exact not_infix_of_not_mem (c := ':') (by decide) (by simp) h
        · have e3 : c!"OUTPUT:" ++ body (p :: o) = c!"OUTPUT:" ++ '\n' :: (decls (p :: o) ++ c!"\n") := by
            simp [body]
          rw [e3] at h
          rcases infix_split (by decide) h with h | h
          · revert h; decide
          · exact NI ho (h.trans ⟨c!"\n", [], by simp [body]⟩)
  | cons q i =>
    cases o with
    | nil =>
      have e : sectionText c!"INPUT:" (q :: i) ++ sectionText c!"\nOUTPUT:" [] ++ c!"\n" =
          c!"INPUT:" ++ body (q :: i) := by
        simp [sectionText, body]
      rw [e]
      unfold sections
      rw [find_prefix, find_none]
      · simp only [Option.getD_none, Nat.lt_irrefl, if_false, List.drop_zero, List.take_zero]
        have := replaceStr_header (x := 'I') (pat := c!"NPUT:") (NI hi)
        exact Prod.ext this (by rfl)
      · have e3 : c!"INPUT:" ++ body (q :: i) = c!"INPUT:" ++ '\n' :: (decls (q :: i) ++ c!"\n") := by
          simp [body]
        rw [e3]
        intro h
        rcases infix_split (by decide) h with h | h
        · revert h; decide
        · exact NO hi (h.trans ⟨c!"\n", [], by simp [body]⟩)
    | cons p o =>
      have e : sectionText c!"INPUT:" (q :: i) ++ sectionText c!"\nOUTPUT:" (p :: o) ++ c!"\n" =
          (c!"INPUT:" ++ c!"\n" ++ decls (q :: i)) ++ '\n' :: (c!"OUTPUT:" ++ body (p :: o)) := by
        simp [sectionText, body]
      have e' : sectionText c!"INPUT:" (q :: i) ++ sectionText c!"\nOUTPUT:" (p :: o) ++ c!"\n" =
          c!"INPUT:" ++ (c!"\n" ++ decls (q :: i) ++ '\n' :: (c!"OUTPUT:" ++ body (p :: o))) := by
        simp [sectionText, body]
      have fI : find c!"INPUT:" (sectionText c!"INPUT:" (q :: i) ++ sectionText c!"\nOUTPUT:" (p :: o) ++
          c!"\n") = some 0 := by
        rw [e']; exact find_prefix _ _
      have fO : find c!"OUTPUT:" (sectionText c!"INPUT:" (q :: i) ++ sectionText c!"\nOUTPUT:" (p :: o) ++
          c!"\n") = some ((c!"INPUT:" ++ c!"\n" ++ decls (q :: i)).length + 1) := by
        rw [e]
        refine find_after (by decide) ?_ _
        have e3 : c!"INPUT:" ++ c!"\n" ++ decls (q :: i) = c!"INPUT:" ++ '\n' :: decls (q :: i) := by simp
        rw [e3]
        intro h
        rcases infix_split (by decide) h with h | h
        · revert h; decide
        · exact NO hi (h.trans ⟨c!"\n", c!"\n", by simp [body]⟩)
      unfold sections
      rw [fI, fO]
      simp only [Option.getD_some, Nat.succ_pos, if_true, List.drop_zero]
      have t1 : (sectionText c!"INPUT:" (q :: i) ++ sectionText c!"\nOUTPUT:" (p :: o) ++ c!"\n").take
          ((c!"INPUT:" ++ c!"\n" ++ decls (q :: i)).length + 1) = c!"INPUT:" ++ body (q :: i) := by
        rw [e, List.take_length_add_append]
        simp [body]
      have t2 : (sectionText c!"INPUT:" (q :: i) ++ sectionText c!"\nOUTPUT:" (p :: o) ++ c!"\n").drop
          ((c!"INPUT:" ++ c!"\n" ++ decls (q :: i)).length + 1) = c!"OUTPUT:" ++ body (p :: o) := by
        rw [e, List.drop_length_add_append]
        rfl
      rw [t1, t2]
      exact Prod.ext (replaceStr_header (x := 'I') (pat := c!"NPUT:") (NI hi))
        (replaceStr_header (x := 'O') (pat := c!"UTPUT:") (NO ho))

/-! ### The file -/

theorem dumpSection_ok {header : List Char} {vars : Dict (List Char) VDom} (h : TextTable vars) :
    dumpSection header vars = .ok (sectionText header vars) := by
  unfold dumpSection sectionText
  cases vars with
  | nil => rfl
  | cons p l =>
    simp only [List.isEmpty_cons, Bool.false_eq_true, if_false]
    rw [dumpVars_ok h]
    rfl

theorem mem_decls {vars : Dict (List Char) VDom} (h : TextTable vars) {c : Char} (hc : c ∈ decls vars) :
    c ≠ '#' ∧ c ≠ '%' := by
  unfold decls at hc
  obtain ⟨p, hp, hc⟩ := List.mem_flatMap.mp hc
  obtain ⟨hn, hd⟩ := h p hp
  unfold piece at hc
  simp only [List.mem_append] at hc
  rcases hc with ((hc | hc) | hc) | hc
  · exact ⟨(hn.1 c hc).1, (hn.1 c hc).2.2.2⟩
  · have : ∀ c ∈ c!" : ", c ≠ '#' ∧ c ≠ '%' := by decide
    exact this c hc
  · exact ⟨(plain_domText hd c hc).1, (plain_domText hd c hc).2.2.2⟩
  · have : ∀ c ∈ c!";\n", c ≠ '#' ∧ c ≠ '%' := by decide
    exact this c hc

theorem mem_sectionText {header : List Char} (hh : ∀ c ∈ header, c ≠ '#' ∧ c ≠ '%')
    {vars : Dict (List Char) VDom} (h : TextTable vars) {c : Char} (hc : c ∈ sectionText header vars) :
    c ≠ '#' ∧ c ≠ '%' := by
  unfold sectionText at hc
  split at hc
  · cases hc
  · simp only [List.mem_append] at hc
    rcases hc with (hc | hc) | hc
    · exact hh c hc
    · revert c; decide
    · exact mem_decls h hc

/-- The text of the time. -/
def stampText : Option (List Char) → List Char
  | some t => c!"# Generated at " ++ t ++ c!"\n"
  | none => []

/-- The text of a file. -/
def fileText (f : Ltl) (stamp : Option (List Char)) : List Char :=
  stampText stamp ++ c!"0  # Version\n%%\n" ++ sectionText c!"INPUT:" f.inputs ++
    sectionText c!"\nOUTPUT:" f.outputs ++ c!"\n%%\n" ++ f.formula

theorem dumps_text {f : Ltl} (hi : TextTable f.inputs) (ho : TextTable f.outputs)
    (stamp : Option (List Char)) : dumps f stamp = .ok (fileText f stamp) := by
  unfold dumps
  rw [dumpSection_ok hi, dumpSection_ok ho]
  cases stamp <;> rfl

theorem version_stamp {t : List Char} (l : List (List Char)) :
    checkVersion ((c!"# Generated at " ++ t) :: l) = checkVersion l := by
  have h : (strip (c!"# Generated at " ++ t)).takeWhile (· ≠ '#') = [] := by
    have e : lstrip (c!"# Generated at " ++ t) = '#' :: (c!" Generated at " ++ t) := by
      unfold lstrip
      show List.dropWhile isSpace ('#' :: (c!" Generated at " ++ t)) = _
      rw [List.dropWhile_cons_of_neg (by decide)]
    unfold strip
    rw [e, List.reverse_cons, List.dropWhile_append]
    split
    · rfl
    · simp
  conv => lhs; unfold checkVersion
  simp only [h]
  rfl

theorem checkVersion_text (f : Ltl) {stamp : Option (List Char)}
    (hs : ∀ t, stamp = some t → ∀ c ∈ t, isBreak c = false) :
    checkVersion (splitlines (fileText f stamp)) = .ok () := by
  have main : ∀ rest : List Char, checkVersion (splitlinesFrom [] (c!"0  # Version" ++ '\n' :: rest)) =
      .ok () := by
    intro rest
    rw [splitlines_line (by decide)]
    have h : (strip c!"0  # Version").takeWhile (· ≠ '#') = c!"0  " := by decide +kernel
    have h2 : pyInt c!"0  " = some 0 := by decide +kernel
    unfold checkVersion
    rw [List.nil_append]
    simp only [h, h2]
    rfl
  unfold splitlines fileText
  cases stamp with
  | none =>
    have := main (c!"%%\n" ++ sectionText c!"INPUT:" f.inputs ++
      sectionText c!"\nOUTPUT:" f.outputs ++ c!"\n%%\n" ++ f.formula)
    simpa [stampText] using this
  | some t =>
    have e : stampText (some t) ++ c!"0  # Version\n%%\n" ++ sectionText c!"INPUT:" f.inputs ++
        sectionText c!"\nOUTPUT:" f.outputs ++ c!"\n%%\n" ++ f.formula =
        (c!"# Generated at " ++ t) ++ '\n' :: (c!"0  # Version" ++ '\n' :: (c!"%%\n" ++
          sectionText c!"INPUT:" f.inputs ++ sectionText c!"\nOUTPUT:" f.outputs ++ c!"\n%%\n" ++
          f.formula)) := by
      simp [stampText]
    rw [e, splitlines_line, List.nil_append, version_stamp, main]
    intro c hc
    rcases List.mem_append.mp hc with hc | hc
    · have : ∀ c ∈ c!"# Generated at ", isBreak c = false := by decide
      exact this c hc
    · exact hs t rfl c hc

theorem stripComments_text {f : Ltl} (hi : TextTable f.inputs) (ho : TextTable f.outputs)
    (hf : '#' ∉ f.formula) {stamp : Option (List Char)} (hs : ∀ t, stamp = some t → '\n' ∉ t) :
    stripFrom false (fileText f stamp) = c!"0  " ++ (c!"%%\n" ++
      ((sectionText c!"INPUT:" f.inputs ++ sectionText c!"\nOUTPUT:" f.outputs ++ c!"\n") ++
        (c!"%%\n" ++ f.formula))) := by
  have h1 : '#' ∉ c!"%%\n" ++ ((sectionText c!"INPUT:" f.inputs ++ sectionText c!"\nOUTPUT:" f.outputs ++
      c!"\n") ++ (c!"%%\n" ++ f.formula)) := by
    simp only [List.mem_append, not_or]
    exact ⟨by decide, ⟨⟨fun h => (mem_sectionText (by decide) hi h).1 rfl,
      fun h => (mem_sectionText (by decide) ho h).1 rfl⟩, by decide⟩, by decide, hf⟩
  have main : stripFrom false (c!"0  " ++ '#' :: (c!" Version" ++ '\n' :: (c!"%%\n" ++
      ((sectionText c!"INPUT:" f.inputs ++ sectionText c!"\nOUTPUT:" f.outputs ++ c!"\n") ++
        (c!"%%\n" ++ f.formula))))) = c!"0  " ++ (c!"%%\n" ++
      ((sectionText c!"INPUT:" f.inputs ++ sectionText c!"\nOUTPUT:" f.outputs ++ c!"\n") ++
        (c!"%%\n" ++ f.formula))) := by
    rw [strip_plain (by decide)]
    have e : ∀ l, stripFrom false ('#' :: l) = stripFrom true l := fun _ => rfl
    rw [e, strip_comment (by decide)]
    have := strip_plain h1 []
    rw [List.append_nil] at this
    rw [this]
    simp [stripFrom]
  cases stamp with
  | none =>
    rw [← main]
    unfold fileText stampText
    simp
  | some t =>
    rw [← main]
    have e : fileText f (some t) = '#' :: ((c!" Generated at " ++ t) ++ '\n' ::
        (c!"0  " ++ '#' :: (c!" Version" ++ '\n' :: (c!"%%\n" ++
      ((sectionText c!"INPUT:" f.inputs ++ sectionText c!"\nOUTPUT:" f.outputs ++ c!"\n") ++
        (c!"%%\n" ++ f.formula)))))) := by
      unfold fileText stampText
      simp
    rw [e]
    show stripFrom true _ = _
    rw [strip_comment]
    simp only [List.mem_append, not_or]
    exact ⟨by decide, hs t rfl⟩

/-- What is read for a table. -/
def reloadTable (vars : Dict (List Char) VDom) : Dict (List Char) VDom :=
  vars.map fun p => (p.1, reload p.2)

theorem readBody_text {f : Ltl} (hi : TextTable f.inputs) (ho : TextTable f.outputs)
    (wi : f.inputs.Wf) (wo : f.outputs.Wf) (hf : FormulaOk f.formula)
    {stamp : Option (List Char)} (hs : ∀ t, stamp = some t → '\n' ∉ t) :
    readBody (fileText f stamp) =
      .ok (f.formula, reloadTable f.inputs, reloadTable f.outputs) := by
  unfold readBody
  rw [stripComments_text hi ho hf.1 hs]
  have e : splitStr c!"%%\n" (c!"0  " ++ (c!"%%\n" ++
      ((sectionText c!"INPUT:" f.inputs ++ sectionText c!"\nOUTPUT:" f.outputs ++ c!"\n") ++
        (c!"%%\n" ++ f.formula)))) = [c!"0  ",
      sectionText c!"INPUT:" f.inputs ++ sectionText c!"\nOUTPUT:" f.outputs ++ c!"\n", f.formula] := by
    unfold splitStr
    have h1 := splitStrFrom_sep (x := '%') (sep := c!"%\n") (a := c!"0  ") (by decide) []
      ((sectionText c!"INPUT:" f.inputs ++ sectionText c!"\nOUTPUT:" f.outputs ++ c!"\n") ++
        (c!"%%\n" ++ f.formula))
    have h2 := splitStrFrom_sep (x := '%') (sep := c!"%\n")
      (a := sectionText c!"INPUT:" f.inputs ++ sectionText c!"\nOUTPUT:" f.outputs ++ c!"\n")
      (by
        simp only [List.mem_append, not_or]
        exact ⟨⟨fun h => (mem_sectionText (by decide) hi h).2 rfl,
          fun h => (mem_sectionText (by decide) ho h).2 rfl⟩, by decide⟩) [] f.formula
    have h3 := splitStrFrom_none hf.2 []
    rw [List.nil_append] at h1 h2 h3
    have h2' := h2.trans (congrArg _ h3)
    exact h1.trans (congrArg _ h2')
  rw [e]
  simp only
  have key : readDecls [] (splitOn ';' (sections (sectionText c!"INPUT:" f.inputs ++
        sectionText c!"\nOUTPUT:" f.outputs ++ c!"\n")).1) = .ok (reloadTable f.inputs) ∧
      readDecls [] (splitOn ';' (sections (sectionText c!"INPUT:" f.inputs ++
        sectionText c!"\nOUTPUT:" f.outputs ++ c!"\n")).2) = .ok (reloadTable f.outputs) := by
    by_cases hne : f.inputs = [] ∧ f.outputs = []
    · rw [hne.1, hne.2]
      exact ⟨by rfl, by rfl⟩
    · rw [sections_text hi ho hne]
      have T : ∀ {v : Dict (List Char) VDom}, TextTable v → v.Wf →
          readDecls [] (splitOn ';' (bodyText v)) = .ok (reloadTable v) := by
        intro v hv wv
        unfold bodyText
        cases v with
        | nil => rfl
        | cons p l => exact readDecls_body hv wv
      exact ⟨T hi wi, T ho wo⟩
  rw [key.1, key.2]
  rfl

/-- Reading what was written, for all texts of elements: the elements of sets but the first one are read with
a space in front. -/
theorem loads_dumps_text {f : Ltl} (hi : TextTable f.inputs) (ho : TextTable f.outputs)
    (wi : f.inputs.Wf) (wo : f.outputs.Wf) (hd : ∀ p ∈ f.inputs, ∀ q ∈ f.outputs, p.1 ≠ q.1)
    (hf : FormulaOk f.formula) {stamp : Option (List Char)}
    (hs : ∀ t, stamp = some t → ∀ c ∈ t, isBreak c = false) :
    (dumps f stamp).bind loads = .ok ⟨f.formula, reloadTable f.inputs, reloadTable f.outputs⟩ := by
  rw [dumps_text hi ho]
  show loads (fileText f stamp) = _
  unfold loads
  rw [checkVersion_text f hs, readBody_text hi ho wi wo hf]
  · simp only [ok_bind]
    unfold newLtl
    rw [if_neg]
    intro h
    obtain ⟨p, hp, h⟩ := List.any_eq_true.mp h
    obtain ⟨q, hq, h⟩ := List.any_eq_true.mp h
    replace h := eq_of_beq h
    obtain ⟨p', hp', rfl⟩ := List.mem_map.mp hp
    obtain ⟨q', hq', rfl⟩ := List.mem_map.mp hq
    exact hd p' hp' q' hq' h.symm
  · intro t ht hc
    have := hs t ht _ hc
    revert this
    decide

theorem textDom_of_intDom {d : VDom} (h : IntDom d) : TextDom d := by
  cases d with
  | boolean => trivial
  | range lo hi => trivial
  | values l =>
    refine ⟨h.1, fun v hv => ?_⟩
    obtain ⟨n, rfl⟩ := h.2 v hv
    exact ⟨plain_intChars n, not_mem_intChars (by decide) (by decide) n⟩
  | other => exact h.elim

theorem reread_ints {l : List Val} (h : ∀ v ∈ l, ∃ n, v = .int n) : reread l = l := by
  have r : ∀ v, (∃ n, v = Val.int n) → readVal v.text = v ∧ readVal (' ' :: v.text) = v := by
    rintro v ⟨n, rfl⟩
    unfold readVal Val.text
    simp only [pyInt_space, pyInt_intChars]
    exact ⟨trivial, trivial⟩
  cases l with
  | nil => rfl
  | cons v l =>
    show readVal v.text :: l.map (fun w => readVal (' ' :: w.text)) = _
    rw [(r v (h v (by simp))).1]
    congr 1
    conv => rhs; rw [← List.map_id l]
    exact List.map_congr_left fun w hw => (r w (h w (by simp [hw]))).2

theorem sameDom_reload {d : VDom} (h : IntDom d) : SameDom d (reload d) := by
  cases d with
  | boolean => exact rfl
  | range lo hi => exact rfl
  | values l =>
    intro v
    rw [reread_ints h.2, List.mem_dedup]
  | other => exact h.elim

theorem sameTable_reload {vars : Dict (List Char) VDom} (h : ∀ p ∈ vars, IntDom p.2) :
    SameTable vars (reloadTable vars) := by
  unfold SameTable reloadTable
  rw [List.forall₂_map_right_iff, List.forall₂_same]
  exact fun p hp => ⟨rfl, sameDom_reload (h p hp)⟩

/-- C35. Writing a specification and reading the file gives the same formula and the same variables, with the
same domains, in the same order; with or without the time in a comment. -/
theorem loads_dumps {f : Ltl} (hi : TableOk f.inputs) (ho : TableOk f.outputs)
    (hd : ∀ p ∈ f.inputs, ∀ q ∈ f.outputs, p.1 ≠ q.1) (hf : FormulaOk f.formula)
    (stamp : Option (List Char)) (hs : ∀ t, stamp = some t → ∀ c ∈ t, isBreak c = false) :
    ∃ text g, dumps f stamp = .ok text ∧ loads text = .ok g ∧ g.formula = f.formula ∧
      SameTable f.inputs g.inputs ∧ SameTable f.outputs g.outputs := by
  have ti : TextTable f.inputs := fun p hp => ⟨(hi.2 p hp).1, textDom_of_intDom (hi.2 p hp).2⟩
  have to' : TextTable f.outputs := fun p hp => ⟨(ho.2 p hp).1, textDom_of_intDom (ho.2 p hp).2⟩
  have h := loads_dumps_text ti to' hi.1 ho.1 hd hf hs
  rw [dumps_text ti to'] at h
  exact ⟨_, _, dumps_text ti to' stamp, h, rfl, sameTable_reload fun p hp => (hi.2 p hp).2,
    sameTable_reload fun p hp => (ho.2 p hp).2⟩

/-- The specification read is equal to the one written: sets of values are listed without repetition (a Python
set has no repetition; the order of its elements is that of the iteration in `dumps`). -/
theorem loads_dumps_exact {f : Ltl} (hi : TableOk f.inputs) (ho : TableOk f.outputs)
    (hd : ∀ p ∈ f.inputs, ∀ q ∈ f.outputs, p.1 ≠ q.1) (hf : FormulaOk f.formula)
    (hv : ∀ p ∈ f.inputs ++ f.outputs, ∀ l, p.2 = .values l → l.Nodup)
    (stamp : Option (List Char)) (hs : ∀ t, stamp = some t → ∀ c ∈ t, isBreak c = false) :
    (dumps f stamp).bind loads = .ok f := by
  have ti : TextTable f.inputs := fun p hp => ⟨(hi.2 p hp).1, textDom_of_intDom (hi.2 p hp).2⟩
  have to' : TextTable f.outputs := fun p hp => ⟨(ho.2 p hp).1, textDom_of_intDom (ho.2 p hp).2⟩
  have R : ∀ v : Dict (List Char) VDom, (∀ p ∈ v, IntDom p.2) →
      (∀ p ∈ v, ∀ l, p.2 = .values l → l.Nodup) → reloadTable v = v := by
    intro v h1 h2
    unfold reloadTable
    conv => rhs; rw [← List.map_id v]
    refine List.map_congr_left fun p hp => ?_
    obtain ⟨k, d⟩ := p
    have hd1 := h1 _ hp
    have hd2 := h2 _ hp
    cases d with
    | boolean => rfl
    | range lo hi => rfl
    | values l =>
      show (k, VDom.values (reread l).dedup) = (k, .values l)
      rw [reread_ints hd1.2, List.Nodup.dedup (hd2 l rfl)]
    | other => rfl
  rw [loads_dumps_text ti to' hi.1 ho.1 hd hf hs,
    R _ (fun p hp => (hi.2 p hp).2) fun p hp => hv p (by simp [hp]),
    R _ (fun p hp => (ho.2 p hp).2) fun p hp => hv p (by simp [hp])]

/-! ### What is rejected -/

theorem domainStr_errors (d : VDom) : (d = .other ∧ domainStr d = .error .valueError) ∨
    (d ≠ .other ∧ ∃ t, domainStr d = .ok t) := by
  cases d <;> simp [domainStr]

theorem dumpVars_errors (v : Dict (List Char) VDom) :
    ((∃ p ∈ v, p.2 = .other) ∧ dumpVars v = .error .valueError) ∨
    ((∀ p ∈ v, p.2 ≠ .other) ∧ ∃ t, dumpVars v = .ok t) := by
  induction v with
  | nil => exact .inr ⟨by simp, [], rfl⟩
  | cons p v ih =>
    rcases domainStr_errors p.2 with ⟨h, e⟩ | ⟨h, t, e⟩
    · exact .inl ⟨⟨p, by simp, h⟩, by simp [dumpVars, e]⟩
    · rcases ih with ⟨⟨q, hq, h'⟩, e'⟩ | ⟨h', t', e'⟩
      · exact .inl ⟨⟨q, by simp [hq], h'⟩, by simp [dumpVars, e, e']⟩
      · exact .inr ⟨by simpa [h] using h', by simp [dumpVars, e, e']⟩

/-- C35. `dumps` raises `ValueError` if and only if a variable has a domain that the file format cannot
express, and otherwise returns a text. -/
theorem dumps_rejects (f : Ltl) (stamp : Option (List Char)) :
    ((∃ p ∈ f.inputs ++ f.outputs, p.2 = .other) ∧ dumps f stamp = .error .valueError) ∨
    ((∀ p ∈ f.inputs ++ f.outputs, p.2 ≠ .other) ∧ ∃ t, dumps f stamp = .ok t) := by
  have S : ∀ (h : List Char) (v : Dict (List Char) VDom),
      ((∃ p ∈ v, p.2 = .other) ∧ dumpSection h v = .error .valueError) ∨
      ((∀ p ∈ v, p.2 ≠ .other) ∧ ∃ t, dumpSection h v = .ok t) := by
    intro h v
    unfold dumpSection
    split
    · rename_i hv
      rw [List.isEmpty_iff] at hv
      subst hv
      exact .inr ⟨by simp, [], rfl⟩
    · rcases dumpVars_errors v with ⟨h1, e⟩ | ⟨h1, t, e⟩
      · exact .inl ⟨h1, by simp [e]⟩
      · exact .inr ⟨h1, by simp [e]⟩
  rcases S c!"INPUT:" f.inputs with ⟨⟨p, hp, h1⟩, e1⟩ | ⟨h1, t1, e1⟩
  · exact .inl ⟨⟨p, by simp [hp], h1⟩, by simp [dumps, e1]⟩
  · rcases S c!"\nOUTPUT:" f.outputs with ⟨⟨p, hp, h2⟩, e2⟩ | ⟨h2, t2, e2⟩
    · exact .inl ⟨⟨p, by simp [hp], h2⟩, by simp [dumps, e1, e2]⟩
    · refine .inr ⟨fun p hp => ?_, by simp [dumps, e1, e2]⟩
      rcases List.mem_append.1 hp with hp | hp
      · exact h1 p hp
      · exact h2 p hp

/-- The first line that has something before a comment. -/
def firstLine (s : List Char) : Option (List Char) :=
  ((splitlines s).map fun l => (strip l).takeWhile (· ≠ '#')).find? fun l => !l.isEmpty

/-- C35. A file is read only if its first line that is not a comment is the version `0`. -/
theorem loads_version {s line : List Char} {g : Ltl} (h : loads s = .ok g)
    (hl : firstLine s = some line) : pyInt line = some 0 := by
  have hv : checkVersion (splitlines s) = .ok () := by
    unfold loads at h
    cases hc : checkVersion (splitlines s) with
    | error e => rw [hc] at h; cases h
    | ok u => rfl
  unfold firstLine at hl
  generalize splitlines s = ls at hv hl
  induction ls with
  | nil => simp at hl
  | cons l ls ih =>
    simp only [checkVersion] at hv
    simp only [List.map_cons, List.find?_cons] at hl
    cases he : ((strip l).takeWhile (· ≠ '#')).isEmpty with
    | true =>
      simp only [he, if_true] at hv
      simp only [he, Bool.not_true] at hl
      exact ih hv hl
    | false =>
      simp only [he, Bool.not_false, Option.some.injEq] at hl
      subst hl
      simp only [he, Bool.false_eq_true, if_false] at hv
      revert hv
      cases pyInt ((strip l).takeWhile (· ≠ '#')) with
      | none => simp
      | some v =>
        simp only
        split
        · simp
        · intro _; simp_all

theorem readDomain_errors {d : List Char} {e : PyErr} (h : readDomain d = .error e) :
    e ∈ [PyErr.valueError, .typeError, .indexError, .assertion] := by
  unfold readDomain at h
  split at h
  · cases h; simp
  · split at h
    · unfold readRange at h
      split at h
      · cases h; simp
      · split at h
        · cases h; simp
        · split at h
          · cases h; simp
          · split at h
            · cases h; simp
            · split at h <;> cases h
              simp
    · split at h
      · unfold readSet at h
        split at h <;> cases h
        simp
      · split at h <;> cases h
        simp

theorem readDecls_errors {vars : Dict (List Char) VDom} {l : List (List Char)} {e : PyErr}
    (h : readDecls vars l = .error e) : e ∈ [PyErr.valueError, .typeError, .indexError, .assertion] := by
  induction l generalizing vars with
  | nil => cases h
  | cons s l ih =>
    simp only [readDecls] at h
    cases hd : readDecl vars s with
    | ok v => rw [hd] at h; exact ih h
    | error e' =>
      rw [hd] at h
      cases h
      unfold readDecl at hd
      split at hd
      · cases hd
      · split at hd
        · rename_i name domain _
          cases hr : readDomain (lstrip domain) with
          | ok v => rw [hr] at hd; cases hd
          | error e' => rw [hr] at hd; cases hd; exact readDomain_errors hr
        · cases hd; simp

/-- C35. A malformed file is reported as a `ValueError`, with these exceptions: an incomplete range or an
empty domain gives `IndexError`, a set without closing brace `AssertionError`, and a variable declared
twice the exception of the constructor. In particular a domain of an unknown kind is a `ValueError`. -/
theorem loads_errors {s : List Char} {e : PyErr} (h : loads s = .error e) :
    e ∈ [PyErr.valueError, .indexError, .assertion, .exception] := by
  unfold loads at h
  cases hc : checkVersion (splitlines s) with
  | error e' =>
    rw [hc] at h
    cases h
    generalize splitlines s = ls at hc
    induction ls with
    | nil => cases hc
    | cons l ls ih =>
      simp only [checkVersion] at hc
      split at hc
      · exact ih hc
      · split at hc
        · cases hc; simp
        · split at hc <;> cases hc
          simp
  | ok u =>
    rw [hc] at h
    simp only [ok_bind] at h
    split at h
    · unfold newLtl at h
      split at h <;> cases h
      simp
    · cases h; simp
    · rename_i e' hne hb
      cases h
      have : e ∈ [PyErr.valueError, .typeError, .indexError, .assertion] := by
        unfold readBody at hb
        split at hb
        · rename_i a declar formula _
          cases h1 : readDecls [] (splitOn ';' (sections declar).1) with
          | error e1 => rw [h1] at hb; cases hb; exact readDecls_errors h1
          | ok i =>
            cases h2 : readDecls [] (splitOn ';' (sections declar).2) with
            | error e2 => rw [h1, h2] at hb; cases hb; exact readDecls_errors h2
            | ok o => rw [h1, h2] at hb; cases hb
        · cases hb; simp
      rcases (by simpa using this : e = .valueError ∨ e = .typeError ∨ e = .indexError ∨ e = .assertion)
        with rfl | rfl | rfl | rfl
      · simp
      · exact (hne rfl).elim
      · simp
      · simp

/-- An unknown domain is a `ValueError`, an incomplete range is not; a file of version 1 is rejected. -/
example : (loads c!"0\n%%\nINPUT:\nx : real;\n\n%%\nx").toOption = none ∧
    loads c!"0\n%%\nINPUT:\nx : real;\n\n%%\nx" = .error .valueError ∧
    loads c!"0\n%%\nINPUT:\nx : [1;\n\n%%\nx" = .error .indexError ∧
    firstLine c!"# a file\n1 # Version\n%%\n" = some c!"1 " :=
  ⟨by decide +kernel, by rfl, by rfl, by decide +kernel⟩

/-! ### What is not preserved -/

/-- A specification with inputs `x` (Boolean) and `y` in `-1..5`, and output `z` in `{1, 3, 5}`. -/
def sample : Ltl :=
  { formula := c!"[](x -> z = 3)\n&& <> (y = 2)"
    inputs := [(c!"x", .boolean), (c!"y", .range (-1) 5)]
    outputs := [(c!"z", .values [.int 1, .int 3, .int 5])] }

theorem sample_ok : TableOk sample.inputs ∧ TableOk sample.outputs ∧
    (∀ p ∈ sample.inputs, ∀ q ∈ sample.outputs, p.1 ≠ q.1) ∧ FormulaOk sample.formula := by
  have h1 : NameOk c!"x" := ⟨by decide, by decide +kernel⟩
  have h2 : NameOk c!"y" := ⟨by decide, by decide +kernel⟩
  have h3 : NameOk c!"z" := ⟨by decide, by decide +kernel⟩
  refine ⟨⟨?_, ?_⟩, ⟨?_, ?_⟩, ?_, ?_, ?_⟩
  · show List.Nodup _
    decide
  · intro p hp
    rcases List.mem_cons.mp hp with rfl | hp
    · exact ⟨h1, trivial⟩
    rcases List.mem_cons.mp hp with rfl | hp
    · exact ⟨h2, trivial⟩
    cases hp
  · show List.Nodup _
    decide
  · intro p hp
    rcases List.mem_cons.mp hp with rfl | hp
    · refine ⟨h3, by simp, ?_⟩
      intro v hv
      simp only [List.mem_cons, List.not_mem_nil, or_false] at hv
      rcases hv with rfl | rfl | rfl
      exacts [⟨_, rfl⟩, ⟨_, rfl⟩, ⟨_, rfl⟩]
    cases hp
  · decide
  · decide +kernel
  · exact not_infix_of_not_mem (c := '%') (by decide) (by decide +kernel)

example : (dumps sample (some c!"2026-01-01 00:00:00 UTC")).toOption = some
    c!"# Generated at 2026-01-01 00:00:00 UTC\n0  # Version\n%%\nINPUT:\nx : boolean;\ny : [-1, 5];\n\nOUTPUT:\nz : {1, 3, 5};\n\n%%\n[](x -> z = 3)\n&& <> (y = 2)" := by
  decide +kernel

example : ((dumps sample none).bind loads).toOption = some sample := by decide +kernel

/-- Strings: all elements but the first one get a space. -/
theorem loads_dumps_strings_counterexample :
    ((dumps { formula := c!"True", inputs := [], outputs := [(c!"z", .values [.str c!"a", .str c!"b"])] }
      none).bind loads).toOption =
    some { formula := c!"True", inputs := [], outputs := [(c!"z", .values [.str c!"a", .str c!" b"])] } := by
  decide +kernel

/-- The empty set is read as the set of the empty string. -/
theorem loads_dumps_empty_counterexample :
    ((dumps { formula := c!"True", inputs := [], outputs := [(c!"z", .values [])] } none).bind loads).toOption =
    some { formula := c!"True", inputs := [], outputs := [(c!"z", .values [.str []])] } := by
  decide +kernel

/-- A formula with the character `#` loses the rest of the line. -/
theorem loads_dumps_comment_counterexample :
    ((dumps { formula := c!"x # y", inputs := [], outputs := [(c!"x", .boolean)] } none).bind loads).toOption =
    some { formula := c!"x ", inputs := [], outputs := [(c!"x", .boolean)] } := by
  decide +kernel

end LtlFile

end Tulip
