import Verif.Spec.FullNames
import Verif.Spec.TransWringProps

/-!
# C117: operators that are spelled out
-/

namespace Tulip
namespace Full

open Tulip.Trans Cache

/-! ## Specification -/

/-- The words of a text (the longest runs of letters, digits and underscores) replaced by `f`; `cur` is the word
that ends at the current position. -/
def mapWordsFrom (f : List Char → List Char) (cur : List Char) : List Char → List Char
  | [] => f cur
  | c :: s => if isWordChar c then mapWordsFrom f (cur ++ [c]) s else f cur ++ c :: mapWordsFrom f [] s

/-- Every word of a text replaced by `f`. -/
def mapWords (f : List Char → List Char) (s : List Char) : List Char := mapWordsFrom f [] s

/-- The words of a text; `cur` is the word that ends at the current position. -/
def wordsFrom (cur : List Char) : List Char → List (List Char)
  | [] => [cur]
  | c :: s => if isWordChar c then wordsFrom (cur ++ [c]) s else cur :: wordsFrom [] s

/-- The symbol of an operator for its name, in any capitalization; other words stay. -/
def spell (w : List Char) : List Char :=
  match names.find? fun p => decide (p.1 = w.map lower) with
  | some p => p.2
  | none => w

/-- A name of a variable in which no word is the name of an operator. -/
def Plain (x : String) : Prop := ∀ w ∈ wordsFrom [] x.toList, ∀ p ∈ names, p.1 ≠ w.map lower

/-- All variables of a tree are plain. -/
def PlainVars : Ast → Prop
  | .var x => Plain x
  | .bool _ | .num _ | .str _ => True
  | .un _ a | .trunc a _ => PlainVars a
  | .bin _ a b | .cmp _ a b | .ar _ a b => PlainVars a ∧ PlainVars b
  | .ite c a b => PlainVars c ∧ PlainVars a ∧ PlainVars b

/-- The symbols of operators. -/
def symbols : Lang where
  un := fun
    | .not => some c!"!"
    | .always => some c!"[]"
    | .eventually => some c!"<>"
    | .next => some c!"X"
    | .tilde => none
  bin := fun
    | .and => some c!"&&"
    | .or => some c!"||"
    | .imp => some c!"->"
    | .bimp => some c!"<->"
    | .strongUntil => some c!"U"
    | .weakUntil => some c!"W"
    | .release => some c!"V"
    | _ => none
  cmp := cmpText
  ar := arText
  bool := fun b => if b then c!"True" else c!"False"
  var := fun _ x => .ok x.toList
  primes := false

/-- A way to spell formulas: each operator by one of its names, in any capitalization, or by its symbol. -/
structure Spelling (L : Lang) : Prop where
  un : ∀ op o, L.un op = some o → ∃ y, symbols.un op = some y ∧ ((o.map lower, y) ∈ names ∨ o = y)
  bin : ∀ op o, L.bin op = some o → ∃ y, symbols.bin op = some y ∧ ((o.map lower, y) ∈ names ∨ o = y)
  cmp : L.cmp = cmpText
  ar : L.ar = arText
  bool : L.bool = symbols.bool
  var : L.var = symbols.var
  primes : L.primes = false

/-! ## Words -/

theorem lower_word (c : Char) : isWordChar (lower c) = isWordChar c := by
  unfold lower
  split
  · rename_i h
    simp only [Bool.and_eq_true, decide_eq_true_eq] at h
    have : (Char.ofNat (c.toNat + 32)).toNat = c.toNat + 32 := by
      have key : ∀ n : Fin 26, (Char.ofNat (65 + n.1 + 32)).toNat = 65 + n.1 + 32 := by decide
      have := key ⟨c.toNat - 65, by omega⟩
      rwa [show 65 + (c.toNat - 65) = c.toNat from by omega] at this
    have h1 : isWordChar c = true := by
      simp only [isWordChar, Bool.or_eq_true, Bool.and_eq_true, decide_eq_true_eq]; omega
    rw [h1]
    simp only [isWordChar, this, Bool.or_eq_true, Bool.and_eq_true, decide_eq_true_eq]; omega
  · rfl

/-- A text of word characters. -/
def AllWord (w : List Char) : Prop := ∀ c ∈ w, isWordChar c = true

theorem allWord_of_lower {w name : List Char} (h : w.map lower = name) (hn : AllWord name) : AllWord w := by
  intro c hc
  rw [← lower_word]
  exact hn _ (h ▸ List.mem_map_of_mem hc)

theorem mapWordsFrom_word {f : List Char → List Char} {w : List Char} (hw : AllWord w) (cur t : List Char) :
    mapWordsFrom f cur (w ++ t) = mapWordsFrom f (cur ++ w) t := by
  induction w generalizing cur with
  | nil => simp
  | cons c w ih =>
    rw [List.cons_append]
    conv => lhs; unfold mapWordsFrom
    rw [if_pos (hw c (by simp)), ih (fun d hd => hw d (List.mem_cons_of_mem _ hd))]
    simp

theorem mapWords_word {f : List Char → List Char} {w : List Char} (hw : AllWord w) : mapWords f w = f w := by
  have := mapWordsFrom_word (f := f) hw [] []
  rw [List.append_nil, List.nil_append] at this
  exact this

theorem mapWordsFrom_break {f : List Char → List Char} {c : Char} (hc : isWordChar c = false) (x cur y : List Char) :
    mapWordsFrom f cur (x ++ c :: y) = mapWordsFrom f cur x ++ c :: mapWords f y := by
  induction x generalizing cur with
  | nil => simp [mapWordsFrom, hc, mapWords]
  | cons d x ih =>
    rw [List.cons_append]
    unfold mapWordsFrom
    cases isWordChar d with
    | true => rw [if_pos rfl, if_pos rfl, ih]
    | false => rw [if_neg (by simp), if_neg (by simp), ih]; simp

theorem mapWords_break {f : List Char → List Char} {c : Char} (hc : isWordChar c = false) (x y : List Char) :
    mapWords f (x ++ c :: y) = mapWords f x ++ c :: mapWords f y := mapWordsFrom_break hc x [] y

theorem mapWords_cons {f : List Char → List Char} (hf : f [] = []) {c : Char} (hc : isWordChar c = false) (y : List Char) :
    mapWords f (c :: y) = c :: mapWords f y := by
  have := mapWords_break (f := f) hc [] y
  simpa [mapWords, mapWordsFrom, hf] using this

theorem mapWordsFrom_congr {f g : List Char → List Char} (h : ∀ w, AllWord w → f w = g w) {cur : List Char}
    (hc : AllWord cur) (s : List Char) : mapWordsFrom f cur s = mapWordsFrom g cur s := by
  induction s generalizing cur with
  | nil => exact h cur hc
  | cons c s ih =>
    unfold mapWordsFrom
    cases hw : isWordChar c with
    | true =>
      rw [if_pos rfl, if_pos rfl]
      refine ih fun d hd => ?_
      rcases List.mem_append.1 hd with hd | hd
      · exact hc d hd
      · rw [List.mem_singleton.1 hd]; exact hw
    | false =>
      rw [if_neg (by simp), if_neg (by simp), h cur hc, ih (fun d hd => absurd hd (by simp))]

theorem mapWords_comp (f g : List Char → List Char) (cur s : List Char) :
    mapWords g (mapWordsFrom f cur s) = mapWordsFrom (fun w => mapWords g (f w)) cur s := by
  induction s generalizing cur with
  | nil => rfl
  | cons c s ih =>
    unfold mapWordsFrom
    cases hw : isWordChar c with
    | true => rw [if_pos rfl, if_pos rfl, ih]
    | false => rw [if_neg (by simp), if_neg (by simp), mapWords_break hw, ih]

theorem mapWords_id (s cur : List Char) : mapWordsFrom (fun w => w) cur s = cur ++ s := by
  induction s generalizing cur with
  | nil => simp [mapWordsFrom]
  | cons c s ih =>
    unfold mapWordsFrom
    cases isWordChar c with
    | true => rw [if_pos rfl, ih]; simp
    | false => rw [if_neg (by simp), ih]; simp

/-! ## One name -/

/-- What follows after a word. -/
def restOf (f : List Char → List Char) : List Char → List Char
  | [] => []
  | c :: t => c :: mapWords f t

/-- One word replaced. -/
def one (name symbol w : List Char) : List Char := if w.map lower = name then symbol else w

theorem matchesAt_iff {name w t : List Char} (hn : AllWord name) (hw : AllWord w)
    (ht : ∀ c t', t = c :: t' → isWordChar c = false) :
    matchesAt name (w ++ t) = true ↔ w.map lower = name := by
  unfold matchesAt
  rw [Bool.and_eq_true, decide_eq_true_eq]
  constructor
  · rintro ⟨h1, h2⟩
    have hlen : name.length ≤ (w ++ t).length := by
      have := congrArg List.length h1
      simp only [List.length_map, List.length_take] at this
      omega
    have hall := allWord_of_lower h1 hn
    have h3 : name.length ≤ w.length := by
      by_contra hlt
      cases t with
      | nil => simp at hlen; omega
      | cons c t' =>
        have := ht c t' rfl
        have hm : c ∈ (w ++ c :: t').take name.length := by
          rw [List.mem_take_iff_getElem]
          refine ⟨w.length, by simp; omega, by simp⟩
        rw [hall c hm] at this
        cases this
    have h4 : w.length ≤ name.length := by
      by_contra hlt
      have : (w ++ t).drop name.length = w[name.length]'(by omega) :: (w ++ t).drop (name.length + 1) := by
        rw [List.drop_eq_getElem_cons (by simp; omega)]
        rw [List.getElem_append_left]
      rw [this] at h2
      simp [hw _ (List.getElem_mem _)] at h2
    have h5 : name.length = w.length := by omega
    rw [h5, List.take_left'  rfl] at h1
    exact h1
  · intro h
    have h5 : name.length = w.length := by rw [← h]; simp
    rw [h5, List.take_left' rfl, List.drop_left' rfl]
    refine ⟨h, ?_⟩
    cases t with
    | nil => rfl
    | cons c t' => simp [ht c t' rfl]

theorem subWord_skip {name symbol : List Char} (w t : List Char) (p : Bool) (hw : AllWord w) :
    ∃ q, subWord name symbol w.length p (w ++ t) = subWord name symbol 0 q t ∧ (w ≠ [] → q = true) ∧ (w = [] → q = p) := by
  induction w generalizing p with
  | nil => exact ⟨p, rfl, fun h => absurd rfl h, fun _ => rfl⟩
  | cons c w ih =>
    obtain ⟨q, h1, h2, h3⟩ := ih (isWordChar c) fun d hd => hw d (List.mem_cons_of_mem _ hd)
    refine ⟨q, ?_, fun _ => ?_, fun h => by cases h⟩
    · rw [List.length_cons, List.cons_append, subWord, h1]
    · by_cases hnil : w = []
      · rw [h3 hnil]; exact hw c (by simp)
      · exact h2 hnil

theorem subWord_inside {name symbol : List Char} (w t : List Char) (hw : AllWord w) :
    subWord name symbol 0 true (w ++ t) = w ++ subWord name symbol 0 true t := by
  induction w with
  | nil => rfl
  | cons c w ih =>
    rw [List.cons_append, subWord]
    simp only [Bool.not_true, Bool.false_and, Bool.false_eq_true, if_false]
    rw [hw c (by simp), ih (fun d hd => hw d (List.mem_cons_of_mem _ hd))]
    rfl

/-- One substitution replaces the words that are equal to the name. -/
theorem subWord_eq {name symbol : List Char} (hn : AllWord name) (hne : name ≠ []) (s : List Char) :
    subWord name symbol 0 false s = mapWords (one name symbol) s := by
  have hone : one name symbol [] = [] := by
    unfold one
    rw [if_neg]
    intro h
    exact hne h.symm
  generalize hk : s.length = k
  induction k using Nat.strongRecOn generalizing s with
  | _ k ih =>
    have hsplit : s = s.takeWhile isWordChar ++ s.dropWhile isWordChar := (List.takeWhile_append_dropWhile).symm
    have hw : AllWord (s.takeWhile isWordChar) := fun c hc => List.mem_takeWhile_imp hc
    have ht : ∀ c t', s.dropWhile isWordChar = c :: t' → isWordChar c = false := by
      intro c t' h
      have := List.head?_dropWhile_not isWordChar s
      rw [h] at this
      simpa using this
    generalize s.takeWhile isWordChar = w at *
    generalize s.dropWhile isWordChar = t at *
    subst hsplit
    -- the rest after the first word
    have hrest : ∀ q, (w = [] → q = false) → subWord name symbol 0 q t =
        restOf (one name symbol) t := by
      intro q _
      cases t with
      | nil => rfl
      | cons c t' =>
        have hc := ht c t' rfl
        have hm : matchesAt name (c :: t') = false := by
          rw [Bool.eq_false_iff]
          intro h
          have := (matchesAt_iff (w := []) (t := c :: t') hn (fun d hd => absurd hd (by simp)) ht).1 h
          exact hne this.symm
        rw [subWord, hm, Bool.and_false, if_neg (by simp), hc,
          ih t'.length (by simp at hk; omega) t' rfl]
        rfl
    have hmap : mapWords (one name symbol) (w ++ t) = one name symbol w ++
        restOf (one name symbol) t := by
      cases t with
      | nil => simp [mapWords_word hw, restOf]
      | cons c t' => rw [mapWords_break (ht c t' rfl), mapWords_word hw]; rfl
    rw [hmap]
    cases w with
    | nil =>
      rw [List.nil_append, hrest false (fun _ => rfl), hone, List.nil_append]
    | cons c w' =>
      have hw' : AllWord w' := fun d hd => hw d (List.mem_cons_of_mem _ hd)
      have hc : isWordChar c = true := hw c (by simp)
      by_cases hm : (c :: w').map lower = name
      · have hmt := (matchesAt_iff hn hw ht).2 hm
        have hlen : name.length - 1 = w'.length := by rw [← hm]; simp
        rw [List.cons_append] at hmt ⊢
        rw [subWord, hmt]
        simp only [Bool.not_false, Bool.and_self, if_true]
        obtain ⟨q, h1, _, _⟩ := subWord_skip (name := name) (symbol := symbol) w' t (isWordChar c) hw'
        rw [hlen, h1, hrest q (fun h => by cases h)]
        rw [one, if_pos hm]
      · have hmf : matchesAt name (c :: w' ++ t) = false := by
          rw [Bool.eq_false_iff]
          exact fun h => hm ((matchesAt_iff hn hw ht).1 h)
        rw [List.cons_append] at hmf ⊢
        rw [subWord, hmf, Bool.and_false, if_neg (by simp), hc, subWord_inside w' t hw',
          hrest true (fun h => by cases h)]
        rw [one, if_neg hm]
        simp

/-! ## All names -/

theorem names_word : ∀ p ∈ names, AllWord p.1 ∧ p.1 ≠ [] := by
  unfold AllWord; decide +kernel

theorem names_symbol : ∀ p ∈ names, ∀ q ∈ names, mapWords (one q.1 q.2) p.2 = p.2 := by decide +kernel

theorem fold_comp (l : List (List Char × List Char)) (f : List Char → List Char) (s : List Char) :
    l.foldl (fun s p => mapWords (one p.1 p.2) s) (mapWords f s) =
      mapWords (fun w => l.foldl (fun s p => mapWords (one p.1 p.2) s) (f w)) s := by
  induction l generalizing f with
  | nil => rfl
  | cons p l ih =>
    rw [List.foldl_cons]
    have : mapWords (one p.1 p.2) (mapWords f s) = mapWords (fun w => mapWords (one p.1 p.2) (f w)) s :=
      mapWords_comp f _ [] s
    rw [this, ih]
    rfl

theorem fold_word {l : List (List Char × List Char)} (hl : ∀ p ∈ l, p ∈ names) {w : List Char} (hw : AllWord w) :
    l.foldl (fun s p => mapWords (one p.1 p.2) s) w =
      match l.find? fun p => decide (p.1 = w.map lower) with
      | some p => p.2
      | none => w := by
  induction l with
  | nil => rfl
  | cons p l ih =>
    rw [List.foldl_cons, mapWords_word hw, List.find?_cons]
    by_cases h : p.1 = w.map lower
    · have h1 : decide (p.1 = w.map lower) = true := by simpa using h
      rw [h1]
      unfold one
      rw [if_pos h.symm]
      have hp := hl p (by simp)
      have : ∀ l : List (List Char × List Char), (∀ q ∈ l, q ∈ names) →
          l.foldl (fun s p => mapWords (one p.1 p.2) s) p.2 = p.2 := by
        intro l
        induction l with
        | nil => intro _; rfl
        | cons q l ih =>
          intro hl
          rw [List.foldl_cons, names_symbol p hp q (hl q (by simp)), ih fun r hr => hl r (List.mem_cons_of_mem _ hr)]
      exact this l fun r hr => hl r (List.mem_cons_of_mem _ hr)
    · have h1 : decide (p.1 = w.map lower) = false := by simpa using h
      rw [h1]
      unfold one
      rw [if_neg (fun e => h e.symm)]
      exact ih fun r hr => hl r (List.mem_cons_of_mem _ hr)

/-- C117. With `full_operators`, every word that is the name of an operator, in any capitalization, is replaced by
the symbol of the operator; all other words and all other characters stay. -/
theorem replaceNames_eq (s : List Char) : replaceNames s = mapWords spell s := by
  have h1 : ∀ (l : List (List Char × List Char)) (s : List Char), (∀ p ∈ l, p ∈ names) →
      l.foldl (fun s p => subWord p.1 p.2 0 false s) s = l.foldl (fun s p => mapWords (one p.1 p.2) s) s := by
    intro l
    induction l with
    | nil => intro s _; rfl
    | cons p l ih =>
      intro s hl
      have hp := names_word p (hl p (by simp))
      rw [List.foldl_cons, List.foldl_cons, subWord_eq hp.1 hp.2, ih _ fun r hr => hl r (List.mem_cons_of_mem _ hr)]
  unfold replaceNames
  rw [h1 names s fun _ h => h]
  have h2 := fold_comp names (fun w => w) s
  rw [show mapWords (fun w => w) s = s from mapWords_id s []] at h2
  rw [h2]
  exact mapWordsFrom_congr (fun w hw => fold_word (fun _ h => h) hw) (fun c hc => absurd hc (by simp)) s

/-- C117. A text in which no word is the name of an operator is not changed. -/
theorem replaceNames_plain {s : List Char} (h : ∀ w ∈ wordsFrom [] s, ∀ p ∈ names, p.1 ≠ w.map lower) :
    replaceNames s = s := by
  rw [replaceNames_eq]
  have key : ∀ (s cur : List Char), (∀ w ∈ wordsFrom cur s, ∀ p ∈ names, p.1 ≠ w.map lower) →
      mapWordsFrom spell cur s = cur ++ s := by
    have hsp : ∀ w : List Char, (∀ p ∈ names, p.1 ≠ w.map lower) → spell w = w := by
      intro w hw
      unfold spell
      rw [List.find?_eq_none.2 (fun p hp => by simpa using hw p hp)]
    intro s
    induction s with
    | nil => intro cur h; simpa [mapWordsFrom] using hsp cur (h cur (by simp [wordsFrom]))
    | cons c s ih =>
      intro cur h
      unfold mapWordsFrom
      unfold wordsFrom at h
      cases hw : isWordChar c with
      | true =>
        rw [hw, if_pos rfl] at h
        rw [if_pos rfl, ih _ h]
        simp
      | false =>
        rw [hw, if_neg (by simp)] at h
        rw [if_neg (by simp), hsp cur (h cur (by simp)), ih [] fun w hw => h w (List.mem_cons_of_mem _ hw)]
        simp
  exact key s [] h

/-! ## Formulas -/

theorem symbols_readable : Readable symbols id (fun _ x => .var x) .bool where
  un op o h hp := by
    cases op <;> simp only [symbols, Option.some.injEq, reduceCtorEq] at h <;> subst h
    · exact ⟨by decide, fun r => lex_unText rfl⟩
    · refine ⟨by decide, fun r => ?_⟩
      exact (lex_word (c := 'X') (w := []) (rest := ' ' :: r) (by decide) (by decide)
        (by simp; decide)).trans (by rw [lex_space]; rfl)
    · exact ⟨by decide, fun r => by simp [lex_cons, lexStep]⟩
    · exact ⟨by decide, fun r => by simp [lex_cons, lexStep]⟩
  bin op o h := by
    cases op <;> simp only [symbols, Option.some.injEq, reduceCtorEq] at h <;> subst h
    all_goals first
      | exact ⟨by decide, fun r => lex_binText rfl⟩
      | exact ⟨by decide, fun r => by simp [lex_cons, lexStep]⟩
  cmp op o h := by rw [List.map_id]; exact h
  ar op o h := by rw [List.map_id]; exact h
  bool b := by rw [List.map_id]; exact prints_bool b
  var p x s h1 h2 h := by cases h; rw [List.map_id]; exact prints_var h1 h2
  space := rfl
  lpar := rfl
  rpar := rfl
  num n := List.map_id _

theorem spell_nil : spell [] = [] := by decide +kernel

theorem spell_plain {w : List Char} (hw : ∀ p ∈ names, p.1 ≠ w.map lower) : spell w = w := by
  unfold spell
  rw [List.find?_eq_none.2 (fun p hp => by simpa using hw p hp)]

theorem names_nodup : ∀ p ∈ names, ∀ q ∈ names, p.1 = q.1 → p = q := by decide +kernel

theorem spell_name {o y : List Char} (h : (o.map lower, y) ∈ names) : spell o = y := by
  unfold spell
  cases hf : names.find? fun p => decide (p.1 = o.map lower) with
  | none => exact (by simpa using List.find?_eq_none.1 hf _ h : False).elim
  | some p =>
    have h1 := List.find?_some hf
    rw [names_nodup p (List.mem_of_find?_eq_some hf) _ h (by simpa using h1)]

/-- The operator of a spelling becomes its symbol. -/
theorem mapWords_op {o y : List Char} (hy : mapWords spell y = y) (h : (o.map lower, y) ∈ names ∨ o = y) :
    mapWords spell o = y := by
  rcases h with h | rfl
  · have hw : AllWord o := allWord_of_lower rfl (names_word _ h).1
    rw [mapWords_word hw, spell_name h]
  · exact hy

theorem mapWords_ident {x : String} (h : Plain x) : mapWords spell x.toList = x.toList := by
  rw [← replaceNames_eq]
  exact replaceNames_plain h

theorem mapWords_digits {w : List Char} (h : ∀ c ∈ w, isDig c = true) : mapWords spell w = w := by
  have hw : AllWord w := fun c hc => by simp [isWordChar, h c hc]
  rw [mapWords_word hw]
  cases w with
  | nil => exact spell_nil
  | cons c w =>
    refine spell_plain fun p hp he => ?_
    have hd : isDig c = true := h c (by simp)
    have hlo : lower c = c := by
      unfold lower
      rw [if_neg]
      simp only [isDig, Bool.and_eq_true, decide_eq_true_eq] at hd ⊢
      omega
    have : ∀ p ∈ names, ∀ c ∈ p.1.head?, isDig c = false := by decide +kernel
    have := this p hp c (by rw [he]; simp [hlo])
    rw [hd] at this
    cases this

theorem mapWords_num (n : Int) : mapWords spell (intChars n) = intChars n := by
  cases n with
  | ofNat n => exact mapWords_digits (List.all_eq_true.1 (digitsOf_spec n).1)
  | negSucc n =>
    show mapWords spell ('-' :: digitsOf (n + 1)) = _
    rw [mapWords_cons spell_nil (by decide), mapWords_digits (List.all_eq_true.1 (digitsOf_spec (n + 1)).1)]
    rfl

theorem mapWords_infix (a o b : List Char) :
    mapWords spell (infixText a o b) = infixText (mapWords spell a) (mapWords spell o) (mapWords spell b) := by
  have h1 : isWordChar ' ' = false := by decide
  have h2 : isWordChar '(' = false := by decide
  have h3 : isWordChar ')' = false := by decide
  have e : infixText a o b = '(' :: ' ' :: (a ++ ' ' :: (o ++ ' ' :: (b ++ ' ' :: [')']))) := by
    simp [infixText]
  have e' : ∀ a o b : List Char, infixText a o b = '(' :: ' ' :: (a ++ ' ' :: (o ++ ' ' :: (b ++ ' ' :: [')']))) := by
    intro a o b; simp [infixText]
  rw [e, e', mapWords_cons spell_nil h2, mapWords_cons spell_nil h1, mapWords_break h1, mapWords_break h1,
    mapWords_break h1, mapWords_cons spell_nil h3]
  simp [mapWords, mapWordsFrom, spell_nil]

theorem mapWords_prefix (o a : List Char) :
    mapWords spell (['(', ' '] ++ o ++ [' '] ++ a ++ [' ', ')']) =
      ['(', ' '] ++ mapWords spell o ++ [' '] ++ mapWords spell a ++ [' ', ')'] := by
  have h1 : isWordChar ' ' = false := by decide
  have h2 : isWordChar '(' = false := by decide
  have h3 : isWordChar ')' = false := by decide
  have e : ∀ o a : List Char, ['(', ' '] ++ o ++ [' '] ++ a ++ [' ', ')'] =
      '(' :: ' ' :: (o ++ ' ' :: (a ++ ' ' :: [')'])) := by
    intro o a; simp
  rw [e, e, mapWords_cons spell_nil h2, mapWords_cons spell_nil h1, mapWords_break h1, mapWords_break h1,
    mapWords_cons spell_nil h3]
  simp [mapWords, mapWordsFrom, spell_nil]

/-- A formula that is spelled out becomes the formula with symbols. -/
theorem text_spelled {L : Lang} (hL : Spelling L) {t : Ast} (hs : NoStrConst t) (hp : PlainVars t) {p : Bool}
    {s : List Char} (h : text L p t = .ok s) : text symbols p t = .ok (mapWords spell s) := by
  induction t generalizing p s with
  | var x =>
    simp only [text, hL.var, symbols, Except.ok.injEq] at h ⊢
    rw [← h, mapWords_ident hp]
  | bool b =>
    simp only [text, hL.bool, Except.ok.injEq] at h ⊢
    rw [← h]
    cases b <;> decide +kernel
  | num n =>
    simp only [text, Except.ok.injEq] at h ⊢
    rw [← h, mapWords_num]
  | str s => exact hs.elim
  | un op a ih =>
    simp only [text, hL.primes, Bool.false_and, Bool.false_eq_true, if_false, bind_ok_iff, look_ok, pure_eq_ok,
      Except.ok.injEq] at h
    obtain ⟨o, ho, u, hu, rfl⟩ := h
    obtain ⟨y, hy, hn⟩ := hL.un op o ho
    have e : mapWords spell y = y := by
      cases op <;> simp only [symbols, Option.some.injEq, reduceCtorEq] at hy <;> subst hy <;> decide +kernel
    rw [mapWords_prefix, mapWords_op e hn]
    simp only [text]
    rw [if_neg (by simp [symbols]), hy, ih hs hp hu]
    rfl
  | bin op a b iha ihb =>
    simp only [text, bind_ok_iff, look_ok, pure_eq_ok, Except.ok.injEq] at h
    obtain ⟨o, ho, u, hu, v, hv, rfl⟩ := h
    obtain ⟨y, hy, hn⟩ := hL.bin op o ho
    have e : mapWords spell y = y := by
      cases op <;> simp only [symbols, Option.some.injEq, reduceCtorEq] at hy <;> subst hy <;> decide +kernel
    rw [mapWords_infix, mapWords_op e hn]
    simp only [text]
    rw [hy, iha hs.1 hp.1 hu, ihb hs.2 hp.2 hv]
    rfl
  | cmp op a b iha ihb =>
    simp only [text, hL.cmp, bind_ok_iff, look_ok, pure_eq_ok, Except.ok.injEq] at h
    obtain ⟨o, ho, u, hu, v, hv, rfl⟩ := h
    have e : mapWords spell o = o := by
      cases op <;> simp only [cmpText, Option.some.injEq, reduceCtorEq] at ho <;> subst ho <;> decide +kernel
    rw [mapWords_infix, e]
    simp only [text]
    rw [show symbols.cmp op = some o from ho, iha hs.1 hp.1 hu, ihb hs.2 hp.2 hv]
    rfl
  | ar op a b iha ihb =>
    simp only [text, hL.ar, bind_ok_iff, look_ok, pure_eq_ok, Except.ok.injEq] at h
    obtain ⟨o, ho, u, hu, v, hv, rfl⟩ := h
    have e : mapWords spell o = o := by
      cases op <;> simp only [arText, Option.some.injEq] at ho <;> subst ho <;> decide +kernel
    rw [mapWords_infix, e]
    simp only [text]
    rw [show symbols.ar op = some o from ho, iha hs.1 hp.1 hu, ihb hs.2 hp.2 hv]
    rfl
  | trunc a n ih => cases h
  | ite c a b => cases h

theorem readTree_self {t : Ast} (p : Bool) : readTree false (fun _ x => .var x) .bool p t = t := by
  induction t with
  | var | bool | num | str => rfl
  | un op a ih => simp only [readTree, Bool.false_and, Bool.false_eq_true, if_false, ih]
  | bin op a b iha ihb => simp only [readTree, iha, ihb]
  | cmp op a b iha ihb => simp only [readTree, iha, ihb]
  | ar op a b iha ihb => simp only [readTree, iha, ihb]
  | trunc a n ih => simp only [readTree, ih]
  | ite c a b ihc iha ihb => simp only [readTree, ihc, iha, ihb]

/-- C117. A formula whose operators are spelled out, by any of their names and in any capitalization, or written
with symbols, is read as this formula, if no word in the names of its variables is the name of an operator. -/
theorem parseWith_spelled {L : Lang} (hL : Spelling L) {t : Ast} (hn : Named t) (hs : NoStrConst t)
    (hp : PlainVars t) {s : List Char} (h : text L false t = .ok s) : parseWith s true = some t := by
  have h1 := text_prints symbols_readable hn hs (text_spelled hL hs hp h)
  have h2 := h1.parse
  rw [List.map_id] at h2
  unfold parseWith
  rw [if_pos rfl, replaceNames_eq, h2]
  exact congrArg some (readTree_self false)

/-- C117. A formula without names of operators is read as without the option. -/
theorem parseWith_plain {s : List Char} (h : ∀ w ∈ wordsFrom [] s, ∀ p ∈ names, p.1 ≠ w.map lower) (b : Bool) :
    parseWith s b = Tulip.parse s := by
  unfold parseWith
  rw [replaceNames_plain h]
  simp

/-! ## Examples -/

/-- A spelling in capitals. -/
def loud : Lang := { symbols with
  un := fun
    | .not => some c!"Not"
    | .always => some c!"ALWAYS"
    | .eventually => some c!"Eventually"
    | .next => some c!"Next"
    | .tilde => none
  bin := fun
    | .and => some c!"AND"
    | .or => some c!"||"
    | .imp => some c!"Implies"
    | .bimp => some c!"equivalent"
    | .strongUntil => some c!"StrongUntil"
    | .weakUntil => some c!"UNLESS"
    | .release => some c!"release"
    | _ => none }

theorem loud_spelling : Spelling loud where
  un op o h := by
    cases op <;> simp only [loud, Option.some.injEq, reduceCtorEq] at h <;> subst h <;>
      exact ⟨_, rfl, by decide +kernel⟩
  bin op o h := by
    cases op <;> simp only [loud, Option.some.injEq, reduceCtorEq] at h <;> subst h <;>
      exact ⟨_, rfl, by decide +kernel⟩
  cmp := rfl
  ar := rfl
  bool := rfl
  var := rfl
  primes := rfl

/-- A formula, and its text. -/
def courteous : Ast :=
  .un .always (.bin .imp (.bin .and (.var "ask") (.un .not (.var "notary")))
    (.bin .strongUntil (.cmp .ge (.var "wait_and_see") (.num 2)) (.un .next (.var "answer"))))

example : (text loud false courteous).toOption = some (
    c!"( ALWAYS ( ( ask AND ( Not notary ) ) Implies " ++
      c!"( ( wait_and_see >= 2 ) StrongUntil ( Next answer ) ) ) )") := by decide +kernel

/-- The hypotheses hold. -/
example : PlainVars courteous ∧ NoStrConst courteous := by
  unfold courteous PlainVars NoStrConst
  simp only [PlainVars, NoStrConst, Plain]
  decide +kernel

example : parseWith (c!"( ALWAYS ( ( ask AND ( Not notary ) ) Implies " ++
      c!"( ( wait_and_see >= 2 ) StrongUntil ( Next answer ) ) ) )") true = some courteous := by decide +kernel

/-- Names of variables and of constants may contain dots and words; a part that is the name of an operator is
replaced as well. -/
theorem full_names_variable_counterexample :
    Tulip.parse c!"door.next = 1" = some (.cmp .eq (.var "door.next") (.num 1)) ∧
      parseWith c!"door.next = 1" true = some (.cmp .eq (.var "door.X") (.num 1)) ∧
      parseWith c!"mode = \"not\"" true = none := by
  decide +kernel

end Full
end Tulip
