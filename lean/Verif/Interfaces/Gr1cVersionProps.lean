import Verif.Interfaces.Gr1cVersion
import Verif.Gridworld.DumpProps
import Verif.Gridworld.WorldProps

/-!
# C129: the version of `gr1c` and the check of the syntax
-/

namespace Tulip
namespace Gr1cV

open Gw

/-! ## Specification -/

/-- Nothing, or a text that begins with white space. -/
def Ends (r : List Char) : Prop := ∀ c ∈ r.head?, isSpace c = true

/-- The second word of a text. -/
def SecondWord (s v : List Char) : Prop :=
  ∃ a w b r, s = a ++ w ++ b ++ v ++ r ∧ (∀ c ∈ a, isSpace c = true) ∧ w ≠ [] ∧ (∀ c ∈ w, isSpace c = false) ∧
    b ≠ [] ∧ (∀ c ∈ b, isSpace c = true) ∧ v ≠ [] ∧ (∀ c ∈ v, isSpace c = false) ∧ Ends r

/-- The text of a version: three integers with dots between them. -/
def VersionText (v : List Char) (n : Int × Int × Int) : Prop :=
  ∃ x y z, v = x ++ '.' :: y ++ '.' :: z ∧ '.' ∉ x ∧ '.' ∉ y ∧ '.' ∉ z ∧
    pyInt x = some n.1 ∧ pyInt y = some n.2.1 ∧ pyInt z = some n.2.2

/-- The lexicographic order of versions. -/
def NotBefore (n m : Int × Int × Int) : Prop :=
  m.1 < n.1 ∨ (m.1 = n.1 ∧ (m.2.1 < n.2.1 ∨ (m.2.1 = n.2.1 ∧ m.2.2 ≤ n.2.2)))

instance (n m : Int × Int × Int) : Decidable (NotBefore n m) := by unfold NotBefore; infer_instance

/-! ## Words -/

theorem words_spaces {a : List Char} (h : ∀ c ∈ a, isSpace c = true) (s : List Char) : words (a ++ s) = words s := by
  unfold words
  induction a with
  | nil => rfl
  | cons c a ih =>
    rw [List.cons_append]
    conv => lhs; unfold wordsFrom
    rw [if_pos (h c (by simp)), if_pos rfl, ih fun d hd => h d (by simp [hd])]

theorem words_word {t r : List Char} (h : ∀ c ∈ t, isSpace c = false) (hr : Ends r) (cur : List Char)
    (hne : cur ++ t ≠ []) : wordsFrom cur (t ++ r) = (cur ++ t) :: words r := by
  induction t generalizing cur with
  | nil =>
    simp only [List.append_nil] at hne
    rw [List.nil_append, List.append_nil]
    cases r with
    | nil => simp [words, wordsFrom, hne]
    | cons c r =>
      have hc : isSpace c = true := hr c (by simp)
      unfold words
      conv => lhs; unfold wordsFrom
      conv => rhs; unfold wordsFrom
      rw [if_pos hc, if_pos hc, if_neg hne, if_pos rfl]
  | cons c t ih =>
    rw [List.cons_append]
    conv => lhs; unfold wordsFrom
    rw [h c (by simp)]
    simp only [Bool.false_eq_true, if_false]
    rw [ih (fun d hd => h d (by simp [hd])) (cur ++ [c]) (by simp)]
    simp

/-- A text is white space, or white space, a word and a rest. -/
theorem split_word (s : List Char) : (∀ c ∈ s, isSpace c = true) ∨
    ∃ a w r, s = a ++ w ++ r ∧ (∀ c ∈ a, isSpace c = true) ∧ w ≠ [] ∧ (∀ c ∈ w, isSpace c = false) ∧ Ends r := by
  have word : ∀ s : List Char, ∃ w r, s = w ++ r ∧ (∀ c ∈ w, isSpace c = false) ∧ Ends r := by
    intro s
    induction s with
    | nil => exact ⟨[], [], rfl, by simp, by simp [Ends]⟩
    | cons c s ih =>
      cases hc : isSpace c with
      | true => exact ⟨[], c :: s, rfl, by simp, by simp [Ends, hc]⟩
      | false =>
        obtain ⟨w, r, rfl, h1, h2⟩ := ih
        exact ⟨c :: w, r, rfl, by simpa [hc] using h1, h2⟩
  induction s with
  | nil => exact .inl (by simp)
  | cons c s ih =>
    cases hc : isSpace c with
    | true =>
      rcases ih with ih | ⟨a, w, r, rfl, h1, h2, h3, h4⟩
      · exact .inl (by simpa [hc] using ih)
      · exact .inr ⟨c :: a, w, r, by simp, by simpa [hc] using h1, h2, h3, h4⟩
    | false =>
      obtain ⟨w, r, rfl, h1, h2⟩ := word s
      exact .inr ⟨[], c :: w, r, by simp, by simp, by simp, by simpa [hc] using h1, h2⟩

theorem words_all_space {s : List Char} (h : ∀ c ∈ s, isSpace c = true) : words s = [] := by
  have := words_spaces h []
  rw [List.append_nil] at this
  rw [this]
  rfl

theorem words_first {a w r : List Char} (h1 : ∀ c ∈ a, isSpace c = true) (h2 : w ≠ [])
    (h3 : ∀ c ∈ w, isSpace c = false) (h4 : Ends r) : words (a ++ w ++ r) = w :: words r := by
  rw [List.append_assoc, words_spaces h1]
  simpa [words] using words_word h3 h4 [] (by simpa using h2)

theorem second_spec (s v : List Char) : second s = .ok v ↔ SecondWord s v := by
  constructor
  · intro h
    rcases split_word s with hs | ⟨a, w, r, rfl, h1, h2, h3, h4⟩
    · rw [second, words_all_space hs] at h
      cases h
    · rw [second, words_first h1 h2 h3 h4] at h
      rcases split_word r with hr | ⟨a', w', r', rfl, k1, k2, k3, k4⟩
      · rw [words_all_space hr] at h
        cases h
      · rw [words_first k1 k2 k3 k4] at h
        simp only [Except.ok.injEq] at h
        subst h
        refine ⟨a, w, a', r', by simp, h1, h2, h3, ?_, k1, k2, k3, k4⟩
        rintro rfl
        cases w' with
        | nil => exact k2 rfl
        | cons c w' =>
          have := h4 c (by simp)
          rw [k3 c (by simp)] at this
          cases this
  · rintro ⟨a, w, b, r, rfl, h1, h2, h3, h4, h5, h6, h7, h8⟩
    have hb : Ends (b ++ v ++ r) := by
      cases b with
      | nil => exact absurd rfl h4
      | cons c b =>
        intro d hd
        simp at hd
        subst hd
        exact h5 _ (by simp)
    have e : a ++ w ++ b ++ v ++ r = a ++ w ++ (b ++ v ++ r) := by simp
    rw [second, e, words_first h1 h2 h3 hb, words_first h5 h6 h7 h8]

theorem second_error (s : List Char) : second s = .error .index ↔ ¬ ∃ v, SecondWord s v := by
  simp only [← second_spec]
  unfold second
  split <;> simp

/-! ## Numbers with dots -/

theorem splitOn_cases (s : List Char) : ('.' ∉ s ∧ splitOn '.' s = [s]) ∨
    ∃ t r, s = t ++ '.' :: r ∧ '.' ∉ t ∧ splitOn '.' s = t :: splitOn '.' r := by
  by_cases h : '.' ∈ s
  · obtain ⟨t, r, rfl, ht⟩ := List.eq_append_cons_of_mem h
    refine .inr ⟨t, r, rfl, ht, ?_⟩
    rw [splitOn, splitOn_append, splitOn_none _ ht]
    rfl
  · refine .inl ⟨h, ?_⟩
    rw [splitOn, splitOn_none _ h]
    rfl

theorem splitOn_three (v x y z : List Char) : splitOn '.' v = [x, y, z] ↔
    v = x ++ '.' :: y ++ '.' :: z ∧ '.' ∉ x ∧ '.' ∉ y ∧ '.' ∉ z := by
  constructor
  · intro h
    rcases splitOn_cases v with ⟨_, h1⟩ | ⟨t, r, rfl, ht, h1⟩
    · rw [h1] at h; simp at h
    · rw [h1, List.cons.injEq] at h
      obtain ⟨rfl, h⟩ := h
      rcases splitOn_cases r with ⟨_, h2⟩ | ⟨t', r', rfl, ht', h2⟩
      · rw [h2] at h; simp at h
      · rw [h2, List.cons.injEq] at h
        obtain ⟨rfl, h⟩ := h
        rcases splitOn_cases r' with ⟨h0, h3⟩ | ⟨t'', r'', rfl, ht'', h3⟩
        · rw [h3] at h
          simp at h
          subst h
          exact ⟨by simp, ht, ht', h0⟩
        · rw [h3, List.cons.injEq] at h
          exact absurd h.2 (splitOn_ne_nil _ _ _)
  · rintro ⟨rfl, hx, hy, hz⟩
    have e : x ++ '.' :: y ++ '.' :: z = x ++ '.' :: (y ++ '.' :: z) := by simp
    rw [e, splitOn, splitOn_append, splitOn_append, splitOn_none _ hx, splitOn_none _ hy, splitOn_none _ hz]
    rfl

/-! ## C129 -/

/-- **C129.** `get_version` returns three numbers if and only if `gr1c -V` succeeds and the second word that it
prints is these numbers with dots between them. -/
theorem getVersion_spec (exe : Option Exe) (n : Int × Int × Int) :
    getVersion exe = .ok n ↔
      ∃ E v, exe = some E ∧ E.versionCode = 0 ∧ SecondWord E.versionOut v ∧ VersionText v n := by
  cases exe with
  | none =>
    constructor
    · intro h; cases h
    · rintro ⟨E, v, h, _⟩; cases h
  | some E =>
    by_cases hc : E.versionCode = 0
    · cases hs : second E.versionOut with
      | error e =>
        have e1 : getVersion (some E) = .error e := by
          simp [getVersion, versionText, hc, hs, bind, Except.bind]
        rw [e1]
        constructor
        · intro h; cases h
        · rintro ⟨E', v, h, _, h2, _⟩
          cases h
          rw [← second_spec, hs] at h2
          cases h2
      | ok v =>
        have hv := (second_spec _ _).1 hs
        have e1 : getVersion (some E) = readVersion v := by
          simp only [getVersion, versionText, hc, hs, if_true, bind, Except.bind]
        rw [e1, readVersion]
        constructor
        · intro h
          split at h
          · rename_i x y z he
            obtain ⟨k1, k2, k3, k4⟩ := (splitOn_three _ _ _ _).1 he
            split at h
            · rename_i a b c h1 h2 h3
              cases h
              exact ⟨E, v, rfl, hc, hv, x, y, z, k1, k2, k3, k4, h1, h2, h3⟩
            · cases h
          · cases h
        · rintro ⟨E', v', h, _, h2, x, y, z, k1, k2, k3, k4, h3, h4, h5⟩
          cases h
          rw [← second_spec, hs] at h2
          cases h2
          rw [(splitOn_three _ _ _ _).2 ⟨k1, k2, k3, k4⟩]
          simp only [h3, h4, h5]
    · have e1 : getVersion (some E) = .error .called := by
        simp [getVersion, versionText, hc, bind, Except.bind]
      rw [e1]
      constructor
      · intro h; cases h
      · rintro ⟨E', v, h, h2, _⟩
        cases h
        exact absurd h2 hc

/-- **C129.** The exceptions of `get_version`: there is no executable; the call fails; there is no second word; it is
not a version. -/
theorem getVersion_raises (exe : Option Exe) :
    (exe = none → getVersion exe = .error .os) ∧
    ∀ E, exe = some E →
      (E.versionCode ≠ 0 → getVersion exe = .error .called) ∧
      (E.versionCode = 0 → (¬ ∃ v, SecondWord E.versionOut v) → getVersion exe = .error .index) ∧
      (E.versionCode = 0 → ∀ v, SecondWord E.versionOut v → (¬ ∃ n, VersionText v n) →
        getVersion exe = .error .value) := by
  refine ⟨by rintro rfl; rfl, ?_⟩
  rintro E rfl
  refine ⟨fun hc => ?_, fun hc hs => ?_, fun hc v hv hn => ?_⟩
  · simp [getVersion, versionText, hc, bind, Except.bind]
  · simp [getVersion, versionText, hc, (second_error _).2 hs, bind, Except.bind]
  · cases h : getVersion (some E) with
    | ok n =>
      obtain ⟨E', v', h1, _, h2, h3⟩ := (getVersion_spec _ _).1 h
      cases h1
      rw [← second_spec] at hv h2
      rw [hv] at h2
      cases h2
      exact absurd ⟨n, h3⟩ hn
    | error e =>
      rw [← second_spec] at hv
      simp only [getVersion, versionText, hc, hv, if_true, bind, Except.bind, readVersion] at h
      split at h
      · split at h <;> cases h
        rfl
      · cases h
        rfl

theorem digitsOf_noDot (n : Nat) : '.' ∉ digitsOf n := by
  intro h
  have := digitsOf_all n _ h
  revert this
  decide

/-- **C129.** If `gr1c -V` prints its name and the version `a.b.c`, with further lines or not, then `get_version`
returns `(a, b, c)`. -/
theorem getVersion_printed (E : Exe) (a b c : Nat) (name rest : List Char) (hn : name ≠ [])
    (hs : ∀ x ∈ name, isSpace x = false) (hr : Ends rest) (h0 : E.versionCode = 0)
    (h : E.versionOut = name ++ ' ' :: (digitsOf a ++ '.' :: digitsOf b ++ '.' :: digitsOf c) ++ rest) :
    getVersion (some E) = .ok (a, b, c) := by
  rw [getVersion_spec]
  refine ⟨E, digitsOf a ++ '.' :: digitsOf b ++ '.' :: digitsOf c, rfl, h0, ?_, ?_⟩
  · refine ⟨[], name, [' '], rest, by simp [h], by simp, hn, hs, by simp, ?_, by simp, ?_, hr⟩
    · intro x hx
      simp at hx
      subst hx
      decide
    · intro x hx
      simp only [List.mem_append, List.mem_cons] at hx
      rcases hx with (hx | rfl | hx) | rfl | hx
      · exact dig_notSpace (digitsOf_all _ _ hx)
      · decide
      · exact dig_notSpace (digitsOf_all _ _ hx)
      · decide
      · exact dig_notSpace (digitsOf_all _ _ hx)
  · exact ⟨_, _, _, rfl, digitsOf_noDot a, digitsOf_noDot b, digitsOf_noDot c, pyInt_digits a, pyInt_digits b,
      pyInt_digits c⟩

/-- What `packaging` says about versions with three numbers. -/
def Compares (geq : List Char → Option Bool) : Prop :=
  ∀ a b c : Nat, geq (digitsOf a ++ '.' :: digitsOf b ++ '.' :: digitsOf c) =
    some (decide (NotBefore ((a : Int), (b : Int), (c : Int)) (0, 9, 0)))

/-- **C129.** For an executable that prints the version `a.b.c`, `check_gr1c` tells whether this is version `0.9.0` or
a later one; without an executable it returns `False`. -/
theorem checkGr1c_spec {geq : List Char → Option Bool} (hg : Compares geq) :
    checkGr1c geq none = .ok false ∧
    ∀ (E : Exe) (a b c : Nat), E.versionCode = 0 →
      SecondWord E.versionOut (digitsOf a ++ '.' :: digitsOf b ++ '.' :: digitsOf c) →
      checkGr1c geq (some E) = .ok (decide (0 < a ∨ 9 ≤ b)) := by
  refine ⟨rfl, fun E a b c h0 h => ?_⟩
  have h := (second_spec _ _).2 h
  have e1 : checkGr1c geq (some E) = .ok (decide (NotBefore ((a : Int), (b : Int), (c : Int)) (0, 9, 0))) := by
    simp only [checkGr1c, versionText, h0, if_true, h, hg a b c, bind, Except.bind]
  rw [e1]
  congr 1
  apply decide_eq_decide.2
  unfold NotBefore
  simp only
  omega

/-- **C129.** `check_gr1c` raises exceptions for an executable that fails, or that prints something else. -/
theorem checkGr1c_raises (geq : List Char → Option Bool) (E : Exe) :
    (E.versionCode ≠ 0 → checkGr1c geq (some E) = .error .called) ∧
    (E.versionCode = 0 → (¬ ∃ v, SecondWord E.versionOut v) → checkGr1c geq (some E) = .error .index) ∧
    (E.versionCode = 0 → ∀ v, SecondWord E.versionOut v → geq v = none →
      checkGr1c geq (some E) = .error .invalid) := by
  refine ⟨fun hc => ?_, fun hc hs => ?_, fun hc v hv hn => ?_⟩
  · simp [checkGr1c, versionText, hc]
  · simp [checkGr1c, versionText, hc, (second_error _).2 hs, bind, Except.bind]
  · simp [checkGr1c, versionText, hc, (second_spec _ _).2 hv, hn, bind, Except.bind]

/-- **C129.** With an executable of version `a.b.c`, `check_syntax` tells whether the call with the text returns `0`
if the version is not before `0.9.0`, and raises an exception otherwise; it raises an exception without an
executable. -/
theorem checkSyntax_spec {geq : List Char → Option Bool} (hg : Compares geq) (spec : List Char) :
    checkSyntax geq none spec = .error .exception ∧
    ∀ (E : Exe) (a b c : Nat), E.versionCode = 0 →
      SecondWord E.versionOut (digitsOf a ++ '.' :: digitsOf b ++ '.' :: digitsOf c) →
      ((0 < a ∨ 9 ≤ b) → checkSyntax geq (some E) spec = .ok (decide (E.syntaxCode spec = 0))) ∧
      (¬ (0 < a ∨ 9 ≤ b) → checkSyntax geq (some E) spec = .error .exception) := by
  refine ⟨rfl, fun E a b c h0 h => ⟨fun hv => ?_, fun hv => ?_⟩⟩
  · have := (checkGr1c_spec hg).2 E a b c h0 h
    rw [decide_eq_true hv] at this
    simp only [checkSyntax, assertGr1c, this, bind, Except.bind, if_true]
    rfl
  · have := (checkGr1c_spec hg).2 E a b c h0 h
    rw [decide_eq_false hv] at this
    simp only [checkSyntax, assertGr1c, this, bind, Except.bind]
    rfl

/-! ## Examples -/

/-- An executable that prints two lines. -/
def sample : Exe := ⟨0, c!"gr1c 0.13.0\n" ++ c!"more", fun s => if s = [] then 1 else 0⟩

example : (getVersion (some sample)).toOption = some (0, 13, 0) := by decide +kernel

example : getVersion (some sample) = .ok (0, 13, 0) :=
  getVersion_printed sample 0 13 0 c!"gr1c" (c!"\n" ++ c!"more") (by decide) (by decide) (by simp [Ends]; decide) rfl
    (by decide +kernel)

/-- `packaging` compares the numbers. -/
def compareAll (v : List Char) : Option Bool :=
  match splitOn '.' v with
  | [x, y, z] => match pyInt x, pyInt y, pyInt z with
    | some a, some b, some c => some (decide (NotBefore (a, b, c) (0, 9, 0)))
    | _, _, _ => none
  | _ => none

theorem compareAll_ok : Compares compareAll := by
  intro a b c
  rw [compareAll, (splitOn_three _ _ _ _).2 ⟨rfl, digitsOf_noDot a, digitsOf_noDot b, digitsOf_noDot c⟩]
  simp only [pyInt_digits]

example : (checkSyntax compareAll (some sample) c!"x").toOption = some true := by decide +kernel
example : (checkSyntax compareAll (some sample) []).toOption = some false := by decide +kernel
example : (getVersion (some ⟨0, c!"gr1c 0.13", fun _ => 0⟩)).toOption = none := by decide +kernel

end Gr1cV
end Tulip
