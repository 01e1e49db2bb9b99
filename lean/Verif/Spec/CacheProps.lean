import Verif.Spec.Cache
import Verif.Spec.TransformProps
import Verif.Spec.TranslateProps
import Verif.Spec.Reparse

/-!
# The caches of a specification are invisible (C84)
-/

namespace Tulip
namespace Cache

/-! ## Specification -/

/-- The text that a specification `g` without caches gives for its clause `x`: parse the clause, check
that its variables are declared, replace the string constants, print. -/
def IntText (g : GRSpec) (x f : List Char) : Prop :=
  ∃ a b, Tulip.parse x = some a ∧ checkIdents (allVars g).keys none a = .ok () ∧
    subConstants (strVars g) none a = .ok b ∧ flatten b = some f

/-- The variables of `g` are declared in `g'` too, and string-valued variables have the same values, in
the same order. Clauses and options may differ in any way. -/
def Extends (g g' : GRSpec) : Prop :=
  (∀ x ∈ (allVars g).keys, x ∈ (allVars g').keys) ∧
    ∀ v l, (strVars g).get? v = some l → (strVars g').get? v = some l

/-- Along the history, no variable is removed and no string-valued variable gets other values. -/
def KeepsVars (order : List Part) : Obj → List Op → Prop
  | _, [] => True
  | st, op :: ops =>
    (∀ g, op = .edit g → Extends st.spec g) ∧ KeepsVars order (step order st op) ops

/-! ## Printing what was parsed -/

/-- Variables are identifiers, whatever the spelling of the operators. -/
def Named : Ast → Prop
  | .var x => IsIdent x ∧ ¬ IsReserved x
  | .bool _ | .num _ | .str _ => True
  | .un _ x => Named x
  | .bin _ x y | .cmp _ x y | .ar _ x y => Named x ∧ Named y
  | .trunc x n => Named x ∧ 0 ≤ n
  | .ite c x y => Named c ∧ Named x ∧ Named y

def NamedTok : Tok → Prop
  | .name w => IsIdent (String.ofList w) ∧ ¬ IsReserved (String.ofList w)
  | _ => True

theorem lexStep_named {c : Char} {r : List Char} : ∀ t, (lexStep c r).1 = some t → NamedTok t := by
  fun_cases lexStep c r
  all_goals intro t ht
  all_goals first
    | (cases ht; done)
    | (cases ht; simp [NamedTok]; done)
    | skip
  · cases ht
    have key : ∀ w, IsWord w → NamedTok (nameTok w) := fun w hw => by
      have := plain_nameTok hw
      revert this
      cases nameTok w <;> simp [PlainTok, NamedTok]
    exact key _ ⟨_, _, rfl, by assumption, takeWhile_all _ _⟩

theorem lex_named (s : List Char) : ∀ t ∈ lex s, NamedTok t := by
  generalize hn : s.length = n
  induction n using Nat.strongRecOn generalizing s with
  | _ n ih =>
    cases s with
    | nil => intro t ht; simp [lex] at ht
    | cons d s =>
      rw [lex_cons]
      have hlen := lexStep_length d s
      simp only [List.length_cons] at hn
      have hrec := ih (lexStep d s).2.length (by omega) (lexStep d s).2 rfl
      have hhead := lexStep_named (c := d) (r := s)
      cases e : (lexStep d s).1 with
      | none => simpa [e] using hrec
      | some t =>
        intro u hu
        simp only [List.mem_cons, Option.toList_some, List.cons_append, List.nil_append] at hu
        rcases hu with rfl | hu
        · exact hhead _ e
        · exact hrec u hu

theorem Derives.named {ts : List Tok} {t : Ast} (h : Derives ts t) :
    (∀ k ∈ ts, NamedTok k) → Named t := by
  induction h with
  | tf b => exact fun _ => trivial
  | un op _ ih => exact fun hk => ih (fun k h => hk k (List.mem_cons_of_mem _ h))
  | prime _ ih => exact fun hk => ih (fun k h => hk k (by simp [h]))
  | bin op _ _ ih1 ih2 =>
    exact fun hk => ⟨ih1 (fun k h => hk k (by simp [h])), ih2 (fun k h => hk k (by simp [h]))⟩
  | ite _ _ _ ih1 ih2 ih3 =>
    exact fun hk => ⟨ih1 (fun k h => hk k (by simp [h])), ih2 (fun k h => hk k (by simp [h])),
      ih3 (fun k h => hk k (by simp [h]))⟩
  | cmp op _ _ ih1 ih2 =>
    exact fun hk => ⟨ih1 (fun k h => hk k (by simp [h])), ih2 (fun k h => hk k (by simp [h]))⟩
  | trunc n _ ih => exact fun hk => ⟨ih (fun k h => hk k (by simp [h])), Int.natCast_nonneg n⟩
  | ar op _ _ ih1 ih2 =>
    exact fun hk => ⟨ih1 (fun k h => hk k (by simp [h])), ih2 (fun k h => hk k (by simp [h]))⟩
  | paren _ ih => exact fun hk => ih (fun k h => hk k (by simp [h]))
  | var w => exact fun hk => hk _ (List.mem_cons_self ..)
  | number n => exact fun _ => trivial
  | negative n => exact fun _ => trivial
  | str w => exact fun _ => trivial

theorem named_of_parse {s : List Char} {t : Ast} (h : Tulip.parse s = some t) : Named t :=
  Derives.named (parse_sound h) (lex_named s)

theorem sub_named {D : Dict String (List String)} {ctx : Above} {a b : Ast} (h : Named a)
    (hs : subConstants D ctx a = .ok b) : Named b ∧ NoStrConst b := by
  induction a generalizing ctx b with
  | var x => cases hs; exact ⟨h, trivial⟩
  | bool | num => cases hs; exact ⟨trivial, trivial⟩
  | str s =>
    simp only [subConstants, bind_ok_iff] at hs
    obtain ⟨v, _, hs⟩ := hs
    split at hs
    · cases hs
    · split at hs
      · cases hs; exact ⟨trivial, trivial⟩
      · cases hs
  | un op a ih =>
    simp only [subConstants, bind_ok_iff, pure_eq_ok, Except.ok.injEq] at hs
    obtain ⟨a', h1, rfl⟩ := hs
    exact ⟨(ih h h1).1, (ih h h1).2⟩
  | bin op a b iha ihb | cmp op a b iha ihb | ar op a b iha ihb =>
    simp only [subConstants, bind_ok_iff, pure_eq_ok, Except.ok.injEq] at hs
    obtain ⟨a', h1, b', h2, rfl⟩ := hs
    have h1 := iha h.1 h1
    have h2 := ihb h.2 h2
    exact ⟨⟨h1.1, h2.1⟩, h1.2, h2.2⟩
  | trunc a n ih =>
    simp only [subConstants, bind_ok_iff, pure_eq_ok, Except.ok.injEq] at hs
    obtain ⟨a', h1, rfl⟩ := hs
    have h1 := ih h.1 h1
    exact ⟨⟨h1.1, h.2⟩, h1.2⟩
  | ite c a b ihc iha ihb =>
    simp only [subConstants, bind_ok_iff, pure_eq_ok, Except.ok.injEq] at hs
    obtain ⟨c', h0, a', h1, b', h2, rfl⟩ := hs
    have h0 := ihc h.1 h0
    have h1 := iha h.2.1 h1
    have h2 := ihb h.2.2 h2
    exact ⟨⟨h0.1, h1.1, h2.1⟩, h0.2, h1.2, h2.2⟩

theorem printable_of_named {b : Ast} {f : List Char} (h : Named b) (hn : NoStrConst b)
    (hf : flatten b = some f) : Printable b := by
  induction b generalizing f with
  | var x => exact h
  | bool | num => trivial
  | str => exact hn.elim
  | un op a ih =>
    simp only [flatten, Option.bind_eq_bind, Option.bind_eq_some_iff] at hf
    obtain ⟨o, ho, s, hs, _⟩ := hf
    exact ⟨by rintro rfl; simp [unText] at ho, ih h hn hs⟩
  | bin op a b iha ihb =>
    simp only [flatten, Option.bind_eq_bind, Option.bind_eq_some_iff] at hf
    obtain ⟨o, ho, s, hs, u, hu, _⟩ := hf
    exact ⟨by rintro rfl; simp [binText] at ho, by rintro rfl; simp [binText] at ho,
      iha h.1 hn.1 hs, ihb h.2 hn.2 hu⟩
  | cmp op a b iha ihb =>
    simp only [flatten, Option.bind_eq_bind, Option.bind_eq_some_iff] at hf
    obtain ⟨o, ho, s, hs, u, hu, _⟩ := hf
    exact ⟨by rintro rfl; simp [cmpText] at ho, by rintro rfl; simp [cmpText] at ho,
      iha h.1 hn.1 hs, ihb h.2 hn.2 hu⟩
  | ar op a b iha ihb =>
    simp only [flatten, Option.bind_eq_bind, Option.bind_eq_some_iff] at hf
    obtain ⟨o, ho, s, hs, u, hu, _⟩ := hf
    exact ⟨iha h.1 hn.1 hs, ihb h.2 hn.2 hu⟩
  | trunc a n ih =>
    simp only [flatten, Option.bind_eq_bind, Option.bind_eq_some_iff] at hf
    obtain ⟨s, hs, _⟩ := hf
    exact ⟨ih h.1 hn hs, h.2⟩
  | ite c a b ihc iha ihb =>
    simp only [flatten, Option.bind_eq_bind, Option.bind_eq_some_iff] at hf
    obtain ⟨o, ho, s, hs, u, hu, _⟩ := hf
    exact ⟨ihc h.1 hn.1 ho, iha h.2.1 hn.2.1 hs, ihb h.2.2 hn.2.2 hu⟩

/-- The printed text of a clause without its string constants has the tree that was printed. -/
theorem parse_intText {x : List Char} {D : Dict String (List String)} {a b : Ast} {f : List Char}
    (ha : Tulip.parse x = some a) (hb : subConstants D none a = .ok b) (hf : flatten b = some f) :
    Tulip.parse f = some b := by
  obtain ⟨h1, h2⟩ := sub_named (named_of_parse ha) hb
  have := parse_flatten b (printable_of_named h1 h2 hf)
  rw [hf] at this
  simpa using this

theorem pairVar_ok {c : Above} (h : c.isSome) : ∃ v, pairVar c = .ok v := by
  cases c with
  | none => cases h
  | some c => obtain ⟨p, q, s⟩ := c; exact ⟨_, rfl⟩

theorem checkIdents_sub {doms doms' : List String} (hd : ∀ x ∈ doms, x ∈ doms')
    {D : Dict String (List String)} {ctx c1 c2 : Above} {a b : Ast}
    (hs : subConstants D ctx a = .ok b) (h : checkIdents doms c1 a = .ok ())
    (hc : c1.isSome → c2.isSome) : checkIdents doms' c2 b = .ok () := by
  have const : ∀ {c1 c2 : Above}, (c1.isSome → c2.isSome) →
      (do let _ ← pairVar c1 : Except PyErr Unit) = .ok () →
      (do let _ ← pairVar c2 : Except PyErr Unit) = .ok () := by
    intro c1 c2 hc h
    cases c1 with
    | none => cases h
    | some c =>
      obtain ⟨v, hv⟩ := pairVar_ok (hc rfl)
      rw [hv]; rfl
  induction a generalizing ctx c1 c2 b with
  | var x =>
    cases hs
    simp only [checkIdents] at h ⊢
    split at h
    · rename_i hx; rw [if_pos (hd x hx)]
    · cases h
  | bool => cases hs; rfl
  | num => cases hs; exact const hc h
  | str s =>
    simp only [subConstants, bind_ok_iff] at hs
    obtain ⟨v, _, hs⟩ := hs
    split at hs
    · cases hs
    · split at hs
      · cases hs; exact const hc h
      · cases hs
  | un op a ih =>
    simp only [subConstants, bind_ok_iff, pure_eq_ok, Except.ok.injEq] at hs
    obtain ⟨a', h1, rfl⟩ := hs
    simp only [checkIdents] at h ⊢
    exact ih h1 h hc
  | bin op a b iha ihb | cmp op a b iha ihb | ar op a b iha ihb =>
    simp only [subConstants, bind_ok_iff, pure_eq_ok, Except.ok.injEq] at hs
    obtain ⟨a', h1, b', h2, rfl⟩ := hs
    simp only [checkIdents, bind_ok_iff] at h ⊢
    obtain ⟨_, h3, h4⟩ := h
    exact ⟨(), iha h1 h3 (fun _ => rfl), ihb h2 h4 (fun _ => rfl)⟩
  | trunc a n ih =>
    simp only [subConstants, bind_ok_iff, pure_eq_ok, Except.ok.injEq] at hs
    obtain ⟨a', h1, rfl⟩ := hs
    simp only [checkIdents, bind_ok_iff] at h ⊢
    obtain ⟨_, h3, _⟩ := h
    exact ⟨(), ih h1 h3 (fun _ => rfl), _, rfl, rfl⟩
  | ite c a b ihc iha ihb =>
    simp only [subConstants, bind_ok_iff, pure_eq_ok, Except.ok.injEq] at hs
    obtain ⟨c', h0, a', h1, b', h2, rfl⟩ := hs
    simp only [checkIdents, bind_ok_iff] at h ⊢
    obtain ⟨_, h3, _, h4, h5⟩ := h
    exact ⟨(), ihc h0 h3 hc, (), iha h1 h4 hc, ihb h2 h5 hc⟩

theorem checkIdents_mono {doms doms' : List String} (hd : ∀ x ∈ doms, x ∈ doms') {c : Above} {a : Ast}
    (h : checkIdents doms c a = .ok ()) : checkIdents doms' c a = .ok () := by
  induction a generalizing c with
  | var x =>
    simp only [checkIdents] at h ⊢
    split at h
    · rename_i hx; rw [if_pos (hd x hx)]
    · cases h
  | bool | num | str => exact h
  | un op a ih => exact ih h
  | bin op a b iha ihb | cmp op a b iha ihb | ar op a b iha ihb =>
    simp only [checkIdents, bind_ok_iff] at h ⊢
    obtain ⟨_, h3, h4⟩ := h
    exact ⟨(), iha h3, ihb h4⟩
  | trunc a n ih =>
    simp only [checkIdents, bind_ok_iff] at h ⊢
    obtain ⟨_, h3, h4⟩ := h
    exact ⟨(), ih h3, h4⟩
  | ite c a b ihc iha ihb =>
    simp only [checkIdents, bind_ok_iff] at h ⊢
    obtain ⟨_, h3, _, h4, h5⟩ := h
    exact ⟨(), ihc h3, (), iha h4, ihb h5⟩

theorem sub_mono {D D' : Dict String (List String)} (hD : ∀ v l, D.get? v = some l → D'.get? v = some l)
    {ctx : Above} {a b : Ast} (h : subConstants D ctx a = .ok b) : subConstants D' ctx a = .ok b := by
  induction a generalizing ctx b with
  | var | bool | num => exact h
  | str s =>
    simp only [subConstants, bind_ok_iff] at h ⊢
    obtain ⟨v, h1, h⟩ := h
    refine ⟨v, h1, ?_⟩
    split at h
    · cases h
    · rename_i l hl
      rw [hD _ _ hl]; exact h
  | un op a ih =>
    simp only [subConstants, bind_ok_iff, pure_eq_ok, Except.ok.injEq] at h ⊢
    obtain ⟨a', h1, rfl⟩ := h
    exact ⟨a', ih h1, rfl⟩
  | bin op a b iha ihb | cmp op a b iha ihb | ar op a b iha ihb =>
    simp only [subConstants, bind_ok_iff, pure_eq_ok, Except.ok.injEq] at h ⊢
    obtain ⟨a', h1, b', h2, rfl⟩ := h
    exact ⟨a', iha h1, b', ihb h2, rfl⟩
  | trunc a n ih =>
    simp only [subConstants, bind_ok_iff, pure_eq_ok, Except.ok.injEq] at h ⊢
    obtain ⟨a', h1, rfl⟩ := h
    exact ⟨a', ih h1, rfl⟩
  | ite c a b ihc iha ihb =>
    simp only [subConstants, bind_ok_iff, pure_eq_ok, Except.ok.injEq] at h ⊢
    obtain ⟨c', h0, a', h1, b', h2, rfl⟩ := h
    exact ⟨c', ihc h0, a', iha h1, b', ihb h2, rfl⟩

/-! ## The invariant -/

/-- The caches hold what a specification without caches would compute. -/
structure Good (st : Obj) : Prop where
  tree : ∀ x a, st.ast.get? x = some a →
    Tulip.parse x = some a ∧ checkIdents (allVars st.spec).keys none a = .ok ()
  text : ∀ x f, st.boolInt.get? x = some f → IntText st.spec x f

theorem IntText.det {g : GRSpec} {x f f' : List Char} (h : IntText g x f) (h' : IntText g x f') : f = f' := by
  obtain ⟨a, b, h1, _, h2, h3⟩ := h
  obtain ⟨a', b', h1', _, h2', h3'⟩ := h'
  rw [h1] at h1'; cases h1'
  rw [h2] at h2'; cases h2'
  rw [h3] at h3'; exact Option.some.inj h3'

theorem IntText.mono {g g' : GRSpec} (hg : Extends g g') {x f : List Char} (h : IntText g x f) :
    IntText g' x f := by
  obtain ⟨a, b, h1, h2, h3, h4⟩ := h
  exact ⟨a, b, h1, checkIdents_mono hg.1 h2, sub_mono hg.2 h3, h4⟩

theorem good_new (g : GRSpec) : Good (new g) := ⟨by simp [new], by simp [new]⟩

theorem good_edit {st : Obj} (h : Good st) {g : GRSpec} (hg : Extends st.spec g) :
    Good { st with spec := g } :=
  ⟨fun x a hx => ⟨(h.tree x a hx).1, checkIdents_mono hg.1 (h.tree x a hx).2⟩,
    fun x f hx => (h.text x f hx).mono hg⟩

theorem parseOne_spec {st : Obj} (h : Good st) (x : List Char) {st' : Obj} {r : Except PyErr Unit}
    (e : parseOne st x = (st', r)) :
    Good st' ∧ st'.spec = st.spec ∧ st'.boolInt = st.boolInt ∧
      (∀ y a, st.ast.get? y = some a → st'.ast.get? y = some a) ∧
      (r = .ok () ↔ ∃ a, Tulip.parse x = some a ∧ checkIdents (allVars st.spec).keys none a = .ok ()) ∧
      (r = .ok () → st'.ast.has x = true) := by
  unfold parseOne at e
  split at e
  · rename_i hx
    cases e
    obtain ⟨a, ha⟩ := (Dict.has_iff _ _).1 hx
    exact ⟨h, rfl, rfl, fun y a hy => hy, ⟨fun _ => ⟨a, h.tree x a ha⟩, fun _ => rfl⟩, fun _ => hx⟩
  · rename_i hx
    split at e
    · rename_i hp
      cases e
      exact ⟨h, rfl, rfl, fun y a hy => hy, by simp [hp], by simp⟩
    · rename_i t hp
      split at e
      · rename_i er hc
        cases e
        exact ⟨h, rfl, rfl, fun y a hy => hy, by simp [hp, hc], by simp⟩
      · rename_i hc
        cases e
        refine ⟨⟨fun y a hy => ?_, h.text⟩, rfl, rfl, fun y a hy => ?_, by simp [hp, hc], fun _ => ?_⟩
        · simp only [Dict.get?_set] at hy
          split at hy
          · rename_i e; subst e; cases hy; exact ⟨hp, hc⟩
          · exact h.tree y a hy
        · simp only [Dict.get?_set]
          split
          · rename_i e; subst e
            exact absurd ((Dict.has_iff _ _).2 ⟨a, hy⟩) hx
          · exact hy
        · exact (Dict.has_iff _ _).2 ⟨t, by simp [Dict.get?_set]⟩

theorem parseLoop_spec {st : Obj} (h : Good st) (xs : List (List Char)) {st' : Obj}
    {r : Except PyErr Unit} (e : parseLoop st xs = (st', r)) :
    Good st' ∧ st'.spec = st.spec ∧ st'.boolInt = st.boolInt ∧
      (∀ y a, st.ast.get? y = some a → st'.ast.get? y = some a) ∧
      (r = .ok () ↔ ∀ x ∈ xs, ∃ a, Tulip.parse x = some a ∧
        checkIdents (allVars st.spec).keys none a = .ok ()) ∧
      (r = .ok () → ∀ x ∈ xs, st'.ast.has x = true) := by
  induction xs generalizing st with
  | nil => cases e; exact ⟨h, rfl, rfl, fun y a hy => hy, by simp, by simp⟩
  | cons x xs ih =>
    unfold parseLoop at e
    split at e
    · rename_i st1 er e1
      obtain ⟨h1, h2, h3, h4, h5, h6⟩ := parseOne_spec h x e1
      cases e
      refine ⟨h1, h2, h3, h4, ⟨by simp, fun hx => ?_⟩, by simp⟩
      exact absurd (h5.2 (hx x (by simp))) (by simp)
    · rename_i st1 e1
      obtain ⟨h1, h2, h3, h4, h5, h6⟩ := parseOne_spec h x e1
      obtain ⟨k1, k2, k3, k4, k5, k6⟩ := ih h1 e
      refine ⟨k1, k2.trans h2, k3.trans h3, fun y a hy => k4 y a (h4 y a hy), ?_, fun hr y hy => ?_⟩
      · rw [k5, h2]
        constructor
        · intro hx y hy
          rcases List.mem_cons.1 hy with rfl | hy
          · exact h5.1 rfl
          · exact hx y hy
        · exact fun hx y hy => hx y (by simp [hy])
      · rcases List.mem_cons.1 hy with rfl | hy
        · obtain ⟨a, ha⟩ := (Dict.has_iff _ _).1 (h6 rfl)
          exact (Dict.has_iff _ _).2 ⟨a, k4 _ a ha⟩
        · exact k6 hr y hy

theorem get?_filter {κ α : Type} [DecidableEq κ] (d : Dict κ α) (keep : κ → Bool) (k : κ) :
    Dict.get? (d.filter fun p => keep p.1) k = if keep k then Dict.get? d k else none := by
  induction d with
  | nil => simp
  | cons p d ih =>
    by_cases hp : keep p.1 = true
    · rw [List.filter_cons_of_pos (by exact hp), Dict.get?_cons, Dict.get?_cons, ih]
      by_cases hk : p.1 = k
      · subst hk; simp [hp]
      · simp [hk]
    · rw [List.filter_cons_of_neg (by exact hp), Dict.get?_cons, ih]
      by_cases hk : p.1 = k
      · subst hk; simp [hp]
      · simp [hk]

theorem collect_spec {order : List Part} {st : Obj} (h : Good st) :
    Good (collect order st) ∧ (collect order st).spec = st.spec ∧
      (collect order st).boolInt = st.boolInt ∧
      (∀ x ∈ clauses order st.spec, (collect order st).ast.get? x = st.ast.get? x) ∧
      (∀ x ∈ clauses order st.spec, ∀ f, st.boolInt.get? x = some f →
        (collect order st).ast.get? f = st.ast.get? f) := by
  refine ⟨⟨fun x a hx => ?_, h.text⟩, rfl, rfl, fun x hx => ?_, fun x hx f hf => ?_⟩
  · have hx : Dict.get? (st.ast.filter fun p => decide (p.1 ∈ _)) x = some a := hx
    rw [get?_filter (keep := fun k => decide (k ∈ _))] at hx
    split at hx
    · exact h.tree x a hx
    · cases hx
  · show Dict.get? (st.ast.filter fun p => decide (p.1 ∈ _)) x = _
    rw [get?_filter (keep := fun k => decide (k ∈ _)), if_pos (by simp [hx])]
  · show Dict.get? (st.ast.filter fun p => decide (p.1 ∈ _)) f = _
    rw [get?_filter (keep := fun k => decide (k ∈ _)), if_pos]
    simp only [decide_eq_true_eq, List.mem_append, List.mem_filterMap]
    exact Or.inr ⟨x, hx, hf⟩

/-- What is needed of the clauses for `parse` to succeed. -/
def Acceptable (order : List Part) (g : GRSpec) : Prop :=
  ∀ x ∈ clauses order g, ∃ a, Tulip.parse x = some a ∧ checkIdents (allVars g).keys none a = .ok ()

theorem parse_spec {order : List Part} {st : Obj} (h : Good st) {st' : Obj} {r : Except PyErr Unit}
    (e : parse order st = (st', r)) :
    Good st' ∧ st'.spec = st.spec ∧ st'.boolInt = st.boolInt ∧
      (∀ x ∈ clauses order st.spec, ∀ f, st.boolInt.get? x = some f → st.ast.has f = true →
        st'.ast.has f = true) ∧
      (r = .ok () ↔ Acceptable order st.spec) ∧
      (r = .ok () → ∀ x ∈ clauses order st.spec, st'.ast.has x = true) := by
  unfold parse at e
  split at e
  · rename_i st1 er e1
    obtain ⟨h1, h2, h3, h4, h5, h6⟩ := parseLoop_spec h _ e1
    cases e
    refine ⟨h1, h2, h3, fun x _ f _ hf => ?_, h5, by simp⟩
    obtain ⟨a, ha⟩ := (Dict.has_iff _ _).1 hf
    exact (Dict.has_iff _ _).2 ⟨a, h4 f a ha⟩
  · rename_i st1 e1
    obtain ⟨h1, h2, h3, h4, h5, h6⟩ := parseLoop_spec h _ e1
    obtain ⟨k1, k2, k3, k4, k5⟩ := collect_spec (order := order) h1
    cases e
    refine ⟨k1, k2.trans h2, k3.trans h3, fun x hx f hxf hf => ?_, h5, fun _ x hx => ?_⟩
    · obtain ⟨a, ha⟩ := (Dict.has_iff _ _).1 hf
      refine (Dict.has_iff _ _).2 ⟨a, ?_⟩
      rw [k5 x (by rw [h2]; exact hx) f (by rw [h3]; exact hxf)]
      exact h4 f a ha
    · obtain ⟨a, ha⟩ := (Dict.has_iff _ _).1 (h6 rfl x hx)
      refine (Dict.has_iff _ _).2 ⟨a, ?_⟩
      rw [k4 x (by rw [h2]; exact hx)]
      exact ha

theorem astOf_spec {order : List Part} {st : Obj} (h : Good st) {x : List Char} {st' : Obj}
    {r : Except PyErr Ast} (e : astOf order st x = (st', r)) :
    Good st' ∧ st'.spec = st.spec ∧ st'.boolInt = st.boolInt ∧
      (∀ y ∈ clauses order st.spec, ∀ f, st.boolInt.get? y = some f → st.ast.has f = true →
        st'.ast.has f = true) ∧
      (∀ a, r = .ok a → Tulip.parse x = some a ∧
        checkIdents (allVars st.spec).keys none a = .ok ()) ∧
      (Acceptable order st.spec → x ∈ clauses order st.spec → ∃ a, r = .ok a) := by
  have hr : ∃ r1 st1, (if st.ast.has x then (st, .ok ()) else parse order st) = (st1, r1) ∧
      Good st1 ∧ st1.spec = st.spec ∧ st1.boolInt = st.boolInt ∧
      (∀ y ∈ clauses order st.spec, ∀ f, st.boolInt.get? y = some f → st.ast.has f = true →
        st1.ast.has f = true) ∧
      (Acceptable order st.spec → r1 = .ok ()) ∧
      (r1 = .ok () → x ∈ clauses order st.spec → st1.ast.has x = true) := by
    by_cases hx : st.ast.has x = true
    · exact ⟨.ok (), st, by simp [hx], h, rfl, rfl, fun _ _ _ _ hf => hf, fun _ => rfl, fun _ _ => hx⟩
    · obtain ⟨h1, h2, h3, h4, h5, h6⟩ := parse_spec (order := order) h (st' := (parse order st).1)
        (r := (parse order st).2) rfl
      exact ⟨_, _, by rw [if_neg hx], h1, h2, h3, h4, h5.2, fun k hm => h6 k x hm⟩
  obtain ⟨r1, st1, e1, h1, h2, h3, h4, h5, h6⟩ := hr
  unfold astOf at e
  simp only [e1] at e
  cases r1 with
  | error er =>
    cases e
    exact ⟨h1, h2, h3, h4, by simp, fun ha => absurd (h5 ha) (by simp)⟩
  | ok u =>
    simp only at e
    split at e
    · rename_i a ha
      cases e
      refine ⟨h1, h2, h3, h4, ?_, fun _ _ => ⟨a, rfl⟩⟩
      rintro _ ⟨⟩
      have := h1.tree x a ha
      rw [h2] at this
      exact this
    · rename_i ha
      cases e
      refine ⟨h1, h2, h3, h4, by simp, fun _ hm => ?_⟩
      obtain ⟨a, ha'⟩ := (Dict.has_iff _ _).1 (h6 rfl hm)
      rw [ha] at ha'; cases ha'

theorem strToIntOne_spec {order : List Part} {st : Obj} (h : Good st) {x : List Char} {st' : Obj}
    {r : Except PyErr Unit} (e : strToIntOne order (strVars st.spec) st x = (st', r)) :
    Good st' ∧ st'.spec = st.spec ∧
      (∀ y ∈ clauses order st.spec, (∃ f, st.boolInt.get? y = some f ∧ st.ast.has f = true) →
        ∃ f, st'.boolInt.get? y = some f ∧ st'.ast.has f = true) ∧
      (r = .ok () → ∃ f, st'.boolInt.get? x = some f ∧ st'.ast.has f = true) ∧
      ((∀ y ∈ clauses order st.spec, ∃ f, IntText st.spec y f) → x ∈ clauses order st.spec →
        r = .ok ()) := by
  unfold strToIntOne at e
  split at e
  · rename_i hc
    cases e
    refine ⟨h, rfl, fun y _ hy => hy, fun _ => ?_, fun _ _ => rfl⟩
    unfold cached at hc
    split at hc
    · rename_i f hf; exact ⟨f, hf, hc⟩
    · cases hc
  · split at e
    · rename_i st1 er e1
      obtain ⟨h1, h2, h3, h4, h5, h6⟩ := astOf_spec h e1
      cases e
      refine ⟨h1, h2, fun y hy ⟨f, hf, hf'⟩ => ⟨f, by rw [h3]; exact hf, h4 y hy f hf hf'⟩, by simp,
        fun hall hx => ?_⟩
      have hacc : Acceptable order st.spec := fun y hy => by
        obtain ⟨f, a, b, k1, k2, _⟩ := hall y hy
        exact ⟨a, k1, k2⟩
      obtain ⟨a, ha⟩ := h6 hacc hx
      cases ha
    · rename_i st1 a e1
      obtain ⟨h1, h2, h3, h4, h5, h6⟩ := astOf_spec h e1
      obtain ⟨hp, hci⟩ := h5 a rfl
      have keep : ∀ y ∈ clauses order st.spec, (∃ f, st.boolInt.get? y = some f ∧ st.ast.has f = true) →
          ∃ f, st1.boolInt.get? y = some f ∧ st1.ast.has f = true :=
        fun y hy ⟨f, hf, hf'⟩ => ⟨f, by rw [h3]; exact hf, h4 y hy f hf hf'⟩
      split at e
      · rename_i er hs
        cases e
        refine ⟨h1, h2, keep, by simp, fun hall hx => ?_⟩
        obtain ⟨f, a', b, k1, _, k2, _⟩ := hall x hx
        rw [hp] at k1; cases k1
        rw [hs] at k2; cases k2
      · rename_i b hs
        split at e
        · rename_i hf
          cases e
          refine ⟨h1, h2, keep, by simp, fun hall hx => ?_⟩
          obtain ⟨f, a', b', k1, _, k2, k3⟩ := hall x hx
          rw [hp] at k1; cases k1
          rw [hs] at k2; cases k2
          rw [hf] at k3; cases k3
        · rename_i f hf
          cases e
          have hfp := parse_intText hp hs hf
          have hfc : checkIdents (allVars st.spec).keys none b = .ok () :=
            checkIdents_sub (fun x h => h) hs hci (fun h => h)
          refine ⟨⟨fun y t hy => ?_, fun y k hy => ?_⟩, h2, fun y hy hyf => ?_, fun _ => ?_, fun _ _ => rfl⟩
          · simp only [Dict.get?_set] at hy
            rw [h2]
            split at hy
            · rename_i e; subst e; cases hy; exact ⟨hfp, hfc⟩
            · have := h1.tree y t hy
              rw [h2] at this; exact this
          · simp only [Dict.get?_set] at hy
            rw [h2]
            split at hy
            · rename_i e; subst e; cases hy; exact ⟨a, b, hp, hci, hs, hf⟩
            · have := h1.text y k hy
              rw [h2] at this; exact this
          · obtain ⟨k, k1, k2⟩ := keep y hy hyf
            simp only [Dict.has_iff, Dict.get?_set]
            by_cases hxy : x = y
            · subst hxy
              exact ⟨f, by simp, b, by simp⟩
            · refine ⟨k, by simp [hxy, k1], ?_⟩
              obtain ⟨t, ht⟩ := (Dict.has_iff _ _).1 k2
              by_cases hfk : f = k
              · exact ⟨b, by simp [hfk]⟩
              · exact ⟨t, by simp [hfk, ht]⟩
          · exact ⟨f, by simp [Dict.get?_set], (Dict.has_iff _ _).2 ⟨b, by simp [Dict.get?_set]⟩⟩

theorem strToIntLoop_spec {order : List Part} {st : Obj} (h : Good st) {xs : List (List Char)}
    (hxs : ∀ x ∈ xs, x ∈ clauses order st.spec) {st' : Obj}
    {r : Except PyErr Unit} (e : strToIntLoop order (strVars st.spec) st xs = (st', r)) :
    Good st' ∧ st'.spec = st.spec ∧
      (∀ y ∈ clauses order st.spec, (∃ f, st.boolInt.get? y = some f ∧ st.ast.has f = true) →
        ∃ f, st'.boolInt.get? y = some f ∧ st'.ast.has f = true) ∧
      (r = .ok () → ∀ x ∈ xs, ∃ f, st'.boolInt.get? x = some f ∧ st'.ast.has f = true) ∧
      ((∀ y ∈ clauses order st.spec, ∃ f, IntText st.spec y f) → r = .ok ()) := by
  induction xs generalizing st with
  | nil => cases e; exact ⟨h, rfl, fun y _ hy => hy, by simp, fun _ => rfl⟩
  | cons x xs ih =>
    unfold strToIntLoop at e
    split at e
    · rename_i st1 er e1
      obtain ⟨h1, h2, h3, h4, h5⟩ := strToIntOne_spec h e1
      cases e
      exact ⟨h1, h2, h3, by simp, fun hall => absurd (h5 hall (hxs x (by simp))) (by simp)⟩
    · rename_i st1 e1
      obtain ⟨h1, h2, h3, h4, h5⟩ := strToIntOne_spec h e1
      rw [← h2] at e
      obtain ⟨k1, k2, k3, k4, k5⟩ := ih h1 (fun y hy => by rw [h2]; exact hxs y (by simp [hy])) e
      rw [h2] at k3 k5
      refine ⟨k1, k2.trans h2, fun y hy hf => k3 y hy (h3 y hy hf), fun hr y hy => ?_, k5⟩
      rcases List.mem_cons.1 hy with rfl | hy
      · exact k3 _ (hxs _ (by simp)) (h4 rfl)
      · exact k4 hr y hy

theorem good_step {order : List Part} {st : Obj} (h : Good st) {op : Op}
    (ho : ∀ g, op = .edit g → Extends st.spec g) : Good (step order st op) := by
  cases op with
  | edit g => exact good_edit h (ho g rfl)
  | parse => exact (parse_spec h rfl).1
  | ast x => exact (astOf_spec h rfl).1
  | strToInt => exact (strToIntLoop_spec h (fun x hx => hx) rfl).1

theorem good_run {order : List Part} {st : Obj} (h : Good st) {ops : List Op}
    (ho : KeepsVars order st ops) : Good (run order st ops) := by
  induction ops generalizing st with
  | nil => exact h
  | cons op ops ih => exact ih (good_step h ho.1) ho.2

/-! ## C84 -/

/-- **C84.** Whatever was done before with a specification, as long as no variable was removed and no
string-valued variable was given other values: `str_to_int` succeeds if and only if it would on a new
specification with the same attributes; it then associates with every clause the text that the new
specification would, and the tree cached for that text is the tree of the text; the attributes are
unchanged. -/
theorem strToInt_history {order : List Part} (horder : ∀ p, p ∈ order) (g0 : GRSpec) {ops : List Op}
    (hops : KeepsVars order (new g0) ops) {st' : Obj} {r : Except PyErr Unit}
    (hst : strToInt order (run order (new g0) ops) = (st', r)) :
    let g := (run order (new g0) ops).spec
    st'.spec = g ∧
    (r = .ok () ↔ ∀ p, ∀ x ∈ part g p, ∃ f, IntText g x f) ∧
    (r = .ok () → ∀ p, ∀ x ∈ part g p, ∃ f b, IntText g x f ∧ st'.boolInt.get? x = some f ∧
      st'.ast.get? f = some b ∧ Tulip.parse f = some b) := by
  intro g
  have hgood := good_run (good_new g0) hops
  obtain ⟨h1, h2, h3, h4, h5⟩ := strToIntLoop_spec (order := order) hgood (fun x hx => hx) hst
  have hmem : ∀ x, x ∈ clauses order g ↔ ∃ p, x ∈ part g p := fun x => by
    simp only [clauses, List.mem_flatMap]
    exact ⟨fun ⟨p, _, h⟩ => ⟨p, h⟩, fun ⟨p, h⟩ => ⟨p, horder p, h⟩⟩
  have hres : r = .ok () → ∀ p, ∀ x ∈ part g p, ∃ f b, IntText g x f ∧ st'.boolInt.get? x = some f ∧
      st'.ast.get? f = some b ∧ Tulip.parse f = some b := fun hr p x hx => by
    obtain ⟨f, k1, k2⟩ := h4 hr x ((hmem x).2 ⟨p, hx⟩)
    obtain ⟨b, hb⟩ := (Dict.has_iff _ _).1 k2
    have := h1.text x f k1
    rw [h2] at this
    exact ⟨f, b, this, k1, hb, (h1.tree f b hb).1⟩
  refine ⟨h2, ⟨fun hr p x hx => ?_, fun hall => h5 fun x hx => ?_⟩, hres⟩
  · obtain ⟨f, _, h, _⟩ := hres hr p x hx
    exact ⟨f, h⟩
  · obtain ⟨p, hp⟩ := (hmem x).1 hx
    exact hall p x hp

/-- **C84 (trees).** After any such history, the tree returned for a text is the tree of that text, and
its variables are declared; a tree is returned for every clause if all clauses can be parsed and their
variables are declared. -/
theorem ast_history {order : List Part} (horder : ∀ p, p ∈ order) (g0 : GRSpec) {ops : List Op}
    (hops : KeepsVars order (new g0) ops) (x : List Char) :
    let g := (run order (new g0) ops).spec
    (∀ a, (astOf order (run order (new g0) ops) x).2 = .ok a →
      Tulip.parse x = some a ∧ ∀ v ∈ a.vars, v ∈ (allVars g).keys) ∧
    ((∀ p, ∀ y ∈ part g p, ∃ a, Tulip.parse y = some a ∧ checkIdents (allVars g).keys none a = .ok ()) →
      (∃ p, x ∈ part g p) → ∃ a, (astOf order (run order (new g0) ops) x).2 = .ok a) := by
  intro g
  obtain ⟨_, _, _, _, h5, h6⟩ := astOf_spec (order := order) (good_run (good_new g0) hops) (x := x) rfl
  refine ⟨fun a ha => ⟨(h5 a ha).1, checkIdents_declared (h5 a ha).2⟩, fun hacc ⟨p, hp⟩ => h6 ?_ ?_⟩
  · intro y hy
    obtain ⟨q, _, hq⟩ := List.mem_flatMap.1 hy
    exact hacc q y hq
  · exact List.mem_flatMap.2 ⟨p, horder p, hp⟩

/-! ### Non-vacuity and counterexamples -/

section
def parts : List Part := [.sysProg, .envInit, .envSafety, .sysInit, .envProg, .sysSafety]

def garage : GRSpec where
  envVars := [("park", .boolean)]
  sysVars := [("loc", .strs ["home", "lot"])]
  envInit := []
  sysInit := [c!"loc = \"home\""]
  envSafety := []
  sysSafety := []
  envProg := [c!"!park"]
  sysProg := []
  moore := true
  plusOne := true
  qinit := c!"\\A \\A"
  formula := []

/-- A later version of the specification. -/
def garage2 : GRSpec :=
  { garage with sysVars := [("loc", .strs ["home", "lot"]), ("n", .range 0 3)]
                sysProg := [c!"loc = \"lot\" && n > 1"] }

def used : List Op := [.parse, .strToInt, .edit garage2, .ast c!"loc = \"home\"", .strToInt]

example : (∀ p, p ∈ parts) ∧ KeepsVars parts (new garage) used := by
  refine ⟨by intro p; cases p <;> decide, ?_⟩
  refine ⟨by rintro g ⟨⟩, by rintro g ⟨⟩, ?_, by rintro g ⟨⟩, by rintro g ⟨⟩, trivial⟩
  rintro g ⟨⟩
  have h : (step parts (step parts (new garage) .parse) .strToInt).spec = garage := by decide +kernel
  rw [h]
  refine ⟨by decide, fun v l hv => ?_⟩
  have h1 : strVars garage = [("loc", ["home", "lot"])] := by decide
  have h2 : strVars garage2 = [("loc", ["home", "lot"])] := by decide
  rw [h2, ← h1]; exact hv

example : ((strToInt parts (run parts (new garage) used)).1.boolInt).get? c!"loc = \"lot\" && n > 1" =
    some c!"( ( loc = 1 ) & ( n > 1 ) )" := by decide +kernel

/-- The same specification with the values of `loc` in another order. -/
def garage3 : GRSpec := { garage with sysVars := [("loc", .strs ["lot", "home"])] }

/-- If a string-valued variable is given other values after `str_to_int` was used, later calls keep the
old numbers. -/
theorem stale_counterexample :
    let st := (strToInt parts (run parts (new garage) [.strToInt, .edit garage3])).1
    st.boolInt.get? c!"loc = \"home\"" = some c!"( loc = 0 )" ∧
      (strToInt parts (new garage3)).1.boolInt.get? c!"loc = \"home\"" = some c!"( loc = 1 )" := by
  decide +kernel

/-- If a variable is removed after the clauses were parsed, its use is not reported any more. -/
theorem undeclared_counterexample :
    let g := { garage with envVars := [] }
    (parse parts (run parts (new garage) [.parse, .edit g])).2.toOption = some () ∧
      (parse parts (new g)).2.toOption = none := by
  decide +kernel
end

end Cache
end Tulip
