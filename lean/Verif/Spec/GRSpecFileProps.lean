import Verif.Spec.GRSpecFile
import Verif.Spec.GRSpecProps
import Verif.Spec.LtlFileProps

/-!
# Files with GR(1) specifications (C125)
-/

namespace Tulip

namespace GrFile

open LtlFile
open Gw (isBreak)

/-! ### Specification -/

/-- A table of Boolean variables and integer variables, with names that neither start nor end with whitespace
and have no character that separates the parts of a file. -/
def VarsOk (d : Dict String Dom) : Prop :=
  d.Wf ∧ ∀ p ∈ d, NameOk p.1.toList ∧ (p.2 = .boolean ∨ ∃ lo hi, p.2 = .range lo hi)

/-- The table `r` of a file declares the variables `d`, in the same order, with the same domains. -/
def SameVars (d : Dict String Dom) (r : Dict (List Char) LtlFile.VDom) : Prop :=
  List.Forall₂ (fun p q => p.1.toList = q.1 ∧ match p.2, q.2 with
    | .boolean, .boolean => True
    | .range lo hi, .range lo' hi' => lo = lo' ∧ hi = hi'
    | _, _ => False) d r

/-- A clause that can be written in a file: a formula without comment and separator of sections. -/
def FileClause (c : List Char) : Prop := Clause c ∧ ¬ c!"%%\n" <:+: c

/-! ### The text of the formula -/

theorem sep_free {pat x y : List Char} : ∀ {sep : List Char}, sep ≠ [] → (∀ c ∈ sep, c ∉ pat) →
    ¬ pat <:+: x → ¬ pat <:+: y → ¬ pat <:+: x ++ sep ++ y := by
  intro sep
  induction sep generalizing x with
  | nil => intro h; exact absurd rfl h
  | cons c l ih =>
    intro _ hc hx hy h
    rw [List.append_assoc, List.cons_append] at h
    rcases infix_split (hc c (by simp)) h with h | h
    · exact hx h
    · cases l with
      | nil => exact hy h
      | cons d l =>
        refine ih (x := []) (by simp) (fun c h => hc c (by simp [h])) ?_ hy (by simpa using h)
        intro h
        rw [List.infix_nil] at h
        subst h
        exact hx List.nil_infix

theorem ok_sep {x y sep : List Char} (hne : sep ≠ []) (hs : ∀ c ∈ sep, c ∉ c!"#%\n") (hx : FormulaOk x)
    (hy : FormulaOk y) : FormulaOk (x ++ sep ++ y) := by
  refine ⟨?_, sep_free hne (fun c hc h => hs c hc ?_) hx.2 hy.2⟩
  · simp only [List.mem_append, not_or]
    exact ⟨⟨hx.1, fun h => hs _ h (by decide)⟩, hy.1⟩
  · revert h
    simp only [List.mem_cons]
    tauto

theorem ok_nil : FormulaOk [] := ⟨by decide, by decide⟩

theorem ok_unit {u s : List Char} (hu : ∀ c ∈ u, c ∉ c!"#%\n") (hs : FormulaOk s) :
    FormulaOk (u ++ c!"(" ++ s ++ c!")") := by
  have h1 : FormulaOk ([] ++ (u ++ c!"(") ++ s) := ok_sep (by simp)
    (by
      intro c hc
      rcases List.mem_append.mp hc with hc | hc
      · exact hu c hc
      · rw [List.mem_singleton] at hc; subst hc; decide) ok_nil hs
  have h2 := ok_sep (sep := c!")") (by simp) (by decide) h1 ok_nil
  simpa using h2

theorem ok_join {u : List Char} (hu : ∀ c ∈ u, c ∉ c!"#%\n") {l : List (List Char)}
    (hl : ∀ c ∈ l, FormulaOk c) : FormulaOk (conjText u l) := by
  unfold conjText
  induction l with
  | nil => exact ok_nil
  | cons x l ih =>
    have hx := ok_unit hu (hl x (by simp))
    cases l with
    | nil => exact hx
    | cons y l =>
      exact ok_sep (by simp) (by decide) hx (ih fun c hc => hl c (by simp [hc]))

theorem ok_append {s t : List Char} (hs : FormulaOk s) (ht : FormulaOk t) :
    FormulaOk (s ++ conjSep s ++ t) := by
  unfold conjSep
  split
  · rename_i h
    subst h
    simpa using ht
  · exact ok_sep (by simp) (by decide) hs ht

theorem ok_side {a b c : List (List Char)} (h : ∀ x ∈ a ++ b ++ c, FormulaOk x) :
    FormulaOk (sideText a b c) := by
  have ha := ok_join (u := []) (by simp) (fun x hx => h x (by simp [hx]) : ∀ x ∈ a, FormulaOk x)
  have hb := ok_join (u := c!"[]") (by decide) (fun x hx => h x (by simp [hx]) : ∀ x ∈ b, FormulaOk x)
  have hc := ok_join (u := c!"[]<>") (by decide) (fun x hx => h x (by simp [hx]) : ∀ x ∈ c, FormulaOk x)
  have h1 : FormulaOk (if a = [] then [] else conjText [] a) := by split; exacts [ok_nil, ha]
  have h2 : FormulaOk (if b = [] then (if a = [] then [] else conjText [] a) else
      (if a = [] then [] else conjText [] a) ++ conjSep (if a = [] then [] else conjText [] a) ++
        conjText c!"[]" b) := by
    split
    · exact h1
    · exact ok_append h1 hb
  show FormulaOk (if c = [] then _ else _ ++ conjSep _ ++ conjText c!"[]<>" c)
  split
  · exact h2
  · exact ok_append h2 hc

theorem ok_canon {s : GRSpec} (h : ∀ c ∈ s.clauses, FileClause c) : FormulaOk s.toCanon := by
  have hf : ∀ c ∈ s.clauses, FormulaOk c := fun c hc => ⟨(h c hc).1.1, (h c hc).2⟩
  have ha : FormulaOk (sideText s.envInit s.envSafety s.envProg) := ok_side fun c hc => hf c (by
    simp only [GRSpec.clauses, List.mem_append] at hc ⊢; tauto)
  have hg : FormulaOk (sideText s.sysInit s.sysSafety s.sysProg) := ok_side fun c hc => hf c (by
    simp only [GRSpec.clauses, List.mem_append] at hc ⊢; tauto)
  unfold GRSpec.toCanon
  simp only
  split
  · exact ⟨by decide, by decide⟩
  split
  · exact hg
  · have h1 := ok_sep (sep := c!"(") (by simp) (by decide) ok_nil ha
    have h2 := ok_sep (sep := c!") -> (") (by simp) (by decide) h1 hg
    have h3 := ok_sep (sep := c!")") (by simp) (by decide) h2 ok_nil
    simpa using h3

theorem tableOk {d : Dict String Dom} (h : VarsOk d) : TableOk (tableOf d) := by
  refine ⟨?_, ?_⟩
  · show List.Nodup _
    have e : (tableOf d).keys = d.keys.map String.toList := by
      simp [tableOf, Dict.keys, List.map_map, Function.comp_def]
    rw [e]
    exact List.Nodup.map (fun a b hab => String.ext hab) h.1
  · intro p hp
    obtain ⟨q, hq, rfl⟩ := List.mem_map.mp hp
    obtain ⟨h1, h2⟩ := h.2 q hq
    refine ⟨h1, ?_⟩
    rcases h2 with e | ⟨lo, hi, e⟩ <;> simp [e, domOf, IntDom]

theorem sameVars {d : Dict String Dom} (h : VarsOk d) : SameVars d (tableOf d) := by
  unfold SameVars tableOf
  rw [List.forall₂_map_right_iff, List.forall₂_same]
  intro p hp
  refine ⟨rfl, ?_⟩
  rcases (h.2 p hp).2 with e | ⟨lo, hi, e⟩ <;> simp [e, domOf]

/-! ### Writing and reading -/

/-- C125. Writing a GR(1) specification and reading the text as an LTL specification, with `LTL.loads` or with
`LTL.load` on an open file, gives the same variables and a formula that holds on the same traces as the
specification; it is the formula that `str` gives, whatever formula the object had before. Writing changes
nothing of the object but its attribute `formula`, which becomes that formula. -/
theorem grspec_file {s : GRSpec} (he : VarsOk s.envVars) (hs : VarsOk s.sysVars)
    (hd : ∀ p ∈ s.envVars, ∀ q ∈ s.sysVars, p.1 ≠ q.1) (hc : ∀ c ∈ s.clauses, FileClause c)
    (stamp : Option (List Char)) (hst : ∀ t, stamp = some t → ∀ c ∈ t, isBreak c = false) :
    ∃ text g f, dumps s stamp = ({ s with formula := toStr s }, .ok text) ∧
      (loads text = .ok g ∧ ∀ modeU disk, load modeU disk (.file text) = .ok g) ∧
      SameVars s.envVars g.inputs ∧ SameVars s.sysVars g.outputs ∧
      g.formula = toStr s ∧ parse g.formula = some f ∧ ∀ σ, Sat σ 0 f ↔ s.Meaning σ := by
  obtain ⟨f, hf, hm⟩ := toCanon_meaning s fun c h => (hc c h).1
  have hi := tableOk he
  have ho := tableOk hs
  have hd' : ∀ p ∈ tableOf s.envVars, ∀ q ∈ tableOf s.sysVars, p.1 ≠ q.1 := by
    intro p hp q hq
    obtain ⟨p', hp', rfl⟩ := List.mem_map.mp hp
    obtain ⟨q', hq', rfl⟩ := List.mem_map.mp hq
    exact fun h => hd p' hp' q' hq' (String.ext h)
  have hv : ∀ p ∈ tableOf s.envVars ++ tableOf s.sysVars, ∀ l, p.2 = .values l → l.Nodup := by
    intro p hp l hl
    exfalso
    rcases List.mem_append.mp hp with hp | hp
    · obtain ⟨q, hq, rfl⟩ := List.mem_map.mp hp
      rcases (he.2 q hq).2 with e | ⟨lo, hi, e⟩ <;> simp [e, domOf] at hl
    · obtain ⟨q, hq, rfl⟩ := List.mem_map.mp hp
      rcases (hs.2 q hq).2 with e | ⟨lo, hi, e⟩ <;> simp [e, domOf] at hl
  let t : Ltl := ⟨s.toCanon, tableOf s.envVars, tableOf s.sysVars⟩
  have h := loads_dumps_exact (f := t) hi ho hd' (ok_canon hc) hv stamp hst
  obtain ⟨text, _, h1, _⟩ := loads_dumps (f := t) hi ho hd' (ok_canon hc) stamp hst
  rw [h1] at h
  have h : loads text = .ok t := h
  exact ⟨text, t, f, Prod.ext rfl h1, ⟨h, fun _ _ => h⟩, sameVars he, sameVars hs, rfl, hf, hm⟩

/-- C125. Reading a file by its name: with a Python whose `open` knows the mode `'rU'` this is reading its
contents; since Python 3.11 it raises `ValueError` for every file. -/
theorem load_name (disk : List Char → Option (List Char)) (n : List Char) :
    (∀ t, disk n = some t → load true disk (.name n) = loads t) ∧
      (disk n = none → load true disk (.name n) = .error .exception) ∧
      load false disk (.name n) = .error .valueError := by
  refine ⟨fun t h => ?_, fun h => ?_, rfl⟩ <;> simp [load, h]

/-! ### Substitution of values -/

/-- The text `v` is the value given for `x`. -/
def Given (values : Dict String PyConst) (x v : String) : Prop := values.get? x = some (.str v)

theorem sub_ok {values : Dict String PyConst} {t : Ast} (h : ∀ x ∈ t.vars, ∃ v, Given values x v) :
    ∃ r, subValuesRec values t = .ok r ∧ r.vars = [] ∧
      ∀ σ : Trace, (∀ j, ∀ x ∈ t.vars, ∀ v, Given values x v → σ j x = .str v) →
        ∀ i, eval σ r i = eval σ t i := by
  induction t with
  | var x =>
    obtain ⟨v, hv⟩ := h x (by simp [Ast.vars])
    refine ⟨.str v, by unfold Given at hv; simp [subValuesRec, hv], rfl, fun σ hσ i => ?_⟩
    simp only [eval]
    exact (hσ i x (by simp [Ast.vars]) v hv).symm
  | bool b => exact ⟨_, rfl, rfl, fun _ _ _ => rfl⟩
  | num n => exact ⟨_, rfl, rfl, fun _ _ _ => rfl⟩
  | str s => exact ⟨_, rfl, rfl, fun _ _ _ => rfl⟩
  | un op a ih =>
    obtain ⟨r, h1, h2, h3⟩ := ih (by simpa [Ast.vars] using h)
    refine ⟨.un op r, by simp [subValuesRec, h1], by simpa [Ast.vars] using h2, fun σ hσ i => ?_⟩
    have e := funext (h3 σ (by simpa [Ast.vars] using hσ))
    cases op <;> simp only [eval] <;> rw [e]
  | bin op a b iha ihb =>
    obtain ⟨r, h1, h2, h3⟩ := iha (fun x hx => h x (by simp [Ast.vars, hx]))
    obtain ⟨q, k1, k2, k3⟩ := ihb (fun x hx => h x (by simp [Ast.vars, hx]))
    refine ⟨.bin op r q, by simp [subValuesRec, h1, k1], by simp [Ast.vars, h2, k2], fun σ hσ i => ?_⟩
    have e := funext (h3 σ (fun j x hx => hσ j x (by simp [Ast.vars, hx])))
    have e' := funext (k3 σ (fun j x hx => hσ j x (by simp [Ast.vars, hx])))
    simp only [eval]; rw [e, e']
  | cmp op a b iha ihb =>
    obtain ⟨r, h1, h2, h3⟩ := iha (fun x hx => h x (by simp [Ast.vars, hx]))
    obtain ⟨q, k1, k2, k3⟩ := ihb (fun x hx => h x (by simp [Ast.vars, hx]))
    refine ⟨.cmp op r q, by simp [subValuesRec, h1, k1], by simp [Ast.vars, h2, k2], fun σ hσ i => ?_⟩
    have e := funext (h3 σ (fun j x hx => hσ j x (by simp [Ast.vars, hx])))
    have e' := funext (k3 σ (fun j x hx => hσ j x (by simp [Ast.vars, hx])))
    simp only [eval]; rw [e, e']
  | ar op a b iha ihb =>
    obtain ⟨r, h1, h2, h3⟩ := iha (fun x hx => h x (by simp [Ast.vars, hx]))
    obtain ⟨q, k1, k2, k3⟩ := ihb (fun x hx => h x (by simp [Ast.vars, hx]))
    refine ⟨.ar op r q, by simp [subValuesRec, h1, k1], by simp [Ast.vars, h2, k2], fun σ hσ i => ?_⟩
    have e := funext (h3 σ (fun j x hx => hσ j x (by simp [Ast.vars, hx])))
    have e' := funext (k3 σ (fun j x hx => hσ j x (by simp [Ast.vars, hx])))
    simp only [eval]; rw [e, e']
  | trunc a n ih =>
    obtain ⟨r, h1, h2, h3⟩ := ih (by simpa [Ast.vars] using h)
    refine ⟨.trunc r n, by simp [subValuesRec, h1], by simpa [Ast.vars] using h2, fun σ hσ i => ?_⟩
    have e := funext (h3 σ (by simpa [Ast.vars] using hσ))
    simp only [eval]; rw [e]
  | ite c a b ihc iha ihb =>
    obtain ⟨p, g1, g2, g3⟩ := ihc (fun x hx => h x (by simp [Ast.vars, hx]))
    obtain ⟨r, h1, h2, h3⟩ := iha (fun x hx => h x (by simp [Ast.vars, hx]))
    obtain ⟨q, k1, k2, k3⟩ := ihb (fun x hx => h x (by simp [Ast.vars, hx]))
    refine ⟨.ite p r q, by simp [subValuesRec, g1, h1, k1], by simp [Ast.vars, g2, h2, k2],
      fun σ hσ i => ?_⟩
    have e0 := funext (g3 σ (fun j x hx => hσ j x (by simp [Ast.vars, hx])))
    have e := funext (h3 σ (fun j x hx => hσ j x (by simp [Ast.vars, hx])))
    have e' := funext (k3 σ (fun j x hx => hσ j x (by simp [Ast.vars, hx])))
    simp only [eval]; rw [e0, e, e']

theorem sub_fails {values : Dict String PyConst} {t r : Ast} (h : subValuesRec values t = .ok r) :
    ∀ x ∈ t.vars, ∃ v, Given values x v := by
  have E : ∀ {α β : Type} {a : Except PyErr α} {k : α → Except PyErr β} {r : β},
      (a >>= k) = .ok r → ∃ u, a = .ok u ∧ k u = .ok r := by
    intro α β a k r h
    cases a with
    | error e => cases h
    | ok u => exact ⟨u, rfl, h⟩
  induction t generalizing r with
  | var x =>
    intro y hy
    simp only [Ast.vars, List.mem_singleton] at hy
    subst hy
    unfold subValuesRec at h
    split at h
    · cases h
    · cases h
    · cases h
    · rename_i s hs; exact ⟨s, hs⟩
  | bool | num | str => simp [Ast.vars]
  | un op a ih =>
    obtain ⟨u, h1, _⟩ := E h
    simpa [Ast.vars] using ih h1
  | trunc a n ih =>
    obtain ⟨u, h1, _⟩ := E h
    simpa [Ast.vars] using ih h1
  | bin op a b iha ihb =>
    obtain ⟨u, h1, h⟩ := E h
    obtain ⟨w, h2, _⟩ := E h
    intro x hx
    rcases List.mem_append.mp hx with hx | hx
    exacts [iha h1 x hx, ihb h2 x hx]
  | cmp op a b iha ihb =>
    obtain ⟨u, h1, h⟩ := E h
    obtain ⟨w, h2, _⟩ := E h
    intro x hx
    rcases List.mem_append.mp hx with hx | hx
    exacts [iha h1 x hx, ihb h2 x hx]
  | ar op a b iha ihb =>
    obtain ⟨u, h1, h⟩ := E h
    obtain ⟨w, h2, _⟩ := E h
    intro x hx
    rcases List.mem_append.mp hx with hx | hx
    exacts [iha h1 x hx, ihb h2 x hx]
  | ite c a b ihc iha ihb =>
    obtain ⟨u, h1, h⟩ := E h
    obtain ⟨w, h2, h⟩ := E h
    obtain ⟨z, h3, _⟩ := E h
    intro x hx
    rcases List.mem_append.mp hx with hx | hx
    · rcases List.mem_append.mp hx with hx | hx
      exacts [ihc h1 x hx, iha h2 x hx]
    · exact ihb h3 x hx

theorem sub_tree {values : Dict String PyConst} (t : Ast) :
    (∃ r, Tulip.subValues values t = .ok r) ↔ ∀ x ∈ t.vars, ∃ v, Given values x v := by
  unfold Tulip.subValues
  constructor
  · rintro ⟨r, h⟩
    cases e : subValuesRec values t with
    | error x => rw [e] at h; cases h
    | ok u => exact sub_fails e
  · intro h
    obtain ⟨r, h1, _⟩ := sub_ok h
    rw [h1]
    cases t <;> exact ⟨_, rfl⟩

theorem sub_meaning {values : Dict String PyConst} {t r : Ast} (h : Tulip.subValues values t = .ok r) :
    (∀ x, t = .var x → r = t) ∧ ((∀ x, t ≠ .var x) → r.vars = [] ∧
      ∀ σ : Trace, (∀ j, ∀ x ∈ t.vars, ∀ v, Given values x v → σ j x = .str v) →
        ∀ i, eval σ r i = eval σ t i) := by
  obtain ⟨q, h1, h2⟩ := sub_ok ((sub_tree t).mp ⟨r, h⟩)
  unfold Tulip.subValues at h
  rw [h1] at h
  cases t with
  | var x =>
    cases h
    exact ⟨fun _ _ => rfl, fun hx => absurd rfl (hx x)⟩
  | _ =>
    cases h
    exact ⟨fun _ e => by (cases e), fun _ => h2⟩

theorem subLoop_spec {values : Dict String PyConst} (d : Dict (List Char) Ast) :
    ((∃ r, subLoop values d = .ok r) ↔ ∀ p ∈ d, ∀ x ∈ p.2.vars, ∃ v, Given values x v) ∧
      ∀ r, subLoop values d = .ok r →
        List.Forall₂ (fun p q => p.1 = q.1 ∧ Tulip.subValues values p.2 = .ok q.2) d r := by
  induction d with
  | nil => exact ⟨by simp [subLoop], fun r h => by cases h; exact .nil⟩
  | cons p l ih =>
    obtain ⟨ih1, ih2⟩ := ih
    constructor
    · rw [List.forall_mem_cons, ← sub_tree, ← ih1]
      constructor
      · rintro ⟨r, h⟩
        unfold subLoop at h
        cases e : Tulip.subValues values p.2 with
        | error x => rw [e] at h; cases h
        | ok u =>
          rw [e] at h
          cases e' : subLoop values l with
          | error x => rw [e'] at h; cases h
          | ok w => exact ⟨⟨u, rfl⟩, w, rfl⟩
      · rintro ⟨⟨u, h1⟩, w, h2⟩
        exact ⟨(p.1, u) :: w, by unfold subLoop; rw [h1, h2]; rfl⟩
    · intro r h
      unfold subLoop at h
      cases e : Tulip.subValues values p.2 with
      | error x => rw [e] at h; cases h
      | ok u =>
        rw [e] at h
        cases e' : subLoop values l with
        | error x => rw [e'] at h; cases h
        | ok w =>
          rw [e'] at h
          cases h
          exact .cons ⟨rfl, e⟩ (ih2 w e')

/-- C125. `sub_values` returns if and only if every variable of the cached formulas is given a string (other
values are rejected by the constructors of the nodes). It then returns a formula for every cached formula, under
the same text, in the same order. Each one that is not a single variable has no variable left, and has the
meaning of the original on every trace where the variables have the given values; one that is a single variable
is returned as it is. -/
theorem subValues_spec (st : Cache.Obj) (values : Dict String PyConst) :
    ((∃ r, subValues st values = .ok r) ↔ ∀ p ∈ st.ast, ∀ x ∈ p.2.vars, ∃ v, Given values x v) ∧
      ∀ r, subValues st values = .ok r → List.Forall₂ (fun p q => p.1 = q.1 ∧
        (∀ x, p.2 = .var x → q.2 = p.2) ∧ ((∀ x, p.2 ≠ .var x) → q.2.vars = [] ∧
          ∀ σ : Trace, (∀ j, ∀ x ∈ p.2.vars, ∀ v, Given values x v → σ j x = .str v) →
            ∀ i, Sat σ i q.2 ↔ Sat σ i p.2)) st.ast r := by
  obtain ⟨h1, h2⟩ := subLoop_spec (values := values) st.ast
  refine ⟨h1, fun r h => (h2 r h).imp ?_⟩
  rintro p q ⟨e, hs⟩
  obtain ⟨m1, m2⟩ := sub_meaning hs
  refine ⟨e, m1, fun hx => ⟨(m2 hx).1, fun σ hσ i => ?_⟩⟩
  unfold Sat
  rw [(m2 hx).2 σ hσ i]

/-! ### Concrete cases -/

/-- Non-vacuity. -/
example : VarsOk sampleSpec.envVars ∧ VarsOk sampleSpec.sysVars ∧
    (∀ p ∈ sampleSpec.envVars, ∀ q ∈ sampleSpec.sysVars, p.1 ≠ q.1) ∧
    ∀ c ∈ sampleSpec.clauses, FileClause c := by
  have h1 : NameOk "e".toList := ⟨by unfold Plain; decide +kernel, by decide +kernel⟩
  have h2 : NameOk "s".toList := ⟨by unfold Plain; decide +kernel, by decide +kernel⟩
  have h3 : NameOk "n".toList := ⟨by unfold Plain; decide +kernel, by decide +kernel⟩
  refine ⟨⟨by show List.Nodup _; decide, ?_⟩, ⟨by show List.Nodup _; decide, ?_⟩, by decide, ?_⟩
  · intro p hp
    rcases List.mem_cons.mp hp with rfl | hp
    · exact ⟨h1, .inl rfl⟩
    cases hp
  · intro p hp
    rcases List.mem_cons.mp hp with rfl | hp
    · exact ⟨h2, .inl rfl⟩
    rcases List.mem_cons.mp hp with rfl | hp
    · exact ⟨h3, .inr ⟨_, _, rfl⟩⟩
    cases hp
  · intro c hc
    refine ⟨sampleSpec_clauses c hc, ?_⟩
    have : ∀ c ∈ sampleSpec.clauses, ¬ c!"%%\n" <:+: c := by decide +kernel
    exact this c hc

/-- The specification that is written in the next example. -/
def smallSpec : GRSpec :=
  { sampleSpec with sysInit := [], envSafety := [], sysSafety := [], envProg := [], sysProg := [c!"s"] }

/-- The text of a small specification. -/
example : (dumps smallSpec none).2.toOption =
    some (c!"0  # Version\n%%\nINPUT:\ne : boolean;\n" ++
      c!"\nOUTPUT:\ns : boolean;\nn : [0, 3];\n\n%%\n" ++ c!"((!e)) -> ([]<>(s))") := by decide +kernel

/-- Values of string variables are substituted in a cached formula; a Boolean value is rejected. -/
example : (subValues
      { spec := sampleSpec, ast := [(c!"loc = home", .cmp .eq (.var "loc") (.str "home"))], boolInt := [] }
      [("loc", .str "lot")]).toOption =
    some [(c!"loc = home", .cmp .eq (.str "lot") (.str "home"))] := by decide +kernel

/-- A formula with a string variable declared in the specification is written, but the file declares other
values. -/
theorem grspec_file_strings_counterexample :
    ((dumps { sampleSpec with sysVars := [("loc", .strs ["home", "lot"])] } none).2.bind loads).toOption.map
      (·.outputs) = some [(c!"loc", .values [.str c!"home", .str c!" lot"])] := by decide +kernel

end GrFile

end Tulip
