import Verif.Interfaces.Omega
import Verif.Spec.CacheProps
import Verif.Spec.Gr1SplitProps

/-!
# The game given to `omega` is the specification (C85)

Texts are read with the grammar of `tulip.spec` (the printed clauses are parenthesised, so that the only
features of `omega`'s grammar that matter are the meanings of the operators, of `&` and of `!`).
-/

namespace Tulip
namespace Omega

open Cache

/-! ## Specification -/

/-- `[]<> s`. -/
def Recurs (σ : Trace) (s : List Char) : Prop := ∀ i, ∃ j, i ≤ j ∧ Holds σ j s

/-- `<>[] s`. -/
def Persists (σ : Trace) (s : List Char) : Prop := ∃ i, ∀ j, i ≤ j → Holds σ j s

/-- The winning condition of the game on a play: some persistence goal is reached, or all recurrence
goals are visited again and again. -/
def Streett (G : Game) (τ : Trace) : Prop :=
  (∃ w ∈ G.persistence, Persists τ w) ∨ ∀ w ∈ G.recurrence, Recurs τ w

/-- String variables and constants are used as in `StrUse`, in all clauses. -/
def WellUsed (g : GRSpec) : Prop :=
  ∀ p, ∀ x ∈ part g p, ∀ a, Tulip.parse x = some a → StrUse (strVars g) a

/-! ## Clauses -/

theorem intText_unit {g : GRSpec} {x f : List Char} (h : IntText g x f) :
    ∃ a b, Tulip.parse x = some a ∧ subConstants (strVars g) none a = .ok b ∧ UnitStr f b := by
  obtain ⟨a, b, h1, _, h3, h4⟩ := h
  obtain ⟨k1, k2⟩ := sub_named (named_of_parse h1) h3
  exact ⟨a, b, h1, h3, unit_flatten (printable_of_named k1 k2 h4) h4⟩

theorem intText_holds {g : GRSpec} {x f : List Char} (h : IntText g x f)
    (hu : ∀ a, Tulip.parse x = some a → StrUse (strVars g) a) {σ : Trace} (hσ : InDomains (strVars g) σ)
    (i : Nat) : Holds (encode (strVars g) σ) i f ↔ Holds σ i x := by
  obtain ⟨a, b, h1, h2, h3⟩ := intText_unit h
  obtain ⟨b', k1, _, k3⟩ := subConstants_correct (hu a h1)
  rw [h2] at k1; cases k1
  rw [holds_iff h3.parse, holds_iff h1]
  exact k3 σ hσ i

theorem intTexts_ok {st : Obj} {p : Part} {ss : List (List Char)} (h : intTexts st p = .ok ss) :
    List.Forall₂ (fun x f => st.boolInt.get? x = some f) (part st.spec p) ss := by
  unfold intTexts at h
  generalize part st.spec p = xs at h ⊢
  induction xs generalizing ss with
  | nil => cases h; exact .nil
  | cons x xs ih =>
    simp only [List.mapM_cons, bind_ok_iff, pure_eq_ok, Except.ok.injEq] at h
    obtain ⟨f, h1, r, h2, rfl⟩ := h
    refine .cons ?_ (ih h2)
    split at h1
    · rename_i k hk; cases h1; exact hk
    · cases h1

theorem intTexts_total {st : Obj} {p : Part} (h : ∀ x ∈ part st.spec p, ∃ f, st.boolInt.get? x = some f) :
    ∃ ss, intTexts st p = .ok ss := by
  unfold intTexts
  generalize part st.spec p = xs at h
  induction xs with
  | nil => exact ⟨[], rfl⟩
  | cons x xs ih =>
    obtain ⟨f, hf⟩ := h x (by simp)
    obtain ⟨ss, hs⟩ := ih (fun y hy => h y (by simp [hy]))
    exact ⟨f :: ss, by simp [List.mapM_cons, hf, hs]⟩

theorem forall_mem_of_forall₂ {α β : Type} {R : α → β → Prop} {P : α → Prop} {Q : β → Prop}
    {xs : List α} {ys : List β} (h : List.Forall₂ R xs ys)
    (hpq : ∀ x ∈ xs, ∀ y, R x y → (Q y ↔ P x)) : (∀ y ∈ ys, Q y) ↔ ∀ x ∈ xs, P x := by
  induction h with
  | nil => simp
  | @cons x y xs ys hxy _ ih =>
    simp only [List.mem_cons, forall_eq_or_imp]
    rw [hpq x (by simp) y hxy, ih (fun z hz => hpq z (by simp [hz]))]

theorem holds_true (σ : Trace) (i : Nat) : Holds σ i c!"TRUE" :=
  (holds_iff (f := .bool true) (by decide +kernel)).2 (by simp)

theorem not_holds_false (σ : Trace) (i : Nat) : ¬ Holds σ i c!"FALSE" := fun h =>
  absurd ((holds_iff (f := .bool false) (by decide +kernel)).1 h) (by simp)

theorem holds_conj {ss : List (List Char)} (h : ∀ s ∈ ss, ∃ b, UnitStr s b) (σ : Trace) (i : Nat) :
    Holds σ i (conj ss) ↔ ∀ s ∈ ss, Holds σ i s := by
  cases ss with
  | nil => simpa [conj] using holds_true σ i
  | cons s ss =>
    obtain ⟨b, hb⟩ := h s (by simp)
    have : ∃ bs, List.Forall₂ UnitStr ss bs := by
      have h' : ∀ u ∈ ss, ∃ b, UnitStr u b := fun u hu => h u (by simp [hu])
      clear h hb
      induction ss with
      | nil => exact ⟨[], .nil⟩
      | cons u us ih =>
        obtain ⟨c, hc⟩ := h' u (by simp)
        obtain ⟨cs, hcs⟩ := ih (fun v hv => h' v (by simp [hv]))
        exact ⟨c :: cs, .cons hc hcs⟩
    obtain ⟨bs, hbs⟩ := this
    have hp := (chain_join connective_and hb hbs).parse
    have e : conj (s :: ss) = joinWith (c!" " ++ c!"&" ++ c!" ") (s :: ss) := rfl
    rw [e, holds_iff hp, sat_foldBin_and, ← holds_iff hb.parse]
    simp only [List.mem_cons, forall_eq_or_imp]
    refine and_congr Iff.rfl ?_
    clear hp e
    induction hbs with
    | nil => simp
    | cons hc _ ih =>
      simp only [List.mem_cons, forall_eq_or_imp]
      rw [← holds_iff hc.parse, ih (fun v hv => h v (by
        rcases List.mem_cons.1 hv with rfl | hv <;> simp_all))]

theorem holds_neg {s : List Char} {b : Ast} (h : UnitStr s b) (σ : Trace) (i : Nat) :
    Holds σ i (c!"!(" ++ s ++ c!")") ↔ ¬ Holds σ i s := by
  have h1 : UnitStr (c!"(" ++ (s ++ c!")")) b := by simpa using unit_paren h.clean h.parse
  have h2 := unit_not h1
  have e : c!"!(" ++ s ++ c!")" = c!"!(" ++ (s ++ c!")") := by simp
  rw [e, holds_iff h2.parse, sat_not, holds_iff h.parse]

theorem get?_map_value {κ α β : Type} [DecidableEq κ] (d : Dict κ α) (f : α → β) (k : κ) :
    Dict.get? (d.map fun p => (p.1, f p.2)) k = (Dict.get? d k).map f := by
  induction d with
  | nil => rfl
  | cons p d ih =>
    rw [List.map_cons, Dict.get?_cons, Dict.get?_cons, ih]
    split <;> simp

/-- The declaration of a variable: that of the system if there is one. -/
inductive DeclaredAs (g : GRSpec) (v : String) (d : Dom) : Prop
  | sys : Dict.get? g.sysVars v = some d → DeclaredAs g v d
  | env : Dict.get? g.sysVars v = none → Dict.get? g.envVars v = some d → DeclaredAs g v d

/-- The ranges in the game that stand for a domain: a list of strings is replaced by the indices. -/
inductive SameRange : Dom → OmDom → Prop
  | bool : SameRange .boolean .bool
  | int (lo hi : Int) : SameRange (.range lo hi) (.range lo hi)
  | strs {l : List String} {hi : Int} : hi + 1 = l.length → SameRange (.strs l) (.range 0 hi)

theorem allVars_spec {g : GRSpec} (hg : g.sysVars.Wf) (v : String) (d : Dom) :
    Dict.get? (allVars g) v = some d ↔ DeclaredAs g v d := by
  rw [allVars, Dict.get?_update_wf hg]
  constructor
  · intro h
    cases hs : Dict.get? g.sysVars v with
    | none => rw [hs] at h; exact .env hs (by simpa using h)
    | some d' => rw [hs] at h; exact .sys (by simpa [hs] using h)
  · rintro (h | ⟨h, h'⟩)
    · simp [h]
    · simp [h, h']

/-- **C85.** The variables whose strings are replaced: those that are declared with a list of strings. -/
theorem strVars_spec {g : GRSpec} (he : g.envVars.Wf) (hs : g.sysVars.Wf) (v : String) (l : List String) :
    Dict.get? (strVars g) v = some l ↔ DeclaredAs g v (.strs l) := by
  rw [← allVars_spec hs]
  have hw : (allVars g).Wf := Dict.wf_update he _
  unfold strVars
  generalize allVars g = d at hw
  induction d with
  | nil => simp
  | cons p d ih =>
    obtain ⟨k, t⟩ := p
    have hw' := List.nodup_cons.1 hw
    have ih := ih hw'.2
    by_cases hk : k = v
    · subst hk
      have hno : Dict.get? d k = none := by
        cases hc : Dict.get? d k with
        | none => rfl
        | some t' => exact absurd ((Dict.mem_keys_iff d k).2 ⟨t', hc⟩) hw'.1
      rw [hno] at ih
      cases t <;> simp_all [Dict.get?_cons]
    · cases t <;> simp_all [Dict.get?_cons]

theorem convert_spec (d : Dom) : SameRange d (convert d) := by
  cases d with
  | boolean => exact .bool
  | range lo hi => exact .int lo hi
  | strs l => exact .strs (by omega)

theorem SameRange.unique {d : Dom} {a b : OmDom} (h1 : SameRange d a) (h2 : SameRange d b) : a = b := by
  cases h1 <;> cases h2 <;> simp
  omega

/-! ## C85 -/

/-- **C85.** After any history as in C84, the interface to omega succeeds if and only if every clause can
be converted, and then the game means what the specification says: a trace satisfies the initial
conditions, takes the steps and meets the progress conditions of the specification, if and only if the
trace with strings replaced by their indices does so in the game. The winning condition of the game is
that the recurrent assumptions imply the recurrent guarantees, also if there are none. The declared
variables, their owners, their ranges and the options are those of the specification. -/
theorem toAutomaton_correct {order : List Part} (horder : ∀ p, p ∈ order) (g0 : GRSpec) {ops : List Op}
    (hops : KeepsVars order (new g0) ops) {st' : Obj} {r : Except PyErr Game}
    (hst : toAutomaton order (run order (new g0) ops) = (st', r)) :
    let g := (run order (new g0) ops).spec
    ((∃ G, r = .ok G) ↔ ∀ p, ∀ x ∈ part g p, ∃ f, IntText g x f) ∧
    ∀ G, r = .ok G →
      ((∀ v, Dict.get? G.vars v = (Dict.get? (allVars g) v).map convert) ∧
        G.envVars = g.envVars.keys ∧ G.sysVars = g.sysVars.keys ∧
        G.moore = g.moore ∧ G.plusOne = g.plusOne ∧ G.qinit = g.qinit) ∧
      (WellUsed g → ∀ σ, InDomains (strVars g) σ →
        let τ := encode (strVars g) σ
        (Holds τ 0 G.initEnv ↔ ∀ x ∈ g.envInit, Holds σ 0 x) ∧
        (Holds τ 0 G.initSys ↔ ∀ x ∈ g.sysInit, Holds σ 0 x) ∧
        (∀ i, Holds τ i G.actionEnv ↔ ∀ x ∈ g.envSafety, Holds σ i x) ∧
        (∀ i, Holds τ i G.actionSys ↔ ∀ x ∈ g.sysSafety, Holds σ i x) ∧
        (Streett G τ ↔ ((∀ x ∈ g.envProg, Recurs σ x) → ∀ x ∈ g.sysProg, Recurs σ x))) := by
  intro g
  unfold toAutomaton at hst
  obtain ⟨k1, k2, k3⟩ := strToInt_history horder g0 hops (st' := (strToInt order (run order (new g0) ops)).1)
    (r := (strToInt order (run order (new g0) ops)).2) rfl
  generalize hq : strToInt order (run order (new g0) ops) = q at hst k1 k2 k3
  obtain ⟨st1, r1⟩ := q
  simp only at k1 k2 k3
  cases r1 with
  | error e =>
    cases hst
    refine ⟨⟨by simp, fun h => absurd (k2.2 h) (by simp)⟩, by simp⟩
  | ok u =>
    simp only [Prod.mk.injEq] at hst
    obtain ⟨rfl, hr⟩ := hst
    have hall := k3 rfl
    have hsp : st1.spec = g := k1
    have tot : ∀ p, ∃ ss, intTexts st1 p = .ok ss := fun p => intTexts_total fun x hx => by
      rw [hsp] at hx
      obtain ⟨f, _, _, h, _⟩ := hall p x hx
      exact ⟨f, h⟩
    obtain ⟨ei, h1⟩ := tot .envInit
    obtain ⟨si, h2⟩ := tot .sysInit
    obtain ⟨es, h3⟩ := tot .envSafety
    obtain ⟨ss, h4⟩ := tot .sysSafety
    obtain ⟨ep, h5⟩ := tot .envProg
    obtain ⟨sp, h6⟩ := tot .sysProg
    simp only [h1, h2, h3, h4, h5, h6, ok_bind, pure_eq_ok] at hr
    refine ⟨⟨fun _ => k2.1 rfl, fun _ => ⟨_, hr.symm⟩⟩, fun G hG => ?_⟩
    rw [hG, Except.ok.injEq] at hr
    refine ⟨?_, fun hu σ hσ => ?_⟩
    · subst hr
      refine ⟨fun v => ?_, by rw [hsp], by rw [hsp], by rw [hsp], by rw [hsp], by rw [hsp]⟩
      rw [← hsp]
      exact get?_map_value _ _ v
    · intro τ
      have fact : ∀ p, ∀ x ∈ part g p, ∀ y, st1.boolInt.get? x = some y →
          (∃ b, UnitStr y b) ∧ ∀ i, Holds τ i y ↔ Holds σ i x := by
        intro p x hx y hy
        obtain ⟨f, _, hf, hf', _⟩ := hall p x hx
        rw [hy] at hf'; cases hf'
        obtain ⟨_, b, _, _, hb⟩ := intText_unit hf
        exact ⟨⟨b, hb⟩, fun i => intText_holds hf (hu p x hx) hσ i⟩
      have units : ∀ {p us}, intTexts st1 p = .ok us → ∀ s ∈ us, ∃ b, UnitStr s b := by
        intro p us hus
        have h := intTexts_ok hus
        rw [hsp] at h
        exact (forall_mem_of_forall₂ (P := fun _ => True) h
          (fun x hx y hy => ⟨fun _ => trivial, fun _ => (fact p x hx y hy).1⟩)).2 (by simp)
      have all : ∀ {p us} (P : List Char → Prop) (Q : List Char → Prop), intTexts st1 p = .ok us →
          (∀ x y, (∀ i, Holds τ i y ↔ Holds σ i x) → (Q y ↔ P x)) →
          ((∀ y ∈ us, Q y) ↔ ∀ x ∈ part g p, P x) := by
        intro p us P Q hus hpq
        have h := intTexts_ok hus
        rw [hsp] at h
        exact forall_mem_of_forall₂ h (fun x hx y hy => hpq x y (fact p x hx y hy).2)
      have recs : ∀ x y, (∀ i, Holds τ i y ↔ Holds σ i x) → (Recurs τ y ↔ Recurs σ x) :=
        fun x y hxy => forall_congr' fun i => exists_congr fun j => and_congr Iff.rfl (hxy j)
      subst hr
      refine ⟨?_, ?_, fun i => ?_, fun i => ?_, ?_⟩
      · exact (holds_conj (units h1) τ 0).trans (all _ _ h1 fun x y hxy => hxy 0)
      · exact (holds_conj (units h2) τ 0).trans (all _ _ h2 fun x y hxy => hxy 0)
      · exact (holds_conj (units h3) τ i).trans (all _ _ h3 fun x y hxy => hxy i)
      · exact (holds_conj (units h4) τ i).trans (all _ _ h4 fun x y hxy => hxy i)
      · have e1 : (∃ w ∈ (if st1.spec.envProg.isEmpty then [c!"FALSE"]
            else ep.map fun s => c!"!(" ++ s ++ c!")"), Persists τ w) ↔ ¬ ∀ x ∈ g.envProg, Recurs σ x := by
          have hp : (∀ y ∈ ep, Recurs τ y) ↔ ∀ x ∈ g.envProg, Recurs σ x := all _ _ h5 recs
          rw [hsp]
          by_cases he : g.envProg = []
          · simp only [he, List.isEmpty_nil, if_true, List.mem_singleton, exists_eq_left,
              List.not_mem_nil, false_implies, implies_true, not_true_eq_false, iff_false]
            rintro ⟨i, hi⟩
            exact not_holds_false τ i (hi i (Nat.le_refl i))
          · rw [if_neg (by simpa using he), ← hp]
            simp only [List.mem_map, exists_exists_and_eq_and, not_forall]
            constructor
            · rintro ⟨s, hs, i, hi⟩
              refine ⟨s, hs, fun hrec => ?_⟩
              obtain ⟨b, hb⟩ := units h5 s hs
              obtain ⟨j, hj, hj'⟩ := hrec i
              exact (holds_neg hb τ j).1 (hi j hj) hj'
            · rintro ⟨s, hs, hrec⟩
              obtain ⟨b, hb⟩ := units h5 s hs
              simp only [Recurs, not_forall, not_exists, not_and] at hrec
              obtain ⟨i, hi⟩ := hrec
              exact ⟨s, hs, i, fun j hj => (holds_neg hb τ j).2 (hi j hj)⟩
        have e2 : (∀ w ∈ (if st1.spec.sysProg.isEmpty then [c!"TRUE"] else sp), Recurs τ w) ↔
            ∀ x ∈ g.sysProg, Recurs σ x := by
          rw [hsp]
          by_cases he : g.sysProg = []
          · simp only [he, List.isEmpty_nil, if_true, List.mem_singleton, forall_eq,
              List.not_mem_nil, false_implies, implies_true, iff_true]
            exact fun i => ⟨i, Nat.le_refl i, holds_true τ i⟩
          · rw [if_neg (by simpa using he)]
            exact all _ _ h6 recs
        simp only [Streett]
        rw [e1, e2]
        exact imp_iff_not_or.symm

/-- The ranges of string variables are the indices of their values: the encoding of a trace lies in the
ranges, and every play within the ranges encodes a trace. -/
theorem encode_onto {g : GRSpec} (hn : ∀ v l, (strVars g).get? v = some l → l.Nodup) (τ : Trace) :
    (∃ σ, InDomains (strVars g) σ ∧ encode (strVars g) σ = τ) ↔
      ∀ i v l, (strVars g).get? v = some l → ∃ n : Int, τ i v = .int n ∧ 0 ≤ n ∧ n ≤ (l.length : Int) - 1 := by
  constructor
  · rintro ⟨σ, hσ, rfl⟩ i v l hv
    obtain ⟨n, h1, h2, h3⟩ := encode_in_domain hσ hv i
    exact ⟨n, h1, h2, h3⟩
  · intro h
    refine ⟨fun i v => match (strVars g).get? v, τ i v with
      | some l, .int n => .str (l.getD n.toNat "")
      | _, w => w, fun i v l hv => ?_, ?_⟩
    · obtain ⟨n, h1, h2, h3⟩ := h i v l hv
      have hlt : n.toNat < l.length := by omega
      refine ⟨l[n.toNat], List.getElem_mem hlt, ?_⟩
      simp [hv, h1, List.getD, hlt]
    · funext i v
      simp only [encode]
      cases hv : (strVars g).get? v with
      | none => rfl
      | some l =>
        obtain ⟨n, h1, h2, h3⟩ := h i v l hv
        have hlt : n.toNat < l.length := by omega
        simp only [h1]
        have : l.getD n.toNat "" = l[n.toNat] := by simp [List.getD, hlt]
        rw [this, (hn v l hv).idxOf_getElem n.toNat hlt]
        congr 1
        omega

/-! ## The returned graph -/

theorem foldl_set_get? {N V : Type} [DecidableEq N] (nodes : Dict N V) (hw : nodes.Wf) (f : V → V)
    (d : Dict N V) (hd : ∀ k ∈ nodes.keys, k ∉ d.keys) :
    nodes.foldl (fun h p => h.set p.1 (f p.2)) d = d ++ nodes.map fun p => (p.1, f p.2) := by
  induction nodes generalizing d with
  | nil => simp
  | cons p ps ih =>
    have hp : p.1 ∉ d.keys := hd p.1 (by simp [Dict.keys])
    have hset : ∀ (d : Dict N V), p.1 ∉ d.keys → d.set p.1 (f p.2) = d ++ [(p.1, f p.2)] := by
      intro d hd
      induction d with
      | nil => rfl
      | cons q qs ih =>
        simp only [Dict.keys, List.map_cons, List.mem_cons, not_or] at hd
        simp only [Dict.set, if_neg (fun e => hd.1 (Eq.symm e)), List.cons_append]
        rw [ih hd.2]
    simp only [List.foldl_cons, List.map_cons]
    have hw' : (Dict.keys ps).Nodup ∧ p.1 ∉ Dict.keys ps := by
      have := List.nodup_cons.1 hw
      exact ⟨this.2, this.1⟩
    rw [hset d hp, ih hw'.1]
    · simp
    · intro k hk hk'
      simp only [Dict.keys, List.map_append, List.map_cons, List.map_nil, List.mem_append,
        List.mem_singleton] at hk'
      rcases hk' with hk' | rfl
      · exact hd k (by simp only [Dict.keys, List.map_cons, List.mem_cons]; exact Or.inr hk) hk'
      · exact hw'.2 hk

/-- **C85 (strategy).** The returned graph has the nodes, edges and initial nodes of the enumerated
strategy, and at each node the values of the declared variables and nothing else (the memory of the
strategy is left out). -/
theorem toStateAnnotated_correct {N V : Type} [DecidableEq N] (g : Enumerated N V) (hw : g.nodes.Wf)
    (vars : Dict String OmDom) :
    (toStateAnnotated g vars).nodes.keys = g.nodes.keys ∧
    (∀ e, e ∈ (toStateAnnotated g vars).edges ↔ e ∈ g.edges) ∧
    (toStateAnnotated g vars).edges.Nodup ∧
    (toStateAnnotated g vars).initial = g.initial ∧
    ∀ n d, Dict.get? g.nodes n = some d → ∃ d', Dict.get? (toStateAnnotated g vars).nodes n = some d' ∧
      ∀ k, Dict.get? d' k = if vars.has k then Dict.get? d k else none := by
  have hn : (toStateAnnotated g vars).nodes =
      g.nodes.map fun p => (p.1, p.2.filter fun k => vars.has k.1) := by
    have := foldl_set_get? g.nodes hw (fun d : Dict String V => d.filter fun k => vars.has k.1) []
      (by simp [Dict.keys])
    exact this.trans (by simp)
  have he : ∀ (es acc : List (N × N)), acc.Nodup →
      (∀ e, e ∈ es.foldl (fun h e => if e ∈ h then h else h ++ [e]) acc ↔ e ∈ acc ∨ e ∈ es) ∧
      (es.foldl (fun h e => if e ∈ h then h else h ++ [e]) acc).Nodup := by
    intro es
    induction es with
    | nil => intro acc h; exact ⟨by simp, h⟩
    | cons x xs ih =>
      intro acc h
      simp only [List.foldl_cons]
      by_cases hx : x ∈ acc
      · rw [if_pos hx]
        obtain ⟨h1, h2⟩ := ih acc h
        refine ⟨fun e => ?_, h2⟩
        rw [h1]
        constructor
        · rintro (h | h)
          · exact Or.inl h
          · exact Or.inr (by simp [h])
        · rintro (h | h)
          · exact Or.inl h
          · rcases List.mem_cons.1 h with rfl | h
            · exact Or.inl hx
            · exact Or.inr h
      · rw [if_neg hx]
        obtain ⟨h1, h2⟩ := ih (acc ++ [x]) (List.nodup_append.2 ⟨h, by simp, by
          intro a ha b hb e
          rw [List.mem_singleton] at hb
          subst hb; subst e; exact hx ha⟩)
        refine ⟨fun e => ?_, h2⟩
        rw [h1]
        simp [or_assoc]
  obtain ⟨h1, h2⟩ := he g.edges [] (by simp)
  refine ⟨?_, fun e => (h1 e).trans (by simp), h2, rfl, fun n d hd => ?_⟩
  · rw [hn]; simp [Dict.keys]
  · refine ⟨_, by rw [hn, get?_map_value, hd]; rfl, fun k => ?_⟩
    exact Cache.get?_filter d (fun k => vars.has k) k

/-! ### Non-vacuity -/

section
example : (toAutomaton parts (run parts (new garage) used)).2.toOption = some {
    vars := [("park", .bool), ("loc", .range 0 1), ("n", .range 0 3)], envVars := ["park"]
    sysVars := ["loc", "n"], initEnv := c!"TRUE", initSys := c!"( loc = 0 )", actionEnv := c!"TRUE"
    actionSys := c!"TRUE", persistence := [c!"!(( ! park ))"]
    recurrence := [c!"( ( loc = 1 ) & ( n > 1 ) )"], moore := true, plusOne := true
    qinit := c!"\\A \\A" } := by decide +kernel

example : WellUsed garage := by
  intro p x hx a ha
  have hv : strVars garage = [("loc", ["home", "lot"])] := by decide
  rw [hv]
  cases p <;> simp only [part, garage, List.mem_singleton, List.not_mem_nil] at hx
  · subst hx
    have : Tulip.parse c!"loc = \"home\"" = some (.cmp .eq (.var "loc") (.str "home")) := by
      decide +kernel
    rw [this] at ha; cases ha
    exact .varConst (Or.inl rfl) (l := ["home", "lot"]) (by decide) (by simp) .here .here
  · subst hx
    have : Tulip.parse c!"!park" = some (.un .not (.var "park")) := by decide +kernel
    rw [this] at ha; cases ha
    exact .un (.var (by decide))

example : InDomains (strVars garage) (fun i v => if v = "loc" then .str (if i = 0 then "home" else "lot")
    else .bool true) := by
  have hv : strVars garage = [("loc", ["home", "lot"])] := by decide
  rw [hv]
  intro i x l h
  simp only [Dict.get?_cons, Dict.get?_nil] at h
  split at h
  · cases h
    subst_vars
    exact ⟨if i = 0 then "home" else "lot", by split <;> simp, by simp⟩
  · cases h

/-- A strategy with memory `_goal`. -/
example : (toStateAnnotated (V := Int)
    ({ nodes := [(0, [("x", 1), ("_goal", 0)]), (1, [("x", 2), ("_goal", 1)])], edges := [(0, 1), (1, 1)]
       initial := [0] } : Enumerated Nat Int) [("x", .range 0 3)]).nodes = [(0, [("x", 1)]), (1, [("x", 2)])] := by
  decide +kernel
end

/-- **C85.** The variables of the game are those that are declared, with the booleans and the integer ranges of the
declarations; a variable with `n` strings ranges over `0, …, n - 1`. -/
theorem toAutomaton_ranges {order : List Part} (horder : ∀ p, p ∈ order) (g0 : GRSpec) {ops : List Op}
    (hops : KeepsVars order (new g0) ops) {st' : Obj} {G : Game}
    (hst : toAutomaton order (run order (new g0) ops) = (st', .ok G))
    (hs : (run order (new g0) ops).spec.sysVars.Wf) (v : String) (r : OmDom) :
    Dict.get? G.vars v = some r ↔ ∃ d, DeclaredAs (run order (new g0) ops).spec v d ∧ SameRange d r := by
  rw [((toAutomaton_correct horder g0 hops hst).2 G rfl).1.1 v, Option.map_eq_some_iff]
  refine exists_congr fun d => ?_
  rw [allVars_spec hs]
  refine and_congr_right fun _ => ⟨?_, fun h => (convert_spec d).unique h⟩
  rintro rfl
  exact convert_spec d

end Omega
end Tulip
