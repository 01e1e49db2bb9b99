import Verif.Interfaces.Lily
import Verif.Spec.TransWringProps
import Verif.Gridworld.DumpProps
import Verif.Transys.GraphProps

/-!
# C116: the interface to Lily
-/

namespace Tulip
namespace Lily

open Tulip.Trans Mach

/-! ## Specification -/

/-- The words of each line of a text. -/
def wordsOfLines (s : List Char) : List (List (List Char)) := (Gw.splitlines s).map Gw.words

/-- A name without blanks. -/
def Word (x : String) : Prop := x.toList ≠ [] ∧ ∀ c ∈ x.toList, Gw.isSpace c = false

/-- The text `x`, in the language of Wring, means the formula. -/
def Means (f : Formula) (x : List Char) : Prop :=
  match f with
  | .gr g => (∀ p, ∀ y ∈ Cache.part g p, ∀ a, Tulip.parse y = some a → Logical a) →
      ∀ σ, WringHolds σ 0 x ↔ g.Meaning σ
  | .ltl y _ _ => ∃ t, Tulip.parse y = some t ∧ (Logical t → ∀ σ i, WringHolds σ i x ↔ Sat σ i t)
  | .str y => ∃ t, Tulip.parse y = some t ∧ (Logical t → ∀ σ i, WringHolds σ i x ↔ Sat σ i t)

/-! ## The machine -/

theorem bind_split' {α β : Type} {x : Except PyErr α} {f : α → Except PyErr β} {b : β} (h : (x >>= f) = .ok b) :
    ∃ a, x = .ok a ∧ f a = .ok b := by
  cases x with
  | error e => cases h
  | ok a => exact ⟨a, rfl, h⟩

theorem seqM_label {es : List (Node × Node × List Char)} {g g' : LGraph Node Bool} {l : List Node}
    (h : LGraph.seqM (labelState es) g l = (g', none)) : l = [] ∧ g' = g := by
  cases l with
  | nil => simp [LGraph.seqM] at h; exact ⟨rfl, h.symm⟩
  | cons u us =>
    exfalso
    have : ∃ e, labelState es g u = .error e := by
      unfold labelState
      split
      · rename_i v hv
        cases he : edgeLabel es u v with
        | error e => exact ⟨e, rfl⟩
        | ok a => exact ⟨.typeError, rfl⟩
      · exact ⟨_, rfl⟩
    obtain ⟨e, he⟩ := this
    simp [LGraph.seqM, he] at h

theorem toExcept_ok {α : Type} {p : α × Option PyErr} {a : α} (h : toExcept p = .ok a) : p = (a, none) := by
  obtain ⟨x, o⟩ := p
  cases o with
  | none => simp [toExcept] at h; rw [h]
  | some e => simp [toExcept] at h

theorem keys_addNode {g g' : LGraph Node Bool} {n : Node} {a : Attr Bool} {c : Bool} (h : g.addNode n a c = .ok g') :
    g'.edges = g.edges ∧ g'.initial = g.initial := by
  unfold LGraph.addNode at h
  cases h1 : LGraph.typedAttr g.nodeTypes g.nodeDefaults a with
  | error e => rw [h1] at h; cases h
  | ok t =>
    rw [h1, ok_bind] at h
    split at h
    · cases h
    · cases h; exact ⟨rfl, rfl⟩

theorem seqM_addNode {l : List (Node × Attr Bool)} {g g' : LGraph Node Bool}
    (h : g.addNodesFrom l = (g', none)) : g'.edges = g.edges ∧ g'.initial = g.initial := by
  unfold LGraph.addNodesFrom at h
  induction l generalizing g with
  | nil => simp [LGraph.seqM] at h; rw [← h]; exact ⟨rfl, rfl⟩
  | cons p l ih =>
    unfold LGraph.seqM at h
    cases h1 : g.addNode p.1 p.2 with
    | error e => rw [h1] at h; simp at h
    | ok g1 =>
      rw [h1] at h
      have h2 := ih h
      have h3 := keys_addNode h1
      exact ⟨h2.1.trans h3.1, h2.2.trans h3.2⟩

theorem seqM_addInitial {l : List Node} {g g' : LGraph Node Bool}
    (h : LGraph.seqM (fun g v => g.addInitial v) g l = (g', none)) :
    g'.nodes = g.nodes ∧ g'.edges = g.edges ∧ (g.nodes = [] → g' = g) := by
  induction l generalizing g with
  | nil => simp [LGraph.seqM] at h; rw [← h]; exact ⟨rfl, rfl, fun _ => rfl⟩
  | cons p l ih =>
    unfold LGraph.seqM at h
    cases h1 : g.addInitial p with
    | error e => rw [h1] at h; simp at h
    | ok g1 =>
      rw [h1] at h
      have h2 := ih h
      unfold LGraph.addInitial at h1
      split at h1
      · rename_i hp
        cases h1
        refine ⟨h2.1, h2.2.1, fun hn => ?_⟩
        simp [LGraph.hasNode, hn, Dict.has] at hp
      · cases h1

/-- C116. The machine made from a strategy of Lily, whatever the file contains, has no states, no initial
states and no transitions. -/
theorem strategy2moore_empty {ord : List (List Char) → List (List Char)} {text : List Char}
    {envVars sysVars : List String} {m : Machine Node Bool} (h : strategy2moore ord text envVars sysVars = .ok m) :
    m.graph.nodes = [] ∧ m.graph.initial = [] ∧ m.graph.edges = [] ∧
      m.inputs = envVars.map (fun x => (x, [false, true])) ∧ m.outputs = sysVars.map fun x => (x, [false, true]) := by
  unfold strategy2moore at h
  dsimp only at h
  cases h1 : readEdges (ord ((titleLines text).filter isEdgeLine).dedup) with
  | error e => rw [h1] at h; cases h
  | ok edges =>
    rw [h1, ok_bind] at h
    cases h2 : readNodes (ord ((titleLines text).filter fun l => !isEdgeLine l).dedup) with
    | error e => rw [h2] at h; cases h
    | ok envNodes =>
      rw [h2, ok_bind] at h
      obtain ⟨g1, k1, h⟩ := bind_split' h
      obtain ⟨g2, k2, h⟩ := bind_split' h
      obtain ⟨g3, k3, h⟩ := bind_split' h
      cases h
      have e1 := seqM_addNode (toExcept_ok k1)
      have e2 := seqM_addInitial (toExcept_ok k2)
      have e3 := seqM_label (toExcept_ok k3)
      obtain ⟨e3, rfl⟩ := e3
      have hn : g3.nodes = [] := by simpa [Dict.keys] using e3
      have hg := e2.2.2 (e2.1 ▸ hn)
      refine ⟨hn, ?_, ?_, rfl, rfl⟩
      · rw [hg, e1.2]; rfl
      · rw [hg, e1.1]; rfl

/-! ## The call -/

theorem logical_noStr {b : Ast} (h : Logical b) : NoStrConst b := by
  induction b with
  | var | bool => trivial
  | num => exact h.elim
  | str => exact h.elim
  | un op a ih => exact ih h
  | trunc a n ih => exact ih h
  | bin op a b iha ihb => exact ⟨iha h.1, ihb h.2⟩
  | cmp op a b iha ihb => exact ⟨iha h.1, ihb h.2⟩
  | ar op a b iha ihb => exact ⟨iha h.1, ihb h.2⟩
  | ite c a b ihc iha ihb => exact ⟨ihc h.1, iha h.2.1, ihb h.2.2⟩

theorem text_means {g : GRSpec} {y x : List Char} {t : Ast} (hp : Tulip.parse y = some t)
    (hx : text (wring g) false t = .ok x) (hl : Logical t) (σ : Trace) (i : Nat) :
    WringHolds σ i x ↔ Sat σ i t := by
  have h0 := text_prints (wring_readable g) (Cache.named_of_parse hp) (logical_noStr hl) hx
  have h1 := h0.parse
  have h2 := wringTree_read ((wring_iff g (logical_noStr hl)).1 ⟨x, hx⟩) hl
  unfold WringHolds
  constructor
  · rintro ⟨a, b, ha, hb, hs⟩
    rw [h1] at ha
    cases ha
    have : b = t := Option.some.inj (hb.symm.trans h2)
    rwa [this] at hs
  · exact fun hs => ⟨_, t, h1, h2, hs⟩

theorem formulaOf_means {order : List Cache.Part} (horder : ∀ p, p ∈ order) {f : Formula} {e s : Dict String Dom}
    {x : List Char} (h : formulaOf order f e s = .ok x) : Means f x := by
  cases f with
  | gr g =>
    intro hl
    exact (translateWring_correct horder g (ops := []) trivial).2.2 x h hl
  | ltl y i o =>
    simp only [formulaOf] at h
    cases hp : Tulip.parse y with
    | none => rw [hp] at h; cases h
    | some t => rw [hp] at h; exact ⟨t, hp, fun hl σ i => text_means hp h hl σ i⟩
  | str y =>
    simp only [formulaOf] at h
    cases hp : Tulip.parse y with
    | none => rw [hp] at h; cases h
    | some t => rw [hp] at h; exact ⟨t, hp, fun hl σ i => text_means hp h hl σ i⟩

theorem dict_iff {d : Dict String Dom} (h : d.Wf) {p : String × Dom} : d.get? p.1 = some p.2 ↔ p ∈ d :=
  ⟨LGraph.mem_of_get?, LGraph.get?_of_mem h⟩

theorem update_boolean {e s : Dict String Dom} (he : e.Wf) (hs : s.Wf) :
    ((e.update s).all fun p => decide (p.2 = .boolean)) = true ↔
      (∀ p ∈ s, p.2 = .boolean) ∧ ∀ p ∈ e, p.1 ∉ s.keys → p.2 = .boolean := by
  have hu := Dict.wf_update he s
  rw [List.all_eq_true]
  simp only [decide_eq_true_eq]
  have hg := fun k => Dict.get?_update_wf (d := e) hs k
  constructor
  · intro h
    refine ⟨fun p hp => ?_, fun p hp hk => ?_⟩
    · refine h p ((dict_iff hu).1 ?_)
      rw [hg, (dict_iff hs).2 hp]; rfl
    · refine h p ((dict_iff hu).1 ?_)
      have : s.get? p.1 = none := by
        cases hq : s.get? p.1 with
        | none => rfl
        | some d => exact absurd ((Dict.mem_keys_iff _ _).2 ⟨d, hq⟩) hk
      rw [hg, this, (dict_iff he).2 hp]; rfl
  · rintro ⟨h1, h2⟩ p hp
    have := (dict_iff hu).2 hp
    rw [hg] at this
    cases hq : s.get? p.1 with
    | some d =>
      rw [hq] at this
      have : d = p.2 := by simpa using this
      exact this ▸ h1 (p.1, d) ((dict_iff hs).1 hq)
    | none =>
      rw [hq] at this
      refine h2 p ((dict_iff he).1 (by simpa using this)) fun hk => ?_
      obtain ⟨d, hd⟩ := (Dict.mem_keys_iff _ _).1 hk
      rw [hq] at hd; cases hd

theorem splitlines_last {s : List Char} (hs : ∀ c ∈ s, Gw.isBreak c = false) (hne : s ≠ []) :
    Gw.splitlinesFrom [] s = [s] := by
  have key : ∀ (s cur : List Char), (∀ c ∈ s, Gw.isBreak c = false) → cur ++ s ≠ [] →
      Gw.splitlinesFrom cur s = [cur ++ s] := by
    intro s
    induction s with
    | nil => intro cur _ h; simp at h; simp [Gw.splitlinesFrom, h]
    | cons c s ih =>
      intro cur hs _
      have hc : Gw.isBreak c = false := hs c (by simp)
      have hcr : c ≠ '\r' := by rintro rfl; revert hc; decide
      conv => lhs; unfold Gw.splitlinesFrom
      split
      · rename_i heq; cases heq
      · rename_i heq; exact absurd (List.cons.inj heq).1 hcr
      · rename_i heq
        obtain ⟨rfl, rfl⟩ := List.cons.inj heq
        rw [hc, if_neg (by simp), ih _ (fun d hd => hs d (List.mem_cons_of_mem _ hd)) (by simp)]
        simp
  exact key s [] hs hne

theorem words_append {s : List Char} (h1 : ∀ c ∈ s, Gw.isSpace c = false) (cur t : List Char) :
    Gw.wordsFrom cur (s ++ t) = Gw.wordsFrom (cur ++ s) t := by
  induction s generalizing cur with
  | nil => simp
  | cons c s ih =>
    rw [List.cons_append]
    conv => lhs; unfold Gw.wordsFrom
    rw [h1 c (by simp), if_neg (by simp), ih (fun d hd => h1 d (List.mem_cons_of_mem _ hd))]
    simp

theorem words_join {l : List String} (h : ∀ x ∈ l, Word x) {w : List Char} (hw : w ≠ [])
    (hw' : ∀ c ∈ w, Gw.isSpace c = false) :
    Gw.words (w ++ c!" " ++ joinWith c!" " (l.map String.toList)) = w :: l.map String.toList := by
  have key : ∀ l : List String, (∀ x ∈ l, Word x) →
      Gw.wordsFrom [] (joinWith c!" " (l.map String.toList)) = l.map String.toList := by
    intro l
    induction l with
    | nil => intro _; rfl
    | cons x l ih =>
      intro h
      have hx := h x (by simp)
      cases l with
      | nil =>
        have := words_append hx.2 [] []
        rw [List.append_nil] at this
        simp only [List.map_cons, List.map_nil, joinWith]
        rw [this]
        simp [Gw.wordsFrom, hx.1]
      | cons y l =>
        have ih := ih fun z hz => h z (List.mem_cons_of_mem _ hz)
        simp only [List.map_cons, joinWith] at ih ⊢
        rw [List.append_assoc, words_append hx.2, List.nil_append]
        show Gw.wordsFrom x.toList (' ' :: _) = _
        conv => lhs; unfold Gw.wordsFrom
        rw [if_pos (by decide), if_neg hx.1]
        exact congrArg (x.toList :: ·) ih
  unfold Gw.words
  rw [List.append_assoc, words_append hw', List.nil_append]
  show Gw.wordsFrom w (' ' :: _) = _
  conv => lhs; unfold Gw.wordsFrom
  rw [if_pos (by decide), if_neg hw]
  exact congrArg (w :: ·) (key l h)

/-- The file with the partition lists the inputs and the outputs. -/
theorem partitionText_words {e s : Dict String Dom} (he : ∀ x ∈ e.keys, Word x) (hs : ∀ x ∈ s.keys, Word x) :
    wordsOfLines (partitionText e s) =
      [c!".inputs" :: e.keys.map String.toList, c!".outputs" :: s.keys.map String.toList] := by
  have hb : ∀ c, Gw.isBreak c = true → Gw.isSpace c = true := by
    intro c hc
    simp only [Gw.isBreak, Gw.isSpace, List.contains_iff_mem, List.mem_cons, List.not_mem_nil, or_false] at hc ⊢
    omega
  have hj : ∀ l : List String, (∀ x ∈ l, Word x) →
      ∀ c ∈ joinWith c!" " (l.map String.toList), Gw.isBreak c = false := by
    intro l
    induction l with
    | nil => intro _ c hc; simp [joinWith] at hc
    | cons x l ih =>
      intro h c hc
      have hx : ∀ c ∈ x.toList, Gw.isBreak c = false := by
        intro c hc
        cases hbc : Gw.isBreak c with
        | false => rfl
        | true =>
          have h1 := (h x (by simp)).2 c hc
          rw [hb c hbc] at h1
          cases h1
      cases l with
      | nil => exact hx c (by simpa [joinWith] using hc)
      | cons y l =>
        simp only [List.map_cons, joinWith, List.mem_append] at hc
        rcases hc with (hc | hc) | hc
        · exact hx c hc
        · have : c = ' ' := by simpa using hc
          rw [this]; decide
        · exact ih (fun z hz => h z (List.mem_cons_of_mem _ hz)) c hc
  have hl1 : ∀ c ∈ c!".inputs " ++ joinWith c!" " (e.keys.map String.toList), Gw.isBreak c = false := by
    intro c hc
    rcases List.mem_append.1 hc with hc | hc
    · exact (by decide : ∀ c ∈ c!".inputs ", Gw.isBreak c = false) c hc
    · exact hj _ he c hc
  have hl2 : ∀ c ∈ c!".outputs " ++ joinWith c!" " (s.keys.map String.toList), Gw.isBreak c = false := by
    intro c hc
    rcases List.mem_append.1 hc with hc | hc
    · exact (by decide : ∀ c ∈ c!".outputs ", Gw.isBreak c = false) c hc
    · exact hj _ hs c hc
  have hsplit : Gw.splitlines (partitionText e s) = [c!".inputs " ++ joinWith c!" " (e.keys.map String.toList),
      c!".outputs " ++ joinWith c!" " (s.keys.map String.toList)] := by
    have : partitionText e s = (c!".inputs " ++ joinWith c!" " (e.keys.map String.toList)) ++
        '\n' :: (c!".outputs " ++ joinWith c!" " (s.keys.map String.toList)) := by
      simp [partitionText]
    unfold Gw.splitlines
    rw [this, Gw.splitlines_line hl1, splitlines_last hl2 (by simp)]
    simp
  unfold wordsOfLines
  rw [hsplit]
  have e1 : c!".inputs " = c!".inputs" ++ c!" " := rfl
  have e2 : c!".outputs " = c!".outputs" ++ c!" " := rfl
  rw [e1, e2, List.map_cons, List.map_cons, List.map_nil, words_join he (by simp) (by decide),
    words_join hs (by simp) (by decide)]

/-! ## The theorems -/

/-- C116. A variable that is not Boolean is a `TypeError`, before Lily is called and with the files as they
were. (A name that both players declare counts with the type of the system.) -/
theorem synthesize_nonboolean (order : List Cache.Part) (ord : List (List Char) → List (List Char))
    (exe : Option Exe) (files : Files) {f : Formula} {envVars sysVars : Option (Dict String Dom)}
    {e s : Dict String Dom} (hv : variablesOf f envVars sysVars = .ok (e, s)) (he : e.Wf) (hs : s.Wf)
    (h : (∃ p ∈ s, p.2 ≠ .boolean) ∨ ∃ p ∈ e, p.1 ∉ s.keys ∧ p.2 ≠ .boolean) :
    synthesize order ord exe files f envVars sysVars = (files, .error .typeError) := by
  unfold synthesize
  rw [hv]
  dsimp only
  rw [if_neg]
  rw [update_boolean he hs]
  rintro ⟨h1, h2⟩
  rcases h with ⟨p, hp, hne⟩ | ⟨p, hp, hk, hne⟩
  · exact hne (h1 p hp)
  · exact hne (h2 p hp hk)

/-- C116. If `synthesize` returns, then Lily was called once, with a formula that means the given one and
with the file that lists the inputs and outputs; the result is `None` if what Lily leaves in the file of the
strategy says so, and otherwise a machine without states. -/
theorem synthesize_spec {order : List Cache.Part} (horder : ∀ p, p ∈ order)
    {ord : List (List Char) → List (List Char)} {exe : Option Exe} {files files' : Files} {f : Formula}
    {envVars sysVars : Option (Dict String Dom)} {r : Option (Machine Node Bool)}
    (h : synthesize order ord exe files f envVars sysVars = (files', .ok r)) :
    ∃ E e s x text, exe = some E ∧ variablesOf f envVars sysVars = .ok (e, s) ∧ Means f x ∧
      files' = E x partitionFile (files.set partitionFile (partitionText e s)) ∧
      files'.get? dotFile = some text ∧
      (r = none ↔ c!"Formula is not realizable" <+: text) ∧
      ∀ m, r = some m → m.graph.nodes = [] ∧ m.graph.initial = [] ∧ m.graph.edges = [] ∧
        m.inputs.keys = e.keys ∧ m.outputs.keys = s.keys := by
  unfold synthesize at h
  cases hv : variablesOf f envVars sysVars with
  | error err => rw [hv] at h; cases h
  | ok es =>
    obtain ⟨e, s⟩ := es
    rw [hv] at h
    dsimp only at h
    split at h
    · cases hx : formulaOf order f e s with
      | error err => rw [hx] at h; cases h
      | ok x =>
        rw [hx] at h
        dsimp only at h
        cases exe with
        | none => cases h
        | some E =>
          dsimp only at h
          obtain ⟨rfl, h⟩ := Prod.mk.inj h
          unfold readResult at h
          cases ht : (E x partitionFile (files.set partitionFile (partitionText e s))).get? dotFile with
          | none => rw [ht] at h; cases h
          | some text =>
            rw [ht] at h
            dsimp only at h
            refine ⟨E, e, s, x, text, rfl, rfl, formulaOf_means horder hx, rfl, rfl, ?_, ?_⟩
            · split at h
              · rename_i hp
                cases h
                exact ⟨fun _ => List.isPrefixOf_iff_prefix.1 hp, fun _ => rfl⟩
              · rename_i hp
                refine ⟨fun hr => ?_, fun hp' => absurd (List.isPrefixOf_iff_prefix.2 hp') hp⟩
                subst hr
                cases hm : strategy2moore ord text e.keys s.keys with
                | error err => rw [hm] at h; cases h
                | ok m => rw [hm] at h; cases h
            · intro m hr
              subst hr
              split at h
              · cases h
              · cases hm : strategy2moore ord text e.keys s.keys with
                | error err => rw [hm] at h; cases h
                | ok m' =>
                  rw [hm] at h
                  cases h
                  obtain ⟨h1, h2, h3, h4, h5⟩ := strategy2moore_empty hm
                  refine ⟨h1, h2, h3, ?_, ?_⟩
                  · rw [h4]; simp [Dict.keys]
                  · rw [h5]; simp [Dict.keys]
    · cases h

/-- C116. If Lily reports that the formula is not realizable, then the result is `None`. -/
theorem synthesize_none {order : List Cache.Part} {ord : List (List Char) → List (List Char)} {E : Exe}
    {files : Files} {f : Formula} {envVars sysVars : Option (Dict String Dom)} {e s : Dict String Dom}
    {x rest : List Char} (hv : variablesOf f envVars sysVars = .ok (e, s)) (he : e.Wf) (hs : s.Wf)
    (hb : (∀ p ∈ e, p.2 = .boolean) ∧ ∀ p ∈ s, p.2 = .boolean) (hx : formulaOf order f e s = .ok x)
    (hE : (E x partitionFile (files.set partitionFile (partitionText e s))).get? dotFile =
      some (c!"Formula is not realizable" ++ rest)) :
    (synthesize order ord (some E) files f envVars sysVars).2 = .ok none := by
  unfold synthesize
  rw [hv]
  dsimp only
  rw [if_pos ((update_boolean he hs).2 ⟨hb.2, fun p hp _ => hb.1 p hp⟩), hx]
  dsimp only
  unfold readResult
  rw [hE]
  dsimp only
  rw [if_pos (List.isPrefixOf_iff_prefix.2 ⟨rest, rfl⟩)]

/-! ## Labels -/

/-- The text of an assignment. -/
def assignText (p : List Char × Bool) : List Char := p.1 ++ c!"=" ++ (if p.2 then c!"1" else c!"0")

theorem findAll_word {w : List Char} (hw : ∀ c ∈ w, isWordChar c = true) (v s : List Char) :
    findAll v false (w ++ s) = findAll (v ++ w) false s := by
  induction w generalizing v with
  | nil => simp
  | cons c w ih =>
    rw [List.cons_append]
    conv => lhs; unfold findAll
    rw [if_pos (hw c (by simp)), ih (fun d hd => hw d (List.mem_cons_of_mem _ hd))]
    simp

theorem findAll_sep {sep : List Char} (hne : sep ≠ []) (hsep : ∀ c ∈ sep, isWordChar c = false ∧ c ≠ '=')
    (v s : List Char) : findAll v false (sep ++ s) = findAll [] false s := by
  have : ∀ (l : List Char) (v : List Char), (∀ c ∈ l, isWordChar c = false ∧ c ≠ '=') → (l = [] → v = []) →
      findAll v false (l ++ s) = findAll [] false s := by
    intro l
    induction l with
    | nil => intro v _ hv; rw [hv rfl]; rfl
    | cons c l ih =>
      intro v hl _
      rw [List.cons_append]
      conv => lhs; unfold findAll
      obtain ⟨h1, h2⟩ := hl c (by simp)
      rw [h1, if_neg (by simp), if_neg (by simp [h2]), ih [] (fun d hd => hl d (List.mem_cons_of_mem _ hd)) (fun _ => rfl)]
  exact this sep v hsep fun h => absurd h hne

theorem findAll_assign {p : List Char × Bool} (hp : p.1 ≠ []) (hw : ∀ c ∈ p.1, isWordChar c = true) (s : List Char) :
    findAll [] false (assignText p ++ s) = p :: findAll [] false s := by
  obtain ⟨w, b⟩ := p
  unfold assignText
  rw [List.append_assoc, List.append_assoc, findAll_word hw, List.nil_append]
  show findAll w false ('=' :: _) = _
  conv => lhs; unfold findAll
  rw [if_neg (by decide), if_pos ⟨rfl, hp⟩]
  cases b with
  | false => show findAll w true ('0' :: s) = _; rw [findAll]; simp
  | true => show findAll w true ('1' :: s) = _; rw [findAll]; simp

/-- C116. A label that lists assignments `name=0` and `name=1`, with any separator that has no letters, digits,
underscores and equality signs, is read as these assignments. -/
theorem parseLabel_assigns {sep : List Char} (hne : sep ≠ [])
    (hsep : ∀ c ∈ sep, isWordChar c = false ∧ c ≠ '=') {l : List (List Char × Bool)}
    (hl : ∀ p ∈ l, p.1 ≠ [] ∧ ∀ c ∈ p.1, isWordChar c = true) (hd : (l.map (·.1)).Nodup) :
    parseLabel (joinWith sep (l.map assignText)) = l.map fun p => (String.ofList p.1, p.2) := by
  have h1 : findAll [] false (joinWith sep (l.map assignText)) = l := by
    induction l with
    | nil => rfl
    | cons p l ih =>
      have hp := hl p (by simp)
      have ih := ih (fun q hq => hl q (List.mem_cons_of_mem _ hq)) (List.nodup_cons.1 hd).2
      cases l with
      | nil =>
        have := findAll_assign hp.1 hp.2 []
        rw [List.append_nil] at this
        simpa [joinWith, findAll] using this
      | cons q l =>
        simp only [List.map_cons, joinWith] at ih ⊢
        rw [List.append_assoc, findAll_assign hp.1 hp.2, findAll_sep hne hsep, ih]
  unfold parseLabel
  rw [h1]
  have key : ∀ (l : List (List Char × Bool)) (d : Attr Bool), (l.map (·.1)).Nodup →
      (∀ p ∈ l, String.ofList p.1 ∉ Dict.keys d) →
      l.foldl (fun d p => Dict.set d (String.ofList p.1) p.2) d = d ++ l.map fun p => (String.ofList p.1, p.2) := by
    intro l
    induction l with
    | nil => intro d _ _; simp
    | cons p l ih =>
      intro d hd hk
      have hset : ∀ (d : Attr Bool) (k : String) (v : Bool), k ∉ Dict.keys d → Dict.set d k v = d ++ [(k, v)] := by
        intro d
        induction d with
        | nil => intro k v _; rfl
        | cons q d ihd =>
          intro k v hk
          have h1 : ¬ q.1 = k := fun e => hk (by simp [Dict.keys, e])
          have h2 : k ∉ Dict.keys d := fun e => hk (by simp only [Dict.keys, List.map_cons] at e ⊢; exact List.mem_cons_of_mem _ e)
          show (if q.1 = k then _ else _) = _
          rw [if_neg h1, ihd k v h2]; rfl
      rw [List.map_cons, List.nodup_cons] at hd
      rw [List.foldl_cons, hset d _ _ (hk p (by simp)), ih _ hd.2]
      · simp
      · intro q hq
        simp only [Dict.keys, List.map_append, List.map_cons, List.map_nil, List.mem_append, List.mem_singleton, not_or]
        refine ⟨hk q (List.mem_cons_of_mem _ hq), fun e => hd.1 ?_⟩
        rw [← String.ofList_injective e]
        exact List.mem_map_of_mem hq
  simpa using key l [] hd (by simp [Dict.keys])

/-! ## Examples -/

section
open Cache

/-- An arbiter with one client. -/
def arbiter : Formula := .ltl c!"G(req -> F grant)" [("req", .boolean)] [("grant", .boolean)]

/-- A strategy of Lily: the node `"n1"` of the system sets `grant`, the node `"n2"` belongs to the
environment. -/
def strategyFile : List Char :=
  c!"digraph \"synthesis\" {\n\"title\" [label=\"arbiter\",shape=plaintext];\n" ++
  c!"\"init-1\" [style=invis]\n\"n1\" [label=\"n1\",shape=box];\n\"n2\" [label=\"n2\"];\n" ++
  c!"\"init-1\" -> \"n1\" [label=\"\"];\n\"n1\" -> \"n2\" [label=\"grant=1\"];\n" ++
  c!"\"n2\" -> \"n1\" [label=\"req=0\"];\n}\n"

/-- Lily finds this strategy. -/
def finds : Exe := fun _ _ files => files.set dotFile strategyFile

/-- Lily reports that there is no strategy. -/
def fails : Exe := fun _ _ files => files.set dotFile (c!"Formula is not realizable" ++ c!".\n")

/-- Lily ends without writing a file. -/
def crashes : Exe := fun _ _ files => files

/-- What is seen of a result. -/
def seen (o : Outcome) : Option (Option (Nat × List String × List String)) :=
  o.2.toOption.map fun r => r.map fun m => (m.graph.nodes.length, m.inputs.keys, m.outputs.keys)

/-- The formula and the partition in the example. -/
example : (formulaOf parts arbiter [("req", .boolean)] [("grant", .boolean)]).toOption =
    some c!"( G ( (req=1) -> ( F (grant=1) ) ) )" ∧
    partitionText [("req", .boolean)] [("grant", .boolean)] = c!".inputs req\n.outputs grant" := by
  decide +kernel

example : seen (synthesize parts id (some fails) [] arbiter none none) = some none := by decide +kernel

/-- Lily finds a strategy, and the machine that is returned has no states: the lines that are read are those of
the title, instead of the other ones. -/
theorem lily_realizable_counterexample :
    seen (synthesize parts id (some finds) [] arbiter none none) = some (some (0, ["req"], ["grant"])) := by
  decide +kernel

/-- If a line of an edge is read, then its annotation is a text where a dictionary is expected. -/
theorem lily_edge_counterexample :
    (strategy2moore id c!"\"title\" -> \"n\" [label=\"a=1\"]\n\"title\"x -> \"n\" [label=\"a=1\"]" [] ["a"]).toOption = none := by
  decide +kernel

/-- If Lily fails without a word, then the file of an earlier call is read: here the answer of an earlier call
for another formula. -/
theorem lily_stale_counterexample :
    seen (synthesize parts id (some crashes)
      (synthesize parts id (some fails) [] (.str c!"G(grant & !req)") (some [("req", .boolean)])
        (some [("grant", .boolean)])).1 arbiter none none) = some none := by
  decide +kernel

/-- The hypotheses of the theorem about types. -/
example : (synthesize parts id (some finds) [] (.str c!"x = 2") (some []) (some [("x", .range 0 3)])).1 = [] ∧
    seen (synthesize parts id (some finds) [] (.str c!"x = 2") (some []) (some [("x", .range 0 3)])) = none := by
  decide +kernel

example : parseLabel c!"req=0, grant=1" = [("req", false), ("grant", true)] := by decide +kernel
end

end Lily
end Tulip
