import Verif.Interfaces.LilyProps

/-!
# C116: when the interface to Lily returns, and how labels are read
-/

namespace Tulip
namespace Lily

open Tulip.Trans Mach

/-! ## Specification -/

/-- A match of the expression `(\w+)=(0|1)` at the start of a text: the word, the value, and the rest. -/
def MatchAt (s w : List Char) (b : Bool) (rest : List Char) : Prop :=
  w ≠ [] ∧ (∀ c ∈ w, isWordChar c = true) ∧ s = w ++ '=' :: (if b then '1' else '0') :: rest

/-- All matches, from the left and without overlaps: the next match starts at the first place where there is one. -/
inductive FindAll : List Char → List (List Char × Bool) → Prop
  | nil : FindAll [] []
  | skip {c : Char} {s : List Char} {r : List (List Char × Bool)} (no : ∀ w b rest, ¬ MatchAt (c :: s) w b rest)
      (h : FindAll s r) : FindAll (c :: s) r
  | hit {s w rest : List Char} {b : Bool} {r : List (List Char × Bool)} (yes : MatchAt s w b rest) (h : FindAll rest r) :
      FindAll s ((w, b) :: r)

/-! ## Labels -/

theorem word_not_eq {c : Char} (h : isWordChar c = true) : c ≠ '=' := by
  rintro rfl
  revert h
  decide

/-- A match takes the whole word. -/
theorem match_word {s w : List Char} {b : Bool} {rest v t : List Char} {d : Char} (h : MatchAt s w b rest)
    (hs : s = v ++ d :: t) (hv : ∀ c ∈ v, isWordChar c = true) (hd : isWordChar d = false) :
    w = v ∧ d = '=' ∧ t = (if b then '1' else '0') :: rest := by
  obtain ⟨-, h2, h3⟩ := h
  rw [hs] at h3
  clear hs
  induction v generalizing w with
  | nil =>
    cases w with
    | nil => simp at h3; exact ⟨rfl, h3.1, h3.2⟩
    | cons x w =>
      simp only [List.nil_append, List.cons_append, List.cons.injEq] at h3
      rw [h3.1, h2 x (by simp)] at hd
      cases hd
  | cons x v ih =>
    cases w with
    | nil =>
      simp only [List.nil_append, List.cons_append, List.cons.injEq] at h3
      exact absurd h3.1 (word_not_eq (hv x (by simp)))
    | cons y w =>
      simp only [List.cons_append, List.cons.injEq] at h3
      obtain ⟨h4, h5, h6⟩ := ih (fun c hc => hv c (by simp [hc])) (fun c hc => h2 c (by simp [hc])) h3.2
      exact ⟨by rw [h3.1, h4], h5, h6⟩

theorem no_match_end {s w : List Char} {b : Bool} {rest : List Char} (h : MatchAt s w b rest) :
    ¬ ∀ c ∈ s, isWordChar c = true := by
  intro hs
  exact word_not_eq (hs '=' (by rw [h.2.2]; simp)) rfl

/-- No match starts in a text of word characters that does not go on as a match. -/
theorem skip_word {v s : List Char} {r : List (List Char × Bool)} (hv : ∀ c ∈ v, isWordChar c = true)
    (no : ∀ w, w ≠ [] → w <:+ v → ∀ x b rest, ¬ MatchAt (w ++ s) x b rest) (h : FindAll s r) : FindAll (v ++ s) r := by
  induction v with
  | nil => exact h
  | cons c v ih =>
    refine .skip (fun w b rest hm => no (c :: v) (by simp) (List.suffix_refl _) w b rest hm) ?_
    exact ih (fun d hd => hv d (by simp [hd]))
      fun w hw hs => no w hw (hs.trans (List.suffix_cons _ _))

theorem findAll_both : ∀ (n : Nat) (s w : List Char), s.length ≤ n → (∀ c ∈ w, isWordChar c = true) →
    FindAll (w ++ s) (findAll w false s) ∧ (w ≠ [] → FindAll (w ++ '=' :: s) (findAll w true s)) := by
  intro n
  induction n with
  | zero =>
    intro s w hs hw
    have : s = [] := List.length_eq_zero_iff.1 (by omega)
    subst this
    have hsuf : ∀ v, v <:+ w → ∀ c ∈ v, isWordChar c = true := fun v hv c hc => hw c (hv.subset hc)
    refine ⟨?_, fun _ => ?_⟩
    · simp only [findAll]
      refine skip_word hw (fun v hv hs x b rest hm => no_match_end hm ?_) .nil
      rw [List.append_nil]
      exact hsuf v hs
    · simp only [findAll]
      refine skip_word hw (fun v hv hs x b rest hm => ?_) (.skip (fun x b rest hm => ?_) .nil)
      · have := (match_word hm rfl (hsuf v hs) (by decide)).2.2
        cases b <;> cases this
      · have := (match_word (v := []) hm rfl (by simp) (by decide)).1
        exact hm.1 this
  | succ n ih =>
    intro s w hs hw
    cases s with
    | nil => exact ih [] w (by simp) hw
    | cons c s =>
      have hs' : s.length ≤ n := by simp at hs; omega
      have hsuf : ∀ v, v <:+ w → ∀ c ∈ v, isWordChar c = true := fun v hv c hc => hw c (hv.subset hc)
      have hnil := (ih s [] hs' (by simp)).1
      rw [List.nil_append] at hnil
      constructor
      · rw [findAll]
        by_cases hc : isWordChar c = true
        · rw [if_pos hc]
          have := (ih s (w ++ [c]) hs' (by
            intro d hd
            rcases List.mem_append.1 hd with hd | hd
            · exact hw d hd
            · rw [List.mem_singleton.1 hd]; exact hc)).1
          simpa using this
        · rw [if_neg hc]
          have hc' : isWordChar c = false := by simpa using hc
          by_cases he : c = '=' ∧ w ≠ []
          · rw [if_pos he, he.1]
            exact (ih s w hs' hw).2 he.2
          · rw [if_neg he]
            have hskip : FindAll (c :: s) (findAll [] false s) := by
              refine .skip (fun x b rest hm => ?_) hnil
              exact hm.1 (match_word (v := []) hm rfl (by simp) hc').1
            refine skip_word hw (fun v hv hs x b rest hm => ?_) hskip
            have h1 := match_word hm rfl (hsuf v hs) hc'
            refine he ⟨h1.2.1, fun hw0 => hv ?_⟩
            subst hw0
            exact List.suffix_nil.1 hs
      · intro hne
        have nohit : c ≠ '0' → c ≠ '1' → ∀ r, FindAll (c :: s) r → FindAll (w ++ '=' :: c :: s) r := by
          intro h0 h1 r hr
          refine skip_word hw (fun v hv hs x b rest hm => ?_) (.skip (fun x b rest hm => ?_) hr)
          · have := (match_word hm rfl (hsuf v hs) (by decide)).2.2
            cases b
            · exact h0 (List.cons.inj this).1
            · exact h1 (List.cons.inj this).1
          · exact hm.1 (match_word (v := []) hm rfl (by simp) (by decide)).1
        rw [findAll]
        by_cases h0 : c = '0'
        · rw [if_pos h0]
          exact .hit (rest := s) ⟨hne, hw, by rw [h0]; rfl⟩ hnil
        · rw [if_neg h0]
          by_cases h1 : c = '1'
          · rw [if_pos h1]
            exact .hit (rest := s) ⟨hne, hw, by rw [h1]; rfl⟩ hnil
          · rw [if_neg h1]
            by_cases hc : isWordChar c = true
            · rw [if_pos hc]
              refine nohit h0 h1 _ ?_
              exact (ih s [c] hs' (by simpa using hc)).1
            · rw [if_neg hc]
              refine nohit h0 h1 _ ?_
              have hc' : isWordChar c = false := by simpa using hc
              refine .skip (fun x b rest hm => ?_) hnil
              exact hm.1 (match_word (v := []) hm rfl (by simp) hc').1

/-- C116. The values that are read from a label, whatever text it is, are those of all matches of `name=0` and `name=1`, from
the left and without overlaps; the last one of a name counts. -/
theorem parseLabel_spec (s : List Char) : ∃ l, FindAll s l ∧
    parseLabel s = l.foldl (fun d p => Dict.set d (String.ofList p.1) p.2) [] :=
  ⟨_, by simpa using (findAll_both s.length s [] (Nat.le_refl _) (by simp)).1, rfl⟩

/-- There is only one list of matches. -/
theorem FindAll.unique {s : List Char} {l m : List (List Char × Bool)} (h1 : FindAll s l) (h2 : FindAll s m) : l = m := by
  induction h1 generalizing m with
  | nil =>
    cases h2 with
    | nil => rfl
    | hit yes _ => obtain ⟨_, _, h⟩ := yes; simp at h
  | skip no _ ih =>
    cases h2 with
    | skip _ h => exact ih h
    | hit yes _ => exact absurd yes (no _ _ _)
  | @hit s w rest b r yes _ ih =>
    cases h2 with
    | nil => obtain ⟨_, _, h⟩ := yes; simp at h
    | skip no _ => exact absurd yes (no _ _ _)
    | @hit _ w' rest' b' r' yes' h =>
      have h3 := match_word yes' yes.2.2 yes.2.1 (by decide)
      obtain ⟨rfl, -, h4⟩ := h3
      have hb : b = b' ∧ rest = rest' := by
        cases b <;> cases b' <;> simp at h4 <;> simp [h4]
      obtain ⟨rfl, rfl⟩ := hb
      rw [ih h]

/-! ## Exceptions of the call -/

/-- C116. For a formula given as text without the variables of both players, `synthesize` raises a `TypeError`, with the files
as they were. -/
theorem synthesize_no_variables (order : List Cache.Part) (ord : List (List Char) → List (List Char)) (exe : Option Exe)
    (files : Files) (x : List Char) (envVars sysVars : Option (Dict String Dom)) (h : envVars = none ∨ sysVars = none) :
    synthesize order ord exe files (.str x) envVars sysVars = (files, .error .typeError) := by
  unfold synthesize variablesOf
  rcases h with rfl | rfl
  · rfl
  · cases envVars <;> rfl

/-- C116. A text that is not a formula is an `Exception` of the parser, and nothing is written. -/
theorem synthesize_no_formula (order : List Cache.Part) (ord : List (List Char) → List (List Char)) (exe : Option Exe)
    (files : Files) {x : List Char} (hx : Tulip.parse x = none) {e s : Dict String Dom} (he : e.Wf) (hs : s.Wf)
    (hb : (∀ p ∈ e, p.2 = .boolean) ∧ ∀ p ∈ s, p.2 = .boolean) (envVars sysVars : Option (Dict String Dom)) :
    synthesize order ord exe files (.str x) (some e) (some s) = (files, .error .exception) ∧
    synthesize order ord exe files (.ltl x e s) envVars sysVars = (files, .error .exception) := by
  have hu := (update_boolean he hs).2 ⟨hb.2, fun p hp _ => hb.1 p hp⟩
  constructor <;>
  · unfold synthesize variablesOf formulaOf
    dsimp only
    rw [if_pos hu, hx]

/-- C116. Lily is called with the file `io_partition.txt` that holds the names of the variables, and the strategy is read from
`ltl2vl-synthesis.dot`: without the executable or without this file an exception is raised. -/
theorem synthesize_no_file {order : List Cache.Part} {ord : List (List Char) → List (List Char)} {exe : Option Exe}
    {files : Files} {f : Formula} {envVars sysVars : Option (Dict String Dom)} {e s : Dict String Dom} {x : List Char}
    (hv : variablesOf f envVars sysVars = .ok (e, s)) (he : e.Wf) (hs : s.Wf)
    (hb : (∀ p ∈ e, p.2 = .boolean) ∧ ∀ p ∈ s, p.2 = .boolean) (hx : formulaOf order f e s = .ok x)
    (hE : ∀ E, exe = some E → (E x "io_partition.txt"
      (files.set "io_partition.txt" (partitionText e s))).get? "ltl2vl-synthesis.dot" = none) :
    (synthesize order ord exe files f envVars sysVars).2 = .error .exception ∧
    (exe = none → (synthesize order ord exe files f envVars sysVars).1 =
      files.set "io_partition.txt" (partitionText e s)) := by
  have hu := (update_boolean he hs).2 ⟨hb.2, fun p hp _ => hb.1 p hp⟩
  unfold synthesize
  rw [hv]
  dsimp only
  rw [if_pos hu, hx]
  dsimp only
  cases exe with
  | none => exact ⟨rfl, fun _ => rfl⟩
  | some E =>
    dsimp only
    unfold readResult
    have : (E x partitionFile (files.set partitionFile (partitionText e s))).get? dotFile = none := hE E rfl
    rw [this]
    exact ⟨rfl, fun h => by cases h⟩

/-! ## When the reader returns -/

/-- The edge line `line` goes from the node `a` to the node `b`. -/
def EdgeLine (line a b : List Char) : Prop :=
  ∃ edge annot x y, LtlFile.splitStr c!"[label=\"" line = [edge, annot] ∧ LtlFile.splitStr c!"->" edge = [x, y] ∧
    a = Gw.strip x ∧ b = Gw.strip y

/-- The line of a node has the text `annot` as annotation. -/
def NodeLine (line node annot : List Char) : Prop :=
  ∃ x, LtlFile.splitStr c!"[" line = [x, annot] ∧ node = Gw.strip x

theorem readEdges_ok (ls : List (List Char)) :
    (∃ es, readEdges ls = .ok es) ↔ ∀ l ∈ ls, ∃ a b, EdgeLine l a b := by
  induction ls with
  | nil => simp [readEdges]
  | cons l ls ih =>
    have hl : (∃ e, readEdge l = .ok e) ↔ ∃ a b, EdgeLine l a b := by
      unfold readEdge EdgeLine
      constructor
      · rintro ⟨e, h⟩
        split at h
        · rename_i edge annot h1
          split at h
          · rename_i a b h2
            exact ⟨_, _, edge, annot, a, b, h1, h2, rfl, rfl⟩
          · cases h
        · cases h
      · rintro ⟨a, b, edge, annot, x, y, h1, h2, -, -⟩
        rw [h1]
        dsimp only
        rw [h2]
        exact ⟨_, rfl⟩
    simp only [List.forall_mem_cons, ← hl, ← ih, readEdges]
    cases readEdge l with
    | error e => simp [error_bind]
    | ok e =>
      simp only [ok_bind]
      cases readEdges ls with
      | error e => simp [error_bind]
      | ok es => simp [ok_bind]

theorem readEdges_mem {ls : List (List Char)} {es : List (List Char × List Char × List Char)} (h : readEdges ls = .ok es)
    (a b : List Char) : (∃ t, (a, b, t) ∈ es) ↔ ∃ l ∈ ls, EdgeLine l a b := by
  induction ls generalizing es with
  | nil => cases h; simp
  | cons l ls ih =>
    rw [readEdges] at h
    obtain ⟨e, h1, h⟩ := bind_split' h
    obtain ⟨es', h2, h⟩ := bind_split' h
    cases h
    have he : (∃ t, e = (a, b, t)) ↔ EdgeLine l a b := by
      unfold readEdge at h1
      unfold EdgeLine
      split at h1
      · rename_i edge annot g1
        split at h1
        · rename_i x y g2
          cases h1
          constructor
          · rintro ⟨t, ht⟩
            simp only [Prod.mk.injEq] at ht
            exact ⟨edge, annot, x, y, g1, g2, ht.1.symm, ht.2.1.symm⟩
          · rintro ⟨edge', annot', x', y', g3, g4, rfl, rfl⟩
            rw [g1] at g3
            simp only [List.cons.injEq, and_true] at g3
            rw [← g3.1, g2] at g4
            simp only [List.cons.injEq, and_true] at g4
            rw [g4.1, g4.2]
            exact ⟨_, rfl⟩
        · cases h1
      · cases h1
    rw [List.exists_mem_cons_iff, ← ih h2, ← he]
    constructor
    · rintro ⟨t, ht⟩
      rcases List.mem_cons.1 ht with rfl | ht
      · exact .inl ⟨t, rfl⟩
      · exact .inr ⟨t, ht⟩
    · rintro (⟨t, rfl⟩ | ⟨t, ht⟩)
      · exact ⟨t, by simp⟩
      · exact ⟨t, by simp [ht]⟩

theorem readNodes_ok (ls : List (List Char)) :
    (∃ ns, readNodes ls = .ok ns) ↔ ∀ l ∈ ls, ∃ n t, NodeLine l n t := by
  induction ls with
  | nil => simp [readNodes]
  | cons l ls ih =>
    rw [List.forall_mem_cons, ← ih, readNodes]
    unfold NodeLine
    constructor
    · rintro ⟨ns, h⟩
      obtain ⟨n, h1, h⟩ := bind_split' h
      obtain ⟨ns', h2, h⟩ := bind_split' h
      refine ⟨?_, ns', h2⟩
      split at h1
      · rename_i node annot g
        exact ⟨_, annot, node, g, rfl⟩
      · cases h1
    · rintro ⟨⟨n, t, x, g, -⟩, ns, h2⟩
      rw [g, h2]
      dsimp only
      split
      · exact ⟨_, rfl⟩
      · exact ⟨_, rfl⟩

theorem readNodes_mem {ls : List (List Char)} {ns : List (List Char)} (h : readNodes ls = .ok ns) (n : List Char) :
    n ∈ ns ↔ ∃ l ∈ ls, ∃ t, NodeLine l n t ∧ occurs c!"shape=" t = false := by
  induction ls generalizing ns with
  | nil => cases h; simp
  | cons l ls ih =>
    rw [readNodes] at h
    obtain ⟨m, h1, h⟩ := bind_split' h
    obtain ⟨ns', h2, h⟩ := bind_split' h
    cases h
    have hm : n ∈ m ↔ ∃ t, NodeLine l n t ∧ occurs c!"shape=" t = false := by
      unfold NodeLine
      split at h1
      · rename_i node annot g
        by_cases ho : occurs c!"shape=" annot = true
        · rw [if_pos ho] at h1
          cases h1
          simp only [List.not_mem_nil, false_iff]
          rintro ⟨t, ⟨x, g', -⟩, ht⟩
          rw [g] at g'
          simp only [List.cons.injEq, and_true] at g'
          rw [← g'.2, ho] at ht
          cases ht
        · rw [if_neg ho] at h1
          cases h1
          constructor
          · intro hn
            exact ⟨annot, ⟨node, g, by simpa using hn⟩, by simpa using ho⟩
          · rintro ⟨t, ⟨x, g', rfl⟩, ht⟩
            rw [g] at g'
            simp only [List.cons.injEq, and_true] at g'
            rw [← g'.1]
            simp
      · cases h1
    rw [List.mem_append, List.exists_mem_cons_iff, ih h2, hm]

theorem addNode_ne {g g' : LGraph Node Bool} {n : Node} {a : Attr Bool} (h : g.addNode n a = .ok g') : g'.nodes ≠ [] := by
  unfold LGraph.addNode at h
  obtain ⟨t, -, h⟩ := bind_split' h
  split at h
  · cases h
  · cases h
    intro he
    have he : g.nodes.set n _ = [] := he
    cases hg : g.nodes <;> simp [hg, Dict.set] at he
    split at he <;> simp at he

theorem addNodesFrom_ne {l : List (Node × Attr Bool)} {g g' : LGraph Node Bool} (h : g.addNodesFrom l = (g', none))
    (hne : l ≠ [] ∨ g.nodes ≠ []) : g'.nodes ≠ [] := by
  unfold LGraph.addNodesFrom at h
  induction l generalizing g with
  | nil =>
    simp [LGraph.seqM] at h
    rw [← h]
    simpa using hne
  | cons p l ih =>
    unfold LGraph.seqM at h
    cases h1 : g.addNode p.1 p.2 with
    | error e => rw [h1] at h; simp at h
    | ok g1 =>
      rw [h1] at h
      exact ih h (.inr (addNode_ne h1))

theorem seqM_addInitial_nil {l : List Node} {g g' : LGraph Node Bool} (hg : g.nodes = [])
    (h : LGraph.seqM (fun g v => g.addInitial v) g l = (g', none)) : l = [] := by
  cases l with
  | nil => rfl
  | cons v l =>
    unfold LGraph.seqM at h
    have : ∃ e, g.addInitial v = .error e := by
      unfold LGraph.addInitial
      rw [if_neg (by simp [LGraph.hasNode, hg, Dict.has])]
      exact ⟨_, rfl⟩
    obtain ⟨e, he⟩ := this
    rw [he] at h
    simp at h

/-- C116. The reader of strategies returns exactly if, among the lines that start with `"title"`, those with an arrow are lines of
edges and the other ones lines of nodes, every node of an edge is a node of the environment (the annotation of its line
has no `shape=`) or starts with `init-`, and no edge starts at one of the latter. -/
theorem strategy2moore_returns {ord : List (List Char) → List (List Char)} (hord : ∀ l, (ord l).Perm l) (text : List Char)
    (envVars sysVars : List String) :
    (∃ m, strategy2moore ord text envVars sysVars = .ok m) ↔
    (∀ l ∈ titleLines text, occurs c!"->" l = true → ∃ a b, EdgeLine l a b) ∧
    (∀ l ∈ titleLines text, occurs c!"->" l = false → ∃ n t, NodeLine l n t) ∧
    ∀ l ∈ titleLines text, occurs c!"->" l = true → ∀ a b, EdgeLine l a b → ¬ c!"init-" <+: a ∧
      ∀ n, n = a ∨ n = b → c!"init-" <+: n ∨
        ∃ k ∈ titleLines text, occurs c!"->" k = false ∧ ∃ t, NodeLine k n t ∧ occurs c!"shape=" t = false := by
  have m1 : ∀ l, l ∈ ord ((titleLines text).filter isEdgeLine).dedup ↔ l ∈ titleLines text ∧ occurs c!"->" l = true := by
    intro l
    rw [(hord _).mem_iff, List.mem_dedup, List.mem_filter]
    rfl
  have m2 : ∀ l, l ∈ ord ((titleLines text).filter fun l => !isEdgeLine l).dedup ↔
      l ∈ titleLines text ∧ occurs c!"->" l = false := by
    intro l
    rw [(hord _).mem_iff, List.mem_dedup, List.mem_filter]
    simp [isEdgeLine]
  have key : ∀ edges envNodes, readEdges (ord ((titleLines text).filter isEdgeLine).dedup) = .ok edges →
      readNodes (ord ((titleLines text).filter fun l => !isEdgeLine l).dedup) = .ok envNodes →
      ((∃ m, strategy2moore ord text envVars sysVars = .ok m) ↔
        (∀ a b t, (a, b, t) ∈ edges → ¬ c!"init-" <+: a ∧ ∀ n, n = a ∨ n = b → c!"init-" <+: n ∨ n ∈ envNodes)) := by
    intro edges envNodes h1 h2
    have hinit : ∀ n, isInit n = true ↔ c!"init-" <+: n := fun n => List.isPrefixOf_iff_prefix
    have hsys : ord (((edges.flatMap fun e => [e.1, e.2.1]).dedup.filter fun n => !isInit n).filter
        fun n => !decide (n ∈ envNodes)) = [] ↔
        ∀ a b t, (a, b, t) ∈ edges → ∀ n, n = a ∨ n = b → c!"init-" <+: n ∨ n ∈ envNodes := by
      rw [List.eq_nil_iff_forall_not_mem]
      simp only [(hord _).mem_iff, List.mem_filter, List.mem_dedup, List.mem_flatMap, List.mem_cons, List.not_mem_nil,
        or_false, not_and, Bool.not_eq_true', decide_eq_false_iff_not, not_not, and_imp]
      constructor
      · intro h a b t he n hn
        by_cases hi : isInit n = true
        · exact .inl ((hinit n).1 hi)
        · exact .inr (h n ⟨_, he, hn⟩ (by simpa using hi))
      · rintro h n ⟨⟨a, b, t⟩, he, hn⟩ hi
        refine (h a b t he n hn).resolve_left fun hp => ?_
        rw [(hinit n).2 hp] at hi
        cases hi
    have hph : ∀ es : List (Node × Node × List Char), es = edges.map (fun e => (Node.other e.1, Node.other e.2.1, e.2.2)) →
        ((ord ((edges.flatMap fun e => [e.1, e.2.1]).dedup.filter isInit)).flatMap (fun u => succs es (.other u)) = [] ↔
        ∀ a b t, (a, b, t) ∈ edges → ¬ c!"init-" <+: a) := by
      rintro es rfl
      rw [List.flatMap_eq_nil_iff]
      simp only [(hord _).mem_iff, List.mem_filter, List.mem_dedup, List.mem_flatMap, List.mem_cons, List.not_mem_nil,
        or_false, and_imp]
      constructor
      · intro h a b t he hp
        have := h a ⟨_, he, .inl rfl⟩ ((hinit a).2 hp)
        have hm : Node.other b ∈ succs (edges.map fun e => (Node.other e.1, Node.other e.2.1, e.2.2)) (.other a) := by
          unfold succs
          rw [List.mem_dedup, List.mem_map]
          exact ⟨(.other a, .other b, t), List.mem_filter.2 ⟨List.mem_map.2 ⟨_, he, rfl⟩, by simp⟩, rfl⟩
        rw [this] at hm
        cases hm
      · intro h u _ hi
        rw [List.eq_nil_iff_forall_not_mem]
        intro x hx
        unfold succs at hx
        rw [List.mem_dedup, List.mem_map] at hx
        obtain ⟨e, he, -⟩ := hx
        rw [List.mem_filter, List.mem_map] at he
        obtain ⟨⟨⟨a, b, t⟩, he, rfl⟩, hu⟩ := he
        simp only [decide_eq_true_eq, Node.other.injEq] at hu
        subst hu
        exact h a b t he ((hinit a).1 hi)
    have hsplit : (∀ a b t, (a, b, t) ∈ edges → ¬ c!"init-" <+: a ∧ ∀ n, n = a ∨ n = b → c!"init-" <+: n ∨ n ∈ envNodes) ↔
        (∀ a b t, (a, b, t) ∈ edges → ∀ n, n = a ∨ n = b → c!"init-" <+: n ∨ n ∈ envNodes) ∧
        ∀ a b t, (a, b, t) ∈ edges → ¬ c!"init-" <+: a :=
      ⟨fun h => ⟨fun a b t he => (h a b t he).2, fun a b t he => (h a b t he).1⟩,
        fun h a b t he => ⟨h.2 a b t he, h.1 a b t he⟩⟩
    have hnode : ∀ x, nodeOf [] x = .other x := fun x => by simp [nodeOf]
    rw [hsplit, ← hsys]
    unfold strategy2moore
    dsimp only
    rw [h1, ok_bind, h2, ok_bind]
    generalize hS : ord (((edges.flatMap fun e => [e.1, e.2.1]).dedup.filter fun n => !isInit n).filter
        fun n => !decide (n ∈ envNodes)) = S at *
    constructor
    · rintro ⟨m, h⟩
      obtain ⟨g1, k1, h⟩ := bind_split' h
      obtain ⟨g2, k2, h⟩ := bind_split' h
      obtain ⟨g3, k3, h⟩ := bind_split' h
      have e2 := seqM_addInitial (toExcept_ok k2)
      obtain ⟨e3, rfl⟩ := seqM_label (toExcept_ok k3)
      have hn : g3.nodes = [] := by simpa [Dict.keys] using e3
      have hn1 : g1.nodes = [] := e2.1 ▸ hn
      have hS0 : S = [] := by
        by_contra hne
        refine addNodesFrom_ne (toExcept_ok k1) (.inl ?_) hn1
        simpa [List.range_eq_nil] using hne
      subst hS0
      refine ⟨rfl, (hph _ rfl).1 ?_⟩
      have := seqM_addInitial_nil hn1 (toExcept_ok k2)
      simp only [hnode] at this
      exact this
    · rintro ⟨rfl, h⟩
      have := (hph _ rfl).2 h
      simp only [hnode]
      rw [this]
      exact ⟨_, rfl⟩
  constructor
  · rintro ⟨m, hm⟩
    have hm' := hm
    unfold strategy2moore at hm
    dsimp only at hm
    obtain ⟨edges, h1, hm⟩ := bind_split' hm
    obtain ⟨envNodes, h2, hm⟩ := bind_split' hm
    have hk := (key _ _ h1 h2).1 ⟨m, hm'⟩
    refine ⟨fun l hl ho => (readEdges_ok _).1 ⟨_, h1⟩ l ((m1 l).2 ⟨hl, ho⟩),
      fun l hl ho => (readNodes_ok _).1 ⟨_, h2⟩ l ((m2 l).2 ⟨hl, ho⟩), fun l hl ho a b he => ?_⟩
    obtain ⟨t, ht⟩ := (readEdges_mem h1 a b).2 ⟨l, (m1 l).2 ⟨hl, ho⟩, he⟩
    obtain ⟨r1, r2⟩ := hk a b t ht
    refine ⟨r1, fun n hn => (r2 n hn).imp id fun hn => ?_⟩
    obtain ⟨k, hk1, t, ht⟩ := (readNodes_mem h2 n).1 hn
    exact ⟨k, ((m2 k).1 hk1).1, ((m2 k).1 hk1).2, t, ht⟩
  · rintro ⟨h1, h2, h3⟩
    obtain ⟨edges, k1⟩ := (readEdges_ok _).2 fun l hl => h1 l ((m1 l).1 hl).1 ((m1 l).1 hl).2
    obtain ⟨envNodes, k2⟩ := (readNodes_ok _).2 fun l hl => h2 l ((m2 l).1 hl).1 ((m2 l).1 hl).2
    refine (key _ _ k1 k2).2 fun a b t ht => ?_
    obtain ⟨l, hl, he⟩ := (readEdges_mem k1 a b).1 ⟨t, ht⟩
    obtain ⟨r1, r2⟩ := h3 l ((m1 l).1 hl).1 ((m1 l).1 hl).2 a b he
    refine ⟨r1, fun n hn => (r2 n hn).imp id ?_⟩
    rintro ⟨k, hk1, hk2, t, ht⟩
    exact (readNodes_mem k2 n).2 ⟨k, (m2 k).2 ⟨hk1, hk2⟩, t, ht⟩

/-! ## Examples -/

/-- Overlaps and half matches. -/
example : parseLabel c!"x=y=1 z==0, a=01 b=0=1" = [("y", true), ("a", false), ("b", false)] := by decide +kernel

/-- A file with an edge between nodes of the environment is read; the machine has no states. -/
example : (strategy2moore id c!"\"title\" -> init-1 [label=\"a=1\"\n\"title\" [style=invis" [] ["a"]).toOption.isSome =
    true := by decide +kernel

example : Tulip.parse c!"a -> " = none := by decide +kernel

end Lily
end Tulip
