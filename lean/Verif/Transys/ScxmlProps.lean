import Verif.Transys.Scxml
import Verif.Transys.GraphProps

/-!
# State charts of Mealy machines (C120)

The export raises `TypeError` for every machine. If the call of the set of initial states is repaired, then the markup
that is written lists states and transitions, but it is not well-formed XML when the machine has a transition.
-/

namespace Tulip.Scxml

variable {ν V : Type} [DecidableEq ν] [DecidableEq V]

/-! ### Specification: markup of a text -/

/-- The texts between `<` and `>`, in order; `none` outside of a tag. -/
def scan : Option Str → Str → List Str
  | none, [] => []
  | some a, [] => [a]
  | none, c :: s => if c = '<' then scan (some []) s else scan none s
  | some a, c :: s => if c = '>' then a :: scan none s else scan (some (a ++ [c])) s

/-- The tags of a text. -/
def tags (s : Str) : List Str := scan none s

/-- The name of an element: up to the first blank. -/
def tagName (c : Str) : Str := c.takeWhile fun x => x != ' ' && x != '\n' && x != '\t'

/-- Do the tags match? `?…` is a declaration, `/x` closes the element that was opened last, `x …/` is an empty
element, anything else opens an element. -/
def matched : List Str → List Str → Bool
  | stack, [] => stack.isEmpty
  | stack, c :: cs =>
    if c.head? = some '?' then matched stack cs
    else if c.head? = some '/' then
      match stack with
      | [] => false
      | x :: xs => decide (x = c.drop 1) && matched xs cs
    else if c.getLast? = some '/' then matched stack cs
    else matched (tagName c :: stack) cs

/-- Each opened element is closed, in the right order. -/
def TagsMatch (s : Str) : Prop := matched [] (tags s) = true

/-- The tags of the transitions of the machine that leave `u`: an empty element with the condition and the target, and
then one more closing tag. -/
def transTags (str : ν → Str) (repr : Attr V → Str) (e : ν × ν × Attr V) : List Str :=
  [c!"transition \n\t\t\tevent=\"input_present\" \n\t\t\tcond=\"" ++ repr e.2.2 ++ c!"\" \n\t\t\ttarget=\"" ++
    str e.2.1 ++ c!"\"/", c!"/transition"]

/-- The tags of a state. -/
def stateTags (str : ν → Str) (repr : Attr V → Str) (g : LGraph ν V) (u : ν) : List Str :=
  [c!"state id=\"" ++ str u ++ c!"\""] ++ (g.edges.filter fun e => e.1 = u).flatMap (transTags str repr) ++ [c!"/state"]

/-- Text without markup. -/
def Plain (s : Str) : Prop := '<' ∉ s ∧ '>' ∉ s

/-! ### Lemmas -/

theorem scan_plain {s : Str} (h : '<' ∉ s) (t : Str) : scan none (s ++ t) = scan none t := by
  induction s with
  | nil => rfl
  | cons c s ih =>
    simp only [List.mem_cons, not_or] at h
    show scan none (c :: (s ++ t)) = _
    rw [scan, if_neg (Ne.symm h.1), ih h.2]

theorem scan_inside {s : Str} (h : '>' ∉ s) (a t : Str) : scan (some a) (s ++ '>' :: t) = (a ++ s) :: scan none t := by
  induction s generalizing a with
  | nil =>
    show scan (some a) ('>' :: t) = _
    rw [scan, if_pos rfl, List.append_nil]
  | cons c s ih =>
    simp only [List.mem_cons, not_or] at h
    show scan (some a) (c :: (s ++ '>' :: t)) = _
    rw [scan, if_neg (Ne.symm h.1), ih h.2, List.append_assoc]
    rfl

/-- One tag. -/
theorem scan_tag {s : Str} (h : '>' ∉ s) (t : Str) : scan none ('<' :: (s ++ '>' :: t)) = s :: scan none t := by
  rw [scan, if_pos rfl, scan_inside h]
  rfl

theorem findEdges_from (g : LGraph ν V) (u : ν) :
    g.findEdges (some [u]) none [] = .ok (g.edges.filter fun e => e.1 = u) := by
  have key : ∀ l : List (ν × ν × Attr V), LGraph.filterM' (g.edgeMatches []) l = .ok l := by
    intro l
    induction l with
    | nil => rfl
    | cons e l ih =>
      unfold LGraph.filterM'
      rw [ih]
      rfl
  unfold LGraph.findEdges
  simp only [key, List.mem_singleton]

theorem scan_trans {str : ν → Str} {repr : Attr V → Str} {e : ν × ν × Attr V} (h1 : Plain (repr e.2.2))
    (h2 : Plain (str e.2.1)) (t : Str) :
    scan none (transText str repr e ++ t) = transTags str repr e ++ scan none t := by
  have e1 : transText str repr e ++ t = c!"\n\t\t" ++ '<' :: ((c!"transition \n\t\t\tevent=\"input_present\" \n\t\t\tcond=\"" ++
      repr e.2.2 ++ c!"\" \n\t\t\ttarget=\"" ++ str e.2.1 ++ c!"\"/") ++ '>' :: (c!"\n\t\t" ++ '<' :: (c!"/transition" ++
      '>' :: t))) := by
    simp [transText, indent, List.replicate]
  rw [e1, scan_plain (by decide), scan_tag, scan_plain (by decide), scan_tag (by decide)]
  · rfl
  · simp only [List.mem_append, not_or]
    exact ⟨⟨⟨⟨by decide, h1.2⟩, by decide⟩, h2.2⟩, by decide⟩

theorem scan_transs {str : ν → Str} {repr : Attr V → Str} {es : List (ν × ν × Attr V)}
    (h : ∀ e ∈ es, Plain (repr e.2.2) ∧ Plain (str e.2.1)) (t : Str) :
    scan none (es.flatMap (transText str repr) ++ t) = es.flatMap (transTags str repr) ++ scan none t := by
  induction es with
  | nil => rfl
  | cons e es ih =>
    rw [List.flatMap_cons, List.append_assoc, scan_trans (h e (by simp)).1 (h e (by simp)).2,
      ih fun x hx => h x (by simp [hx]), List.flatMap_cons, List.append_assoc]

theorem scan_states {str : ν → Str} {repr : Attr V → Str} {g : LGraph ν V} (hs : ∀ u, Plain (str u))
    (hr : ∀ a, Plain (repr a)) : ∀ (us : List ν) (s : Str), statesStr str repr g us = .ok s → ∀ t,
      scan none (s ++ t) = us.flatMap (stateTags str repr g) ++ scan none t := by
  intro us
  induction us with
  | nil =>
    intro s h t
    cases h
    rfl
  | cons u us ih =>
    intro s h t
    unfold statesStr transitionsStr at h
    rw [findEdges_from] at h
    simp only [ok_bind] at h
    cases hq : statesStr str repr g us with
    | error e => rw [hq] at h; cases h
    | ok r =>
      rw [hq] at h
      simp only [ok_bind, Except.ok.injEq] at h
      have e1 : s ++ t = c!"\t" ++ '<' :: ((c!"state id=\"" ++ str u ++ c!"\"") ++ '>' ::
          ((g.edges.filter fun e => e.1 = u).flatMap (transText str repr) ++ (c!"\n\t" ++ '<' :: (c!"/state" ++ '>' ::
            (c!"\n" ++ (r ++ t)))))) := by
        rw [← h]
        simp
      rw [e1, scan_plain (by decide), scan_tag, scan_transs (fun e _ => ⟨hr _, hs _⟩), scan_plain (by decide),
        scan_tag (by decide), scan_plain (by decide), ih r hq t]
      · simp [stateTags]
      · simp only [List.mem_append, not_or]
        exact ⟨⟨by decide, (hs u).2⟩, by decide⟩

theorem statesStr_ok (str : ν → Str) (repr : Attr V → Str) (g : LGraph ν V) (us : List ν) :
    ∃ s, statesStr str repr g us = .ok s := by
  induction us with
  | nil => exact ⟨[], rfl⟩
  | cons u us ih =>
    obtain ⟨s, h⟩ := ih
    unfold statesStr transitionsStr
    rw [findEdges_from]
    simp only [ok_bind, h]
    exact ⟨_, rfl⟩

/-! ### Theorems -/

/-- C120. The export raises `TypeError` for every machine, since the set of initial states cannot be called. -/
theorem mealy2scxml_raises (str : ν → Str) (repr : Attr V → Str) (g : LGraph ν V) :
    mealy2scxml str repr g = .error .typeError := rfl

/-- C120. With a list of initial states, a machine is exported if, and only if, it has exactly one. -/
theorem intended_ok_iff (str : ν → Str) (repr : Attr V → Str) (g : LGraph ν V) :
    (∃ s, intended str repr g = .ok s) ↔ ∃ i, g.initial = [i] := by
  unfold intended exportWith
  constructor
  · rintro ⟨s, h⟩
    match hi : g.initial with
    | [i] => exact ⟨i, rfl⟩
    | [] => rw [hi] at h; cases h
    | _ :: _ :: _ =>
      rw [hi] at h
      simp only [ok_bind] at h
      rw [if_pos (by simp)] at h
      cases h
  · rintro ⟨i, hi⟩
    obtain ⟨s, h⟩ := statesStr_ok str repr g g.nodes.keys
    rw [hi]
    simp only [ok_bind]
    rw [if_neg (by simp)]
    simp only [h, ok_bind]
    exact ⟨_, rfl⟩

/-- C120. The tags of the repaired export: the initial state, then the states in their order, each with all transitions that
leave it, with their labels and targets. -/
theorem intended_tags {str : ν → Str} {repr : Attr V → Str} {g : LGraph ν V} {s : Str} (hs : ∀ u, Plain (str u))
    (hr : ∀ a, Plain (repr a)) (h : intended str repr g = .ok s) :
    ∃ i, g.initial = [i] ∧ tags s = [c!"?xml version=\"1.0\" encoding=\"UTF-8\"?",
      c!"scxml xmlns=\"http://www.w3.org/2005/07/scxml\"  version=\"1.0\" " ++ c!"initial=\"" ++ str i ++ c!"\""] ++
      (g.nodes.map (·.1)).flatMap (stateTags str repr g) ++ [c!"/scxml"] := by
  obtain ⟨i, hi⟩ := (intended_ok_iff str repr g).1 ⟨s, h⟩
  refine ⟨i, hi, ?_⟩
  unfold intended exportWith at h
  rw [hi] at h
  simp only [ok_bind] at h
  rw [if_neg (by simp)] at h
  cases hq : statesStr str repr g g.nodes.keys with
  | error e => rw [hq] at h; cases h
  | ok r =>
    rw [hq] at h
    simp only [ok_bind, Except.ok.injEq] at h
    have e1 : s = '<' :: (c!"?xml version=\"1.0\" encoding=\"UTF-8\"?" ++ '>' :: (c!"\n" ++ '<' ::
        ((c!"scxml xmlns=\"http://www.w3.org/2005/07/scxml\"  version=\"1.0\" " ++ c!"initial=\"" ++ str i ++ c!"\"") ++
          '>' :: (c!"\n" ++ (r ++ '<' :: (c!"/scxml" ++ '>' :: [])))))) := by
      rw [← h]
      simp
    unfold tags
    rw [e1, scan_tag (by decide), scan_plain (by decide), scan_tag, scan_plain (by decide),
      scan_states hs hr _ r hq, scan_tag (by decide)]
    · simp [scan, Dict.keys]
    · simp only [List.mem_append, not_or]
      exact ⟨⟨⟨by decide, by decide⟩, (hs i).2⟩, by decide⟩

theorem getLast_quote (s : Str) : (s ++ c!"\"").getLast? = some '"' := by simp

theorem matched_open {c : Str} (h1 : c.head? ≠ some '?') (h2 : c.head? ≠ some '/') (h3 : c.getLast? ≠ some '/')
    (st cs : List Str) : matched st (c :: cs) = matched (tagName c :: st) cs := by
  cases st <;> simp only [matched, if_neg h1, if_neg h2, if_neg h3]

theorem matched_decl {c : Str} (h1 : c.head? = some '?') (st cs : List Str) : matched st (c :: cs) = matched st cs := by
  cases st <;> simp only [matched, if_pos h1]

theorem matched_empty {c : Str} (h1 : c.head? ≠ some '?') (h2 : c.head? ≠ some '/') (h3 : c.getLast? = some '/')
    (st cs : List Str) : matched st (c :: cs) = matched st cs := by
  cases st <;> simp only [matched, if_neg h1, if_neg h2, if_pos h3]

theorem matched_close {c : Str} (h1 : c.head? ≠ some '?') (h2 : c.head? = some '/') (x : Str) (st cs : List Str) :
    matched (x :: st) (c :: cs) = (decide (x = c.drop 1) && matched st cs) := by
  simp only [matched, if_neg h1, if_pos h2]

/-- The tags of a state match if it has no transitions; otherwise they do not, whatever follows. -/
theorem matched_state {str : ν → Str} {repr : Attr V → Str} {g : LGraph ν V} (u : ν) (stack rest : List Str) :
    matched stack (stateTags str repr g u ++ rest) = true ↔ (∀ e ∈ g.edges, e.1 ≠ u) ∧ matched stack rest = true := by
  have hopen : ∀ l, matched stack ((c!"state id=\"" ++ str u ++ c!"\"") :: l) = matched (c!"state" :: stack) l := by
    intro l
    rw [matched_open (by simp) (by simp) (by rw [getLast_quote]; decide)]
    rfl
  have hclose : ∀ l, matched (c!"state" :: stack) (c!"/state" :: l) = matched stack l := by
    intro l
    rw [matched_close (by decide) (by decide)]
    rfl
  unfold stateTags
  generalize c!"state id=\"" ++ str u ++ c!"\"" = op at hopen
  cases hf : (g.edges.filter fun e => e.1 = u) with
  | nil =>
    have hno : ∀ e ∈ g.edges, e.1 ≠ u := by
      intro e he hc
      have : e ∈ g.edges.filter fun e => e.1 = u := List.mem_filter.2 ⟨he, by simpa using hc⟩
      rw [hf] at this
      cases this
    show matched stack (op :: c!"/state" :: rest) = true ↔ _
    rw [hopen, hclose]
    exact ⟨fun h => ⟨hno, h⟩, fun h => h.2⟩
  | cons e es =>
    have he : e ∈ g.edges.filter fun e => e.1 = u := by rw [hf]; simp
    have heu := List.mem_filter.1 he
    have hfalse : matched stack ([op] ++ (e :: es).flatMap (transTags str repr) ++ [c!"/state"] ++ rest) = false := by
      show matched stack (op :: (_ :: c!"/transition" :: _)) = false
      rw [hopen, matched_empty (by simp) (by simp), matched_close (by decide) (by decide)]
      · rfl
      · rw [show c!"\"/" = c!"\"" ++ c!"/" from rfl, ← List.append_assoc, List.getLast?_append]
        rfl
    rw [hfalse]
    constructor
    · intro h; cases h
    · intro h
      exact absurd (by simpa using heu.2) (h.1 e heu.1)

theorem matched_states {str : ν → Str} {repr : Attr V → Str} {g : LGraph ν V} (us : List ν) (stack rest : List Str) :
    matched stack (us.flatMap (stateTags str repr g) ++ rest) = true ↔
      (∀ u ∈ us, ∀ e ∈ g.edges, e.1 ≠ u) ∧ matched stack rest = true := by
  induction us with
  | nil => simp
  | cons u us ih =>
    rw [List.flatMap_cons, List.append_assoc, matched_state, ih]
    simp only [List.mem_cons, forall_eq_or_imp, and_assoc]

/-- C120. The tags of the repaired export match exactly if no transition leaves a state: each transition is written as an empty
element and then closed again, so the file is not XML. -/
theorem intended_xml_iff {str : ν → Str} {repr : Attr V → Str} {g : LGraph ν V} {s : Str} (hs : ∀ u, Plain (str u))
    (hr : ∀ a, Plain (repr a)) (hg : ∀ e ∈ g.edges, e.1 ∈ g.nodes.map (·.1)) (h : intended str repr g = .ok s) :
    TagsMatch s ↔ g.edges = [] := by
  obtain ⟨i, -, ht⟩ := intended_tags hs hr h
  unfold TagsMatch
  rw [ht, List.append_assoc]
  show matched [] (_ :: _ :: ((g.nodes.map (·.1)).flatMap (stateTags str repr g) ++ [c!"/scxml"])) = true ↔ _
  rw [matched_decl (by decide), matched_open (by simp) (by simp) (by rw [getLast_quote]; decide)]
  rw [matched_states]
  have hn : ∀ x : Str, tagName (c!"scxml xmlns=\"http://www.w3.org/2005/07/scxml\"  version=\"1.0\" " ++ c!"initial=\"" ++
      x ++ c!"\"") = c!"scxml" := by
    intro x
    rfl
  have hc : matched [tagName (c!"scxml xmlns=\"http://www.w3.org/2005/07/scxml\"  version=\"1.0\" " ++ c!"initial=\"" ++
      str i ++ c!"\"")] [c!"/scxml"] = true := by
    rw [hn]
    decide
  rw [hc]
  simp only [and_true]
  constructor
  · intro h
    cases he : g.edges with
    | nil => rfl
    | cons e es =>
      have hmem : e ∈ g.edges := by rw [he]; simp
      exact absurd rfl (h e.1 (hg e hmem) e hmem)
  · intro h u _ e he
    rw [h] at he
    cases he

/-! ### Examples -/

/-- States are numbers below ten, written in decimal; labels are written without their values. -/
def exStr (n : Nat) : Str := [Nat.digitChar (n % 10)]

def exRepr (_ : Attr Nat) : Str := c!"{'a': 0}"

theorem exStr_plain (n : Nat) : Plain (exStr n) := by
  have h : ∀ k : Fin 10, '<' ∉ [Nat.digitChar k] ∧ '>' ∉ [Nat.digitChar k] := by decide
  exact h ⟨n % 10, Nat.mod_lt _ (by decide)⟩

example : ∀ a, Plain (exRepr a) := fun _ => by unfold exRepr Plain; decide

/-- A machine with two states and a transition. -/
def exMealy : LGraph Nat Nat :=
  { nodes := [(0, []), (1, [])], edges := [(0, 1, [("a", 0)])], initial := [0] }

/-- Its export exists, and is not XML. -/
theorem scxml_counterexample : ∃ s, intended exStr exRepr exMealy = .ok s ∧ ¬ TagsMatch s := by
  refine ⟨_, rfl, ?_⟩
  unfold TagsMatch
  decide +kernel

/-- Without transitions it is. -/
example : ∃ s, intended exStr exRepr { exMealy with edges := [] } = .ok s ∧ TagsMatch s := by
  refine ⟨_, rfl, ?_⟩
  unfold TagsMatch
  decide +kernel

example : (intended exStr exRepr { exMealy with initial := [0, 1] }) = .error .exception := rfl

end Tulip.Scxml
