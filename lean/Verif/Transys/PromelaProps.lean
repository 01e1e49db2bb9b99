import Mathlib.Tactic.FinCases
import Verif.Transys.Promela
import Verif.Transys.GraphQueryProps
import Verif.Interfaces.Ltl2ba
import Verif.Synth.ToSpecProps

/-!
# Properties of the export to Promela (C109)

The specification is a reader of the part of Promela that the files use (tokens, grammar) and the meaning of the
process: which labels it jumps to, and the values of the variables at each jump.
-/

namespace Tulip.Pml

open Ba (isIdStart isIdChar)

/-! ## Tokens -/

/-- Tokens of Promela. -/
inductive PTok where
  | word (w : List Char)
  | num (n : Nat)
  | str (w : List Char)
  | sym (c : Char)
  | colon
  | option
  deriving DecidableEq, Repr

/-- What the reader of tokens is in the middle of. -/
inductive Mode where
  | start
  | word (acc : List Char)
  | num (acc : List Char)
  | str (acc : List Char)
  | slash
  | comment
  | star
  | colon
  deriving DecidableEq, Repr

/-- A character between two tokens. -/
def fresh (c : Char) : Option (List PTok × Mode) :=
  if c = ' ' ∨ c = '\t' ∨ c = '\n' then some ([], .start)
  else if isIdStart c then some ([], .word [c])
  else if isDig c then some ([], .num [c])
  else if c = '"' then some ([], .str [])
  else if c = '/' then some ([], .slash)
  else if c = ':' then some ([], .colon)
  else if c ∈ ['{', '}', '(', ')', ';', '='] then some ([.sym c], .start)
  else none

/-- A token ends before the character `c`. -/
def emit (t : PTok) (c : Char) : Option (List PTok × Mode) := (fresh c).map fun p => (t :: p.1, p.2)

/-- One character. Comments end at the first `*/`. -/
def step : Mode → Char → Option (List PTok × Mode)
  | .start, c => fresh c
  | .word a, c => if isIdChar c then some ([], .word (a ++ [c])) else emit (.word a) c
  | .num a, c => if isDig c then some ([], .num (a ++ [c])) else emit (.num (natOf a)) c
  | .str a, c => if c = '"' then some ([.str a], .start) else some ([], .str (a ++ [c]))
  | .slash, c => if c = '*' then some ([], .comment) else none
  | .comment, c => some ([], if c = '*' then .star else .comment)
  | .star, c => some ([], if c = '/' then .start else if c = '*' then .star else .comment)
  | .colon, c => if c = ':' then some ([.option], .start) else emit .colon c

/-- All characters of a text. -/
def run : Mode → List Char → Option (List PTok × Mode)
  | m, [] => some ([], m)
  | m, c :: r =>
    match step m c with
    | none => none
    | some (ts, m') => (run m' r).map fun p => (ts ++ p.1, p.2)

/-- The tokens of a text that ends between two tokens. -/
def tokens (s : List Char) : Option (List PTok) :=
  match run .start s with
  | some (ts, .start) => some ts
  | _ => none

/-! ## Grammar -/

/-- Statements. -/
inductive Stmt where
  | goto (l : List Char)
  | printf
  | assign (x : List Char) (n : Nat)
  | atomic (body : List Stmt)
  | ifs (options : List (List Stmt))
  | label (l : List Char) (s : Stmt)

/-- A sequence has ended after a separator. -/
def ended : List PTok → Bool
  | [] => true
  | t :: _ => t = .sym '}' || t = .option || t = .word c!"fi"

mutual

/-- Reads one statement. -/
def parseStmt : Nat → List PTok → Option (Stmt × List PTok)
  | 0, _ => none
  | n + 1, .word w :: ts =>
    if w = c!"goto" then
      match ts with
      | .word l :: ts => some (.goto l, ts)
      | _ => none
    else if w = c!"if" then
      match parseOptions n ts with
      | some (os, .word e :: ts) => if e = c!"fi" then some (.ifs os, ts) else none
      | _ => none
    else if w = c!"atomic" then
      match ts with
      | .sym '{' :: ts =>
        match parseSeq n ts with
        | some (b, .sym '}' :: ts) => some (.atomic b, ts)
        | _ => none
      | _ => none
    else if w = c!"printf" then
      match ts with
      | .sym '(' :: .str _ :: .sym ')' :: ts => some (.printf, ts)
      | _ => none
    else
      match ts with
      | .sym '=' :: .num k :: ts => some (.assign w k, ts)
      | .colon :: ts =>
        match parseStmt n ts with
        | some (s, ts) => some (.label w s, ts)
        | none => none
      | _ => none
  | _ + 1, _ => none

/-- Reads statements that semicolons separate; the last may have one too. -/
def parseSeq : Nat → List PTok → Option (List Stmt × List PTok)
  | 0, _ => none
  | n + 1, ts =>
    match parseStmt n ts with
    | none => none
    | some (s, ts) =>
      match ts with
      | .sym ';' :: ts =>
        if ended ts then some ([s], ts)
        else
          match parseSeq n ts with
          | some (l, ts) => some (s :: l, ts)
          | none => none
      | _ => some ([s], ts)

/-- Reads one or more options of a selection. -/
def parseOptions : Nat → List PTok → Option (List (List Stmt) × List PTok)
  | 0, _ => none
  | n + 1, .option :: ts =>
    match parseSeq n ts with
    | none => none
    | some (o, ts) =>
      if ts.head? = some .option then
        match parseOptions n ts with
        | some (os, ts) => some (o :: os, ts)
        | none => none
      else some ([o], ts)
  | _ + 1, _ => none

end

/-- A file: declarations of Boolean variables and one active process. -/
structure Program where
  vars : List (List Char)
  name : List Char
  body : List Stmt

/-- Words that are not names. -/
def keywords : List (List Char) :=
  [c!"active", c!"assert", c!"atomic", c!"bit", c!"bool", c!"break", c!"byte", c!"chan", c!"d_step",
   c!"D_proctype", c!"do", c!"else", c!"empty", c!"enabled", c!"false", c!"fi", c!"for", c!"full", c!"goto",
   c!"hidden", c!"if", c!"in", c!"init", c!"inline", c!"int", c!"len", c!"ltl", c!"mtype", c!"nempty", c!"never",
   c!"nfull", c!"notrace", c!"np_", c!"od", c!"of", c!"pc_value", c!"pid", c!"printf", c!"printm", c!"priority",
   c!"proctype", c!"provided", c!"return", c!"run", c!"select", c!"short", c!"show", c!"skip", c!"timeout",
   c!"trace", c!"true", c!"typedef", c!"unless", c!"unsigned", c!"xr", c!"xs"]

/-- Reads the process, after the declarations. -/
def parseProc (xs : List (List Char)) (ts : List PTok) : Option Program :=
  match ts with
  | .word a :: .word p :: .word name :: .sym '(' :: .sym ')' :: .sym '{' :: ts =>
    if a = c!"active" ∧ p = c!"proctype" ∧ name ∉ keywords then
      match parseSeq (ts.length + 1) ts with
      | some (b, [.sym '}']) => some ⟨xs, name, b⟩
      | _ => none
    else none
  | _ => none

/-- Reads the declarations and the process. -/
def parseProgram (xs : List (List Char)) : List PTok → Option Program
  | .word b :: .word x :: .sym ';' :: ts =>
    if b = c!"bool" then (if x ∈ keywords then none else parseProgram (xs ++ [x]) ts)
    else parseProc xs (.word b :: .word x :: .sym ';' :: ts)
  | ts => parseProc xs ts

/-- Reads a file. -/
def readPromela (s : List Char) : Option Program :=
  match tokens s with
  | some ts => parseProgram [] ts
  | none => none

/-! ## Meaning -/

/-- Values of the variables. -/
abbrev Val := List Char → Bool

/-- From these statements and values, the process can jump next to a label, with other values. -/
inductive Jumps : List Stmt → Val → List Char → Val → Prop where
  | goto (l : List Char) (k : List Stmt) (v : Val) : Jumps (.goto l :: k) v l v
  | printf {k v l v'} : Jumps k v l v' → Jumps (.printf :: k) v l v'
  | assign {x n k v l v'} : Jumps k (fun y => if y = x then decide (n ≠ 0) else v y) l v' →
      Jumps (.assign x n :: k) v l v'
  | atomic {b k v l v'} : Jumps (b ++ k) v l v' → Jumps (.atomic b :: k) v l v'
  | ifs {os o k v l v'} : o ∈ os → Jumps (o ++ k) v l v' → Jumps (.ifs os :: k) v l v'
  | label {m s k v l v'} : Jumps (s :: k) v l v' → Jumps (.label m s :: k) v l v'

/-- The statements from a label on. -/
def target (l : List Char) : List Stmt → Option (List Stmt)
  | [] => none
  | .label m s :: k => if m = l then some (s :: k) else target l k
  | _ :: k => target l k

/-- An infinite run of a process: the label of each jump and the values of the variables there. -/
def IsRun (p : Program) (r : Nat → List Char × Val) : Prop :=
  Jumps p.body (fun _ => false) (r 0).1 (r 0).2 ∧
    ∀ i, ∃ k, target (r i).1 p.body = some k ∧ Jumps k (r i).2 (r (i + 1)).1 (r (i + 1)).2

/-! ## What is exported -/

/-- Names that the files can use: identifiers that are not keywords. -/
def IsName (w : List Char) : Prop :=
  (∃ c r, w = c :: r ∧ isIdStart c = true ∧ ∀ d ∈ r, isIdChar d = true) ∧ w ∉ keywords

/-- The label of a state. -/
def Labels (g : LGraph (List Char) LVal) (s : List Char) (l : List (List Char)) : Prop :=
  ∃ a, g.nodes.get? s = some a ∧ a.get? "ap" = some (.aps l)

/-- A transition system that can be exported. -/
structure Exportable (f : Fts) : Prop where
  ok : f.graph.Ok
  keysTyped : f.graph.KeysTyped
  noDict : f.graph.edgeTypes.has "as_dict" = false
  initial : f.graph.initial ≠ []
  states : ∀ s, f.graph.hasNode s = true → IsName s
  labels : ∀ s, f.graph.hasNode s = true → ∃ l, Labels f.graph s l
  live : ∀ s, f.graph.hasNode s = true → ∃ t, (s, t, []) ∈ f.graph.edges
  props : ∀ p ∈ f.props, IsName p

/-- The runs of the transition system over transitions without label, with all variables false at the initial state
and equal to the label from the second state on. -/
def FtsRun (f : Fts) (r : Nat → List Char × Val) : Prop :=
  (r 0).1 ∈ f.graph.initial ∧ (∀ p, (r 0).2 p = false) ∧
    ∀ i, ((r i).1, (r (i + 1)).1, []) ∈ f.graph.edges ∧
      ∃ l, Labels f.graph (r (i + 1)).1 l ∧ ∀ p, (r (i + 1)).2 p = decide (p ∈ f.props ∧ p ∈ l)

/-! ## The tokens of the text -/

/-- Reading a text goes from one mode to another and gives tokens. -/
def Lexes (m : Mode) (s : List Char) (ts : List PTok) (m' : Mode) : Prop := run m s = some (ts, m')

theorem run_append (m : Mode) (s t : List Char) {ts : List PTok} {m' : Mode} (h : run m s = some (ts, m')) :
    run m (s ++ t) = (run m' t).map fun p => (ts ++ p.1, p.2) := by
  induction s generalizing m ts with
  | nil =>
    simp only [run, Option.some.injEq, Prod.mk.injEq] at h
    obtain ⟨rfl, rfl⟩ := h
    simp
  | cons c s ih =>
    simp only [run, List.cons_append] at h ⊢
    cases hs : step m c with
    | none => rw [hs] at h; cases h
    | some q =>
      obtain ⟨us, m1⟩ := q
      rw [hs] at h
      simp only at h ⊢
      cases hr : run m1 s with
      | none => rw [hr] at h; cases h
      | some p =>
        obtain ⟨vs, m2⟩ := p
        rw [hr] at h
        simp only [Option.map_some, Option.some.injEq, Prod.mk.injEq] at h
        obtain ⟨rfl, rfl⟩ := h
        rw [ih _ hr]
        cases run m2 t <;> simp

theorem Lexes.app {m m' m'' : Mode} {s t : List Char} {ts us : List PTok} (h : Lexes m s ts m')
    (h' : Lexes m' t us m'') : Lexes m (s ++ t) (ts ++ us) m'' := by
  unfold Lexes at *
  rw [run_append m s t h, h']; rfl

theorem Lexes.nil (m : Mode) : Lexes m [] [] m := rfl

theorem lexes_word_acc (w : List Char) (a : List Char) (h : ∀ d ∈ w, isIdChar d = true) :
    Lexes (.word a) w [] (.word (a ++ w)) := by
  induction w generalizing a with
  | nil => simp [Lexes, run]
  | cons c w ih =>
    have := ih (a ++ [c]) (fun d hd => h d (List.mem_cons_of_mem _ hd))
    unfold Lexes at this ⊢
    simp [run, step, h c (by simp), this]

theorem lexes_name {w : List Char} (h : IsName w) : Lexes .start w [] (.word w) := by
  obtain ⟨⟨c, r, rfl, hc, hr⟩, -⟩ := h
  have h1 := lexes_word_acc r [c] hr
  have hne : ¬ (c = ' ' ∨ c = '\t' ∨ c = '\n') := by
    rintro (rfl | rfl | rfl) <;> revert hc <;> decide
  unfold Lexes at h1 ⊢
  simp [run, step, fresh, hne, hc, h1]

theorem lexes_str (w : List Char) (a : List Char) (h : '"' ∉ w) :
    Lexes (.str a) (w ++ ['"']) [.str (a ++ w)] .start := by
  induction w generalizing a with
  | nil => simp [Lexes, run, step]
  | cons c w ih =>
    have := ih (a ++ [c]) (fun hd => h (List.mem_cons_of_mem _ hd))
    have hc : c ≠ '"' := fun e => h (by simp [e])
    unfold Lexes at this ⊢
    simp [run, step, hc, this]

theorem lexes_comment (w : List Char) (h : '*' ∉ w) : Lexes .comment w [] .comment := by
  induction w with
  | nil => rfl
  | cons c w ih =>
    have := ih (fun hd => h (List.mem_cons_of_mem _ hd))
    have hc : c ≠ '*' := fun e => h (by simp [e])
    unfold Lexes at this ⊢
    simp [run, step, hc, this]

theorem lexes_flatMap {α : Type} (l : List α) (s : α → List Char) (ts : α → List PTok)
    (h : ∀ x ∈ l, Lexes .start (s x) (ts x) .start) : Lexes .start (l.flatMap s) (l.flatMap ts) .start := by
  induction l with
  | nil => rfl
  | cons x l ih =>
    rw [List.flatMap_cons, List.flatMap_cons]
    exact (h x (by simp)).app (ih fun y hy => h y (List.mem_cons_of_mem _ hy))

theorem name_noQuote {w : List Char} (h : IsName w) : '"' ∉ w := by
  obtain ⟨⟨c, r, rfl, hc, hr⟩, -⟩ := h
  intro hm
  rcases List.mem_cons.1 hm with e | hm
  · rw [← e] at hc; exact absurd hc (by decide)
  · exact absurd (hr _ hm) (by decide)

theorem name_underscore {w : List Char} (h : IsName w) : underscore w = w := by
  obtain ⟨⟨c, r, rfl, hc, hr⟩, -⟩ := h
  unfold underscore
  conv_rhs => rw [← List.map_id (c :: r)]
  apply List.map_congr_left
  intro d hd
  rw [if_neg]; · rfl
  rintro rfl
  rcases List.mem_cons.1 hd with e | hm
  · rw [← e] at hc; exact absurd hc (by decide)
  · exact absurd (hr _ hm) (by decide)

/-! ### Tokens of the parts -/

/-- Tokens of an assignment. -/
def tAssign (l : List (List Char)) (p : List Char) : List PTok :=
  [.word p, .sym '=', .num (if p ∈ l then 1 else 0), .sym ';']

/-- Tokens of the text of a state label. -/
def tPrint (w : List Char) : List PTok := [.word c!"printf", .sym '(', .str w, .sym ')', .sym ';']

theorem lexes_apLine {l : List (List Char)} {p : List Char} (hp : IsName p) :
    Lexes .start (apLine l p) (tAssign l p) .start := by
  have h1 : Lexes .start c!"\t\t " [] .start := rfl
  have h2 : Lexes (.word p) c!" = 1;\n" [.word p, .sym '=', .num 1, .sym ';'] .start := rfl
  have h3 : Lexes (.word p) c!" = 0;\n" [.word p, .sym '=', .num 0, .sym ';'] .start := rfl
  unfold apLine tAssign
  split
  · exact (h1.app (lexes_name hp)).app h2
  · exact (h1.app (lexes_name hp)).app h3

theorem lexes_print {pre w : List Char} (hw : '"' ∉ pre ++ w ++ c!"\\n") :
    Lexes .start (c!"\t\t printf(\"" ++ pre ++ w ++ c!"\\n\");\n") (tPrint (pre ++ w ++ c!"\\n")) .start := by
  have h1 : Lexes .start c!"\t\t printf(\"" [.word c!"printf", .sym '('] (.str []) := rfl
  have h2 := lexes_str _ [] hw
  have h3 : Lexes .start c!");\n" [.sym ')', .sym ';'] .start := rfl
  have := (h1.app h2).app h3
  simpa [tPrint] using this

/-! ### What the program looks like -/

/-- The label of a state, as a list. -/
def labOf (f : Fts) (s : List Char) : List (List Char) :=
  match f.graph.nodes.get? s with
  | some a =>
    match a.get? "ap" with
    | some (.aps l) => l
    | _ => []
  | none => []

/-- The transitions that the text has for a state. -/
def outs (f : Fts) (s : List Char) : List (List Char × List Char × Attr LVal) :=
  f.graph.edges.filter fun e => decide (e.1 = s ∧ e.2.2 = [])

/-- The text of the option for a transition. -/
def optText (f : Fts) (repr : Attr LVal → List Char) (t : List Char) : List Char :=
  c!"\t :: atomic{\n" ++ (c!"\t\t printf(\"" ++ repr [] ++ c!"\\n\");\n") ++
    ((f.props.flatMap (apLine (labOf f t))) ++ (c!"\t\t printf(\"State: " ++ t ++ c!"\\n\");\n") ++ c!"\t\n") ++
    (c!"\t\t goto " ++ t ++ c!"\n") ++ c!"\t }\n"

/-- The text of a state. -/
def stateText (f : Fts) (repr : Attr LVal → List Char) (s : List Char) : List Char :=
  (s ++ c!":") ++ (c!"\t if\n" ++ (outs f s).flatMap (fun e => optText f repr e.2.1) ++ c!"\t fi;\n\n")

/-- The tokens of the option for a transition. -/
def tOption (f : Fts) (repr : Attr LVal → List Char) (t : List Char) : List PTok :=
  [.option, .word c!"atomic", .sym '{'] ++ tPrint (repr [] ++ c!"\\n") ++ f.props.flatMap (tAssign (labOf f t)) ++
    tPrint (c!"State: " ++ t ++ c!"\\n") ++ [.word c!"goto", .word t, .sym '}']

/-- The tokens of a state. -/
def tState (f : Fts) (repr : Attr LVal → List Char) (s : List Char) : List PTok :=
  [.word s, .colon, .word c!"if"] ++ (outs f s).flatMap (fun e => tOption f repr e.2.1) ++ [.word c!"fi", .sym ';']

/-- The statements of the option for a transition. -/
def optStmt (f : Fts) (t : List Char) : List Stmt :=
  [.atomic (.printf :: (f.props.map (fun p => .assign p (if p ∈ labOf f t then 1 else 0)) ++ [.printf, .goto t]))]

/-- The statement of a state. -/
def stateStmt (f : Fts) (s : List Char) : Stmt :=
  .label s (.ifs ((outs f s).map fun e => optStmt f e.2.1))

/-- The statements of the process. -/
def bodyOf (f : Fts) : List Stmt :=
  .ifs (f.graph.initial.map fun s => [.goto s]) :: f.graph.nodes.keys.map (stateStmt f)

variable {f : Fts} {repr : Attr LVal → List Char}

theorem labels_labOf {s : List Char} (h : ∃ l, Labels f.graph s l) : Labels f.graph s (labOf f s) := by
  obtain ⟨l, a, h1, h2⟩ := h
  exact ⟨a, h1, by simp [labOf, h1, h2]⟩

theorem labels_iff {s : List Char} {l : List (List Char)} (h : Labels f.graph s l) : labOf f s = l := by
  obtain ⟨a, h1, h2⟩ := h
  simp [labOf, h1, h2]

theorem filter_key {κ α : Type} [DecidableEq κ] {d : Dict κ α} (hw : d.Wf) {k : κ} {v : α} (h : d.get? k = some v) :
    ∃ r, d.filter (fun p => decide (p.1 = k)) = (k, v) :: r := by
  have hm := Synth.get?_mem h
  cases hf : d.filter (fun p => decide (p.1 = k)) with
  | nil =>
    have : (k, v) ∈ d.filter (fun p => decide (p.1 = k)) := List.mem_filter.2 ⟨hm, by simp⟩
    rw [hf] at this; cases this
  | cons q r =>
    obtain ⟨k', v'⟩ := q
    have hq : (k', v') ∈ d.filter (fun p => decide (p.1 = k)) := by rw [hf]; simp
    obtain ⟨h1, h2⟩ := List.mem_filter.1 hq
    have h2 : k' = k := by simpa using h2
    subst h2
    have := Synth.get?_of_mem_wf hw h1
    rw [h] at this
    cases this
    exact ⟨r, rfl⟩

theorem labelOf_ok (he : Exportable f) {s : List Char} (hs : f.graph.hasNode s = true) :
    labelOf f.graph s = .ok (labOf f s) := by
  obtain ⟨l, a, h1, h2⟩ := he.labels s hs
  unfold labelOf
  rw [LGraph.findStates_spec he.ok he.keysTyped, ok_bind]
  obtain ⟨r, hr⟩ := filter_key he.ok.nodup h1
  rw [show (List.filter _ f.graph.nodes) = (s, a) :: r from by
    rw [← hr]
    apply List.filter_congr
    intro p _
    simp]
  simp [apOf, h2, labOf, h1]

theorem find_outs (he : Exportable f) (s : List Char) :
    f.graph.findEdges (some [s]) none [("as_dict", .yes)] = .ok (outs f s) := by
  rw [LGraph.findEdges_spec he.ok he.keysTyped]
  congr 1
  apply List.filter_congr
  rintro ⟨u, v, a⟩ hm
  have hn : ¬ LGraph.Matches f.graph.edgeTypes a [("as_dict", LVal.yes)] := by
    intro h
    have hh : a.has "as_dict" = true := by
      rcases h with h | h
      · rw [Dict.has_iff]
        exact ⟨.yes, by rw [h "as_dict"]; rfl⟩
      · rw [h.1]; rfl
    have := he.keysTyped.1 u v a hm _ hh
    rw [he.noDict] at this
    cases this
  simp [hn]

theorem transLoop_ok (he : Exportable f) (es : List (List Char × List Char × Attr LVal))
    (h : ∀ e ∈ es, f.graph.hasNode e.2.1 = true ∧ e.2.2 = []) :
    transLoop f repr es = .ok (es.flatMap fun e => optText f repr e.2.1) := by
  induction es with
  | nil => rfl
  | cons e es ih =>
    obtain ⟨h1, h2⟩ := h e (by simp)
    simp only [transLoop, stateAp, labelOf_ok he h1, ok_bind, ih fun x hx => h x (List.mem_cons_of_mem _ hx), h2,
      List.flatMap_cons, optText]

theorem outs_ok (he : Exportable f) {s : List Char} :
    ∀ e ∈ outs f s, f.graph.hasNode e.2.1 = true ∧ e.2.2 = [] := by
  rintro ⟨u, v, a⟩ h
  obtain ⟨h1, h2⟩ := List.mem_filter.1 h
  exact ⟨he.ok.target _ _ _ h1, (of_decide_eq_true h2).2⟩

theorem stateLoop_ok (he : Exportable f) (ss : List (List Char)) (h : ∀ s ∈ ss, f.graph.hasNode s = true) :
    stateLoop f repr ss = .ok (ss.flatMap (stateText f repr)) := by
  induction ss with
  | nil => rfl
  | cons s ss ih =>
    simp only [stateLoop, find_outs he, ok_bind, transText, transLoop_ok he _ (outs_ok he),
      ih fun x hx => h x (List.mem_cons_of_mem _ hx), List.flatMap_cons, stateText,
      name_underscore (he.states s (h s (by simp)))]

theorem lexes_optText (he : Exportable f) (hr : '"' ∉ repr []) {t : List Char} (ht : f.graph.hasNode t = true) :
    Lexes .start (optText f repr t) (tOption f repr t) .start := by
  have hn := he.states t ht
  have h1 : Lexes .start c!"\t :: atomic{\n" [.option, .word c!"atomic", .sym '{'] .start := rfl
  have h2 : Lexes .start (c!"\t\t printf(\"" ++ repr [] ++ c!"\\n\");\n") (tPrint (repr [] ++ c!"\\n")) .start := by
    have := lexes_print (pre := []) (w := repr []) (by
      intro h
      rcases List.mem_append.1 h with h | h
      · exact hr (by simpa using h)
      · revert h; decide)
    simpa using this
  have h3 := lexes_flatMap f.props (apLine (labOf f t)) (tAssign (labOf f t)) fun p hp => lexes_apLine (he.props p hp)
  have h4 : Lexes .start (c!"\t\t printf(\"State: " ++ t ++ c!"\\n\");\n")
      (tPrint (c!"State: " ++ t ++ c!"\\n")) .start := by
    have := lexes_print (pre := c!"State: ") (w := t) (by
      intro h
      rcases List.mem_append.1 h with h | h
      · rcases List.mem_append.1 h with h | h
        · revert h; decide
        · exact name_noQuote hn h
      · revert h; decide)
    exact this
  have h5 : Lexes .start c!"\t\n" [] .start := rfl
  have h6 : Lexes .start c!"\t\t goto " [.word c!"goto"] .start := rfl
  have h7 : Lexes (.word t) c!"\n" [.word t] .start := rfl
  have h8 : Lexes .start c!"\t }\n" [.sym '}'] .start := rfl
  have := (((h1.app h2).app ((h3.app h4).app h5)).app ((h6.app (lexes_name hn)).app h7)).app h8
  simpa [optText, tOption] using this

theorem lexes_stateText (he : Exportable f) (hr : '"' ∉ repr []) {s : List Char} (hs : f.graph.hasNode s = true) :
    Lexes .start (stateText f repr s) (tState f repr s) .start := by
  have h1 : Lexes (.word s) c!":" [.word s] .colon := rfl
  have h2 : Lexes .colon c!"\t if\n" [.colon, .word c!"if"] .start := rfl
  have h3 := lexes_flatMap (outs f s) (fun e => optText f repr e.2.1) (fun e => tOption f repr e.2.1)
    fun e hm => lexes_optText he hr (outs_ok he e hm).1
  have h4 : Lexes .start c!"\t fi;\n\n" [.word c!"fi", .sym ';'] .start := rfl
  have := ((lexes_name (he.states s hs)).app h1).app ((h2.app h3).app h4)
  simpa [stateText, tState] using this

/-- The tokens of the text. -/
def tText (f : Fts) (repr : Attr LVal → List Char) (name : List Char) : List PTok :=
  (f.props.flatMap fun p => [.word c!"bool", .word p, .sym ';']) ++
    ([.word c!"active", .word c!"proctype", .word name, .sym '(', .sym ')', .sym '{'] ++
      ([.word c!"if"] ++ (f.graph.initial.flatMap fun s => [.option, .word c!"goto", .word s]) ++
        [.word c!"fi", .sym ';'] ++ f.graph.nodes.keys.flatMap (tState f repr) ++ [.sym '}']))

theorem keys_nodes {s : List Char} : s ∈ f.graph.nodes.keys ↔ f.graph.hasNode s = true :=
  LGraph.mem_keys_iff_has _ _

theorem tokens_text (he : Exportable f) (hr : '"' ∉ repr []) {date : List Char} (hd : '*' ∉ date)
    {procname : Option (List Char)} (hn : IsName (procname.getD f.name)) :
    ∃ s, fts2promela f repr date procname = .ok s ∧ tokens s = some (tText f repr (procname.getD f.name)) := by
  unfold fts2promela
  rw [stateLoop_ok he _ fun s hs => keys_nodes.1 hs, ok_bind]
  refine ⟨_, rfl, ?_⟩
  have h1 : Lexes .start c!"/*\n * Promela file generated with TuLiP\n" [] .comment := rfl
  have h2 : Lexes .comment c!" * Date: " [] .comment := rfl
  have h3 : Lexes .comment c!"\n */\n\n" [] .start := rfl
  have h4 := lexes_flatMap f.props (fun p => c!"bool " ++ p ++ c!";\n")
    (fun p => [.word c!"bool", .word p, .sym ';']) fun p hp => by
      have a1 : Lexes .start c!"bool " [.word c!"bool"] .start := rfl
      have a2 : Lexes (.word p) c!";\n" [.word p, .sym ';'] .start := rfl
      exact (a1.app (lexes_name (he.props p hp))).app a2
  have h5 : Lexes .start c!"\nactive proctype " [.word c!"active", .word c!"proctype"] .start := rfl
  have h6 : Lexes (.word (procname.getD f.name)) c!"(){\n"
    [.word (procname.getD f.name), .sym '(', .sym ')', .sym '{'] .start := rfl
  have h7 : Lexes .start c!"\t if\n" [.word c!"if"] .start := rfl
  have h8 := lexes_flatMap f.graph.initial (fun s => c!"\t :: goto " ++ s ++ c!"\n")
    (fun s => [.option, .word c!"goto", .word s]) fun s hs => by
      have a1 : Lexes .start c!"\t :: goto " [.option, .word c!"goto"] .start := rfl
      have a2 : Lexes (.word s) c!"\n" [.word s] .start := rfl
      exact (a1.app (lexes_name (he.states s (he.ok.initial s hs)))).app a2
  have h9 : Lexes .start c!"\t fi;\n" [.word c!"fi", .sym ';'] .start := rfl
  have h10 := lexes_flatMap f.graph.nodes.keys (stateText f repr) (tState f repr)
    fun s hs => lexes_stateText he hr (keys_nodes.1 hs)
  have h11 : Lexes .start c!"}\n" [.sym '}'] .start := rfl
  have := (((((((h1.app ((h2.app (lexes_comment _ hd)).app h3)).app h4).app
    ((h5.app (lexes_name hn)).app h6)).app h7).app h8).app h9).app h10).app h11
  unfold tokens
  unfold Lexes at this
  rw [this]
  simp [tText]

/-! ### Reading the tokens -/

theorem name_ne {w k : List Char} (h : IsName w) (hk : k ∈ keywords) : w ≠ k := fun e => h.2 (e ▸ hk)

theorem parse_assigns {T R : List PTok} {l : List Stmt} {k : Nat} (hT : ended T = false)
    (h : ∀ m, k ≤ m → parseSeq m T = some (l, R)) (lab : List (List Char)) (ps : List (List Char))
    (hp : ∀ p ∈ ps, IsName p) : ∀ n, k + ps.length ≤ n →
      parseSeq n (ps.flatMap (tAssign lab) ++ T) =
        some (ps.map (fun p => .assign p (if p ∈ lab then 1 else 0)) ++ l, R) ∧
      ended (ps.flatMap (tAssign lab) ++ T) = false := by
  have hk : 0 < k := by
    by_contra hc
    have := h 0 (by omega)
    simp [parseSeq] at this
  induction ps with
  | nil => intro n hn; exact ⟨h n (by simpa using hn), hT⟩
  | cons p ps ih =>
    intro n hn
    simp only [List.length_cons] at hn
    obtain ⟨n, rfl⟩ : ∃ m, n = m + 2 := ⟨n - 2, by omega⟩
    obtain ⟨h1, h2⟩ := ih (fun q hq => hp q (List.mem_cons_of_mem _ hq)) (n + 1) (by omega)
    have hpn := hp p (by simp)
    have e1 := name_ne hpn (k := c!"goto") (by decide)
    have e2 := name_ne hpn (k := c!"if") (by decide)
    have e3 := name_ne hpn (k := c!"atomic") (by decide)
    have e4 := name_ne hpn (k := c!"printf") (by decide)
    have e5 := name_ne hpn (k := c!"fi") (by decide)
    constructor
    · rw [List.flatMap_cons, List.append_assoc]
      conv_lhs => unfold parseSeq
      simp only [tAssign, List.cons_append, List.nil_append, parseStmt, e1, e2, e3, e4, if_false]
      rw [if_neg (by rw [h2]; decide), h1]
      rfl
    · simp [tAssign, ended, e5]

theorem parse_print {w : List Char} {T R : List PTok} {l : List Stmt} {n : Nat} (hT : ended T = false)
    (h : parseSeq (n + 1) T = some (l, R)) : parseSeq (n + 2) (tPrint w ++ T) = some (.printf :: l, R) := by
  conv_lhs => unfold parseSeq
  simp only [tPrint, List.cons_append, List.nil_append, parseStmt]
  rw [if_neg (by decide), if_neg (by decide), if_neg (by decide)]
  simp [hT, h]

theorem parse_option (he : Exportable f) {t : List Char} (R : List PTok) (hR : R.head? ≠ some (.sym ';')) (n : Nat)
    (hn : f.props.length + 8 ≤ n) :
    parseSeq n ((tOption f repr t).tail ++ R) = some (optStmt f t, R) := by
  have hlast : ∀ m, 4 ≤ m → parseSeq m (tPrint (c!"State: " ++ t ++ c!"\\n") ++
      ([.word c!"goto", .word t, .sym '}'] ++ R)) = some ([.printf, .goto t], .sym '}' :: R) := by
    intro m hm
    obtain ⟨m, rfl⟩ : ∃ k, m = k + 4 := ⟨m - 4, by omega⟩
    simp [tPrint, parseSeq, parseStmt, ended]
  obtain ⟨n, rfl⟩ : ∃ m, n = m + 4 := ⟨n - 4, by omega⟩
  obtain ⟨h1, h2⟩ := parse_assigns (by simp [tPrint, ended]) hlast (labOf f t) f.props he.props (n + 1) (by omega)
  have hbody : parseSeq (n + 2) (tPrint (repr [] ++ c!"\\n") ++ (f.props.flatMap (tAssign (labOf f t)) ++
      (tPrint (c!"State: " ++ t ++ c!"\\n") ++ ([.word c!"goto", .word t, .sym '}'] ++ R)))) =
      some (.printf :: (f.props.map (fun p => .assign p (if p ∈ labOf f t then 1 else 0)) ++ [.printf, .goto t]),
        .sym '}' :: R) := by
    exact parse_print h2 h1
  have hstmt : parseStmt (n + 3) ((tOption f repr t).tail ++ R) = some (.atomic (.printf :: (f.props.map (fun p =>
      .assign p (if p ∈ labOf f t then 1 else 0)) ++ [.printf, .goto t])), R) := by
    rw [show (tOption f repr t).tail ++ R = .word c!"atomic" :: .sym '{' :: (tPrint (repr [] ++ c!"\\n") ++
      (f.props.flatMap (tAssign (labOf f t)) ++ (tPrint (c!"State: " ++ t ++ c!"\\n") ++
        ([.word c!"goto", .word t, .sym '}'] ++ R)))) from by simp [tOption]]
    conv_lhs => unfold parseStmt
    rw [if_neg (by decide), if_neg (by decide), if_pos (by rfl)]
    simp only [hbody]
  unfold parseSeq
  rw [hstmt]
  simp only
  split
  · rename_i ts; simp at hR
  · rfl

theorem parse_options (he : Exportable f) (R : List PTok) (es : List (List Char × List Char × Attr LVal))
    (hne : es ≠ []) : ∀ n, f.props.length + 9 + es.length ≤ n →
      parseOptions n (es.flatMap (fun e => tOption f repr e.2.1) ++ .word c!"fi" :: R) =
        some (es.map (fun e => optStmt f e.2.1), .word c!"fi" :: R) := by
  induction es with
  | nil => cases hne rfl
  | cons e es ih =>
    intro n hn
    simp only [List.length_cons] at hn
    obtain ⟨n, rfl⟩ : ∃ m, n = m + 1 := ⟨n - 1, by omega⟩
    rw [List.flatMap_cons, List.append_assoc]
    rw [show tOption f repr e.2.1 = .option :: (tOption f repr e.2.1).tail from rfl, List.cons_append]
    unfold parseOptions
    rw [parse_option he _ ?_ n (by omega)]
    · simp only
      cases es with
      | nil => simp
      | cons e' es =>
        rw [if_pos (by simp [tOption])]
        rw [ih (by simp) n (by simp at hn ⊢; omega)]
        rfl
    · cases es with
      | nil => simp
      | cons e' es => simp [tOption]

theorem length_tOption (t : List Char) : (tOption f repr t).length = 16 + 4 * f.props.length := by
  have : ∀ l : List (List Char), (l.flatMap (tAssign (labOf f t))).length = 4 * l.length := by
    intro l
    induction l with
    | nil => rfl
    | cons p l ih => rw [List.flatMap_cons, List.length_append, ih]; simp [tAssign]; omega
  simp [tOption, tPrint, this]; omega

theorem length_options (es : List (List Char × List Char × Attr LVal)) :
    (es.flatMap fun e => tOption f repr e.2.1).length = es.length * (16 + 4 * f.props.length) := by
  induction es with
  | nil => simp
  | cons e es ih => rw [List.flatMap_cons, List.length_append, ih, length_tOption, List.length_cons, Nat.add_mul]; omega

theorem outs_ne (he : Exportable f) {s : List Char} (hs : f.graph.hasNode s = true) : outs f s ≠ [] := by
  obtain ⟨t, ht⟩ := he.live s hs
  intro h
  have : (s, t, ([] : Attr LVal)) ∈ outs f s := List.mem_filter.2 ⟨ht, by simp⟩
  rw [h] at this; cases this

theorem parse_ifs (he : Exportable f) {s : List Char} (hs : f.graph.hasNode s = true) (R : List PTok) (n : Nat)
    (hn : (tState f repr s).length ≤ n + 1) :
    parseStmt n (tState f repr s ++ R) = some (stateStmt f s, .sym ';' :: R) := by
  have hl : (tState f repr s).length = 5 + (outs f s).length * (16 + 4 * f.props.length) := by
    unfold tState
    rw [List.length_append, List.length_append, length_options]
    simp; omega
  have h0 := outs_ne he hs
  obtain ⟨k, hk⟩ : ∃ k, (outs f s).length = k + 1 := ⟨(outs f s).length - 1, by
    have := List.length_pos_iff.2 h0; omega⟩
  have hb : f.props.length + 9 + (outs f s).length + 2 ≤ n := by
    rw [hl, hk] at hn
    rw [hk]
    have : k * 1 ≤ k * (16 + 4 * f.props.length) := Nat.mul_le_mul_left _ (by omega)
    rw [Nat.add_mul] at hn
    omega
  obtain ⟨n, rfl⟩ : ∃ m, n = m + 2 := ⟨n - 2, by omega⟩
  have hpn := he.states s hs
  have e1 := name_ne hpn (k := c!"goto") (by decide)
  have e2 := name_ne hpn (k := c!"if") (by decide)
  have e3 := name_ne hpn (k := c!"atomic") (by decide)
  have e4 := name_ne hpn (k := c!"printf") (by decide)
  have ho := parse_options (repr := repr) he (.sym ';' :: R) (outs f s) h0 n (by omega)
  have hi : parseStmt (n + 1) (.word c!"if" :: ((outs f s).flatMap (fun e => tOption f repr e.2.1) ++
      .word c!"fi" :: .sym ';' :: R)) = some (.ifs ((outs f s).map fun e => optStmt f e.2.1), .sym ';' :: R) := by
    unfold parseStmt
    rw [if_neg (by decide), if_pos (by rfl), ho]
    simp
  rw [show tState f repr s ++ R = .word s :: .colon :: .word c!"if" ::
    ((outs f s).flatMap (fun e => tOption f repr e.2.1) ++ .word c!"fi" :: .sym ';' :: R) from by simp [tState]]
  conv_lhs => unfold parseStmt
  simp only [e1, e2, e3, e4, if_false, hi]
  rfl

theorem parse_states (he : Exportable f) (ss : List (List Char)) (hss : ss ≠ [])
    (hs : ∀ s ∈ ss, f.graph.hasNode s = true) : ∀ n, (ss.flatMap (tState f repr)).length ≤ n →
      parseSeq n (ss.flatMap (tState f repr) ++ [.sym '}']) = some (ss.map (stateStmt f), [.sym '}']) := by
  induction ss with
  | nil => cases hss rfl
  | cons s ss ih =>
    intro n hn
    rw [List.flatMap_cons, List.length_append] at hn
    have h5 : 5 ≤ (tState f repr s).length := by simp [tState]
    obtain ⟨n, rfl⟩ : ∃ m, n = m + 1 := ⟨n - 1, by omega⟩
    rw [List.flatMap_cons, List.append_assoc]
    unfold parseSeq
    rw [parse_ifs he (hs s (by simp)) _ n (by omega)]
    simp only
    cases ss with
    | nil => simp [ended]
    | cons s' ss =>
      have hf := name_ne (he.states s' (hs s' (by simp))) (k := c!"fi") (by decide)
      rw [if_neg (by simp [ended, tState, hf])]
      rw [ih (by simp) (fun x hx => hs x (List.mem_cons_of_mem _ hx)) n (by omega)]
      rfl

theorem parse_inits (R : List PTok) (ss : List (List Char)) (hss : ss ≠ []) : ∀ n, 3 * ss.length ≤ n →
      parseOptions n ((ss.flatMap fun s => [PTok.option, .word c!"goto", .word s]) ++ .word c!"fi" :: R) =
        some (ss.map fun s => [.goto s], .word c!"fi" :: R) := by
  induction ss with
  | nil => cases hss rfl
  | cons s ss ih =>
    intro n hn
    simp only [List.length_cons] at hn
    obtain ⟨n, rfl⟩ : ∃ m, n = m + 3 := ⟨n - 3, by omega⟩
    rw [List.flatMap_cons, List.append_assoc]
    simp only [List.cons_append, List.nil_append]
    unfold parseOptions
    have hs : ∀ T : List PTok, T.head? ≠ some (.sym ';') →
        parseSeq (n + 2) (.word c!"goto" :: .word s :: T) = some ([.goto s], T) := by
      intro T hT
      unfold parseSeq parseStmt
      rw [if_pos (by rfl)]
      simp only
      split
      · rename_i ts; simp at hT
      · rfl
    cases ss with
    | nil => rw [List.flatMap_nil, List.nil_append, hs _ (by simp)]; simp
    | cons s' ss =>
      rw [hs _ (by simp)]
      simp only
      rw [if_pos (by simp), ih (by simp) (n + 2) (by simp at hn ⊢; omega)]
      rfl

theorem parse_bools (ts : List PTok) (ps : List (List Char)) (hp : ∀ p ∈ ps, IsName p) :
    ∀ xs, parseProgram xs ((ps.flatMap fun p => [PTok.word c!"bool", .word p, .sym ';']) ++ ts) =
      parseProgram (xs ++ ps) ts := by
  induction ps with
  | nil => simp
  | cons p ps ih =>
    intro xs
    rw [List.flatMap_cons, List.append_assoc]
    simp only [List.cons_append, List.nil_append]
    conv_lhs => unfold parseProgram
    simp only
    rw [if_pos trivial, if_neg (hp p (by simp)).2, ih fun q hq => hp q (List.mem_cons_of_mem _ hq)]
    simp

theorem keys_ne (he : Exportable f) : f.graph.nodes.keys ≠ [] := by
  intro h
  cases hi : f.graph.initial with
  | nil => exact he.initial hi
  | cons s r =>
    have := keys_nodes.2 (he.ok.initial s (by rw [hi]; simp))
    rw [h] at this; cases this

theorem parse_text (he : Exportable f) {name : List Char} (hn : IsName name) :
    parseProgram [] (tText f repr name) = some ⟨f.props, name, bodyOf f⟩ := by
  unfold tText
  rw [parse_bools _ _ he.props]
  simp only [List.nil_append, List.cons_append]
  unfold parseProgram parseProc
  simp only
  rw [if_pos ⟨trivial, trivial, hn.2⟩]
  have hsplit : PTok.word c!"if" :: ((f.graph.initial.flatMap fun s => [PTok.option, .word c!"goto", .word s]) ++
      [.word c!"fi", .sym ';'] ++ f.graph.nodes.keys.flatMap (tState f repr) ++ [.sym '}']) =
      .word c!"if" :: ((f.graph.initial.flatMap fun s => [PTok.option, .word c!"goto", .word s]) ++
        .word c!"fi" :: (.sym ';' :: (f.graph.nodes.keys.flatMap (tState f repr) ++ [.sym '}']))) := by simp
  rw [hsplit]
  have hl : (f.graph.initial.flatMap fun s => [PTok.option, .word c!"goto", .word s]).length =
      3 * f.graph.initial.length := by
    induction f.graph.initial with
    | nil => rfl
    | cons s l ih => rw [List.flatMap_cons, List.length_append, ih]; simp; omega
  have key : ∀ n, 3 * f.graph.initial.length + (f.graph.nodes.keys.flatMap (tState f repr)).length + 2 ≤ n →
      parseSeq n (.word c!"if" :: ((f.graph.initial.flatMap fun s => [PTok.option, .word c!"goto", .word s]) ++
        .word c!"fi" :: (.sym ';' :: (f.graph.nodes.keys.flatMap (tState f repr) ++ [.sym '}'])))) =
        some (bodyOf f, [.sym '}']) := by
    intro n hn
    obtain ⟨n, rfl⟩ : ∃ m, n = m + 2 := ⟨n - 2, by omega⟩
    have hk := keys_ne he
    have hne : ended (f.graph.nodes.keys.flatMap (tState f repr) ++ [.sym '}']) = false := by
      cases h : f.graph.nodes.keys with
      | nil => exact absurd h hk
      | cons s ss =>
        have hf := name_ne (he.states s (keys_nodes.1 (by rw [h]; simp))) (k := c!"fi") (by decide)
        simp [ended, tState, hf]
    unfold parseSeq parseStmt
    rw [if_neg (by decide), if_pos (by rfl), parse_inits _ _ he.initial n (by omega)]
    simp only
    rw [if_pos trivial]
    simp only
    rw [if_neg (by rw [hne]; decide), parse_states he _ hk (fun s hs => keys_nodes.1 hs) (n + 1) (by omega)]
    rfl
  rw [key _ (by simp only [List.length_cons, List.length_append, hl]; omega)]
  simp

/-! ### What the program does -/

theorem jumps_assigns {lab : List (List Char)} {k : List Stmt} {l : List Char} {v' : Val} (ps : List (List Char)) :
    ∀ v, Jumps (ps.map (fun p => .assign p (if p ∈ lab then 1 else 0)) ++ k) v l v' ↔
      Jumps k (fun y => if y ∈ ps then decide (y ∈ lab) else v y) l v' := by
  induction ps with
  | nil => intro v; simp
  | cons p ps ih =>
    intro v
    have hv : (fun y => if y ∈ ps then decide (y ∈ lab) else
        (if y = p then decide ((if p ∈ lab then 1 else 0) ≠ 0) else v y)) =
        fun y => if y ∈ p :: ps then decide (y ∈ lab) else v y := by
      funext y
      by_cases h1 : y ∈ ps
      · simp [h1]
      · by_cases h2 : y = p
        · subst h2
          by_cases h3 : y ∈ lab <;> simp [h1, h3]
        · simp [h1, h2]
    constructor
    · intro h
      cases h with
      | assign h => rw [← hv]; exact (ih _).1 h
    · intro h
      exact .assign ((ih _).2 (by rw [hv]; exact h))

theorem jumps_option {t : List Char} {k : List Stmt} {v v' : Val} {l : List Char} :
    Jumps (optStmt f t ++ k) v l v' ↔
      l = t ∧ v' = fun y => if y ∈ f.props then decide (y ∈ labOf f t) else v y := by
  have e : optStmt f t ++ k = .atomic (.printf :: (f.props.map (fun p => .assign p (if p ∈ labOf f t then 1 else 0)) ++
      [.printf, .goto t])) :: k := rfl
  rw [e]
  constructor
  · intro h
    cases h with
    | atomic h =>
      cases h with
      | printf h =>
        have h := (congrArg (fun x => Jumps x v l v') (List.append_assoc _ _ k)).mp h
        rw [jumps_assigns] at h
        cases h with
        | printf h => cases h; exact ⟨rfl, rfl⟩
  · rintro ⟨rfl, rfl⟩
    refine .atomic (.printf ((congrArg (fun x => Jumps x v l _) (List.append_assoc _ _ k)).mpr ?_))
    rw [jumps_assigns]
    exact .printf (.goto _ _ _)

theorem jumps_state {s : List Char} {k : List Stmt} {v v' : Val} {l : List Char} :
    Jumps (.ifs ((outs f s).map fun e => optStmt f e.2.1) :: k) v l v' ↔
      (s, l, []) ∈ f.graph.edges ∧ v' = fun y => if y ∈ f.props then decide (y ∈ labOf f l) else v y := by
  constructor
  · intro h
    cases h with
    | ifs ho h =>
      obtain ⟨⟨u, t, a⟩, he, rfl⟩ := List.mem_map.1 ho
      obtain ⟨h1, h2⟩ := List.mem_filter.1 he
      obtain ⟨rfl, rfl⟩ := of_decide_eq_true h2
      obtain ⟨rfl, hv⟩ := jumps_option.1 h
      exact ⟨h1, hv⟩
  · rintro ⟨h1, h2⟩
    have : (s, l, ([] : Attr LVal)) ∈ outs f s := List.mem_filter.2 ⟨h1, by simp⟩
    exact .ifs (List.mem_map_of_mem this) (jumps_option.2 ⟨rfl, h2⟩)

theorem jumps_init {k : List Stmt} {v v' : Val} {l : List Char} (ss : List (List Char)) :
    Jumps (.ifs (ss.map fun s => [.goto s]) :: k) v l v' ↔ l ∈ ss ∧ v' = v := by
  constructor
  · intro h
    cases h with
    | ifs ho h =>
      obtain ⟨s, hs, rfl⟩ := List.mem_map.1 ho
      cases h
      exact ⟨hs, rfl⟩
  · rintro ⟨h1, rfl⟩
    exact .ifs (List.mem_map_of_mem h1) (.goto _ _ _)

theorem target_states {s : List Char} (ss : List (List Char)) :
    (s ∈ ss → ∃ k, target s (ss.map (stateStmt f)) = some (.ifs ((outs f s).map fun e => optStmt f e.2.1) :: k)) ∧
      (s ∉ ss → target s (ss.map (stateStmt f)) = none) := by
  induction ss with
  | nil => simp [target]
  | cons a ss ih =>
    simp only [List.map_cons, stateStmt, target]
    by_cases h : a = s
    · subst h; simp
    · have h' : ¬ s = a := fun e => h e.symm
      simp only [h, if_false, List.mem_cons, h', false_or]
      exact ih

/-- **C109.** For every transition system whose names are identifiers and in which each state has a transition without
label, the exported text can be read as a Promela file: its variables are the atomic propositions, its process has the
given name, and the infinite runs of the process are exactly those of the system over transitions without label, with
the variables equal to the label of the state from the second state on. -/
theorem fts2promela_runs (he : Exportable f) (hr : '"' ∉ repr []) {date : List Char} (hd : '*' ∉ date)
    {procname : Option (List Char)} (hn : IsName (procname.getD f.name)) :
    ∃ s p, fts2promela f repr date procname = .ok s ∧ readPromela s = some p ∧ p.vars = f.props ∧
      p.name = procname.getD f.name ∧ ∀ r, IsRun p r ↔ FtsRun f r := by
  obtain ⟨s, h1, h2⟩ := tokens_text (repr := repr) he hr hd hn
  refine ⟨s, ⟨f.props, procname.getD f.name, bodyOf f⟩, h1, by
    simp only [readPromela, h2]; exact parse_text he hn, rfl, rfl, ?_⟩
  intro r
  have ht : ∀ s, target s (bodyOf f) = target s (f.graph.nodes.keys.map (stateStmt f)) := fun s => rfl
  unfold IsRun FtsRun
  simp only [ht]
  rw [show bodyOf f = .ifs (f.graph.initial.map fun s => [.goto s]) :: f.graph.nodes.keys.map (stateStmt f) from rfl,
    jumps_init]
  constructor
  · rintro ⟨⟨h3, h4⟩, h5⟩
    have hstep : ∀ i, ((r i).1, (r (i + 1)).1, ([] : Attr LVal)) ∈ f.graph.edges ∧ (r (i + 1)).2 =
        fun y => if y ∈ f.props then decide (y ∈ labOf f (r (i + 1)).1) else (r i).2 y := by
      intro i
      obtain ⟨k, h6, h7⟩ := h5 i
      by_cases hm : (r i).1 ∈ f.graph.nodes.keys
      · obtain ⟨k', h8⟩ := (target_states (f := f) _).1 hm
        rw [h8] at h6
        cases h6
        exact jumps_state.1 h7
      · rw [(target_states (f := f) _).2 hm] at h6
        cases h6
    have hz : ∀ i y, y ∉ f.props → (r i).2 y = false := by
      intro i y hy
      induction i with
      | zero => rw [h4]
      | succ i ih => rw [(hstep i).2]; simp [hy, ih]
    refine ⟨h3, fun p => by rw [h4], fun i => ⟨(hstep i).1, labOf f (r (i + 1)).1,
      labels_labOf (he.labels _ (he.ok.target _ _ _ (hstep i).1)), fun p => ?_⟩⟩
    rw [(hstep i).2]
    by_cases hp : p ∈ f.props <;> simp [hp, hz]
  · rintro ⟨h3, h4, h5⟩
    refine ⟨⟨h3, funext h4⟩, fun i => ?_⟩
    obtain ⟨h6, l, h7, h8⟩ := h5 i
    obtain ⟨k, hk⟩ := (target_states (f := f) _).1 (keys_nodes.2 (he.ok.source _ _ _ h6))
    refine ⟨_, hk, jumps_state.2 ⟨h6, ?_⟩⟩
    have hz : ∀ y, y ∉ f.props → (r i).2 y = false := by
      intro y hy
      cases i with
      | zero => exact h4 y
      | succ i =>
        obtain ⟨-, l', -, h9⟩ := h5 i
        rw [h9]; simp [hy]
    funext y
    rw [h8, labels_iff h7]
    by_cases hp : y ∈ f.props <;> simp [hp, hz]

/-! ## Example and restrictions -/

/-- A lamp that is on at first and alternates; it can also stay off. -/
def lamp : Fts where
  graph := LGraph.run [("ap", { contains := fun _ => true })] [("ap", .aps [])]
    [("sys_actions", { contains := fun _ => true })] []
    [.addNode c!"s0" [("ap", .aps [c!"on"])] true, .addNode c!"s1" [] true,
      .addEdge c!"s0" c!"s1" [] true, .addEdge c!"s1" c!"s0" [] true, .addEdge c!"s1" c!"s1" [] true,
      .addInitial c!"s0"]
  name := []
  props := [c!"on"]

theorem isName_of {w : List Char} (h : (w.head?.any isIdStart && w.tail.all isIdChar && !keywords.contains w) = true) :
    IsName w := by
  cases w with
  | nil => simp at h
  | cons c r =>
    simp only [List.head?_cons, Option.any_some, List.tail_cons, Bool.and_eq_true, List.all_eq_true,
      Bool.not_eq_true', List.contains_eq_mem, decide_eq_false_iff_not] at h
    exact ⟨⟨c, r, rfl, h.1.1, h.1.2⟩, h.2⟩

theorem lamp_exportable : Exportable lamp := by
  have h1 : lamp.graph.Ok ∧ lamp.graph.KeysTyped := by
    apply LGraph.run_keysTyped
    · intro op hop; fin_cases hop <;> simp [LGraph.GOp.Wf, Dict.Wf, Dict.keys]
    · intro op hop; fin_cases hop <;> simp [LGraph.GOp.Checked]
  have hk : ∀ s, lamp.graph.hasNode s = true → s = c!"s0" ∨ s = c!"s1" := by
    intro s hs
    have := (LGraph.mem_keys_iff_has _ _).2 hs
    rw [show lamp.graph.nodes.keys = [c!"s0", c!"s1"] from by decide +kernel] at this
    simpa using this
  refine ⟨h1.1, h1.2, rfl, by decide +kernel, ?_, ?_, ?_, ?_⟩
  · intro s hs
    rcases hk s hs with rfl | rfl <;> exact isName_of (by decide +kernel)
  · intro s hs
    rcases hk s hs with rfl | rfl
    · exact ⟨[c!"on"], [("ap", .aps [c!"on"])], by decide +kernel, rfl⟩
    · exact ⟨[], [("ap", .aps [])], by decide +kernel, rfl⟩
  · intro s hs
    rcases hk s hs with rfl | rfl
    · exact ⟨c!"s1", by decide +kernel⟩
    · exact ⟨c!"s0", by decide +kernel⟩
  · intro p hp
    rw [show lamp.props = [c!"on"] from rfl] at hp
    obtain rfl : p = c!"on" := by simpa using hp
    exact isName_of (by decide +kernel)

/-- The run of the lamp that alternates. -/
def lampRun (i : Nat) : List Char × Val :=
  if i % 2 = 0 then (c!"s0", fun p => decide (i ≠ 0 ∧ p = c!"on")) else (c!"s1", fun _ => false)

theorem lampRun_ok : FtsRun lamp lampRun := by
  refine ⟨by decide +kernel, fun p => by simp [lampRun], fun i => ?_⟩
  by_cases h : i % 2 = 0
  · have h' : (i + 1) % 2 = 1 := by omega
    simp only [lampRun, h, h', if_true, Nat.one_ne_zero, if_false]
    exact ⟨by decide +kernel, [], ⟨[("ap", .aps [])], by decide +kernel, rfl⟩, by simp⟩
  · have h1 : i % 2 = 1 := by omega
    have h' : (i + 1) % 2 = 0 := by omega
    simp only [lampRun, h1, h', if_true, Nat.one_ne_zero, if_false]
    refine ⟨by decide +kernel, [c!"on"], ⟨[("ap", .aps [c!"on"])], by decide +kernel, rfl⟩, fun p => ?_⟩
    rw [show lamp.props = [c!"on"] from rfl]
    simp

/-- The theorem applies to the lamp, and the process has a run that alternates. -/
example : ∃ s p, fts2promela lamp (fun _ => c!"{}") c!"11/16/26 10:00:00 +0000" (some c!"lamp") = .ok s ∧
    readPromela s = some p ∧ IsRun p lampRun := by
  obtain ⟨s, p, h1, h2, -, -, h3⟩ := fts2promela_runs (repr := fun _ => c!"{}")
    (date := c!"11/16/26 10:00:00 +0000") (procname := some c!"lamp") lamp_exportable (by decide) (by decide)
    (isName_of (by decide +kernel))
  exact ⟨s, p, h1, h2, (h3 _).2 lampRun_ok⟩

/-- **C109, restriction.** The label of the initial state is lost: the lamp is on at first, but the variable is false
at the start of every run of the process. -/
theorem fts2promela_initial_counterexample : ∃ s p,
    fts2promela lamp (fun _ => c!"{}") c!"today" (some c!"lamp") = .ok s ∧ readPromela s = some p ∧
      lamp.graph.initial = [c!"s0"] ∧ Labels lamp.graph c!"s0" [c!"on"] ∧ (∃ r, IsRun p r) ∧
      ∀ r, IsRun p r → (r 0).1 = c!"s0" ∧ (r 0).2 c!"on" = false := by
  obtain ⟨s, p, h1, h2, -, -, h3⟩ := fts2promela_runs (repr := fun _ => c!"{}")
    (date := c!"today") (procname := some c!"lamp") lamp_exportable (by decide) (by decide)
    (isName_of (by decide +kernel))
  have hi : lamp.graph.initial = [c!"s0"] := by decide +kernel
  refine ⟨s, p, h1, h2, hi, ⟨[("ap", .aps [c!"on"])], by decide +kernel, rfl⟩,
    ⟨_, (h3 _).2 lampRun_ok⟩, fun r hr => ?_⟩
  obtain ⟨h4, h5, -⟩ := (h3 r).1 hr
  rw [hi] at h4
  exact ⟨by simpa using h4, h5 _⟩

/-- A system with one state and a loop that has an action. -/
def loopWith (a : Attr LVal) : Fts where
  graph := LGraph.run [("ap", { contains := fun _ => true })] [("ap", .aps [])]
    [("sys_actions", { contains := fun _ => true })] []
    [.addNode c!"s0" [] true, .addEdge c!"s0" c!"s0" a true, .addInitial c!"s0"]
  name := c!"sys"
  props := []

/-- Whether the text that is returned can be read. -/
def readable (x : Except PyErr (List Char)) : Option Bool :=
  match x with
  | .ok s => some (readPromela s).isSome
  | .error _ => none

/-- **C109, restriction.** A transition with an action is dropped; here the state has no other, and the text is not
a Promela file. Without the action it is one. -/
theorem fts2promela_action_counterexample :
    readable (fts2promela (loopWith [("sys_actions", .text c!"go")]) (fun _ => c!"{}") c!"today" none) = some false ∧
    readable (fts2promela (loopWith []) (fun _ => c!"{}") c!"today" none) = some true := by
  constructor <;> decide +kernel

/-- **C109, restriction.** A process without a name is not a Promela file, and the name of a system is empty unless
the user sets it. -/
theorem fts2promela_name_counterexample :
    readable (fts2promela { loopWith [] with name := [] } (fun _ => c!"{}") c!"today" none) = some false := by
  decide +kernel

end Tulip.Pml
