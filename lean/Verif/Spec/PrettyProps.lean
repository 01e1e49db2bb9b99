import Verif.Spec.Pretty

/-!
# What `GRSpec.pretty` shows

`pretty_lines`: the lines of the text are those of `layout`: the declared variables, one a line, and the conjuncts of
each part, one a line, under the heading of that part; a part without conjuncts has no heading.

`pretty_injective`: specifications that are shown by the same text have the same variables and the same conjuncts in
each part.
-/

namespace Tulip

namespace Pretty

/-! ## Specification -/

/-- The text with the given lines. -/
def unlines (ls : List (List Char)) : List Char := (ls.map fun l => l ++ ['\n']).flatten

/-- The lines for variables. -/
def varLines (render : Dom → List Char) (vars : Dict String Dom) : List (List Char) :=
  if vars = [] then [c!"\t(none)"]
  else vars.map fun p => '\t' :: p.1.toList ++ '\t' :: render p.2

/-- The lines for conjuncts: the first is preceded by spaces, the others by the conjunction sign. -/
def conjLines (op : List Char) : List (List Char) → List (List Char)
  | [] => []
  | f :: fs => (c!"\t  " ++ op ++ c!"(" ++ f ++ c!")") :: fs.map fun f => c!"\t& " ++ op ++ c!"(" ++ f ++ c!")"

/-- The lines for a part. -/
def partLines (head op : List Char) (fs : List (List Char)) : List (List Char) :=
  if fs = [] then [] else (c!"    " ++ head) :: conjLines op fs

/-- The lines for one side. -/
def sideLines (init safety prog : List (List Char)) : List (List Char) :=
  partLines c!"INITIAL" [] init ++ partLines c!"SAFETY" c!"[]" safety ++ partLines c!"LIVENESS" c!"[]<>" prog

/-- The lines of the text. -/
def layout (render : Dom → List Char) (g : GRSpec) : List (List Char) :=
  [c!"ENVIRONMENT VARIABLES:"] ++ varLines render g.envVars ++
  [[], c!"SYSTEM VARIABLES:"] ++ varLines render g.sysVars ++
  [[], c!"FORMULA:", c!"ASSUMPTION:"] ++ sideLines g.envInit g.envSafety g.envProg ++
  [c!"GUARANTEE:"] ++ sideLines g.sysInit g.sysSafety g.sysProg

/-! ## Proofs -/

theorem unlines_append (a b : List (List Char)) : unlines (a ++ b) = unlines a ++ unlines b := by
  simp [unlines]

theorem unlines_cons (l : List Char) (b : List (List Char)) : unlines (l :: b) = l ++ '\n' :: unlines b := by
  simp [unlines]

theorem unlines_nil : unlines [] = [] := rfl

theorem foldl_text (render : Dom → List Char) (vars : Dict String Dom) : ∀ acc : List Char,
    vars.foldl (fun s p => s ++ (c!"\t" ++ p.1.toList ++ c!"\t" ++ render p.2 ++ c!"\n")) acc =
      acc ++ unlines (vars.map fun p => '\t' :: p.1.toList ++ '\t' :: render p.2) := by
  induction vars with
  | nil => intro acc; simp [unlines]
  | cons p l ih => intro acc; rw [List.foldl_cons, ih]; simp [unlines_cons]

theorem varsText_eq (render : Dom → List Char) (vars : Dict String Dom) :
    varsText render vars = unlines (varLines render vars) := by
  unfold varsText varLines
  split
  · rfl
  · rw [foldl_text]; rfl

theorem join_text (op : List Char) (fs : List (List Char)) : ∀ f : List Char,
    joinWith (c!"\n\t& " ++ op) ((f :: fs).map fun f => c!"(" ++ f ++ c!")") ++ c!"\n" =
      c!"(" ++ f ++ c!")" ++ c!"\n" ++ unlines (fs.map fun f => c!"\t& " ++ op ++ c!"(" ++ f ++ c!")") := by
  induction fs with
  | nil => intro f; simp [joinWith, unlines]
  | cons g l ih =>
    intro f
    have h := ih g
    simp only [List.map_cons] at h ⊢
    rw [joinWith, List.append_assoc, List.append_assoc, h, unlines_cons]
    simp

theorem partText_eq (head op : List Char) (fs : List (List Char)) :
    partText head op fs = unlines (partLines head op fs) := by
  unfold partText partLines
  cases fs with
  | nil => rfl
  | cons f fs =>
    have h := join_text op fs f
    simp only [List.append_assoc, reduceCtorEq, if_false] at h ⊢
    rw [h, unlines_cons, conjLines, unlines_cons]
    simp

/-- **The lines of the text** are the lines of `layout`. -/
theorem pretty_lines (render : Dom → List Char) (g : GRSpec) : pretty render g = unlines (layout render g) := by
  unfold pretty layout sideLines
  simp only [unlines_append, varsText_eq, partText_eq, List.append_assoc]
  rfl

/-! ### Reading -/

theorem append_break {α : Type} (p : α → Prop) : ∀ {a a' b b' : List α}, (∀ x ∈ a, p x) → (∀ x ∈ a', p x) →
    (∀ x ∈ b.head?, ¬ p x) → (∀ x ∈ b'.head?, ¬ p x) → a ++ b = a' ++ b' → a = a' ∧ b = b'
  | [], [], _, _, _, _, _, _, h => ⟨rfl, h⟩
  | [], x :: a', b, b', _, ha', hb, _, h => by
    rw [List.nil_append] at h
    subst h
    exact absurd (ha' x (.head _)) (hb x rfl)
  | x :: a, [], b, b', ha, _, _, hb', h => by
    rw [List.nil_append] at h
    subst h
    exact absurd (ha x (.head _)) (hb' x rfl)
  | x :: a, y :: a', b, b', ha, ha', hb, hb', h => by
    rw [List.cons_append, List.cons_append, List.cons.injEq] at h
    have := append_break p (fun z hz => ha z (.tail _ hz)) (fun z hz => ha' z (.tail _ hz)) hb hb' h.2
    exact ⟨by rw [h.1, this.1], this.2⟩

theorem append_at {c : Char} {a a' b b' : List Char} (ha : c ∉ a) (ha' : c ∉ a')
    (h : a ++ c :: b = a' ++ c :: b') : a = a' ∧ b = b' := by
  have := append_break (fun x => x ≠ c) (fun x hx e => ha (e ▸ hx)) (fun x hx e => ha' (e ▸ hx))
    (by intro x hx; cases hx; simp) (by intro x hx; cases hx; simp) h
  exact ⟨this.1, (List.cons.inj this.2).2⟩

/-- The lines of a text are determined by it. -/
theorem unlines_inj : ∀ {a b : List (List Char)}, (∀ l ∈ a, '\n' ∉ l) → (∀ l ∈ b, '\n' ∉ l) →
    unlines a = unlines b → a = b
  | [], [], _, _, _ => rfl
  | [], x :: b, _, _, h => by rw [unlines_cons] at h; simp [unlines] at h
  | x :: a, [], _, _, h => by rw [unlines_cons] at h; simp [unlines] at h
  | x :: a, y :: b, ha, hb, h => by
    rw [unlines_cons, unlines_cons] at h
    have := append_at (ha x (.head _)) (hb y (.head _)) h
    rw [this.1, unlines_inj (fun l hl => ha l (.tail _ hl)) (fun l hl => hb l (.tail _ hl)) this.2]

/-- A line that is indented by a tab. -/
def Tabbed (l : List Char) : Prop := l.head? = some '\t'

theorem varLines_tabbed (render : Dom → List Char) (vars : Dict String Dom) : ∀ l ∈ varLines render vars, Tabbed l := by
  unfold varLines
  intro l hl
  split at hl
  · simp at hl; subst hl; rfl
  · obtain ⟨p, _, rfl⟩ := List.mem_map.1 hl; rfl

theorem conjLines_tabbed (op : List Char) (fs : List (List Char)) : ∀ l ∈ conjLines op fs, Tabbed l := by
  intro l hl
  cases fs with
  | nil => exact absurd hl List.not_mem_nil
  | cons f fs =>
    rcases List.mem_cons.1 hl with rfl | hl
    · rfl
    · obtain ⟨p, _, rfl⟩ := List.mem_map.1 hl; rfl

theorem conj_inj (op : List Char) : ∀ {fs gs : List (List Char)}, conjLines op fs = conjLines op gs → fs = gs
  | [], [], _ => rfl
  | [], _ :: _, h => by simp [conjLines] at h
  | _ :: _, [], h => by simp [conjLines] at h
  | f :: fs, g :: gs, h => by
    simp only [conjLines, List.cons.injEq, List.append_cancel_right_eq, List.append_cancel_left_eq,
      List.append_assoc] at h
    obtain ⟨rfl, h⟩ := h
    congr 1
    refine List.map_injective_iff.2 ?_ h
    intro a b hab
    simpa using hab

/-- A block is determined by the lines, if what follows does not begin with its heading or an indented line. -/
theorem part_inj {head op : List Char} {fs gs r r' : List (List Char)}
    (hr : ∀ l ∈ r.head?, ¬ Tabbed l ∧ l ≠ c!"    " ++ head) (hr' : ∀ l ∈ r'.head?, ¬ Tabbed l ∧ l ≠ c!"    " ++ head)
    (h : partLines head op fs ++ r = partLines head op gs ++ r') : fs = gs ∧ r = r' := by
  unfold partLines at h
  by_cases hf : fs = [] <;> by_cases hg : gs = []
  · rw [if_pos hf, if_pos hg] at h
    exact ⟨by rw [hf, hg], h⟩
  · rw [if_pos hf, if_neg hg, List.nil_append] at h
    subst h
    exact absurd rfl (hr _ rfl).2
  · rw [if_neg hf, if_pos hg, List.nil_append] at h
    subst h
    exact absurd rfl (hr' _ rfl).2
  · rw [if_neg hf, if_neg hg] at h
    simp only [List.cons_append (as := conjLines _ _), List.cons.injEq, true_and] at h
    have := append_break Tabbed (conjLines_tabbed op fs) (conjLines_tabbed op gs)
      (fun l hl => (hr l hl).1) (fun l hl => (hr' l hl).1) h
    exact ⟨conj_inj op this.1, this.2⟩

theorem head_part (head op : List Char) (fs r : List (List Char)) (l : List Char)
    (hl : l ∈ (partLines head op fs ++ r).head?) : l = c!"    " ++ head ∨ l ∈ r.head? := by
  unfold partLines at hl
  split at hl
  · exact .inr hl
  · simp at hl; exact .inl hl.symm

/-- A side is determined by the lines, if what follows begins with a line that is not indented. -/
theorem side_inj {a a' b b' c c' r r' : List (List Char)} (hr : ∀ l ∈ r.head?, l.head? ≠ some '\t' ∧ l.head? ≠ some ' ')
    (hr' : ∀ l ∈ r'.head?, l.head? ≠ some '\t' ∧ l.head? ≠ some ' ')
    (h : sideLines a b c ++ r = sideLines a' b' c' ++ r') : a = a' ∧ b = b' ∧ c = c' ∧ r = r' := by
  unfold sideLines at h
  simp only [List.append_assoc] at h
  have out : ∀ {r : List (List Char)}, (∀ l ∈ r.head?, l.head? ≠ some '\t' ∧ l.head? ≠ some ' ') →
      ∀ (hd : List Char), ∀ l ∈ r.head?, ¬ Tabbed l ∧ l ≠ c!"    " ++ hd := by
    intro r hr hd l hl
    refine ⟨(hr l hl).1, fun e => (hr l hl).2 ?_⟩
    rw [e]; rfl
  have h3 : ∀ {r : List (List Char)}, (∀ l ∈ r.head?, l.head? ≠ some '\t' ∧ l.head? ≠ some ' ') →
      ∀ (c : List (List Char)), ∀ l ∈ (partLines c!"LIVENESS" c!"[]<>" c ++ r).head?,
        ¬ Tabbed l ∧ l ≠ c!"    " ++ c!"SAFETY" := by
    intro r hr c l hl
    rcases head_part _ _ _ _ _ hl with rfl | hl
    · exact ⟨by unfold Tabbed; decide, by decide⟩
    · exact out hr _ l hl
  have h2 : ∀ {r : List (List Char)}, (∀ l ∈ r.head?, l.head? ≠ some '\t' ∧ l.head? ≠ some ' ') →
      ∀ (b c : List (List Char)), ∀ l ∈ (partLines c!"SAFETY" c!"[]" b ++ (partLines c!"LIVENESS" c!"[]<>" c ++ r)).head?,
        ¬ Tabbed l ∧ l ≠ c!"    " ++ c!"INITIAL" := by
    intro r hr b c l hl
    rcases head_part _ _ _ _ _ hl with rfl | hl
    · exact ⟨by unfold Tabbed; decide, by decide⟩
    · rcases head_part _ _ _ _ _ hl with rfl | hl
      · exact ⟨by unfold Tabbed; decide, by decide⟩
      · exact out hr _ l hl
  obtain ⟨e1, h⟩ := part_inj (h2 hr b c) (h2 hr' b' c') h
  obtain ⟨e2, h⟩ := part_inj (h3 hr c) (h3 hr' c') h
  obtain ⟨e3, h⟩ := part_inj (out hr _) (out hr' _) h
  exact ⟨e1, e2, e3, h⟩

/-- The variables are determined by their lines. -/
theorem vars_inj (render : Dom → List Char) : ∀ {d e : Dict String Dom}, (∀ p ∈ d, '\t' ∉ p.1.toList) →
    (∀ p ∈ e, '\t' ∉ p.1.toList) → varLines render d = varLines render e →
    d.map (fun p => (p.1, render p.2)) = e.map (fun p => (p.1, render p.2)) := by
  have key : ∀ {d e : Dict String Dom}, (∀ p ∈ d, '\t' ∉ p.1.toList) → (∀ p ∈ e, '\t' ∉ p.1.toList) →
      d.map (fun p => '\t' :: p.1.toList ++ '\t' :: render p.2) = e.map (fun p => '\t' :: p.1.toList ++ '\t' :: render p.2) →
      d.map (fun p => (p.1, render p.2)) = e.map (fun p => (p.1, render p.2)) := by
    intro d
    induction d with
    | nil => intro e _ _ h; cases e with
      | nil => rfl
      | cons => simp at h
    | cons p d ih => intro e hd he h; cases e with
      | nil => simp at h
      | cons q e =>
        simp only [List.map_cons, List.cons.injEq, List.cons_append, true_and] at h
        have h1 := append_at (hd p (.head _)) (he q (.head _)) h.1
        simp only [List.map_cons]
        rw [ih (fun x hx => hd x (.tail _ hx)) (fun x hx => he x (.tail _ hx)) h.2, h1.2, String.toList_inj.1 h1.1]
  have none_ne : ∀ {d : Dict String Dom}, d ≠ [] →
      [c!"\t(none)"] ≠ d.map (fun p => '\t' :: p.1.toList ++ '\t' :: render p.2) := by
    intro d hd h
    cases d with
    | nil => exact hd rfl
    | cons p d =>
      simp only [List.map_cons, List.cons.injEq, List.cons_append] at h
      have h1 : c!"(none)" = p.1.toList ++ '\t' :: render p.2 := h.1.2
      have : '\t' ∈ c!"(none)" := by rw [h1]; simp
      exact absurd this (by decide)
  intro d e hd he h
  unfold varLines at h
  by_cases h1 : d = [] <;> by_cases h2 : e = []
  · rw [h1, h2]
  · rw [if_pos h1, if_neg h2] at h; exact absurd h (none_ne h2)
  · rw [if_neg h1, if_pos h2] at h; exact absurd h.symm (none_ne h1)
  · rw [if_neg h1, if_neg h2] at h; exact key hd he h

/-- No line break occurs in the conjuncts, in the names and in the texts of domains, and no tab in the names. -/
structure Plain (render : Dom → List Char) (g : GRSpec) : Prop where
  vars : ∀ p ∈ g.envVars ++ g.sysVars, '\t' ∉ p.1.toList ∧ '\n' ∉ p.1.toList ∧ '\n' ∉ render p.2
  conj : ∀ f ∈ g.envInit ++ g.envSafety ++ g.envProg ++ g.sysInit ++ g.sysSafety ++ g.sysProg, '\n' ∉ f

theorem varLines_plain (render : Dom → List Char) {d : Dict String Dom}
    (h : ∀ p ∈ d, '\n' ∉ p.1.toList ∧ '\n' ∉ render p.2) : ∀ l ∈ varLines render d, '\n' ∉ l := by
  unfold varLines
  intro l hl
  split at hl
  · simp at hl; subst hl; decide
  · obtain ⟨p, hp, rfl⟩ := List.mem_map.1 hl
    have := h p hp
    simp [this]

theorem partLines_plain {head op : List Char} (hh : '\n' ∉ head) (ho : '\n' ∉ op) {fs : List (List Char)}
    (h : ∀ f ∈ fs, '\n' ∉ f) : ∀ l ∈ partLines head op fs, '\n' ∉ l := by
  unfold partLines
  intro l hl
  split at hl
  · exact absurd hl List.not_mem_nil
  · rcases List.mem_cons.1 hl with rfl | hl
    · simp [hh]
    · cases fs with
      | nil => exact absurd hl List.not_mem_nil
      | cons f fs =>
        rcases List.mem_cons.1 hl with rfl | hl
        · have := h f (.head _); simp [this, ho]
        · obtain ⟨g, hg, rfl⟩ := List.mem_map.1 hl
          have := h g (.tail _ hg); simp [this, ho]

theorem sideLines_plain {a b c : List (List Char)} (h : ∀ f ∈ a ++ b ++ c, '\n' ∉ f) :
    ∀ l ∈ sideLines a b c, '\n' ∉ l := by
  intro l hl
  simp only [sideLines, List.mem_append] at hl
  simp only [List.mem_append] at h
  rcases hl with (hl | hl) | hl
  · exact partLines_plain (by decide) (by decide) (fun f hf => h f (.inl (.inl hf))) l hl
  · exact partLines_plain (by decide) (by decide) (fun f hf => h f (.inl (.inr hf))) l hl
  · exact partLines_plain (by decide) (by decide) (fun f hf => h f (.inr hf)) l hl

theorem layout_plain {render : Dom → List Char} {g : GRSpec} (h : Plain render g) :
    ∀ l ∈ layout render g, '\n' ∉ l := by
  have hv := h.vars
  have hc := h.conj
  simp only [List.mem_append] at hv hc
  have h1 := varLines_plain render (d := g.envVars) fun p hp => (hv p (.inl hp)).2
  have h2 := varLines_plain render (d := g.sysVars) fun p hp => (hv p (.inr hp)).2
  have h3 := sideLines_plain (a := g.envInit) (b := g.envSafety) (c := g.envProg) (by
    intro f hf; simp only [List.mem_append] at hf; exact hc f (.inl (.inl (.inl hf))))
  have h4 := sideLines_plain (a := g.sysInit) (b := g.sysSafety) (c := g.sysProg) (by
    intro f hf
    simp only [List.mem_append] at hf
    rcases hf with (hf | hf) | hf
    · exact hc f (.inl (.inl (.inr hf)))
    · exact hc f (.inl (.inr hf))
    · exact hc f (.inr hf))
  intro l hl
  simp only [layout, List.mem_append, List.mem_cons, List.not_mem_nil, or_false] at hl
  rcases hl with ((((((rfl | hl) | rfl | rfl) | hl) | rfl | rfl | rfl) | hl) | rfl) | hl
  all_goals first | exact h1 l hl | exact h2 l hl | exact h3 l hl | exact h4 l hl | decide

/-- **Specifications that are shown by the same text are the same**: they have the same variables in the same order, with
domains of the same text, and the same conjuncts in the same order in each of the six parts. -/
theorem pretty_injective {render : Dom → List Char} {g h : GRSpec} (hg : Plain render g) (hh : Plain render h)
    (e : pretty render g = pretty render h) :
    g.envVars.map (fun p => (p.1, render p.2)) = h.envVars.map (fun p => (p.1, render p.2)) ∧
    g.sysVars.map (fun p => (p.1, render p.2)) = h.sysVars.map (fun p => (p.1, render p.2)) ∧
    g.envInit = h.envInit ∧ g.envSafety = h.envSafety ∧ g.envProg = h.envProg ∧
    g.sysInit = h.sysInit ∧ g.sysSafety = h.sysSafety ∧ g.sysProg = h.sysProg := by
  rw [pretty_lines, pretty_lines] at e
  have e := unlines_inj (layout_plain hg) (layout_plain hh) e
  unfold layout at e
  simp only [List.append_assoc, List.cons_append, List.nil_append, List.cons.injEq, true_and] at e
  have nt : ∀ {r : List (List Char)}, ∀ l ∈ (([] : List Char) :: r).head?, ¬ Tabbed l := by
    intro r l hl; cases hl; unfold Tabbed; decide
  obtain ⟨ev, e⟩ := append_break Tabbed (varLines_tabbed render _) (varLines_tabbed render _) nt nt e
  simp only [List.cons.injEq, true_and] at e
  obtain ⟨sv, e⟩ := append_break Tabbed (varLines_tabbed render _) (varLines_tabbed render _) nt nt e
  simp only [List.cons.injEq, true_and] at e
  have hG : ∀ {r : List (List Char)}, ∀ l ∈ (c!"GUARANTEE:" :: r).head?, l.head? ≠ some '\t' ∧ l.head? ≠ some ' ' := by
    intro r l hl; cases hl; decide
  obtain ⟨h1, h2, h3, e⟩ := side_inj hG hG e
  simp only [List.cons.injEq, true_and] at e
  rw [← List.append_nil (sideLines _ _ _), ← List.append_nil (sideLines h.sysInit _ _)] at e
  have hN : ∀ l ∈ ([] : List (List Char)).head?, l.head? ≠ some '\t' ∧ l.head? ≠ some ' ' := by
    intro l hl; cases hl
  obtain ⟨h4, h5, h6, _⟩ := side_inj hN hN e
  have hv := hg.vars
  have hv' := hh.vars
  simp only [List.mem_append] at hv hv'
  exact ⟨vars_inj render (fun p hp => (hv p (.inl hp)).1) (fun p hp => (hv' p (.inl hp)).1) ev,
    vars_inj render (fun p hp => (hv p (.inr hp)).1) (fun p hp => (hv' p (.inr hp)).1) sv, h1, h2, h3, h4, h5, h6⟩

/-! ## A case -/

/-- The text of a domain of integers or Booleans. -/
def renderEx : Dom → List Char
  | .boolean => c!"boolean"
  | .range lo hi => c!"(" ++ (toString lo).toList ++ c!", " ++ (toString hi).toList ++ c!")"
  | .strs _ => c!"[...]"

/-- A specification with a part that has two conjuncts. -/
def gEx : GRSpec :=
  ⟨[("park", .boolean)], [("X0reach", .boolean), ("loc", .range 0 5)], [], [c!"X0reach"], [c!"!park -> X park", c!"park"],
    [], [c!"!park"], [c!"loc = 5"], false, false, c!"\\A \\E", []⟩

example : pretty renderEx gEx = c!"ENVIRONMENT VARIABLES:\n\tpark\tboolean\n" ++
    c!"\nSYSTEM VARIABLES:\n\tX0reach\tboolean\n\tloc\t(0, 5)\n" ++
    c!"\nFORMULA:\nASSUMPTION:\n    SAFETY\n\t  [](!park -> X park)\n" ++
    c!"\t& [](park)\n    LIVENESS\n\t  []<>(!park)\n" ++
    c!"GUARANTEE:\n    INITIAL\n\t  (X0reach)\n    LIVENESS\n\t  []<>(loc = 5)\n" := by
  decide +kernel

example : Plain renderEx gEx := by
  constructor
  · decide +kernel
  · decide +kernel

end Pretty

end Tulip
