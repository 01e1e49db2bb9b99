import Verif.Spec.TransOutProps

/-!
# The texts for JTLV mean the specification (C87, first part)
-/

namespace Tulip
namespace Trans

open Cache Omega

/-! ## Spec -/

/-- A text without its comment lines, those that begin with `--`; every line ends with a newline. -/
def uncomment (s : List Char) : List Char :=
  ((Gw.splitOn '\n' s).filter fun l => !c!"--".isPrefixOf l).flatMap (· ++ c!"\n")

/-- A text of JTLV on a trace: no text is no condition. -/
def JtlvSays (τ : Trace) (s : List Char) : Prop := s = [] ∨ Holds τ 0 (uncomment s)

/-- The clauses that JTLV can express: the variables are declared. -/
def JtlvClause (g : GRSpec) (x : List Char) : Prop :=
  ∃ b, ClauseTree g x b ∧ Within [.not, .always, .eventually, .next] [.and, .or, .imp, .bimp, .strongUntil]
    [.eq, .ne, .lt, .le, .gt, .ge] [] (fun v => v ∈ g.envVars.keys ++ g.sysVars.keys) b

/-- The trace of JTLV: variables of the environment are in the module `e`, the others in the module `s`. -/
def Modules (g : GRSpec) (σ τ : Trace) : Prop :=
  ∀ i, (∀ x ∈ g.envVars.keys, τ i ("e." ++ x) = σ i x) ∧
    ∀ x ∈ g.sysVars.keys, x ∉ g.envVars.keys → τ i ("s." ++ x) = σ i x

/-! ## The language -/

/-- The name of a variable in JTLV. -/
def jtlvName (g : GRSpec) (x : String) : String := if g.envVars.has x then "e." ++ x else "s." ++ x

theorem ident_prefix {c : Char} (hc : c = 'e' ∨ c = 's') {x : String} (h : IsIdent x) {y : String}
    (hy : y.toList = c :: '.' :: x.toList) : IsIdent y ∧ ¬ IsReserved y := by
  obtain ⟨d, ds, e, h1, h2⟩ := h
  refine ⟨⟨c, _, hy, ?_, ?_⟩, ?_⟩
  · rcases hc with rfl | rfl <;> decide
  · intro a ha
    rw [e] at ha
    simp only [List.mem_cons] at ha
    rcases ha with rfl | rfl | ha
    · right; right; left; rfl
    · rcases h1 with h1 | h1 | rfl
      · left; exact ⟨h1.1, Char.le_trans h1.2 (by decide)⟩
      · left; exact ⟨Char.le_trans (by decide) h1.1, h1.2⟩
      · right; right; right; left; rfl
    · exact h2 a ha
  · unfold IsReserved
    rw [hy]
    rcases hc with rfl | rfl
    all_goals
      simp only [List.map_cons, List.mem_cons, List.cons.injEq, List.not_mem_nil, or_false, Char.reduceEq,
        false_and, and_false, or_self, not_or]
      exact ⟨by decide, fun h => absurd h.1 (by decide), fun h => absurd h.1 (by decide)⟩

theorem jtlv_readable (g : GRSpec) : Readable (jtlv g) id (fun _ x => .var (jtlvName g x)) .bool where
  un op o h hp := by
    rw [List.map_id]
    cases op <;> simp only [jtlv, Option.some.injEq, reduceCtorEq] at h <;> subst h
    · exact ⟨by decide, fun r => lex_unText rfl⟩
    · refine ⟨by decide, fun r => ?_⟩
      exact (lex_word (c := 'n') (w := c!"ext") (rest := ' ' :: r) (by decide) (by decide)
        (by simp; decide)).trans (by rw [lex_space]; rfl)
    · exact ⟨by decide, fun r => by simp [lex_cons, lexStep]⟩
    · exact ⟨by decide, fun r => by simp [lex_cons, lexStep]⟩
  bin op o h := by
    rw [List.map_id]
    cases op <;> simp only [jtlv, Option.some.injEq, reduceCtorEq] at h <;> subst h
    all_goals exact ⟨by decide, fun r => lex_binText rfl⟩
  cmp op o h := by rw [List.map_id]; exact h
  ar op o h := by cases h
  bool b := by rw [List.map_id]; exact prints_upper b
  var p x s h1 h2 h := by
    rw [List.map_id]
    have key : ∀ (c : Char) (y : String), (c = 'e' ∨ c = 's') → y.toList = c :: '.' :: x.toList →
        Prints (c!"(" ++ y.toList ++ c!")") (.var y) := by
      intro c y hc hy
      have := ident_prefix hc h1 hy
      exact prints_paren (unit_ident this.1 this.2).clean (unit_ident this.1 this.2).parse
    simp only [jtlv] at h
    unfold jtlvName
    split at h
    · rename_i he
      cases h
      rw [if_pos he]
      have := key 'e' ("e." ++ x) (.inl rfl) (by simp)
      simpa using this
    · rename_i he
      rw [if_neg he]
      split at h
      · cases h
        have := key 's' ("s." ++ x) (.inr rfl) (by simp)
        simpa using this
      · cases h
  space := rfl
  lpar := rfl
  rpar := rfl
  num n := List.map_id _

theorem jtlv_iff (g : GRSpec) {b : Ast} (hb : NoStrConst b) : (∃ s, text (jtlv g) false b = .ok s) ↔
    Within [.not, .always, .eventually, .next] [.and, .or, .imp, .bimp, .strongUntil]
      [.eq, .ne, .lt, .le, .gt, .ge] [] (fun v => v ∈ g.envVars.keys ++ g.sysVars.keys) b :=
  text_iff (fun op => by cases op <;> simp [jtlv]) (fun op => by cases op <;> simp [jtlv])
    (fun op => by cases op <;> simp [jtlv, cmpText]) (fun op => by simp [jtlv])
    (fun p x => by
      have h1 := Dict.has_iff g.envVars x
      have h2 := Dict.has_iff g.sysVars x
      rw [← Dict.mem_keys_iff] at h1 h2
      simp only [List.mem_append, ← h1, ← h2, jtlv]
      cases g.envVars.has x <;> cases g.sysVars.has x <;> simp) hb false

theorem jtlv_chars (g : GRSpec) {b : Ast} (hn : Named b) (hs : NoStrConst b) {s : List Char}
    (h : text (jtlv g) false b = .ok s) : ∀ c ∈ s, TextChar c :=
  text_chars (L := jtlv g) (by unfold TextChar; decide)
    (by
      intro op o h c hc
      cases op <;> simp only [jtlv, Option.some.injEq, reduceCtorEq] at h <;> subst h <;>
        revert c <;> unfold TextChar <;> decide)
    (by
      intro op o h c hc
      cases op <;> simp only [jtlv, Option.some.injEq, reduceCtorEq] at h <;> subst h <;>
        revert c <;> unfold TextChar <;> decide) cmpText_chars
    (by intro op o h; cases h) (by intro b; cases b <;> simp only [jtlv] <;> unfold TextChar <;> decide)
    intChars_nameChar
    (by
      intro p x s hx h c hc
      have key : ∀ d, d = 'e' ∨ d = 's' → c ∈ '(' :: d :: '.' :: (x.toList ++ c!")") → TextChar c := by
        intro d hd hm
        simp only [List.mem_cons, List.mem_append, List.not_mem_nil, or_false] at hm
        rcases hm with rfl | rfl | rfl | hm | rfl
        · unfold TextChar; decide
        · rcases hd with rfl | rfl <;> unfold TextChar <;> decide
        · unfold TextChar; decide
        · exact ident_nameChar hx c hm
        · unfold TextChar; decide
      simp only [jtlv] at h
      split at h
      · cases h; exact key 'e' (.inl rfl) (by simpa using hc)
      · split at h
        · cases h; exact key 's' (.inr rfl) (by simpa using hc)
        · cases h) hn hs h

/-! ## Removing white space after `next` -/

theorem lex_blank {u : List Char} (hu : ∀ c ∈ u, c = ' ') (r : List Char) : lex (u ++ r) = lex r := by
  induction u with
  | nil => rfl
  | cons c u ih =>
    rw [hu c (by simp), List.cons_append, lex_space]
    exact ih fun d hd => hu d (by simp [hd])

theorem collapseNext_lex {s : List Char} (hs : '#' ∉ s) (hw : ∀ c ∈ s, isSpace c = true → c = ' ')
    {pre : List Char} (hp : '#' ∉ pre) : lex (pre ++ collapseNext s) = lex (pre ++ s) := by
  induction s using collapseNext.induct generalizing pre with
  | case1 r u hu ih =>
    rw [collapseNext, hu]
    simp only
    have hsp : r = r.takeWhile isSpace ++ '(' :: u := by rw [← hu]; exact (List.takeWhile_append_dropWhile ..).symm
    have hin : ∀ c ∈ '(' :: u, c ∈ r := by
      intro c hc; rw [hsp]; exact List.mem_append_right _ hc
    have hb : '#' ∉ pre ++ c!"next" := by simp [hp]
    have e1 : pre ++ 'n' :: 'e' :: 'x' :: 't' :: collapseNext ('(' :: u) =
        (pre ++ c!"next") ++ collapseNext ('(' :: u) := by simp
    have e2 : pre ++ 'n' :: 'e' :: 'x' :: 't' :: r = (pre ++ c!"next") ++ r := by simp
    rw [hu] at ih
    rw [e1, ih (fun h => hs (by simp [hin _ h])) (fun c hc => hw c (by simp [hin c hc])) hb, e2,
      lex_breaks u hb (by unfold Breaks; simp)]
    have hsp' : ∀ c ∈ r.takeWhile isSpace, c = ' ' := fun c hc =>
      hw c (by simp [(List.takeWhile_prefix isSpace).subset hc]) (List.mem_takeWhile_imp hc)
    cases ht : r.takeWhile isSpace with
    | nil =>
      rw [ht] at hsp
      rw [hsp, List.nil_append, lex_breaks u hb (by unfold Breaks; simp)]
    | cons c cs =>
      rw [ht] at hsp hsp'
      have hc := hsp' c (by simp)
      subst hc
      rw [hsp, List.cons_append, lex_breaks _ hb (by unfold Breaks; simp), lex_space,
        lex_blank (u := cs) fun d hd => hsp' d (List.mem_cons_of_mem _ hd)]
  | case2 r hno ih =>
    have he : collapseNext ('n' :: 'e' :: 'x' :: 't' :: r) = 'n' :: 'e' :: 'x' :: 't' :: collapseNext r := by
      rw [collapseNext]
      split
      · rename_i u hu; exact absurd hu (hno u)
      · rfl
    rw [he]
    have := ih (fun h => hs (by simp [h])) (fun c hc => hw c (by simp [hc])) (pre := pre ++ c!"next") (by simp [hp])
    simpa using this
  | case3 c r hno ih =>
    rw [collapseNext]
    · have := ih (fun h => hs (by simp [h])) (fun d hd => hw d (by simp [hd])) (pre := pre ++ [c]) (by
        simp only [List.mem_append, List.mem_singleton, not_or]
        exact ⟨hp, fun e => hs (List.mem_cons.2 (.inl e))⟩)
      simpa using this
    · exact hno
  | case4 => rw [collapseNext]

theorem collapseNext_mem {s : List Char} : ∀ c ∈ collapseNext s, c ∈ s := by
  induction s using collapseNext.induct with
  | case1 r u hu ih =>
    rw [collapseNext, hu]
    rw [hu] at ih
    intro c hc
    simp only [List.mem_cons] at hc ⊢
    rcases hc with h | h | h | h | h
    all_goals try (simp [h]; done)
    have := ih c h
    rw [← hu] at this
    simp [(List.dropWhile_suffix isSpace).subset this]
  | case2 r hno ih =>
    rw [collapseNext]
    intro c hc
    split at hc
    · rename_i u hu; exact absurd hu (hno u)
    · simp only [List.mem_cons] at hc ⊢
      rcases hc with h | h | h | h | h
      all_goals try (simp [h]; done)
      simp [ih c h]
  | case3 c r hno ih =>
    rw [collapseNext]
    swap
    · exact hno
    intro d hd
    rcases List.mem_cons.1 hd with rfl | hd
    · simp
    · simp [ih d hd]
  | case4 => simp [collapseNext]

/-! ## Comments -/

theorem uncomment_append (a b : List Char) : uncomment (a ++ '\n' :: b) = uncomment a ++ uncomment b := by
  unfold uncomment Gw.splitOn
  rw [Gw.splitOn_append, List.filter_append, List.flatMap_append]

theorem uncomment_comment {a : List Char} (h : '\n' ∉ a) : uncomment (c!"-- " ++ a) = [] := by
  have : '\n' ∉ c!"-- " ++ a := by simp [h]
  unfold uncomment
  rw [splitOn_single this]
  simp [List.isPrefixOf]

theorem uncomment_line {a : List Char} (h : '\n' ∉ a) (hp : c!"--".isPrefixOf a = false) :
    uncomment a = a ++ c!"\n" := by
  unfold uncomment
  rw [splitOn_single h]
  simp [hp]

theorem uncomment_lines {us : List (List Char)} (hne : us ≠ [])
    (h : ∀ u ∈ us, '\n' ∉ u ∧ u.head? = some '\t') {t : List Char} (ht : '\n' ∉ t) :
    uncomment (joinWith c!" & \n" us ++ t) = joinWith c!" & \n" us ++ t ++ c!"\n" := by
  have hpre : ∀ u v : List Char, u.head? = some '\t' → c!"--".isPrefixOf (u ++ v) = false := by
    intro u v hu
    cases u with
    | nil => cases hu
    | cons c u => cases hu; rfl
  induction us with
  | nil => exact absurd rfl hne
  | cons u us ih =>
    have hu := h u (by simp)
    cases us with
    | nil =>
      simp only [joinWith]
      exact uncomment_line (by simp [hu.1, ht]) (hpre _ _ hu.2)
    | cons v vs =>
      have := ih (by simp) fun w hw => h w (by simp [hw])
      have e : joinWith c!" & \n" (u :: v :: vs) ++ t =
          (u ++ c!" & ") ++ '\n' :: (joinWith c!" & \n" (v :: vs) ++ t) := by simp [joinWith]
      rw [e, uncomment_append, this, uncomment_line (by simp [hu.1]) (hpre _ _ hu.2)]
      simp

/-- The units of a section. -/
def jtlvUnits (m : List (List Char)) (pre : List Char) : List (List Char) :=
  m.map fun x => c!"\t" ++ pre ++ c!"(" ++ (if pre = c!"[]" then collapseNext x else x) ++ c!")"

theorem jtlvSection_eq {m : List (List Char)} (h : ∀ s ∈ m, s ≠ []) (comment pre : List Char) :
    jtlvSection m comment pre =
      if m.isEmpty then [] else (c!"-- " ++ comment) ++ '\n' :: joinWith c!" & \n" (jtlvUnits m pre) := by
  unfold jtlvSection jtlvUnits
  rw [List.filter_eq_self.2 fun s hs => by
    have := h s hs
    cases s <;> simp_all]
  simp

/-- Sections, each with a comment, without the comments. -/
theorem uncomment_sections {ps : List (List Char × List (List Char))} (hne : ps ≠ [])
    (h : ∀ p ∈ ps, '\n' ∉ p.1 ∧ p.2 ≠ [] ∧ ∀ u ∈ p.2, '\n' ∉ u ∧ u.head? = some '\t') :
    uncomment (joinWith c!" & \n" (ps.map fun p => (c!"-- " ++ p.1) ++ '\n' :: joinWith c!" & \n" p.2)) =
      joinWith c!" & \n" (ps.flatMap (·.2)) ++ c!"\n" := by
  induction ps with
  | nil => exact absurd rfl hne
  | cons p ps ih =>
    obtain ⟨h1, h2, h3⟩ := h p (by simp)
    cases ps with
    | nil =>
      have := uncomment_lines h2 h3 (t := []) (by simp)
      simp only [List.append_nil] at this
      simp only [List.map_cons, List.map_nil, joinWith, List.flatMap_cons, List.flatMap_nil, List.append_nil]
      rw [uncomment_append, uncomment_comment h1, this, List.nil_append]
    | cons q qs =>
      have ih := ih (by simp) fun r hr => h r (by simp [hr])
      have hj : ∀ (us vs : List (List Char)), us ≠ [] → vs ≠ [] →
          joinWith c!" & \n" (us ++ vs) = joinWith c!" & \n" us ++ c!" & \n" ++ joinWith c!" & \n" vs := by
        intro us vs hus hvs
        cases us with
        | nil => exact absurd rfl hus
        | cons u us =>
          cases vs with
          | nil => exact absurd rfl hvs
          | cons v vs => simp [joinWith_cons_eq]
      have e : joinWith c!" & \n" ((p :: q :: qs).map fun p => (c!"-- " ++ p.1) ++ '\n' :: joinWith c!" & \n" p.2) =
          (c!"-- " ++ p.1) ++ '\n' :: ((joinWith c!" & \n" p.2 ++ c!" & ") ++
            '\n' :: joinWith c!" & \n" ((q :: qs).map fun p => (c!"-- " ++ p.1) ++ '\n' :: joinWith c!" & \n" p.2)) := by
        simp [joinWith]
      rw [e, uncomment_append, uncomment_append, uncomment_comment h1, ih,
        uncomment_lines h2 h3 (by simp), List.flatMap_cons (x := p), hj _ _ h2 (by
          obtain ⟨_, k, _⟩ := h q (by simp)
          simp [List.flatMap_cons, k])]
      simp

theorem lex_tab (r : List Char) : lex ('\t' :: r) = lex r := by
  rw [lex_cons]; rfl

theorem lex_end {s : List Char} (h : '#' ∉ s) : lex (s ++ c!"\n") = lex s := by
  rw [lex_breaks [] h (by unfold Breaks; simp)]
  simp [lex_cons, lexStep]

/-- One player's text for JTLV. -/
def jtlvSide (c1 c2 c3 : List Char) (init safety prog : List (List Char)) : List Char :=
  joinWith c!" & \n" ([jtlvSection init c1 [], jtlvSection safety c2 c!"[]",
    jtlvSection prog c3 c!"[]<>"].filter fun x => !x.isEmpty)

theorem unit_congr {s t : List Char} {b : Ast} (hs : '#' ∉ t) (h : lex t = lex s) (hu : UnitStr s b) :
    UnitStr t b := ⟨hs, by rw [h]; exact hu.reads⟩

theorem jtlvSide_says {c1 c2 c3 : List Char} (hc : '\n' ∉ c1 ∧ '\n' ∉ c2 ∧ '\n' ∉ c3)
    {init safety prog : List (List Char)}
    (h : ∀ s ∈ init ++ safety ++ prog, s ≠ [] ∧ (∀ c ∈ s, TextChar c) ∧ '#' ∉ s ∧ ∃ b, Tulip.parse s = some b)
    (τ : Trace) :
    JtlvSays τ (jtlvSide c1 c2 c3 init safety prog) ↔ SideMeaning init safety prog τ := by
  let ps := [(c1, jtlvUnits init []), (c2, jtlvUnits safety c!"[]"), (c3, jtlvUnits prog c!"[]<>")].filter
    fun p => !p.2.isEmpty
  have hside : jtlvSide c1 c2 c3 init safety prog =
      joinWith c!" & \n" (ps.map fun p => (c!"-- " ++ p.1) ++ '\n' :: joinWith c!" & \n" p.2) := by
    have e : ∀ m c p, (∀ s ∈ m, s ≠ []) → jtlvSection m c p = if (jtlvUnits m p).isEmpty then [] else
        (c!"-- " ++ c) ++ '\n' :: joinWith c!" & \n" (jtlvUnits m p) := by
      intro m c p hm
      rw [jtlvSection_eq hm]
      cases m <;> simp [jtlvUnits]
    unfold jtlvSide
    rw [e _ _ _ fun s hs => (h s (by simp [hs])).1, e _ _ _ fun s hs => (h s (by simp [hs])).1,
      e _ _ _ fun s hs => (h s (by simp [hs])).1]
    congr 1
    simp only [ps]
    generalize jtlvUnits init [] = a
    generalize jtlvUnits safety c!"[]" = b
    generalize jtlvUnits prog c!"[]<>" = c
    cases a <;> cases b <;> cases c <;> simp [List.filter]
  have hflat : ps.flatMap (·.2) = jtlvUnits init [] ++ jtlvUnits safety c!"[]" ++ jtlvUnits prog c!"[]<>" := by
    simp only [ps]
    generalize jtlvUnits init [] = a
    generalize jtlvUnits safety c!"[]" = b
    generalize jtlvUnits prog c!"[]<>" = c
    cases a <;> cases b <;> cases c <;> simp [List.filter]
  have hnl : ∀ s : List Char, (∀ c ∈ s, TextChar c) → '\n' ∉ s := fun s hs hm =>
    (hs _ hm).ne (d := '\n') (by decide) (by decide) rfl
  have hblank : ∀ s : List Char, (∀ c ∈ s, TextChar c) → ∀ c ∈ s, isSpace c = true → c = ' ' := by
    intro s hs c hcs hw
    have := hs c hcs
    simp only [isSpace, Bool.or_eq_true, decide_eq_true_eq] at hw
    rcases hw with ((((rfl | rfl) | rfl) | rfl) | rfl) | rfl
    · rfl
    all_goals exact absurd rfl (this.ne (by decide) (by decide))
  -- each unit
  have hunit : ∀ pre, pre = [] ∨ pre = c!"[]" ∨ pre = c!"[]<>" → ∀ s ∈ init ++ safety ++ prog,
      let u := c!"\t" ++ pre ++ c!"(" ++ (if pre = c!"[]" then collapseNext s else s) ++ c!")"
      ('\n' ∉ u ∧ u.head? = some '\t' ∧ '#' ∉ u) ∧ lex u = lex (pre ++ (c!"(" ++ s ++ c!")")) := by
    intro pre hpre s hs u
    obtain ⟨_, k1, k2, _⟩ := h s hs
    have hx : ∀ c ∈ (if pre = c!"[]" then collapseNext s else s), c ∈ s := by
      split
      · exact collapseNext_mem
      · exact fun c hc => hc
    have hl : lex ((pre ++ c!"(") ++ (if pre = c!"[]" then collapseNext s else s)) = lex ((pre ++ c!"(") ++ s) := by
      split
      · exact collapseNext_lex k2 (hblank s k1) (by rcases hpre with rfl | rfl | rfl <;> decide)
      · rfl
    have hx1 := hnl s k1
    refine ⟨⟨?_, rfl, ?_⟩, ?_⟩
    · simp only [u, List.mem_append, not_or]
      exact ⟨⟨⟨⟨by decide, by rcases hpre with rfl | rfl | rfl <;> decide⟩, by decide⟩, fun hm => hx1 (hx _ hm)⟩, by decide⟩
    · simp only [u, List.mem_append, not_or]
      exact ⟨⟨⟨⟨by decide, by rcases hpre with rfl | rfl | rfl <;> decide⟩, by decide⟩, fun hm => k2 (hx _ hm)⟩, by decide⟩
    · have e : u = '\t' :: (((pre ++ c!"(") ++ (if pre = c!"[]" then collapseNext s else s)) ++ ')' :: []) := by simp [u]
      have hp : '#' ∉ pre ++ c!"(" := by rcases hpre with rfl | rfl | rfl <;> decide
      rw [e, lex_tab, lex_append [] (by
        simp only [List.mem_append, not_or] at hp ⊢
        exact ⟨hp, fun hm => k2 (hx _ hm)⟩) (.inl rfl), hl, ← lex_append [] (by
        simp only [List.mem_append, not_or] at hp ⊢
        exact ⟨hp, k2⟩) (.inl rfl)]
      simp
  have hread : ∀ pre, pre = [] ∨ pre = c!"[]" ∨ pre = c!"[]<>" → ∀ s ∈ init ++ safety ++ prog,
      ∃ b, UnitStr (pre ++ (c!"(" ++ s ++ c!")")) b := by
    intro pre hpre s hs
    obtain ⟨_, _, k2, b, hb⟩ := h s hs
    rcases hpre with rfl | rfl | rfl
    · exact ⟨b, unit_paren k2 hb⟩
    · exact ⟨_, unit_always (unit_paren k2 hb)⟩
    · exact ⟨_, unit_always (unit_eventually (unit_paren k2 hb))⟩
  have hall : ∀ u ∈ jtlvUnits init [] ++ jtlvUnits safety c!"[]" ++ jtlvUnits prog c!"[]<>",
      ('\n' ∉ u ∧ u.head? = some '\t' ∧ '#' ∉ u) ∧ ∃ b, UnitStr u b := by
    have one : ∀ m pre, (pre = [] ∨ pre = c!"[]" ∨ pre = c!"[]<>") → (∀ s ∈ m, s ∈ init ++ safety ++ prog) →
        ∀ u ∈ jtlvUnits m pre, ('\n' ∉ u ∧ u.head? = some '\t' ∧ '#' ∉ u) ∧ ∃ b, UnitStr u b := by
      intro m pre hpre hm u hu
      obtain ⟨s, hs, rfl⟩ := List.mem_map.1 hu
      obtain ⟨k1, k2⟩ := hunit pre hpre s (hm s hs)
      obtain ⟨b, hb⟩ := hread pre hpre s (hm s hs)
      exact ⟨k1, b, unit_congr k1.2.2 k2 hb⟩
    intro u hu
    simp only [List.mem_append] at hu
    rcases hu with (hu | hu) | hu
    · exact one _ _ (.inl rfl) (fun s hs => by simp [hs]) u hu
    · exact one _ _ (.inr (.inl rfl)) (fun s hs => by simp [hs]) u hu
    · exact one _ _ (.inr (.inr rfl)) (fun s hs => by simp [hs]) u hu
  have hunits : (∀ u ∈ jtlvUnits init [] ++ jtlvUnits safety c!"[]" ++ jtlvUnits prog c!"[]<>", Holds τ 0 u) ↔
      SideMeaning init safety prog τ := by
    have one : ∀ m pre, (pre = [] ∨ pre = c!"[]" ∨ pre = c!"[]<>") → (∀ s ∈ m, s ∈ init ++ safety ++ prog) →
        ((∀ u ∈ jtlvUnits m pre, Holds τ 0 u) ↔ ∀ s ∈ m, Holds τ 0 (pre ++ (c!"(" ++ s ++ c!")"))) := by
      intro m pre hpre hm
      simp only [jtlvUnits, List.mem_map, forall_exists_index, and_imp, forall_apply_eq_imp_iff₂]
      exact forall₂_congr fun s hs => holds_congr (hunit pre hpre s (hm s hs)).2 τ 0
    have m1 : ∀ s ∈ init, s ∈ init ++ safety ++ prog := fun s hs => by simp [hs]
    have m2 : ∀ s ∈ safety, s ∈ init ++ safety ++ prog := fun s hs => by simp [hs]
    have m3 : ∀ s ∈ prog, s ∈ init ++ safety ++ prog := fun s hs => by simp [hs]
    simp only [List.mem_append, or_imp, forall_and]
    rw [one _ _ (.inl rfl) m1, one _ _ (.inr (.inl rfl)) m2, one _ _ (.inr (.inr rfl)) m3, and_assoc]
    refine and_congr ?_ (and_congr ?_ ?_)
    · refine forall₂_congr fun s hs => ?_
      obtain ⟨_, _, k2, b, hb⟩ := h s (m1 s hs)
      exact holds_paren k2 hb τ 0
    · refine forall₂_congr fun s hs => ?_
      obtain ⟨_, _, k2, b, hb⟩ := h s (m2 s hs)
      exact holds_always k2 hb τ
    · refine forall₂_congr fun s hs => ?_
      obtain ⟨_, _, k2, b, hb⟩ := h s (m3 s hs)
      exact holds_recurs k2 hb τ
  rw [← hunits, JtlvSays, hside]
  by_cases hps : ps = []
  · have : jtlvUnits init [] ++ jtlvUnits safety c!"[]" ++ jtlvUnits prog c!"[]<>" = [] := by
      rw [← hflat, hps]; rfl
    rw [this, hps]
    simp [joinWith]
  · have hne : ps.flatMap (·.2) ≠ [] := by
      intro e
      obtain ⟨p, hp⟩ := List.exists_mem_of_ne_nil _ hps
      have h1 : p.2 = [] := List.flatMap_eq_nil_iff.1 e p hp
      have h2 := (List.mem_filter.1 hp).2
      rw [h1] at h2; cases h2
    have hnil : joinWith c!" & \n" (ps.map fun p => (c!"-- " ++ p.1) ++ '\n' :: joinWith c!" & \n" p.2) ≠ [] := by
      cases e : ps with
      | nil => exact absurd e hps
      | cons p qs => rw [List.map_cons, joinWith_cons_eq]; simp
    rw [uncomment_sections hps]
    · have hclean : '#' ∉ joinWith c!" & \n" (ps.flatMap (·.2)) := by
        intro hm
        rcases joinWith_mem hm with hm | ⟨u, hu, hm⟩
        · revert hm; decide
        · rw [hflat] at hu
          exact (hall u hu).1.2.2 hm
      rw [holds_congr (lex_end hclean), holds_joined separator_end hne, hflat]
      · exact or_iff_right hnil
      · intro u hu
        rw [hflat] at hu
        exact (hall u hu).2
    · intro p hp
      have hmem := (List.mem_filter.1 hp)
      refine ⟨?_, ?_, ?_⟩
      · simp only [List.mem_cons, List.not_mem_nil, or_false] at hmem
        rcases hmem.1 with rfl | rfl | rfl
        · exact hc.1
        · exact hc.2.1
        · exact hc.2.2
      · intro e
        rw [e] at hmem
        exact absurd hmem.2 (by simp)
      · intro u hu
        have : u ∈ ps.flatMap (·.2) := List.mem_flatMap.2 ⟨p, hp, hu⟩
        rw [hflat] at this
        exact ⟨(hall u this).1.1, (hall u this).1.2.1⟩

theorem within_vars {un : List UnOp} {bin : List BinOp} {cmp : List CmpOp} {ar : List ArOp} {var : String → Prop}
    {b : Ast} (h : Within un bin cmp ar var b) : ∀ x ∈ b.vars, var x := by
  induction b with
  | var x => simpa [Ast.vars, Within] using h
  | bool | num | str => simp [Ast.vars]
  | un op a ih => exact ih h.2
  | bin op a c iha ihc | cmp op a c iha ihc | ar op a c iha ihc =>
    intro x hx
    simp only [Ast.vars, List.mem_append] at hx
    rcases hx with hx | hx
    · exact iha h.2.1 x hx
    · exact ihc h.2.2 x hx
  | trunc => exact h.elim
  | ite => exact h.elim

theorem modules_name {g : GRSpec} {σ τ : Trace} (h : Modules g σ τ) {x : String}
    (hx : x ∈ g.envVars.keys ++ g.sysVars.keys) (i : Nat) : τ i (jtlvName g x) = σ i x := by
  have h1 := (Dict.has_iff g.envVars x).trans (Dict.mem_keys_iff g.envVars x).symm
  unfold jtlvName
  split
  · rename_i he
    exact (h i).1 x (h1.1 he)
  · rename_i he
    rcases List.mem_append.1 hx with hx | hx
    · exact absurd (h1.2 hx) he
    · exact (h i).2 x hx fun hm => he (h1.2 hm)

theorem clause_jtlv {g : GRSpec} {x s : List Char} (h : ClauseText g (jtlv g) x s)
    (hu : ∀ a, Tulip.parse x = some a → StrUse (strVars g) a) {σ τ : Trace} (hσ : InDomains (strVars g) σ)
    (hτ : Modules g (encode (strVars g) σ) τ) (i : Nat) : Holds τ i s ↔ Holds σ i x := by
  obtain ⟨b, h1, h2⟩ := h
  have hp := text_prints (jtlv_readable g) h1.named.1 h1.named.2 h2
  rw [List.map_id] at hp
  have hw := within_vars ((jtlv_iff g h1.named.2).1 ⟨s, h2⟩)
  obtain ⟨a, f, k1, k2, k3, k4⟩ := h1
  rw [holds_iff hp.parse, holds_iff k1]
  obtain ⟨b', e1, _, e3⟩ := subConstants_correct (hu a k1)
  rw [k3] at e1; cases e1
  rw [← e3 σ hσ i]
  have := eval_rename (ren := jtlvName g) (f := b) (σ := encode (strVars g) σ) (τ := τ)
    (fun j y hy => modules_name hτ (hw y hy) j) i
  show Sat τ i (readTree false (fun _ x => .var (jtlvName g x)) .bool false b) ↔ _
  simp only [Sat, this]

theorem text_ne_nil {L : Lang} {m : Char → Char} {vt : Bool → String → Ast} {bt : Bool → Ast}
    (R : Readable L m vt bt) {b : Ast} (hn : Named b) (hs : NoStrConst b) {p : Bool} {s : List Char}
    (h : text L p b = .ok s) : s ≠ [] := by
  rintro rfl
  have := (text_prints R hn hs h).parse
  rw [List.map_nil, show Tulip.parse [] = none by decide +kernel] at this
  cases this

/-- **C87 (JTLV).** After any history as in C84, `translate(spec, 'jtlv')` returns if and only if primed
variables are where they may be and every clause can be expressed. The specification does not change.
Without the comment lines, the two texts are the assumption and the guarantee of the specification, for the
trace with strings replaced by indices and variables in the modules `e` and `s`; an empty text is no
condition. -/
theorem translateJtlv_correct {order : List Part} (horder : ∀ p, p ∈ order) (g0 : GRSpec) {ops : List Op}
    (hops : KeepsVars order (new g0) ops) :
    let st := run order (new g0) ops
    let g := st.spec
    (translateJtlv order st).1.spec = g ∧
    ((∃ r, (translateJtlv order st).2 = .ok r) ↔ PrimesOk g ∧ ∀ p, ∀ x ∈ part g p, JtlvClause g x) ∧
    ∀ A G, (translateJtlv order st).2 = .ok (A, G) → WellUsed g → ∀ σ τ, InDomains (strVars g) σ →
      Modules g (encode (strVars g) σ) τ →
      (JtlvSays τ A ↔ g.Assumption σ) ∧ (JtlvSays τ G ↔ g.Guarantee σ) := by
  intro st g
  have hgood : Good st := good_run (good_new g0) hops
  obtain ⟨_, t2, t3, t4⟩ := translate_spec horder (L := jtlv g) (assemble := fun _ => toJtlv) hgood
  refine ⟨t2, ⟨?_, ?_⟩, ?_⟩
  · rintro ⟨r, hr⟩
    obtain ⟨h1, d, T, hd, hT, ha⟩ := t3 r hr
    exact ⟨h1, (clauses_iff (W := _) fun b hb => jtlv_iff g hb).1 ⟨T, hT⟩⟩
  · rintro ⟨h1, h2⟩
    obtain ⟨T, hT⟩ := (clauses_iff (L := jtlv g) fun b hb => jtlv_iff g hb).2 h2
    obtain ⟨d, hd, he⟩ := t4 h1 T hT
    have : ∃ s, toJtlv d = .ok s := by
      simp only [toJtlv, dget, hd, look, ok_bind, pure_eq_ok]
      exact ⟨_, rfl⟩
    obtain ⟨s, hs⟩ := this
    exact ⟨s, he.trans hs⟩
  · intro A G hAG hu σ τ hσ hτ
    obtain ⟨h1, d, T, hd, hT, ha⟩ := t3 _ hAG
    simp only [toJtlv, dget, hd, look, ok_bind, pure_eq_ok, Except.ok.injEq, Prod.mk.injEq] at ha
    have hgoodText : ∀ p, ∀ s ∈ T p, s ≠ [] ∧ (∀ c ∈ s, TextChar c) ∧ '#' ∉ s ∧ ∃ b, Tulip.parse s = some b := by
      intro p
      have := hT p
      generalize part st.spec p = xs at this
      generalize T p = ss at this
      induction this with
      | nil => simp
      | cons h1 _ ih =>
        intro s hs
        rcases List.mem_cons.1 hs with rfl | hs
        · obtain ⟨b, k1, k2⟩ := h1
          have hp := text_prints (jtlv_readable g) k1.named.1 k1.named.2 k2
          rw [List.map_id] at hp
          exact ⟨text_ne_nil (jtlv_readable g) k1.named.1 k1.named.2 k2,
            jtlv_chars g k1.named.1 k1.named.2 k2, hp.1, _, hp.parse⟩
        · exact ih s hs
    have back : ∀ p (P Q : List Char → Prop), (∀ x s, (∀ i, Holds τ i s ↔ Holds σ i x) → (Q s ↔ P x)) →
        ((∀ s ∈ T p, Q s) ↔ ∀ x ∈ part g p, P x) := fun p P Q hpq =>
      forall_mem_of_forall₂ (hT p) fun x hx s hs => hpq x s fun i => clause_jtlv hs (hu p x hx) hσ hτ i
    have side : ∀ p1 p2 p3 : Part, SideMeaning (T p1) (T p2) (T p3) τ ↔
        SideMeaning (part g p1) (part g p2) (part g p3) σ := fun p1 p2 p3 =>
      and_congr (back p1 _ _ fun x s h => h 0) (and_congr (back p2 _ _ fun x s h => forall_congr' h)
        (back p3 _ _ fun x s h => forall_congr' fun i => exists_congr fun j => and_congr Iff.rfl (h j)))
    have mem3 : ∀ p1 p2 p3, ∀ s ∈ T p1 ++ T p2 ++ T p3,
        s ≠ [] ∧ (∀ c ∈ s, TextChar c) ∧ '#' ∉ s ∧ ∃ b, Tulip.parse s = some b := by
      intro p1 p2 p3 s hs
      simp only [List.mem_append] at hs
      rcases hs with (hs | hs) | hs
      exacts [hgoodText _ s hs, hgoodText _ s hs, hgoodText _ s hs]
    obtain ⟨rfl, rfl⟩ := ha
    exact ⟨(jtlvSide_says (by decide) (mem3 _ _ _) τ).trans (side .envInit .envSafety .envProg),
      (jtlvSide_says (by decide) (mem3 _ _ _) τ).trans (side .sysInit .sysSafety .sysProg)⟩

/-! ## Non-vacuity -/

example : (translateJtlv parts (run parts (new gate) [.parse])).2.toOption = some (
    c!"-- safety assumption on environment\n\t[](( (e.park) -> ( next( ! (e.park) ) ) )) & \n" ++
      c!"-- justice assumption on environment\n\t[]<>(( ! (e.park) ))",
    c!"-- valid initial system states\n\t(( (s.loc) = 0 )) & \n" ++
      c!"-- safety requirement on system\n\t[](( ( (s.loc) = 1 ) -> ( next( (s.n) = 2 ) ) )) & \n" ++
      c!"-- progress requirement on system\n\t[]<>(( ( (s.loc) = 1 ) & ( (s.n) > 1 ) ))") := by
  decide +kernel

example (σ : Trace) : ∃ τ, Modules gate σ τ := by
  refine ⟨fun i y => σ i (String.ofList (y.toList.drop 2)), fun i => ⟨fun x _ => ?_, fun x _ _ => ?_⟩⟩ <;>
    simp

end Trans
end Tulip
