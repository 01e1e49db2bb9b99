import Verif.Interfaces.Storm
import Verif.Interfaces.PrismLemmas
import Verif.Spec.TranslateProps
import Mathlib.Data.List.Induction
import Mathlib.Data.List.Nodup

/-!
# Properties of the export of Markov chains and Markov decision processes to PRISM
-/

namespace Tulip
namespace Storm
open Comp Prism

section
variable {σ α : Type} [DecidableEq σ] [DecidableEq α]

/-! ## Spec -/

/-- A Markov chain or Markov decision process that PRISM can describe: the states and the atomic propositions are
sets, there is one initial state, the transitions are between states, have a probability, and an action exactly
if it is a decision process. Names of atomic propositions are written between quotes, and PRISM has no empty
disjunction. -/
structure Exportable (m : Mod σ α) : Prop where
  kind : m.kind = .mc ∨ m.kind = .mdp
  states : m.states.Nodup
  initial : ∃ s ∈ m.states, m.initial = [s]
  ends : ∀ e ∈ m.edges, e.1 ∈ m.states ∧ e.2.1 ∈ m.states
  probs : ∀ e ∈ m.edges, ∃ p, e.2.2.prob = some p ∧ 0 ≤ p ∧ p ≤ 1
  actions : ∀ e ∈ m.edges, if m.kind = .mdp then ∃ a ∈ m.actions, e.2.2.action = some a else e.2.2.action = none
  aps : m.aps.Nodup
  quotes : ∀ p ∈ m.aps, '"' ∉ p.toList
  used : ∀ p ∈ m.aps, ∃ s ∈ m.states, p ∈ m.ap s

/-- The name of an action in the file: `act` and the place of the action in the set of actions. -/
def ActionName (m : Mod σ α) (a : Option α) (n : List Char) : Prop :=
  match a with
  | none => m.kind ≠ .mdp ∧ n = []
  | some a => m.kind = .mdp ∧ ∃ i : Nat, m.actions.idxOf a = i ∧ m.actions[i]? = some a ∧ n = c!"act" ++ digitsOf i

/-- The transitions from `s` to `t` with an action. -/
def moves (m : Mod σ α) (s t : σ) (a : Option α) : List (σ × σ × EAttr α) :=
  m.edges.filter fun e => decide (e.1 = s ∧ e.2.1 = t ∧ e.2.2.action = a)

/-- A program of PRISM describes a model, where `r` is what becomes of a probability. State number `i` is the
value `i` of the variable. -/
structure Describes (m : Mod σ α) (r : Rat → Rat) (p : Program) : Prop where
  kind : p.mdp = true ↔ m.kind = .mdp
  range : p.lo = 0 ∧ p.hi + 1 = m.states.length
  init : ∃ s, m.states[p.init]? = some s ∧ m.initial = [s]
  /-- A command for each state and action that has a transition. -/
  choices : ∀ i n, (∃ c ∈ p.commands, c.guard = i ∧ c.action = n) ↔
    ∃ s a, m.states[i]? = some s ∧ ActionName m a n ∧ ∃ e ∈ m.edges, e.1 = s ∧ e.2.2.action = a
  /-- Not more than one. -/
  distinct : (p.commands.map fun c => (c.guard, c.action)).Nodup
  prob : ∀ i j s t a n, m.states[i]? = some s → m.states[j]? = some t → ActionName m a n →
    p.prob n i j = ((moves m s t a).map fun e => r (e.2.2.prob.getD 0)).sum
  labelNames : p.labels.map (·.1) = m.aps.map (·.toList)
  label : ∀ l ∈ p.labels, ∀ i, i ∈ l.2 ↔ ∃ s, m.states[i]? = some s ∧ String.ofList l.1 ∈ m.ap s

/-! ## Lemmas: the groups of transitions -/

theorem addGroup_keys {κ β : Type} [DecidableEq κ] (k : κ) (x : β) (d : List (κ × List β)) :
    (addGroup k x d).map (·.1) = if k ∈ d.map (·.1) then d.map (·.1) else d.map (·.1) ++ [k] := by
  induction d with
  | nil => simp [addGroup]
  | cons p d ih =>
    simp only [addGroup]
    by_cases h : p.1 = k
    · simp [h]
    · have h' : ¬ k = p.1 := fun e => h e.symm
      simp only [if_neg h, List.map_cons, ih, List.mem_cons, h', false_or]
      split <;> simp

theorem mem_addGroup_keys {κ β : Type} [DecidableEq κ] (k : κ) (x : β) (d : List (κ × List β)) (a : κ) :
    a ∈ (addGroup k x d).map (·.1) ↔ a ∈ d.map (·.1) ∨ a = k := by
  rw [addGroup_keys]
  split
  · rename_i h
    exact ⟨Or.inl, fun h' => h'.elim id fun e => e ▸ h⟩
  · rw [List.mem_append, List.mem_singleton]

theorem addGroup_mem {κ β : Type} [DecidableEq κ] (k : κ) (x : β) {d : List (κ × List β)} (hd : (d.map (·.1)).Nodup)
    (k' : κ) (l : List β) : (k', l) ∈ addGroup k x d ↔
      if k' = k then (∃ l', (k, l') ∈ d ∧ l = l' ++ [x]) ∨ (k ∉ d.map (·.1) ∧ l = [x]) else (k', l) ∈ d := by
  induction d with
  | nil =>
    by_cases h : k' = k <;> simp [addGroup, h]
  | cons p d ih =>
    obtain ⟨pk, pl⟩ := p
    simp only [List.map_cons, List.nodup_cons] at hd
    have ih := ih hd.2
    simp only [addGroup]
    by_cases h : pk = k
    · subst h
      simp only [if_true, List.mem_cons, Prod.mk.injEq, List.map_cons, true_or, not_true, false_and, or_false]
      by_cases h2 : k' = pk
      · subst h2
        have hno : ∀ l', (k', l') ∉ d := fun l' hl => hd.1 (List.mem_map.2 ⟨_, hl, rfl⟩)
        simp [hno]
      · simp [h2]
    · simp only [if_neg h, List.mem_cons, Prod.mk.injEq, ih, List.map_cons]
      have h' : ¬ k = pk := fun e => h e.symm
      by_cases h2 : k' = k
      · subst h2
        simp [h']
      · simp [h2]

/-- The group of an action is the list of its transitions. -/
theorem transitionDict_spec (es : List (σ × σ × EAttr α)) :
    ((transitionDict es).map (·.1)).Nodup ∧
    (∀ a, a ∈ (transitionDict es).map (·.1) ↔ ∃ e ∈ es, e.2.2.action = a) ∧
    ∀ a l, (a, l) ∈ transitionDict es →
      l = (es.filter fun e => decide (e.2.2.action = a)).map fun e => (e.2.2.prob, e.2.1) := by
  induction es using List.reverseRecOn with
  | nil => simp [transitionDict]
  | append_singleton es e ih =>
    obtain ⟨h1, h2, h3⟩ := ih
    have eq : transitionDict (es ++ [e]) = addGroup e.2.2.action (e.2.2.prob, e.2.1) (transitionDict es) := by
      simp [transitionDict, List.foldl_append]
    rw [eq]
    refine ⟨?_, ?_, ?_⟩
    · rw [addGroup_keys]
      split
      · exact h1
      · rename_i h
        exact List.nodup_append.2 ⟨h1, by simp, by
          intro a ha b hb e
          rw [List.mem_singleton] at hb
          exact h (hb ▸ e ▸ ha)⟩
    · intro a
      rw [mem_addGroup_keys, h2]
      simp only [List.mem_append, List.mem_singleton, or_and_right, exists_or, exists_eq_left]
      exact or_congr Iff.rfl eq_comm
    · intro a l hl
      rw [addGroup_mem _ _ h1] at hl
      split at hl
      · rename_i ha
        subst ha
        rcases hl with ⟨l', hl', rfl⟩ | ⟨hk, rfl⟩
        · rw [h3 _ _ hl']
          simp
        · have : ∀ x ∈ es, x.2.2.action ≠ e.2.2.action := fun x hx he => hk ((h2 _).2 ⟨x, hx, he⟩)
          rw [List.filter_append, List.filter_eq_nil_iff.2 (by simpa using this)]
          simp
      · rename_i ha
        rw [h3 _ _ hl]
        have : ¬ e.2.2.action = a := fun e => ha e.symm
        simp [this]

/-! ## Lemmas: the texts -/

theorem digit_lt (n : Nat) : isDig (digit n) = true ∧ (digit n).toNat - 48 = n % 10 := by
  have h : n % 10 < 10 := Nat.mod_lt _ (by omega)
  exact ⟨isDig_ofNat h, by unfold digit; rw [toNat_ofNat_dig h]; omega⟩

theorem value_digits (k : Nat) : value (digitsOf (k / 10000)) [digit (k / 1000), digit (k / 100), digit (k / 10), digit k] =
    (k : Rat) / 10000 := by
  unfold value
  rw [natOf_digits]
  have : natOf [digit (k / 1000), digit (k / 100), digit (k / 10), digit k] = k % 10000 := by
    simp only [natOf, List.foldl_cons, List.foldl_nil, (digit_lt _).2]
    omega
  rw [this]
  have h2 : (k : Rat) = 10000 * ((k / 10000 : Nat) : Rat) + ((k % 10000 : Nat) : Rat) := by
    exact_mod_cast (Nat.div_add_mod k 10000).symm
  generalize ((k / 10000 : Nat) : Rat) = x at *
  generalize ((k % 10000 : Nat) : Rat) = y at *
  rw [h2]
  norm_num
  ring

theorem stateStr_true (i : Nat) : stateStr i true = c!"s'=" ++ digitsOf i := rfl

theorem stateStr_false (i : Nat) : stateStr i false = c!"s=" ++ digitsOf i := rfl

theorem run_point {a ds : List Char} {d : Char} (h : ∀ c ∈ d :: ds, isDig c = true) :
    run (.num a) ('.' :: d :: ds) = ([], .dec a (d :: ds)) := by
  have e : run (.num a) ('.' :: d :: ds) = run (.dot a) (d :: ds) := rfl
  rw [e]
  simp only [run, step, h d (by simp), if_true]
  rw [run_dec fun c hc => h c (by simp [hc])]
  simp

theorem run_lit {s : LS} {u : List Char} {T : List Prism.Tok} {s' : LS} (h : run s u = (T, s')) (v : List Char) :
    run s (u ++ v) = (T ++ (run s' v).1, (run s' v).2) := by
  rw [run_append, h]

theorem line_move (k i : Nat) :
    Line (digitsOf (k / 10000) ++ ['.', digit (k / 1000), digit (k / 100), digit (k / 10), digit k] ++ c!" : (" ++
      stateStr i true ++ c!")") (updToks ((k : Rat) / 10000, i)) := by
  unfold Line
  rw [stateStr_true]
  simp only [List.append_assoc]
  rw [run_lit (run_digits _), run_lit (run_point (by simp [(digit_lt _).1])),
    ← List.append_assoc c!" : (", run_lit (s := .dec _ _) (T := [.dec (value _ _), .sym ':', .sym '(', .word c!"s",
      .sym '\'', .sym '=']) (s' := .start) rfl, run_lit (run_digits _),
    show ∀ d, run (.num d) c!")" = ([.num (natOf d), .sym ')'], .start) from fun _ => rfl, natOf_digits, value_digits]
  rfl

/-! ## The program -/

/-- The name of an action. -/
def nm (m : Mod σ α) : Option α → List Char
  | some a => if m.kind = .mdp then c!"act" ++ digitsOf (m.actions.idxOf a) else []
  | none => []

/-- The command of a group. -/
def cmd (m : Mod σ α) (i : Nat) (g : Option α × List (Option Rat × σ)) : Command :=
  ⟨nm m g.1, i, g.2.map fun t => ((round4 (t.1.getD 0) : Rat) / 10000, m.states.idxOf t.2)⟩

/-- The label of a proposition. -/
def lab (m : Mod σ α) (p : String) : List Char × List Nat :=
  (p.toList, (m.states.filter fun s => decide (p ∈ m.ap s)).map m.states.idxOf)

/-- The program. -/
def prog (m : Mod σ α) : Program where
  mdp := decide (m.kind = .mdp)
  lo := 0
  hi := m.states.length - 1
  init := match m.initial with
    | s :: _ => m.states.idxOf s
    | [] => 0
  commands := m.states.zipIdx.flatMap fun s =>
    (transitionDict (m.edges.filter fun e => e.1 = s.1)).map (cmd m s.2)
  labels := m.aps.map (lab m)

theorem mapM_line {β γ : Type} {f : β → Except PyErr γ} {R : β → γ → Prop} {l : List β}
    (h : ∀ x ∈ l, ∃ y, f x = .ok y ∧ R x y) : ∃ ys, l.mapM f = .ok ys ∧ List.Forall₂ R l ys := by
  induction l with
  | nil => exact ⟨[], rfl, .nil⟩
  | cons x l ih =>
    obtain ⟨y, hy, hR⟩ := h x (by simp)
    obtain ⟨ys, hys, hRs⟩ := ih fun z hz => h z (by simp [hz])
    exact ⟨y :: ys, by simp [List.mapM_cons, hy, hys, ok_bind, pure_eq_ok], .cons hR hRs⟩

theorem indexOf_ok {β : Type} [DecidableEq β] {l : List β} {x : β} (h : x ∈ l) : indexOf l x = .ok (l.idxOf x) := if_pos h

theorem line_moves (m : Mod σ α) {ts : List (Option Rat × σ)} (h : ∀ t ∈ ts, t.1.isSome ∧ t.2 ∈ m.states) :
    ∃ u, transitionStr m ts = .ok u ∧ Line u (joinT (.sym '+')
      ((ts.map fun t => ((round4 (t.1.getD 0) : Rat) / 10000, m.states.idxOf t.2)).map updToks)) := by
  obtain ⟨ys, h1, h2⟩ := mapM_line (f := moveStr m) (l := ts)
    (R := fun t u => Line u (updToks ((round4 (t.1.getD 0) : Rat) / 10000, m.states.idxOf t.2))) (by
      rintro ⟨p, q⟩ ht
      obtain ⟨hp, hq⟩ := h _ ht
      obtain ⟨p, rfl⟩ := Option.isSome_iff_exists.1 hp
      refine ⟨_, ?_, line_move (round4 p) (m.states.idxOf q)⟩
      simp only [moveStr, probStr, ok_bind, indexOf_ok hq, pure_eq_ok])
  refine ⟨joinWith c!" + " ys, by simp [transitionStr, h1, ok_bind, pure_eq_ok], ?_⟩
  refine Line.join (show Line c!" + " [.sym '+'] from rfl) ?_
  rw [List.map_map]
  clear h1 h
  induction h2 with
  | nil => exact .nil
  | cons h _ ih => exact .cons h ih

theorem line_command (m : Mod σ α) (i : Nat) {g : Option α × List (Option Rat × σ)}
    (ha : if m.kind = .mdp then ∃ a ∈ m.actions, g.1 = some a else g.1 = none)
    (h : ∀ t ∈ g.2, t.1.isSome ∧ t.2 ∈ m.states) :
    ∃ u, commandStr m i g = .ok u ∧ Line u (cmdToks (cmd m i g)) := by
  obtain ⟨u, h1, h2⟩ := line_moves m h
  have tail : run .start (c!"s=" ++ (digitsOf i ++ (c!" -> " ++ (u ++ c!";\n")))) =
      (.word c!"s" :: .sym '=' :: .num i :: .sym '-' :: .sym '>' :: (joinT (.sym '+')
        ((g.2.map fun t => ((round4 (t.1.getD 0) : Rat) / 10000, m.states.idxOf t.2)).map updToks) ++ [.sym ';']), .start) := by
    rw [run_lit (T := [.word c!"s", .sym '=']) (s' := .start) rfl, run_lit (run_digits _),
      run_lit (s := .num _) (T := [.num (natOf _), .sym '-', .sym '>']) (s' := .start) rfl, run_lit h2, natOf_digits]
    rfl
  obtain ⟨k, l⟩ := g
  by_cases hk : m.kind = .mdp
  · rw [if_pos hk] at ha
    obtain ⟨a, ha, rfl⟩ := ha
    refine ⟨_, by simp only [commandStr, actionStr, if_pos hk, indexOf_ok ha, ok_bind, pure_eq_ok, h1]; rfl, ?_⟩
    unfold Line
    rw [stateStr_false]
    simp only [List.append_assoc]
    rw [run_lit (T := [.sym '[']) (s' := .start) rfl, run_lit (T := []) (s' := .word c!"act") rfl,
      run_lit (run_word (digits_all _)), run_lit (s := .word _) (T := [.word _, .sym ']']) (s' := .start) rfl, tail]
    simp [cmdToks, cmd, nm, hk]
  · rw [if_neg hk] at ha
    subst ha
    refine ⟨_, by simp only [commandStr, actionStr, if_neg hk, ok_bind, pure_eq_ok, h1]; rfl, ?_⟩
    unfold Line
    rw [stateStr_false]
    simp only [List.append_assoc, List.nil_append]
    rw [run_lit (T := [.sym '[']) (s' := .start) rfl, run_lit (T := [.sym ']']) (s' := .start) rfl, tail]
    simp [cmdToks, cmd, nm]

theorem forall₂_map_right {β γ δ : Type} {R : β → γ → Prop} {f : δ → γ} {l : List δ} {us : List β}
    (h : List.Forall₂ (fun x u => R u (f x)) l us) : List.Forall₂ R us (l.map f) := by
  induction h with
  | nil => exact .nil
  | cons h _ ih => exact .cons h ih

theorem line_stateCommands {m : Mod σ α} (hm : Exportable m) (s : σ × Nat) :
    ∃ u, stateCommands m s = .ok u ∧ Line u
      (((transitionDict (m.edges.filter fun e => e.1 = s.1)).map (cmd m s.2)).map cmdToks).flatten := by
  obtain ⟨h1, h2, h3⟩ := transitionDict_spec (m.edges.filter fun e => e.1 = s.1)
  obtain ⟨us, hu, hR⟩ := mapM_line (f := commandStr m s.2) (R := fun g u => Line u (cmdToks (cmd m s.2 g)))
    (l := transitionDict (m.edges.filter fun e => e.1 = s.1)) (by
      rintro ⟨a, l⟩ hg
      obtain ⟨e, he, hea⟩ := (h2 a).1 (List.mem_map.2 ⟨_, hg, rfl⟩)
      refine line_command m s.2 ?_ ?_
      · have := hm.actions e (List.mem_filter.1 he).1
        rw [hea] at this
        exact this
      · intro t ht
        have := h3 a l hg
        rw [this] at ht
        obtain ⟨x, hx, rfl⟩ := List.mem_map.1 ht
        have hx := (List.mem_filter.1 (List.mem_filter.1 hx).1).1
        obtain ⟨q, hq, -⟩ := hm.probs x hx
        exact ⟨by simp [hq], (hm.ends x hx).2⟩)
  refine ⟨us.flatten, by simp [stateCommands, hu, ok_bind, pure_eq_ok], ?_⟩
  rw [List.map_map]
  exact Line.flatten (forall₂_map_right hR)

theorem line_label {m : Mod σ α} {p : String} (hq : '"' ∉ p.toList) :
    ∃ u, labelStr m p = .ok u ∧ Line u (labToks (lab m p)) := by
  obtain ⟨us, hu, hR⟩ := mapM_line
    (f := fun s => (do let i ← indexOf m.states s; return c!"(" ++ stateStr i false ++ c!")" : Except PyErr (List Char)))
    (R := fun s u => Line u (atToks (m.states.idxOf s)))
    (l := m.states.filter fun s => decide (p ∈ m.ap s)) (by
      intro s hs
      refine ⟨_, by rw [indexOf_ok (List.mem_filter.1 hs).1]; rfl, ?_⟩
      unfold Line
      rw [stateStr_false]
      rw [List.append_assoc, List.append_assoc, ← List.append_assoc c!"(",
        run_lit (T := [.sym '(', .word c!"s", .sym '=']) (s' := .start) rfl, run_lit (run_digits _),
        show ∀ d, run (.num d) c!")" = ([.num (natOf d), .sym ')'], .start) from fun _ => rfl, natOf_digits]
      rfl)
  refine ⟨_, by unfold labelStr; rw [hu]; rfl, ?_⟩
  have hj := Line.join (show Line c!"|" [.sym '|'] from rfl) (forall₂_map_right hR)
  unfold Line
  simp only [List.append_assoc]
  rw [run_lit (T := [.word c!"label"]) (s' := .str []) rfl, run_lit (run_str hq),
    run_lit (s := .str _) (T := [.str _, .sym '=']) (s' := .start) rfl, run_lit hj]
  simp [labToks, lab, List.map_map, Function.comp_def]
  exact ⟨rfl, rfl⟩

theorem line_file {m : Mod σ α} (hm : Exportable m) : ∃ u, toPrismFile m = .ok u ∧ Line u (progToks (prog m)) := by
  obtain ⟨s0, hs0, hinit⟩ := hm.initial
  obtain ⟨cs, hc, hcR⟩ := mapM_line (f := stateCommands m) (l := m.states.zipIdx)
    (R := fun s u => Line u (((transitionDict (m.edges.filter fun e => e.1 = s.1)).map (cmd m s.2)).map cmdToks).flatten)
    fun s _ => line_stateCommands hm s
  obtain ⟨ls, hl, hlR⟩ := mapM_line (f := labelStr m) (l := m.aps) (R := fun p u => Line u (labToks (lab m p)))
    fun p hp => line_label (hm.quotes p hp)
  have hne : m.states.isEmpty = false := by
    cases h : m.states with
    | nil => rw [h] at hs0; cases hs0
    | cons => rfl
  have hC := Line.flatten (forall₂_map_right hcR)
  have hL := Line.flatten (forall₂_map_right hlR)
  have hk : ¬ (m.kind ≠ .mc ∧ m.kind ≠ .mdp) := by
    rcases hm.kind with h | h <;> simp [h]
  refine ⟨_, by simp only [toPrismFile, if_neg hk, hne, Bool.false_eq_true, if_false, hinit, indexOf_ok hs0, hc, hl,
    ok_bind, pure_eq_ok]; rfl, ?_⟩
  unfold Line
  simp only [List.append_assoc]
  have rest : run .start (c!"    s : [0.." ++ (digitsOf (m.states.length - 1) ++ (c!"] init " ++ (digitsOf (m.states.idxOf s0) ++
      (c!";\n" ++ (c!"\n" ++ (cs.flatten ++ (c!"\nendmodule\n\n" ++ ls.flatten)))))))) =
      (.word c!"s" :: .sym ':' :: .sym '[' :: .num 0 :: .sym '.' :: .sym '.' :: .num (m.states.length - 1) :: .sym ']' ::
        .word c!"init" :: .num (m.states.idxOf s0) :: .sym ';' ::
        (((prog m).commands.map cmdToks).flatten ++ .word c!"endmodule" :: ((prog m).labels.map labToks).flatten), .start) := by
    rw [run_lit (T := [.word c!"s", .sym ':', .sym '[', .num 0, .sym '.', .sym '.']) (s' := .start) rfl, run_lit (run_digits _),
      run_lit (s := .num _) (T := [.num (natOf _), .sym ']', .word c!"init"]) (s' := .start) rfl, run_lit (run_digits _),
      run_lit (s := .num _) (T := [.num (natOf _), .sym ';']) (s' := .start) rfl, run_lit (T := []) (s' := .start) rfl,
      run_lit hC, run_lit (T := [.word c!"endmodule"]) (s' := .start) rfl, hL, natOf_digits, natOf_digits]
    simp [prog, List.map_flatMap, List.map_map, Function.comp_def, List.flatMap]
    rw [List.flatten_flatten, List.map_map]
    rfl
  by_cases h : m.kind = .mdp
  · rw [if_pos h, run_lit (T := []) (s' := .word c!"mdp") rfl,
      run_lit (T := [.word c!"mdp", .word c!"module", .word c!"sys_model"]) (s' := .start) rfl, rest]
    simp [progToks, prog, h, hinit]
  · rw [if_neg h, run_lit (T := []) (s' := .word c!"dtmc") rfl,
      run_lit (T := [.word c!"dtmc", .word c!"module", .word c!"sys_model"]) (s' := .start) rfl, rest]
    simp [progToks, prog, h, hinit]

/-! ## The export -/

theorem getElem?_idx {β : Type} [DecidableEq β] {l : List β} (h : l.Nodup) {i : Nat} {x : β} :
    l[i]? = some x ↔ x ∈ l ∧ l.idxOf x = i := by
  constructor
  · intro hi
    obtain ⟨hlt, rfl⟩ := List.getElem?_eq_some_iff.1 hi
    exact ⟨List.getElem_mem _, h.idxOf_getElem _ hlt⟩
  · rintro ⟨hx, rfl⟩
    rw [List.getElem?_eq_some_iff]
    exact ⟨List.idxOf_lt_length_iff.2 hx, List.getElem_idxOf _⟩

theorem filter_key {β κ : Type} [DecidableEq κ] (f : β → κ) {l : List β} (h : (l.map f).Nodup) {x : β} (hx : x ∈ l) :
    l.filter (fun y => decide (f y = f x)) = [x] := by
  induction l with
  | nil => cases hx
  | cons y l ih =>
    rw [List.map_cons, List.nodup_cons] at h
    rw [List.filter_cons]
    rcases List.mem_cons.1 hx with rfl | hx
    · rw [if_pos (by simp), List.filter_eq_nil_iff.2]
      intro z hz
      simp only [decide_eq_true_eq]
      intro e
      exact h.1 (List.mem_map.2 ⟨z, hz, e⟩)
    · rw [if_neg, ih h.2 hx]
      simp only [decide_eq_true_eq]
      intro e
      exact h.1 (List.mem_map.2 ⟨x, hx, e.symm⟩)

/-- The actions of the transitions of `m`. -/
def Acts (m : Mod σ α) (a : Option α) : Prop := if m.kind = .mdp then ∃ b ∈ m.actions, a = some b else a = none

theorem actionName_iff {m : Mod σ α} {a : Option α} {n : List Char} : ActionName m a n ↔ Acts m a ∧ n = nm m a := by
  cases a with
  | none =>
    simp only [ActionName, Acts, nm]
    split <;> simp_all
  | some a =>
    simp only [ActionName, Acts, nm]
    by_cases h : m.kind = .mdp
    · simp only [h, if_true, true_and]
      constructor
      · rintro ⟨i, rfl, h1, h2⟩
        exact ⟨⟨a, List.mem_of_getElem? h1, rfl⟩, h2⟩
      · rintro ⟨⟨b, hb, e⟩, h2⟩
        cases e
        exact ⟨_, rfl, List.getElem?_eq_some_iff.2 ⟨List.idxOf_lt_length_iff.2 hb, List.getElem_idxOf _⟩, h2⟩
    · simp [h]

theorem nm_inj {m : Mod σ α} {a b : Option α} (ha : Acts m a) (hb : Acts m b) (h : nm m a = nm m b) : a = b := by
  unfold Acts at ha hb
  by_cases hk : m.kind = .mdp
  · rw [if_pos hk] at ha hb
    obtain ⟨a, ha, rfl⟩ := ha
    obtain ⟨b, hb, rfl⟩ := hb
    simp only [nm, if_pos hk] at h
    have h := congrArg natOf (List.append_cancel_left h)
    rw [natOf_digits, natOf_digits] at h
    rw [(List.idxOf_inj ha).1 h]
  · rw [if_neg hk] at ha hb
    rw [ha, hb]

theorem mem_commands {m : Mod σ α} {c : Command} : c ∈ (prog m).commands ↔ ∃ s i, m.states[i]? = some s ∧
    ∃ g ∈ transitionDict (m.edges.filter fun e => e.1 = s), c = cmd m i g := by
  simp only [prog, List.mem_flatMap, List.mem_map, Prod.exists, List.mem_zipIdx_iff_getElem?]
  constructor
  · rintro ⟨s, i, h, a, l, hg, rfl⟩
    exact ⟨s, i, h, a, l, hg, rfl⟩
  · rintro ⟨s, i, h, a, l, hg, rfl⟩
    exact ⟨s, i, h, a, l, hg, rfl⟩

theorem acts_group {m : Mod σ α} (hm : Exportable m) {s : σ} {g : Option α × List (Option Rat × σ)}
    (hg : g ∈ transitionDict (m.edges.filter fun e => e.1 = s)) : Acts m g.1 := by
  obtain ⟨e, he, hea⟩ := ((transitionDict_spec _).2.1 g.1).1 (List.mem_map.2 ⟨g, hg, rfl⟩)
  have := hm.actions e (List.mem_filter.1 he).1
  rwa [hea] at this

theorem commands_distinct {m : Mod σ α} (hm : Exportable m) :
    ((prog m).commands.map fun c => (c.guard, c.action)).Nodup := by
  simp only [prog, List.map_flatMap, List.map_map]
  rw [List.nodup_flatMap]
  constructor
  · rintro ⟨s, i⟩ -
    have h1 := (transitionDict_spec (m.edges.filter fun e => e.1 = s)).1
    refine List.Nodup.map_on ?_ (List.Nodup.of_map _ h1)
    intro x hx y hy e
    have e : nm m x.1 = nm m y.1 := (Prod.mk.inj e).2
    exact List.inj_on_of_nodup_map h1 hx hy (nm_inj (acts_group hm hx) (acts_group hm hy) e)
  · have : (m.states.zipIdx).Pairwise fun a b => a.2 ≠ b.2 := by
      have := List.nodup_range' (s := 0) (n := m.states.length)
      rw [← List.zipIdx_map_snd, List.Nodup, List.pairwise_map] at this
      exact this
    refine this.imp ?_
    rintro a b hab c hc1 hc2
    obtain ⟨x, -, rfl⟩ := List.mem_map.1 hc1
    obtain ⟨y, -, e⟩ := List.mem_map.1 hc2
    exact hab (Prod.mk.inj e).1.symm

theorem prog_prob {m : Mod σ α} (hm : Exportable m) {i j : Nat} {s t : σ} {a : Option α} {n : List Char}
    (hi : m.states[i]? = some s) (hj : m.states[j]? = some t) (ha : ActionName m a n) :
    (prog m).prob n i j = ((moves m s t a).map fun e => (round4 (e.2.2.prob.getD 0) : Rat) / 10000).sum := by
  obtain ⟨haa, rfl⟩ := actionName_iff.1 ha
  obtain ⟨h1, h2, h3⟩ := transitionDict_spec (m.edges.filter fun e => e.1 = s)
  unfold Program.prob
  by_cases hex : a ∈ (transitionDict (m.edges.filter fun e => e.1 = s)).map (·.1)
  · obtain ⟨⟨b, l⟩, hg, rfl⟩ := List.mem_map.1 hex
    have hc : cmd m i (b, l) ∈ (prog m).commands := mem_commands.2 ⟨s, i, hi, _, hg, rfl⟩
    have hf : (prog m).commands.filter (fun c => decide (c.action = nm m b ∧ c.guard = i)) = [cmd m i (b, l)] := by
      rw [← filter_key (fun c : Command => (c.guard, c.action)) (commands_distinct hm) hc]
      congr 1
      funext c
      simp only [cmd, Prod.mk.injEq, decide_eq_decide]
      exact and_comm
    dsimp only
    rw [hf]
    have hl := h3 b l hg
    simp only [List.flatMap_cons, List.flatMap_nil, List.append_nil, cmd]
    rw [hl]
    simp only [List.filter_map, List.map_map, List.filter_filter, moves]
    congr 1
    simp only [Function.comp_def]
    congr 1
    refine List.filter_congr fun e he => ?_
    have : m.states.idxOf e.2.1 = j ↔ e.2.1 = t := by
      rw [(getElem?_idx hm.states).1 hj |>.2.symm]
      exact List.idxOf_inj (hm.ends e he).2
    simp only [this, ← Bool.decide_and, decide_eq_decide]
    tauto
  · have hf : (prog m).commands.filter (fun c => decide (c.action = nm m a ∧ c.guard = i)) = [] := by
      refine List.filter_eq_nil_iff.2 fun c hc => ?_
      simp only [decide_eq_true_eq]
      rintro ⟨e1, e2⟩
      obtain ⟨s', i', hi', g, hg, rfl⟩ := mem_commands.1 hc
      have e2 : i' = i := e2
      subst e2
      rw [hi] at hi'
      cases hi'
      have e1 : nm m g.1 = nm m a := e1
      exact hex (List.mem_map.2 ⟨g, hg, nm_inj (acts_group hm hg) haa e1⟩)
    have hmv : moves m s t a = [] := by
      refine List.filter_eq_nil_iff.2 fun e he => ?_
      simp only [decide_eq_true_eq]
      rintro ⟨e1, -, e3⟩
      exact hex ((h2 a).2 ⟨e, List.mem_filter.2 ⟨he, by simpa using e1⟩, e3⟩)
    rw [hf, hmv]
    rfl

theorem describes_prog {m : Mod σ α} (hm : Exportable m) : Describes m (fun p => (round4 p : Rat) / 10000) (prog m) where
  kind := by simp [prog]
  range := by
    obtain ⟨s, hs, -⟩ := hm.initial
    have := List.length_pos_of_mem hs
    simp only [prog, true_and]
    omega
  init := by
    obtain ⟨s, hs, h⟩ := hm.initial
    refine ⟨s, ?_, h⟩
    simp only [prog, h]
    exact (getElem?_idx hm.states).2 ⟨hs, rfl⟩
  choices := by
    intro i n
    constructor
    · rintro ⟨c, hc, rfl, rfl⟩
      obtain ⟨s, i, hi, g, hg, rfl⟩ := mem_commands.1 hc
      obtain ⟨e, he, hea⟩ := ((transitionDict_spec _).2.1 g.1).1 (List.mem_map.2 ⟨g, hg, rfl⟩)
      obtain ⟨he, hes⟩ := List.mem_filter.1 he
      exact ⟨s, g.1, hi, actionName_iff.2 ⟨acts_group hm hg, rfl⟩, e, he, by simpa using hes, hea⟩
    · rintro ⟨s, a, hi, hn, e, he, hes, hea⟩
      obtain ⟨-, rfl⟩ := actionName_iff.1 hn
      obtain ⟨g, hg, rfl⟩ := List.mem_map.1 (((transitionDict_spec (m.edges.filter fun e => e.1 = s)).2.1 a).2
        ⟨e, List.mem_filter.2 ⟨he, by simpa using hes⟩, hea⟩)
      exact ⟨cmd m i g, mem_commands.2 ⟨s, i, hi, g, hg, rfl⟩, rfl, rfl⟩
  distinct := commands_distinct hm
  prob := fun i j s t a n hi hj ha => prog_prob hm hi hj ha
  labelNames := by simp [prog, lab, Function.comp_def]
  label := by
    intro l hl i
    obtain ⟨p, -, rfl⟩ := List.mem_map.1 hl
    simp only [lab, List.mem_map, List.mem_filter, decide_eq_true_eq, String.ofList_toList]
    constructor
    · rintro ⟨s, ⟨hs, hp⟩, rfl⟩
      exact ⟨s, (getElem?_idx hm.states).2 ⟨hs, rfl⟩, hp⟩
    · rintro ⟨s, hi, hp⟩
      obtain ⟨hs, e⟩ := (getElem?_idx hm.states).1 hi
      exact ⟨s, ⟨hs, hp⟩, e⟩

/-- **C99.** The file written for a Markov chain or Markov decision process is a program of PRISM that describes it,
with each probability rounded to four decimals. -/
theorem toPrismFile_describes {m : Mod σ α} (hm : Exportable m) : ∃ text p, toPrismFile m = .ok text ∧ read text = some p ∧
    Describes m (fun p => (round4 p : Rat) / 10000) p := by
  obtain ⟨u, hu, hl⟩ := line_file hm
  refine ⟨u, prog m, hu, read_line hl ?_ ?_, describes_prog hm⟩
  · intro c hc
    obtain ⟨s, i, -, g, hg, rfl⟩ := mem_commands.1 hc
    obtain ⟨h1, h2, h3⟩ := transitionDict_spec (m.edges.filter fun e => e.1 = s)
    obtain ⟨e, he, hea⟩ := (h2 g.1).1 (List.mem_map.2 ⟨g, hg, rfl⟩)
    have := h3 g.1 g.2 hg
    have hx : (e.2.2.prob, e.2.1) ∈ g.2 := by
      rw [this]
      exact List.mem_map.2 ⟨e, List.mem_filter.2 ⟨he, by simpa using hea⟩, rfl⟩
    simp only [cmd, ne_eq, List.map_eq_nil_iff]
    exact List.ne_nil_of_mem hx
  · intro l hl
    obtain ⟨p, hp, rfl⟩ := List.mem_map.1 hl
    obtain ⟨s, hs, hps⟩ := hm.used p hp
    simp only [lab, ne_eq, List.map_eq_nil_iff]
    exact List.ne_nil_of_mem (List.mem_filter.2 ⟨hs, by simpa using hps⟩)

/-- Four decimals are the nearest. -/
theorem round4_near {p : Rat} (h : 0 ≤ p) : |(round4 p : Rat) / 10000 - p| ≤ 1 / 20000 := by
  have h0 : 0 ≤ p * 10000 := by positivity
  have hk : (((p * 10000).floor.toNat : Nat) : Rat) = ((p * 10000).floor : Rat) := by
    have : 0 ≤ (p * 10000).floor := Rat.le_floor_iff.2 (by simpa using h0)
    exact_mod_cast congrArg (fun z : Int => (z : Rat)) (Int.toNat_of_nonneg this)
  have h1 : ((p * 10000).floor : Rat) ≤ p * 10000 := Rat.floor_le _
  have h2 : p * 10000 < ((p * 10000).floor : Rat) + 1 := by
    have := Rat.lt_floor_add_one (p * 10000)
    push_cast at this
    exact this
  unfold round4
  dsimp only
  rw [← hk] at h1 h2
  generalize (p * 10000).floor.toNat = k at *
  rw [abs_le]
  split
  · constructor <;> linarith
  · split
    · push_cast; constructor <;> linarith
    · split
      · constructor <;> linarith
      · push_cast; constructor <;> linarith

/-- Probabilities with four decimals are not changed. -/
theorem round4_exact (k : Nat) : round4 ((k : Rat) / 10000) = k := by
  have h : ((k : Rat) / 10000) * 10000 = k := by field_simp
  have h2 : ((k : Rat)).floor = (k : Int) := by exact_mod_cast Rat.floor_intCast (k : Int)
  simp [round4, h, h2]

/-- **C99.** If the probabilities have four decimals, the program describes the model exactly. -/
theorem toPrismFile_exact {m : Mod σ α} (hm : Exportable m)
    (hp : ∀ e ∈ m.edges, ∃ k : Nat, e.2.2.prob = some ((k : Rat) / 10000)) :
    ∃ text p, toPrismFile m = .ok text ∧ read text = some p ∧ Describes m id p := by
  obtain ⟨text, p, h1, h2, h3⟩ := toPrismFile_describes hm
  refine ⟨text, p, h1, h2, { h3 with prob := ?_ }⟩
  intro i j s t a n hi hj ha
  rw [h3.prob i j s t a n hi hj ha]
  congr 1
  refine List.map_congr_left fun e he => ?_
  obtain ⟨k, hk⟩ := hp e (List.mem_filter.1 he).1
  simp only [hk, Option.getD_some, round4_exact, id]

theorem mapM_mem {β γ : Type} {f : β → Except PyErr γ} {l : List β} {ys : List γ} (h : l.mapM f = .ok ys) :
    ∀ x ∈ l, ∃ y, f x = .ok y := by
  induction l generalizing ys with
  | nil => intro x hx; cases hx
  | cons x l ih =>
    rw [List.mapM_cons, bind_ok_iff] at h
    obtain ⟨y, hy, h⟩ := h
    rw [bind_ok_iff] at h
    obtain ⟨zs, hz, -⟩ := h
    intro w hw
    rcases List.mem_cons.1 hw with rfl | hw
    · exact ⟨y, hy⟩
    · exact ih hz w hw

theorem indexOf_mem {β : Type} [DecidableEq β] {l : List β} {x : β} {i : Nat} (h : indexOf l x = .ok i) : x ∈ l := by
  unfold indexOf at h
  split at h
  · assumption
  · cases h

/-- **C99.** What is refused: a file is written only for a Markov chain or a Markov decision process, with exactly one
initial state that is a state; each transition from a state then has a probability and leads to a state, and the
transitions of a decision process have one of its actions. -/
theorem toPrismFile_ok {m : Mod σ α} {text : List Char} (h : toPrismFile m = .ok text) :
    (m.kind = .mc ∨ m.kind = .mdp) ∧ (∃ s ∈ m.states, m.initial = [s]) ∧
    ∀ e ∈ m.edges, e.1 ∈ m.states → e.2.2.prob.isSome ∧ e.2.1 ∈ m.states ∧
      (m.kind = .mdp → ∃ a ∈ m.actions, e.2.2.action = some a) := by
  unfold toPrismFile at h
  split at h
  · cases h
  rename_i hk
  have hk : m.kind = .mc ∨ m.kind = .mdp := by
    by_contra hn
    exact hk (not_or.1 hn)
  split at h
  · cases h
  split at h
  case h_2 => cases h
  rename_i s0 hs0
  rw [bind_ok_iff] at h
  obtain ⟨i0, hi0, h⟩ := h
  rw [bind_ok_iff] at h
  obtain ⟨cs, hcs, -⟩ := h
  refine ⟨hk, ⟨s0, indexOf_mem hi0, hs0⟩, ?_⟩
  intro e he hes
  obtain ⟨i, hi, hie⟩ := List.getElem_of_mem hes
  have hz : (e.1, i) ∈ m.states.zipIdx := List.mem_zipIdx_iff_getElem?.2 (List.getElem?_eq_some_iff.2 ⟨hi, hie⟩)
  obtain ⟨u, hu⟩ := mapM_mem hcs _ hz
  unfold stateCommands at hu
  rw [bind_ok_iff] at hu
  obtain ⟨l, hl, -⟩ := hu
  obtain ⟨h1, h2, h3⟩ := transitionDict_spec (m.edges.filter fun e' => e'.1 = e.1)
  have hef : e ∈ m.edges.filter fun e' => e'.1 = e.1 := List.mem_filter.2 ⟨he, by simp⟩
  obtain ⟨g, hg, hga⟩ := List.mem_map.1 ((h2 e.2.2.action).2 ⟨e, hef, rfl⟩)
  obtain ⟨v, hv⟩ := mapM_mem hl g hg
  unfold commandStr at hv
  rw [bind_ok_iff] at hv
  obtain ⟨an, han, hv⟩ := hv
  rw [bind_ok_iff] at hv
  obtain ⟨tn, htn, -⟩ := hv
  unfold transitionStr at htn
  rw [bind_ok_iff] at htn
  obtain ⟨ms, hms, -⟩ := htn
  have hmem : (e.2.2.prob, e.2.1) ∈ g.2 := by
    rw [h3 g.1 g.2 hg]
    exact List.mem_map.2 ⟨e, List.mem_filter.2 ⟨hef, by simpa using hga.symm⟩, rfl⟩
  obtain ⟨w, hw⟩ := mapM_mem hms _ hmem
  unfold moveStr at hw
  rw [bind_ok_iff] at hw
  obtain ⟨ps, hps, hw⟩ := hw
  rw [bind_ok_iff] at hw
  obtain ⟨j, hj, -⟩ := hw
  refine ⟨?_, indexOf_mem hj, ?_⟩
  · cases hpp : e.2.2.prob with
    | none => rw [hpp] at hps; cases hps
    | some => rfl
  · intro hmdp
    unfold actionStr at han
    rw [if_pos hmdp] at han
    rw [hga] at han
    split at han
    · cases han
    · rename_i a hac
      rw [bind_ok_iff] at han
      obtain ⟨k, hk, -⟩ := han
      exact ⟨a, indexOf_mem hk, hac⟩

/-- The errors of `to_prism_file`. -/
theorem toPrismFile_error {m : Mod σ α} :
    (m.kind ≠ .mc → m.kind ≠ .mdp → toPrismFile m = .error .typeError) ∧
    ((m.kind = .mc ∨ m.kind = .mdp) → (m.states = [] ∨ m.initial.length ≠ 1) → toPrismFile m = .error .valueError) := by
  constructor
  · intro h1 h2
    unfold toPrismFile
    rw [if_pos ⟨h1, h2⟩]
  · intro hk h
    unfold toPrismFile
    rw [if_neg (by rcases hk with hk | hk <;> simp [hk])]
    split
    · rfl
    · rename_i hne
      split
      · rename_i s hs
        rcases h with h | h
        · rw [h] at hne; exact absurd rfl hne
        · rw [hs] at h; exact absurd rfl h
      · rfl

end

/-! ## Examples -/

/-- A decision process with two states and two actions. -/
def exMdp : Mod String String where
  kind := .mdp
  states := ["a", "b"]
  initial := ["b"]
  aps := ["home"]
  ap := fun s => if s = "a" then ["home"] else []
  actions := ["stop", "go"]
  edges := [("a", "a", { prob := some 1, action := some "stop" }), ("b", "a", { prob := some (3 / 4), action := some "go" }),
    ("b", "b", { prob := some (1 / 4), action := some "go" }), ("b", "b", { prob := some 1, action := some "stop" })]

theorem exMdp_exportable : Exportable exMdp where
  kind := .inr rfl
  states := by decide +kernel
  initial := ⟨"b", by decide +kernel, rfl⟩
  ends := by decide +kernel
  probs := by
    intro e he
    simp only [exMdp, List.mem_cons, List.not_mem_nil, or_false] at he
    rcases he with rfl | rfl | rfl | rfl
    · exact ⟨1, rfl, by norm_num, by norm_num⟩
    · exact ⟨3 / 4, rfl, by norm_num, by norm_num⟩
    · exact ⟨1 / 4, rfl, by norm_num, by norm_num⟩
    · exact ⟨1, rfl, by norm_num, by norm_num⟩
  actions := by decide +kernel
  aps := by decide +kernel
  quotes := by decide +kernel
  used := by decide +kernel

example : toPrismFile exMdp = .ok (c!"mdp\n\nmodule sys_model\n    s : [0..1] init 1;\n\n" ++
    c!"    [act0] s=0 -> 1.0000 : (s'=0);\n" ++
    c!"    [act1] s=1 -> 0.7500 : (s'=0) + 0.2500 : (s'=1);\n" ++
    c!"    [act0] s=1 -> 1.0000 : (s'=1);\n" ++
    c!"\nendmodule\n\nlabel \"home\" = (s=0);\n") := by
  have : (toPrismFile exMdp).toOption = some (c!"mdp\n\nmodule sys_model\n    s : [0..1] init 1;\n\n" ++
    c!"    [act0] s=0 -> 1.0000 : (s'=0);\n" ++
    c!"    [act1] s=1 -> 0.7500 : (s'=0) + 0.2500 : (s'=1);\n" ++
    c!"    [act0] s=1 -> 1.0000 : (s'=1);\n" ++
    c!"\nendmodule\n\nlabel \"home\" = (s=0);\n") := by decide +kernel
  cases h : toPrismFile exMdp with
  | error e => rw [h] at this; cases this
  | ok u => rw [h] at this; exact congrArg Except.ok (Option.some.inj this)

example : ∃ text p, toPrismFile exMdp = .ok text ∧ read text = some p ∧ Describes exMdp id p := by
  refine toPrismFile_exact exMdp_exportable ?_
  intro e he
  simp only [exMdp, List.mem_cons, List.not_mem_nil, or_false] at he
  rcases he with rfl | rfl | rfl | rfl
  · exact ⟨10000, by norm_num⟩
  · exact ⟨7500, by norm_num⟩
  · exact ⟨2500, by norm_num⟩
  · exact ⟨10000, by norm_num⟩

/-- A Markov chain where each of three states follows with probability one third. -/
def exThird : Mod Nat Nat where
  kind := .mc
  states := [0, 1, 2]
  initial := [0]
  aps := []
  ap := fun _ => []
  actions := []
  edges := [(0, 0, { prob := some (1 / 3) }), (0, 1, { prob := some (1 / 3) }), (0, 2, { prob := some (1 / 3) }),
    (1, 1, { prob := some 1 }), (2, 2, { prob := some 1 })]

/-- The probabilities in the file need not have the sum 1. -/
theorem toPrismFile_sum_counterexample :
    ((toPrismFile exThird).toOption.bind read).any (fun p =>
      decide (p.prob [] 0 0 + p.prob [] 0 1 + p.prob [] 0 2 = 9999 / 10000)) = true := by decide +kernel

/-- An atomic proposition that no state has gives a label that is not a formula of PRISM. -/
theorem toPrismFile_unused_counterexample :
    (toPrismFile { exThird with aps := ["goal"] }).toOption.isSome = true ∧
    (toPrismFile { exThird with aps := ["goal"] }).toOption.bind read = none := by decide +kernel

/-- The counterexample has what else is asked of a model. -/
theorem exThird_exportable : Exportable exThird where
  kind := .inl rfl
  states := by decide +kernel
  initial := ⟨0, by decide +kernel, rfl⟩
  ends := by decide +kernel
  probs := by
    intro e he
    simp only [exThird, List.mem_cons, List.not_mem_nil, or_false] at he
    rcases he with rfl | rfl | rfl | rfl | rfl
    · exact ⟨1 / 3, rfl, by norm_num, by norm_num⟩
    · exact ⟨1 / 3, rfl, by norm_num, by norm_num⟩
    · exact ⟨1 / 3, rfl, by norm_num, by norm_num⟩
    · exact ⟨1, rfl, by norm_num, by norm_num⟩
    · exact ⟨1, rfl, by norm_num, by norm_num⟩
  actions := by decide +kernel
  aps := by decide +kernel
  quotes := by decide +kernel
  used := by decide +kernel

end Storm
end Tulip
