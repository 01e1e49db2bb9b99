import Verif.Interfaces.Prism
import Verif.Spec.ParserLemmas
import Mathlib.Tactic.Ring
import Mathlib.Tactic.Linarith
import Mathlib.Tactic.FieldSimp
import Mathlib.Data.Nat.Cast.Order.Ring

/-!
# Lemmas about the reader of PRISM files
-/

namespace Tulip
namespace Prism

theorem run_append (s : LS) (u v : List Char) :
    run s (u ++ v) = ((run s u).1 ++ (run (run s u).2 v).1, (run (run s u).2 v).2) := by
  induction u generalizing s with
  | nil => simp [run]
  | cons c u ih => simp [run, ih]

theorem run_num {a ds : List Char} (h : ∀ c ∈ ds, isDig c = true) :
    run (.num a) ds = ([], .num (a ++ ds)) := by
  induction ds generalizing a with
  | nil => simp [run]
  | cons c ds ih =>
    have hc := h c (by simp)
    simp only [run, step, hc, if_true]
    rw [ih fun x hx => h x (by simp [hx])]
    simp

theorem run_word {a ds : List Char} (h : ∀ c ∈ ds, isDig c = true) :
    run (.word a) ds = ([], .word (a ++ ds)) := by
  induction ds generalizing a with
  | nil => simp [run]
  | cons c ds ih =>
    have hc := h c (by simp)
    simp only [run, step, hc, Bool.or_true, if_true]
    rw [ih fun x hx => h x (by simp [hx])]
    simp

theorem run_dec {a f ds : List Char} (h : ∀ c ∈ ds, isDig c = true) :
    run (.dec a f) ds = ([], .dec a (f ++ ds)) := by
  induction ds generalizing f with
  | nil => simp [run]
  | cons c ds ih =>
    have hc := h c (by simp)
    simp only [run, step, hc, if_true]
    rw [ih fun x hx => h x (by simp [hx])]
    simp

theorem run_str {a p : List Char} (h : '"' ∉ p) : run (.str a) p = ([], .str (a ++ p)) := by
  induction p generalizing a with
  | nil => simp [run]
  | cons c p ih =>
    have hc : c ≠ '"' := fun e => h (by simp [e])
    simp only [run, step, hc, if_false]
    rw [ih fun hp => h (by simp [hp])]
    simp

theorem digits_all (n : Nat) : ∀ c ∈ digitsOf n, isDig c = true :=
  fun c hc => List.all_eq_true.1 (digitsOf_spec n).1 c hc

theorem run_digits (n : Nat) : run .start (digitsOf n) = ([], .num (digitsOf n)) := by
  obtain ⟨c, w, e⟩ := List.exists_cons_of_ne_nil (digitsOf_spec n).2.1
  have h := digits_all n
  rw [e] at h ⊢
  have hc := h c (by simp)
  have hs : ¬ (c = ' ' ∨ c = '\n' ∨ c = '\t') := by
    rintro (rfl | rfl | rfl) <;> exact absurd hc (by decide)
  simp only [run, step, begin_, hs, hc, if_false, if_true]
  rw [run_num fun x hx => h x (by simp [hx])]
  simp

theorem natOf_digits (n : Nat) : natOf (digitsOf n) = n := (digitsOf_spec n).2.2

/-- A text that is read without a rest. -/
def Line (u : List Char) (T : List Tok) : Prop := run .start u = (T, .start)

theorem Line.append {u v : List Char} {T S : List Tok} (h : Line u T) (h' : Line v S) : Line (u ++ v) (T ++ S) := by
  unfold Line at *
  rw [run_append, h, h']

theorem Line.nil : Line [] [] := rfl

theorem Line.flatten {us : List (List Char)} {Ts : List (List Tok)} (h : List.Forall₂ Line us Ts) :
    Line us.flatten Ts.flatten := by
  induction h with
  | nil => exact .nil
  | cons h _ ih => exact h.append ih

/-- Tokens with separators between them. -/
def joinT (sep : Tok) : List (List Tok) → List Tok
  | [] => []
  | [x] => x
  | x :: y :: r => x ++ sep :: joinT sep (y :: r)

theorem Line.join {sep : List Char} {t : Tok} (hs : Line sep [t]) {us : List (List Char)} {Ts : List (List Tok)}
    (h : List.Forall₂ Line us Ts) : Line (joinWith sep us) (joinT t Ts) := by
  induction h with
  | nil => exact .nil
  | cons h h' ih =>
    cases h' with
    | nil => exact h
    | cons => simpa [joinWith, joinT, List.append_assoc] using h.append (hs.append ih)

theorem joinT_length (sep : Tok) {Ts : List (List Tok)} (h : ∀ T ∈ Ts, T ≠ []) : Ts.length ≤ (joinT sep Ts).length := by
  induction Ts with
  | nil => simp
  | cons T Ts ih =>
    have h1 : 0 < T.length := List.length_pos_iff.2 (h T (by simp))
    have := ih fun S hS => h S (by simp [hS])
    cases Ts with
    | nil => simp [joinT]; omega
    | cons S Ts => simp only [joinT, List.length_append, List.length_cons] at *; omega

theorem sepList_ok {β : Type} {item : List Tok → Option (β × List Tok)} {sep stop : Tok} (hss : sep ≠ stop)
    {toks : β → List Tok} {xs : List β} (hne : xs ≠ []) (h : ∀ x ∈ xs, ∀ r, item (toks x ++ r) = some (x, r))
    {fuel : Nat} (hf : xs.length ≤ fuel) (r : List Tok) :
    sepList item sep stop fuel (joinT sep (xs.map toks) ++ stop :: r) = some (xs, r) := by
  induction xs generalizing fuel with
  | nil => exact absurd rfl hne
  | cons x xs ih =>
    obtain ⟨k, rfl⟩ : ∃ k, fuel = k + 1 := ⟨fuel - 1, by simp at hf; omega⟩
    cases xs with
    | nil => simp [sepList, joinT, h x (by simp)]
    | cons y ys =>
      have ih := ih (by simp) (fun z hz => h z (by simp only [List.mem_cons] at hz ⊢; tauto)) (fuel := k)
        (by simp at hf ⊢; omega)
      simp only [List.map_cons] at ih
      simp only [sepList, joinT, List.map_cons, List.append_assoc, List.cons_append, h x (by simp)]
      simp [hss, ih]

/-- The tokens of an update. -/
def updToks (u : Rat × Nat) : List Tok :=
  [.dec u.1, .sym ':', .sym '(', .word c!"s", .sym '\'', .sym '=', .num u.2, .sym ')']

theorem update_toks (u : Rat × Nat) (r : List Tok) : update c!"s" (updToks u ++ r) = some (u, r) := by
  simp [update, updToks, expects, number]

/-- The tokens of a state in a label. -/
def atToks (i : Nat) : List Tok := [.sym '(', .word c!"s", .sym '=', .num i, .sym ')']

theorem atState_toks (i : Nat) (r : List Tok) : atState c!"s" (atToks i ++ r) = some (i, r) := by
  simp [atState, atToks, expects, number]

/-- The tokens of a command. -/
def cmdToks (c : Command) : List Tok :=
  .sym '[' :: ((if c.action = [] then [] else [.word c.action]) ++ (.sym ']' :: .word c!"s" :: .sym '=' :: .num c.guard ::
    .sym '-' :: .sym '>' :: (joinT (.sym '+') (c.updates.map updToks) ++ [.sym ';'])))

theorem command_toks (c : Command) (hne : c.updates ≠ []) (r : List Tok) :
    command c!"s" (cmdToks c ++ r) = some (c, r) := by
  obtain ⟨a, g, us⟩ := c
  have key : sepList (update c!"s") (.sym '+') (.sym ';')
      (joinT (.sym '+') (us.map updToks) ++ .sym ';' :: r).length
      (joinT (.sym '+') (us.map updToks) ++ .sym ';' :: r) = some (us, r) := by
    refine sepList_ok (by decide) hne (fun u _ r => update_toks u r) ?_ r
    have := joinT_length (.sym '+') (Ts := us.map updToks) (by simp only [List.mem_map]; rintro _ ⟨x, _, rfl⟩; exact List.cons_ne_nil _ _)
    simp at this ⊢
    omega
  simp only [List.length_append, List.length_cons] at key
  unfold command cmdToks
  by_cases ha : a = []
  · subst ha
    simp only [if_true, List.nil_append, List.cons_append, List.append_assoc, expects, if_pos rfl, Option.bind_eq_bind,
      Option.bind_some, actionName, number]
    simp [key, expects, number]
  · simp only [ha, if_false, List.cons_append, List.append_assoc, List.nil_append, expects, if_pos rfl, Option.bind_eq_bind,
      Option.bind_some, actionName, number]
    simp [key, expects, number]

theorem cmdToks_head (c : Command) (r : List Tok) : (cmdToks c ++ r).head? = some (.sym '[') := rfl

theorem commands_toks (cs : List Command) (h : ∀ c ∈ cs, c.updates ≠ []) {fuel : Nat} (hf : cs.length < fuel) (r : List Tok) :
    commands c!"s" fuel ((cs.map cmdToks).flatten ++ .word c!"endmodule" :: r) = some (cs, r) := by
  induction cs generalizing fuel with
  | nil =>
    obtain ⟨k, rfl⟩ : ∃ k, fuel = k + 1 := ⟨fuel - 1, by simp at hf; omega⟩
    simp [commands]
  | cons c cs ih =>
    obtain ⟨k, rfl⟩ : ∃ k, fuel = k + 1 := ⟨fuel - 1, by simp at hf; omega⟩
    have ih := ih (fun x hx => h x (by simp [hx])) (fuel := k) (by simp at hf; omega)
    simp only [commands, List.map_cons, List.flatten_cons, List.append_assoc, cmdToks_head, command_toks c (h c (by simp))]
    simp [ih]

/-- The tokens of a label. -/
def labToks (l : List Char × List Nat) : List Tok :=
  .word c!"label" :: .str l.1 :: .sym '=' :: (joinT (.sym '|') (l.2.map atToks) ++ [.sym ';'])

theorem label_toks (l : List Char × List Nat) (hne : l.2 ≠ []) (r : List Tok) :
    label c!"s" (labToks l ++ r) = some (l, r) := by
  obtain ⟨p, is⟩ := l
  have key : sepList (atState c!"s") (.sym '|') (.sym ';')
      (joinT (.sym '|') (is.map atToks) ++ .sym ';' :: r).length
      (joinT (.sym '|') (is.map atToks) ++ .sym ';' :: r) = some (is, r) := by
    refine sepList_ok (by decide) hne (fun u _ r => atState_toks u r) ?_ r
    have := joinT_length (.sym '|') (Ts := is.map atToks) (by simp only [List.mem_map]; rintro _ ⟨x, _, rfl⟩; exact List.cons_ne_nil _ _)
    simp at this ⊢
    omega
  simp only [List.length_append, List.length_cons] at key
  unfold label labToks
  simp only [List.cons_append, List.append_assoc, List.nil_append, if_pos rfl, expects, Option.bind_eq_bind, Option.bind_some]
  simp [key]

theorem labels_toks (ls : List (List Char × List Nat)) (h : ∀ l ∈ ls, l.2 ≠ []) {fuel : Nat} (hf : ls.length ≤ fuel) :
    labels c!"s" fuel (ls.map labToks).flatten = some ls := by
  induction ls generalizing fuel with
  | nil => simp [labels]
  | cons l ls ih =>
    obtain ⟨k, rfl⟩ : ∃ k, fuel = k + 1 := ⟨fuel - 1, by simp at hf; omega⟩
    have ih := ih (fun x hx => h x (by simp [hx])) (fuel := k) (by simp at hf; omega)
    have hl := label_toks l (h l (by simp)) (ls.map labToks).flatten
    have e : ((l :: ls).map labToks).flatten = labToks l ++ (ls.map labToks).flatten := by simp
    rw [e]
    have e2 : labToks l ++ (ls.map labToks).flatten = .word c!"label" :: ((labToks l).tail ++ (ls.map labToks).flatten) := rfl
    rw [e2] at hl ⊢
    simp only [labels, hl]
    simp [ih]

/-- The tokens of a program. -/
def progToks (p : Program) : List Tok :=
  .word (if p.mdp then c!"mdp" else c!"dtmc") :: .word c!"module" :: .word c!"sys_model" :: .word c!"s" :: .sym ':' ::
    .sym '[' :: .num p.lo :: .sym '.' :: .sym '.' :: .num p.hi :: .sym ']' :: .word c!"init" :: .num p.init :: .sym ';' ::
    ((p.commands.map cmdToks).flatten ++ .word c!"endmodule" :: (p.labels.map labToks).flatten)

theorem program_aux {mdp : Bool} {lo hi init : Nat} {cs : List Command} {ls : List (List Char × List Nat)} {X Y : List Tok}
    (h1 : commands c!"s" X.length X = some (cs, Y)) (h2 : labels c!"s" Y.length Y = some ls) :
    program (.word (if mdp then c!"mdp" else c!"dtmc") :: .word c!"module" :: .word c!"sys_model" :: .word c!"s" ::
      .sym ':' :: .sym '[' :: .num lo :: .sym '.' :: .sym '.' :: .num hi :: .sym ']' :: .word c!"init" :: .num init ::
      .sym ';' :: X) = some ⟨mdp, lo, hi, init, cs, ls⟩ := by
  have e : modelType (.word (if mdp then c!"mdp" else c!"dtmc") :: .word c!"module" :: .word c!"sys_model" :: .word c!"s" ::
      .sym ':' :: .sym '[' :: .num lo :: .sym '.' :: .sym '.' :: .num hi :: .sym ']' :: .word c!"init" :: .num init ::
      .sym ';' :: X) = some (mdp, .word c!"module" :: .word c!"sys_model" :: .word c!"s" ::
      .sym ':' :: .sym '[' :: .num lo :: .sym '.' :: .sym '.' :: .num hi :: .sym ']' :: .word c!"init" :: .num init ::
      .sym ';' :: X) := by
    cases mdp <;> rfl
  unfold program
  rw [e]
  simp only [expects, name, number, if_true, Option.bind_eq_bind, Option.bind_some, h1, h2, Option.pure_def]

theorem program_toks (p : Program) (hc : ∀ c ∈ p.commands, c.updates ≠ []) (hl : ∀ l ∈ p.labels, l.2 ≠ []) :
    program (progToks p) = some p := by
  have len : ∀ {β : Type} (f : β → List Tok) (xs : List β), (∀ x ∈ xs, f x ≠ []) → xs.length ≤ (xs.map f).flatten.length := by
    intro β f xs
    induction xs with
    | nil => simp
    | cons x xs ih =>
      intro h
      have h1 : 0 < (f x).length := List.length_pos_iff.2 (h x (by simp))
      have := ih fun y hy => h y (by simp [hy])
      simp only [List.map_cons, List.flatten_cons, List.length_append, List.length_cons] at *
      omega
  have h1 := commands_toks p.commands hc (fuel := ((p.commands.map cmdToks).flatten ++ .word c!"endmodule" ::
    (p.labels.map labToks).flatten).length) (by
      have := len cmdToks p.commands (by simp [cmdToks])
      simp at this ⊢; omega) (p.labels.map labToks).flatten
  have h2 := labels_toks p.labels hl (fuel := (p.labels.map labToks).flatten.length) (len labToks p.labels (by simp [labToks]))
  exact program_aux h1 h2

theorem read_line {u : List Char} {p : Program} (h : Line u (progToks p)) (hc : ∀ c ∈ p.commands, c.updates ≠ [])
    (hl : ∀ l ∈ p.labels, l.2 ≠ []) : read u = some p := by
  unfold read tokens
  rw [h]
  simpa [flush] using program_toks p hc hl

end Prism
end Tulip
