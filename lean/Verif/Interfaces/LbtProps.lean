import Verif.Interfaces.Lbt
import Verif.Interfaces.Gr1cVersionProps
import Verif.Spec.LtlFileProps
import Verif.Transys.GraphProps

/-!
# C134: the reader of the automata that `lbt` and `scheck` print
-/

namespace Tulip
namespace Lbt

open Gw Gr1cV LtlFile

/-! ## Specification -/

/-- A state of an automaton: its name, whether it is initial, its acceptance sets, and its transitions: the name of
the successor and the words of the gate, which is a formula in prefix notation. -/
structure State where
  name : Nat
  initial : Bool
  acc : List Nat
  trans : List (Nat × List (List Char))

/-- The words of a transition. -/
def transWords (t : Nat × List (List Char)) : List (List Char) := digitsOf t.1 :: t.2

/-- The words of a state: name, `1` if initial, acceptance sets, `-1`, transitions, `-1`. -/
def stateWords (q : State) : List (List Char) :=
  (digitsOf q.name :: (if q.initial then c!"1" else c!"0") :: q.acc.map digitsOf) ++ [c!"-1"] ++
    (q.trans.flatMap transWords ++ [c!"-1"])

/-- `s` is a text of the automaton: the number of states, the number of acceptance sets and the states, with
blanks and ends of lines between the words. -/
def TextOf (s : List Char) (count sets : Nat) (l : List State) : Prop :=
  (∀ c ∈ s, isSpace c = true → c = ' ' ∨ c = '\n') ∧
    words s = digitsOf count :: digitsOf sets :: l.flatMap stateWords

/-- A word of a gate: not an integer, and `-1` does not occur in it. -/
def GateWord (w : List Char) : Prop := pyInt w = none ∧ ¬ c!"-1" <:+: w

/-- `g` is the gate of the last transition to `v` among the transitions `ts`. -/
def LastGate (ts : List (Nat × List (List Char))) (v : Int) (g : List Char) : Prop :=
  ∃ a t b, ts = a ++ t :: b ∧ (t.1 : Int) = v ∧ (∀ x ∈ b, (x.1 : Int) ≠ v) ∧ g = joinWith c!" " t.2

/-! ## Words -/

theorem words_cons_inv {s t : List Char} {ts : List (List Char)} (h : words s = t :: ts) :
    ∃ a r, s = a ++ t ++ r ∧ (∀ c ∈ a, isSpace c = true) ∧ t ≠ [] ∧ (∀ c ∈ t, isSpace c = false) ∧ Ends r ∧
      words r = ts := by
  rcases split_word s with hs | ⟨a, w, r, rfl, h1, h2, h3, h4⟩
  · rw [words_all_space hs] at h
    cases h
  · rw [words_first h1 h2 h3 h4] at h
    obtain ⟨rfl, rfl⟩ := List.cons.inj h
    exact ⟨a, r, rfl, h1, h2, h3, h4, rfl⟩

theorem words_nil_inv {s : List Char} (h : words s = []) : ∀ c ∈ s, isSpace c = true := by
  rcases split_word s with hs | ⟨a, w, r, rfl, h1, h2, h3, h4⟩
  · exact hs
  · rw [words_first h1 h2 h3 h4] at h
    cases h

theorem words_ne {s w : List Char} (h : w ∈ words s) : w ≠ [] := by
  generalize hl : words s = l at h
  induction l generalizing s with
  | nil => cases h
  | cons t l ih =>
    obtain ⟨a, r, rfl, h1, h2, h3, h4, h5⟩ := words_cons_inv hl
    rcases List.mem_cons.1 h with rfl | h
    · exact h2
    · exact ih h5 h

theorem wordsFrom_end {p : List Char} (h : ∀ c ∈ p, isSpace c = true) (x cur : List Char) :
    wordsFrom cur (x ++ p) = wordsFrom cur x := by
  induction x generalizing cur with
  | nil =>
    cases p with
    | nil => rfl
    | cons c p =>
      have h0 : wordsFrom [] p = [] := words_all_space fun d hd => h d (by simp [hd])
      simp only [List.nil_append, wordsFrom, h c (by simp), if_true, h0]
  | cons c x ih => simp only [List.cons_append, wordsFrom, ih]

theorem strip_props (s : List Char) : ∃ a b, s = a ++ strip s ++ b ∧ (∀ c ∈ a, isSpace c = true) ∧
    (∀ c ∈ b, isSpace c = true) ∧ (∀ c ∈ (strip s).head?, isSpace c = false) ∧
    (∀ c ∈ (strip s).getLast?, isSpace c = false) := by
  have key : ∀ t : List Char, ∃ a, t = a ++ t.dropWhile isSpace ∧ (∀ c ∈ a, isSpace c = true) ∧
      (∀ c ∈ (t.dropWhile isSpace).head?, isSpace c = false) := by
    intro t
    induction t with
    | nil => exact ⟨[], by simp⟩
    | cons c t ih =>
      cases hc : isSpace c with
      | true =>
        obtain ⟨a, h1, h2, h3⟩ := ih
        refine ⟨c :: a, ?_, by simpa [hc] using h2, ?_⟩
        · rw [List.dropWhile_cons, if_pos hc, List.cons_append, ← h1]
        · rwa [List.dropWhile_cons, if_pos hc]
      | false => exact ⟨[], by simp [hc]⟩
  obtain ⟨a, h1, h2, h3⟩ := key s
  obtain ⟨b, k1, k2, k3⟩ := key (lstrip s).reverse
  have e : lstrip s = strip s ++ b.reverse := by
    have := congrArg List.reverse k1
    simpa [strip] using this
  refine ⟨a, b.reverse, ?_, h2, fun c hc => k2 c (by simpa using hc), ?_, ?_⟩
  · rw [List.append_assoc, ← e]
    exact h1
  · intro c hc
    apply h3
    show c ∈ (lstrip s).head?
    rw [e]
    cases hx : strip s with
    | nil => rw [hx] at hc; cases hc
    | cons d x => rw [hx] at hc; simpa using hc
  · intro c hc
    apply k3
    simpa [strip] using hc

theorem words_strip (s : List Char) : words (strip s) = words s := by
  obtain ⟨a, b, h, h1, h2, _, _⟩ := strip_props s
  conv => rhs; rw [h, List.append_assoc, words_spaces h1, words, wordsFrom_end h2]
  rfl

theorem strip_sub {s : List Char} {c : Char} (h : c ∈ strip s) : c ∈ s := by
  obtain ⟨a, b, e, _⟩ := strip_props s
  rw [e]
  simp [h]

theorem strip_pos (s : List Char) : (decide ((strip s).length > 0)) = decide (words s ≠ []) := by
  rw [decide_eq_decide, ← words_strip]
  obtain ⟨_, _, _, _, _, h, _⟩ := strip_props s
  cases hx : strip s with
  | nil => simp [words, wordsFrom]
  | cons c x =>
    refine ⟨fun _ hn => ?_, fun _ => by simp⟩
    have := words_nil_inv hn c (by simp)
    rw [h c (by simp [hx])] at this
    cases this

/-! ## `_split2` -/

theorem find_cons (x c : Char) (l : List Char) :
    LtlFile.find [x] (c :: l) = if x = c then some 0 else (LtlFile.find [x] l).map (· + 1) := by
  by_cases h : x = c <;> simp [LtlFile.find, List.isPrefixOf, h]

theorem nexts_cons (c : Char) (l : List Char) :
    nexts (c :: l) = if c = ' ' ∨ c = '\n' then some 0 else (nexts l).map (· + 1) := by
  unfold nexts
  show (match LtlFile.find ['\n'] (c :: l), LtlFile.find [' '] (c :: l) with
    | none, space => space
    | some newline, none => some newline
    | some newline, some space => some (min space newline)) = _
  rw [find_cons, find_cons]
  by_cases h1 : c = '\n'
  · subst h1
    simp only [if_true, or_true, show (' ' : Char) ≠ '\n' by decide, if_false]
    cases LtlFile.find [' '] l <;> simp
  · by_cases h2 : c = ' '
    · subst h2
      simp only [if_true, true_or, show ('\n' : Char) ≠ ' ' by decide, if_false]
      cases LtlFile.find ['\n'] l <;> simp
    · simp only [h1, h2, Ne.symm h1, Ne.symm h2, if_false, or_self]
      show _ = Option.map (· + 1) (match LtlFile.find ['\n'] l, LtlFile.find [' '] l with
        | none, space => space
        | some newline, none => some newline
        | some newline, some space => some (min space newline))
      cases LtlFile.find ['\n'] l <;> cases LtlFile.find [' '] l <;> simp

theorem nexts_word {a : List Char} (h : ∀ c ∈ a, isSpace c = false) : nexts a = none := by
  induction a with
  | nil => rfl
  | cons c a ih =>
    have hc := h c (by simp)
    rw [nexts_cons, if_neg, ih fun d hd => h d (by simp [hd])]
    · rfl
    · rintro (rfl | rfl) <;> revert hc <;> decide

theorem nexts_at {a r : List Char} {c : Char} (h : ∀ c ∈ a, isSpace c = false) (hc : c = ' ' ∨ c = '\n') :
    nexts (a ++ c :: r) = some a.length := by
  induction a with
  | nil => rw [List.nil_append, nexts_cons, if_pos hc]; rfl
  | cons d a ih =>
    have hd := h d (by simp)
    rw [List.cons_append, nexts_cons, if_neg, ih fun e he => h e (by simp [he])]
    · rfl
    · rintro (rfl | rfl) <;> revert hd <;> decide

/-- The white space of a text is blanks and ends of lines. -/
def Plain (s : List Char) : Prop := ∀ c ∈ s, isSpace c = true → c = ' ' ∨ c = '\n'

/-- A stripped text is its first word and a rest. -/
theorem strip_first {s t : List Char} {ts : List (List Char)} (h : words s = t :: ts) :
    ∃ r, strip s = t ++ r ∧ (∀ c ∈ t, isSpace c = false) ∧ t ≠ [] ∧ Ends r ∧ words r = ts := by
  rw [← words_strip] at h
  obtain ⟨_, _, _, _, _, hh, _⟩ := strip_props s
  obtain ⟨a, r, h0, h1, h2, h3, h4, h5⟩ := words_cons_inv h
  cases a with
  | nil => exact ⟨r, by simpa using h0, h3, h2, h4, h5⟩
  | cons c a =>
    have := hh c (by rw [h0]; simp)
    rw [h1 c (by simp)] at this
    cases this

theorem split2_spec {s a b : List Char} {rest : List (List Char)} (hp : Plain s) (h : words s = a :: b :: rest) :
    ∃ y, Plain y ∧ words y = rest ∧ (∀ c ∈ y, c ∈ s) ∧ split2 s = if rest = [] then [a, b] else [a, b, y] := by
  obtain ⟨r, h1, h2, h3, h4, h5⟩ := strip_first h
  have hr : r ≠ [] := by rintro rfl; cases h5
  obtain ⟨c, r', rfl⟩ := List.exists_cons_of_ne_nil hr
  have sub1 : ∀ d ∈ c :: r', d ∈ s := fun d hd => strip_sub (by rw [h1]; simp [List.mem_cons.1 hd])
  have hc : c = ' ' ∨ c = '\n' := hp c (sub1 c (by simp)) (h4 c (by simp))
  obtain ⟨q, k1, k2, k3, k4, k5⟩ := strip_first h5
  have sub2 : ∀ d ∈ q, d ∈ s := fun d hd => sub1 d (strip_sub (by rw [k1]; simp [hd]))
  refine ⟨q, fun d hd => hp d (sub2 d hd), k5, sub2, ?_⟩
  unfold split2
  simp only [h1, nexts_at h2 hc, List.drop_left, List.take_left, k1]
  cases q with
  | nil =>
    rw [List.append_nil, nexts_word k2]
    rw [if_pos]
    rw [← k5]; rfl
  | cons d q =>
    have hd : d = ' ' ∨ d = '\n' := hp d (sub2 d (by simp)) (k4 d (by simp))
    simp only [nexts_at k2 hd, List.drop_left, List.take_left]
    rw [if_neg]
    intro e
    rw [e] at k5
    have hall := words_nil_inv k5
    obtain ⟨_, _, _, _, _, _, hlast⟩ := strip_props (c :: r')
    have hq : (strip (c :: r')).getLast? = (d :: q).getLast? := by
      rw [k1, List.getLast?_append]
      cases hh : (d :: q).getLast? with
      | none => simp at hh
      | some z => rfl
    rw [hq] at hlast
    have := hlast ((d :: q).getLast (by simp)) (by rw [List.getLast?_eq_getLast_of_ne_nil (by simp)]; rfl)
    rw [hall _ (List.getLast_mem _)] at this
    cases this

/-! ## The parts between `-1` -/

theorem pass (r y cur : List Char) (h : ∀ a b, y = a ++ b → b ≠ [] → ¬ c!"-1" <+: b ++ r) :
    splitStrFrom c!"-1" 0 cur (y ++ r) = splitStrFrom c!"-1" 0 (cur ++ y) r := by
  induction y generalizing cur with
  | nil => simp
  | cons c y ih =>
    rw [List.cons_append]
    conv => lhs; unfold splitStrFrom
    rw [if_neg, ih]
    · simp
    · exact fun a b e hb => h (c :: a) b (by rw [e]; rfl) hb
    · intro hp
      exact h [] (c :: y) rfl (by simp) (List.isPrefixOf_iff_prefix.mp hp)

theorem pass_spaces {a : List Char} (h : ∀ c ∈ a, isSpace c = true) (cur r : List Char) :
    splitStrFrom c!"-1" 0 cur (a ++ r) = splitStrFrom c!"-1" 0 (cur ++ a) r := by
  refine pass r a cur fun x b e hb hp => ?_
  obtain ⟨d, b, rfl⟩ := List.exists_cons_of_ne_nil hb
  obtain ⟨z, hz⟩ := hp
  have : ('-' : Char) = d := (List.cons.inj hz).1
  have := h d (by rw [e]; simp)
  subst d
  revert this; decide

theorem pass_word {t : List Char} (h : ¬ c!"-1" <:+: t) {r : List Char} (hr : Ends r) (cur : List Char) :
    splitStrFrom c!"-1" 0 cur (t ++ r) = splitStrFrom c!"-1" 0 (cur ++ t) r := by
  refine pass r t cur fun x b e hb hp => ?_
  obtain ⟨d, b, rfl⟩ := List.exists_cons_of_ne_nil hb
  obtain ⟨z, hz⟩ := hp
  obtain ⟨rfl, hz2⟩ := List.cons.inj hz
  cases b with
  | nil =>
    have hz3 : '1' :: z = r := hz2
    have := hr '1' (by rw [← hz3]; simp)
    revert this; decide
  | cons f b =>
    obtain ⟨rfl, _⟩ := List.cons.inj hz2
    exact h ⟨x, b, by rw [e]; simp⟩

theorem split_group {pre post : List (List Char)} (hpre : ∀ t ∈ pre, ¬ c!"-1" <:+: t) (s cur : List Char)
    (h : words s = pre ++ c!"-1" :: post) : ∃ u v, splitStrFrom c!"-1" 0 cur s = (cur ++ u) :: splitStr c!"-1" v ∧
      words u = pre ∧ words v = post ∧ s = u ++ c!"-1" ++ v := by
  induction pre generalizing s cur with
  | nil =>
    obtain ⟨a, r, rfl, h1, h2, h3, h4, h5⟩ := words_cons_inv h
    refine ⟨a, r, ?_, words_all_space h1, h5, rfl⟩
    rw [List.append_assoc]
    exact splitStrFrom_sep (x := '-') (sep := ['1']) (fun hm => by have := h1 _ hm; revert this; decide) cur r
  | cons t pre ih =>
    obtain ⟨a, r, rfl, h1, h2, h3, h4, h5⟩ := words_cons_inv h
    obtain ⟨u, v, k1, k2, k3, k4⟩ := ih (fun x hx => hpre x (by simp [hx])) r (cur ++ a ++ t) h5
    refine ⟨a ++ t ++ u, v, ?_, ?_, k3, by rw [k4]; simp⟩
    · rw [List.append_assoc, pass_spaces h1, pass_word (hpre t (by simp)) h4, k1]
      simp
    · rw [words_first h1 h2 h3, k2]
      cases u with
      | nil => simp [Ends]
      | cons c u =>
        intro d hd
        apply h4
        rw [k4]
        simpa using hd

theorem split_groups (groups : List (List (List Char))) (hg : ∀ g ∈ groups, ∀ t ∈ g, ¬ c!"-1" <:+: t)
    (s : List Char) (h : words s = groups.flatMap fun g => g ++ [c!"-1"]) :
    ∃ us e, splitStr c!"-1" s = us ++ [e] ∧ words e = [] ∧ us.map words = groups ∧
      ∀ u ∈ us, ∀ c ∈ u, c ∈ s := by
  induction groups generalizing s with
  | nil =>
    refine ⟨[], s, ?_, h, rfl, by simp⟩
    have := pass_spaces (words_nil_inv h) [] []
    simpa [splitStr, splitStrFrom] using this
  | cons g groups ih =>
    obtain ⟨u, v, k1, k2, k3, k4⟩ := split_group (hg g (by simp)) s []
      (post := groups.flatMap fun g => g ++ [c!"-1"]) (by rw [h]; simp)
    obtain ⟨us, e, h1, h2, h3, h4⟩ := ih (fun x hx => hg x (by simp [hx])) v k3
    refine ⟨u :: us, e, by rw [splitStr, k1, h1]; simp, h2, by simp [k2, h3], ?_⟩
    intro w hw c hc
    rw [k4]
    rcases List.mem_cons.1 hw with rfl | hw
    · simp [hc]
    · simp [h4 w hw c hc]

/-! ## States and transitions -/

theorem digits_clean (n : Nat) : ¬ c!"-1" <:+: digitsOf n := by
  rintro ⟨a, b, h⟩
  have := digitsOf_all n '-' (by rw [← h]; simp)
  revert this; decide

theorem toInts_digits (l : List Nat) : toInts (l.map digitsOf) = .ok (l.map fun n : Nat => (n : Int)) := by
  induction l with
  | nil => rfl
  | cons n l ih => simp [toInts, toInt, pyInt_digits, ih]

theorem readState_spec {p : List Char} (hp : Plain p) (A : Gba) (q : State)
    (h : words p = digitsOf q.name :: (if q.initial then c!"1" else c!"0") :: q.acc.map digitsOf) :
    readState A p = .ok ((q.name : Int), addNode A q.name q.initial (q.acc.map fun n : Nat => (n : Int))) := by
  obtain ⟨y, _, h2, _, h4⟩ := split2_spec hp h
  unfold readState
  by_cases e : q.acc.map digitsOf = []
  · have e' : q.acc = [] := by simpa using e
    rw [h4, if_pos e]
    simp [item, toInt, pyInt_digits, e']
  · rw [h4, if_neg e]
    simp [item, toInt, pyInt_digits, h2, toInts_digits]

/-- The gate after more words. -/
def gateFrom (g : List Char) (ws : List (List Char)) : List Char :=
  ws.foldl (fun g w => (if g.length > 0 then g ++ c!" " else g) ++ w) g

theorem gateFrom_cons {g : List Char} (hg : g ≠ []) (ws : List (List Char)) :
    gateFrom g ws = joinWith c!" " (g :: ws) := by
  induction ws generalizing g with
  | nil => rfl
  | cons w ws ih =>
    have hl : g.length > 0 := List.length_pos_of_ne_nil hg
    have hne : g ++ c!" " ++ w ≠ [] := by simp
    show gateFrom ((if g.length > 0 then g ++ c!" " else g) ++ w) ws = _
    rw [if_pos hl, ih hne]
    cases ws <;> simp [joinWith]

theorem gateFrom_nil {ws : List (List Char)} (h : ∀ w ∈ ws, w ≠ []) : gateFrom [] ws = joinWith c!" " ws := by
  cases ws with
  | nil => rfl
  | cons w ws =>
    show gateFrom ([] ++ w) ws = _
    rw [List.nil_append, gateFrom_cons (h w (by simp))]

theorem fold_gate (name : Int) (A : Gba) (v : Int) (ws : List (List Char)) (h : ∀ w ∈ ws, pyInt w = none)
    (g : List Char) : ws.foldl (readWord name) (A, some v, g) = (A, some v, gateFrom g ws) := by
  induction ws generalizing g with
  | nil => rfl
  | cons w ws ih =>
    rw [List.foldl_cons]
    simp only [readWord, h w (by simp)]
    rw [ih fun x hx => h x (by simp [hx])]
    rfl

/-- The edges of a state. -/
def addEdges (name : Int) (A : Gba) (ts : List (Nat × List (List Char))) : Gba :=
  ts.foldl (fun A t => addEdge A name t.1 (joinWith c!" " t.2)) A

theorem fold_trans (name : Int) (A : Gba) (v : Int) (g : List Char) (ts : List (Nat × List (List Char)))
    (h : ∀ t ∈ ts, ∀ w ∈ t.2, pyInt w = none ∧ w ≠ []) :
    (match (ts.flatMap transWords).foldl (readWord name) (A, some v, g) with
      | (B, some u, g) => addEdge B name u g
      | (B, none, _) => B) = addEdges name (addEdge A name v g) ts := by
  induction ts generalizing A v g with
  | nil => rfl
  | cons t ts ih =>
    rw [List.flatMap_cons, List.foldl_append, transWords, List.foldl_cons]
    simp only [readWord, pyInt_digits]
    rw [fold_gate _ _ _ _ fun w hw => (h t (by simp) w hw).1,
      gateFrom_nil fun w hw => (h t (by simp) w hw).2, ih _ _ _ fun x hx => h x (by simp [hx])]
    rfl

theorem readTransitions_spec {p : List Char} (name : Int) (A : Gba) (ts : List (Nat × List (List Char)))
    (hne : ts ≠ []) (hp : words p = ts.flatMap transWords) (h : ∀ t ∈ ts, ∀ w ∈ t.2, pyInt w = none) :
    readTransitions name A p = addEdges name A ts := by
  have h' : ∀ t ∈ ts, ∀ w ∈ t.2, pyInt w = none ∧ w ≠ [] := by
    refine fun t ht w hw => ⟨h t ht w hw, words_ne (s := p) ?_⟩
    rw [hp]
    exact List.mem_flatMap.2 ⟨t, ht, by simp [transWords, hw]⟩
  obtain ⟨t, ts, rfl⟩ := List.exists_cons_of_ne_nil hne
  have key := fold_trans name A t.1 (joinWith c!" " t.2) ts fun x hx => h' x (by simp [hx])
  have e : (words p).foldl (readWord name) (A, none, []) =
      (ts.flatMap transWords).foldl (readWord name) (A, some (t.1 : Int), joinWith c!" " t.2) := by
    rw [hp, List.flatMap_cons, List.foldl_append, transWords, List.foldl_cons]
    simp only [readWord, pyInt_digits]
    rw [fold_gate _ _ _ _ fun w hw => (h' t (by simp) w hw).1, gateFrom_nil fun w hw => (h' t (by simp) w hw).2]
  unfold readTransitions
  rw [e]
  rw [show addEdges name A (t :: ts) = addEdges name (addEdge A name t.1 (joinWith c!" " t.2)) ts from rfl, ← key]
  generalize (ts.flatMap transWords).foldl (readWord name) (A, some (t.1 : Int), joinWith c!" " t.2) = r
  obtain ⟨B, u, g⟩ := r
  cases u <;> rfl

/-- A state with its transitions. -/
def addState (A : Gba) (q : State) : Gba :=
  addEdges q.name (addNode A q.name q.initial (q.acc.map fun n : Nat => (n : Int))) q.trans

theorem readParts_spec (l : List State) (hne : ∀ q ∈ l, q.trans ≠ [])
    (hg : ∀ q ∈ l, ∀ t ∈ q.trans, ∀ w ∈ t.2, pyInt w = none) (us : List (List Char)) (hp : ∀ u ∈ us, Plain u)
    (h : us.map words = l.flatMap fun q =>
      [digitsOf q.name :: (if q.initial then c!"1" else c!"0") :: q.acc.map digitsOf, q.trans.flatMap transWords])
    (n : Int) (A : Gba) : readParts true n A us = .ok (l.foldl addState A) := by
  induction l generalizing us n A with
  | nil =>
    have : us = [] := by simpa using h
    subst this
    rfl
  | cons q l ih =>
    match us, h with
    | [], h => cases h
    | [u], h =>
      have := congrArg List.length h
      simp at this
    | u :: v :: us, h =>
      simp only [List.map_cons, List.flatMap_cons, List.cons_append, List.nil_append, List.cons.injEq] at h
      obtain ⟨h1, h2, h3⟩ := h
      unfold readParts
      rw [readState_spec (hp u (by simp)) A q h1]
      simp only [ok_bind]
      unfold readParts
      rw [readTransitions_spec _ _ _ (hne q (by simp)) h2 (hg q (by simp)),
        ih (fun x hx => hne x (by simp [hx])) (fun x hx => hg x (by simp [hx])) us
          (fun x hx => hp x (by simp [hx])) h3]
      rfl

/-! ## What the automaton contains -/

theorem touch_get (d : Dict Int (Option (Bool × List Int))) (u n : Int) :
    (touch d u).get? n = if d.get? n = none ∧ u = n then some none else d.get? n := by
  unfold touch
  cases hu : d.has u with
  | true =>
    rw [if_pos rfl, if_neg]
    rintro ⟨h, rfl⟩
    rw [(Dict.has_false_iff d u).2 h] at hu
    cases hu
  | false =>
    rw [if_neg (by simp), Dict.get?_set]
    have := (Dict.has_false_iff d u).1 hu
    by_cases e : u = n
    · subst e; simp [this]
    · simp [e]

theorem addEdges_sets (name : Int) (A : Gba) (ts : List (Nat × List (List Char))) :
    (addEdges name A ts).sets = A.sets := by
  induction ts generalizing A with
  | nil => rfl
  | cons t ts ih => exact ih _

theorem addEdges_nodes (name : Int) (A : Gba) (ts : List (Nat × List (List Char))) (n : Int)
    (hn : A.nodes.get? name ≠ none) : (addEdges name A ts).nodes.get? n =
      if A.nodes.get? n = none ∧ ∃ t ∈ ts, (t.1 : Int) = n then some none else A.nodes.get? n := by
  induction ts generalizing A with
  | nil => simp [addEdges]
  | cons t ts ih =>
    have e : ∀ m, (addEdge A name t.1 (joinWith c!" " t.2)).nodes.get? m =
        if A.nodes.get? m = none ∧ (t.1 : Int) = m then some none else A.nodes.get? m := by
      intro m
      show (touch (touch A.nodes name) t.1).get? m = _
      rw [touch_get, touch_get]
      by_cases h1 : A.nodes.get? m = none
      · have : name ≠ m := by rintro rfl; exact hn h1
        simp [h1, this]
      · simp [h1]
    show (addEdges name (addEdge A name t.1 (joinWith c!" " t.2)) ts).nodes.get? n = _
    rw [ih _ (by rw [e]; split <;> simp_all)]
    by_cases h1 : A.nodes.get? n = none ∧ (t.1 : Int) = n
    · have e' := e n
      rw [if_pos h1] at e'
      rw [e', if_neg (by simp), if_pos ⟨h1.1, t, by simp, h1.2⟩]
    · have e' := e n
      rw [if_neg h1] at e'
      rw [e']
      by_cases h2 : A.nodes.get? n = none ∧ ∃ t ∈ ts, (t.1 : Int) = n
      · obtain ⟨h3, x, hx, h4⟩ := h2
        rw [if_pos ⟨h3, x, hx, h4⟩, if_pos ⟨h3, x, by simp [hx], h4⟩]
      · rw [if_neg h2, if_neg]
        rintro ⟨h3, x, hx, h4⟩
        rcases List.mem_cons.1 hx with rfl | hx
        · exact h1 ⟨h3, h4⟩
        · exact h2 ⟨h3, x, hx, h4⟩

theorem addEdges_edges (name : Int) (A : Gba) (ts : List (Nat × List (List Char))) (u v : Int) (g : List Char) :
    (addEdges name A ts).edges.get? (u, v) = some g ↔ (u = name ∧ LastGate ts v g) ∨
      (A.edges.get? (u, v) = some g ∧ (u = name → ∀ t ∈ ts, (t.1 : Int) ≠ v)) := by
  induction ts generalizing A with
  | nil => simp [addEdges, LastGate]
  | cons t ts ih =>
    show (addEdges name (addEdge A name t.1 (joinWith c!" " t.2)) ts).edges.get? (u, v) = some g ↔ _
    rw [ih]
    have e : (addEdge A name t.1 (joinWith c!" " t.2)).edges.get? (u, v) =
        if (name, (t.1 : Int)) = (u, v) then some (joinWith c!" " t.2) else A.edges.get? (u, v) := by
      show (A.edges.set (name, (t.1 : Int)) (joinWith c!" " t.2)).get? (u, v) = _
      rw [Dict.get?_set]
    have hlast : LastGate (t :: ts) v g ↔ LastGate ts v g ∨
        ((t.1 : Int) = v ∧ (∀ x ∈ ts, (x.1 : Int) ≠ v) ∧ g = joinWith c!" " t.2) := by
      constructor
      · rintro ⟨a, x, b, h1, h2, h3, h4⟩
        cases a with
        | nil =>
          obtain ⟨rfl, rfl⟩ := List.cons.inj h1
          exact .inr ⟨h2, h3, h4⟩
        | cons y a =>
          obtain ⟨rfl, rfl⟩ := List.cons.inj h1
          exact .inl ⟨a, x, b, rfl, h2, h3, h4⟩
      · rintro (⟨a, x, b, rfl, h2, h3, h4⟩ | ⟨h1, h2, h3⟩)
        · exact ⟨t :: a, x, b, rfl, h2, h3, h4⟩
        · exact ⟨[], t, ts, rfl, h1, h2, h3⟩
    rw [e, hlast]
    by_cases hu : u = name
    · subst hu
      by_cases hv : (t.1 : Int) = v
      · simp only [hv, if_true, Option.some.injEq, true_and, forall_const]
        constructor
        · rintro (h | ⟨rfl, h⟩)
          · exact .inl (.inl h)
          · exact .inl (.inr ⟨h, rfl⟩)
        · rintro ((h | ⟨h, rfl⟩) | ⟨h1, h2⟩)
          · exact .inl h
          · exact .inr ⟨rfl, h⟩
          · exact absurd hv (h2 t (by simp))
      · simp [hv]
    · simp [hu, Ne.symm hu]

theorem addState_spec (A : Gba) (q : State) :
    (addState A q).sets = A.sets ∧
    (∀ n, (addState A q).nodes.get? n =
      if n = q.name then some (some (q.initial, q.acc.map fun n : Nat => (n : Int)))
      else if A.nodes.get? n = none ∧ ∃ t ∈ q.trans, (t.1 : Int) = n then some none else A.nodes.get? n) ∧
    (∀ u v g, (addState A q).edges.get? (u, v) = some g ↔ (u = q.name ∧ LastGate q.trans v g) ∨
      (A.edges.get? (u, v) = some g ∧ (u = q.name → ∀ t ∈ q.trans, (t.1 : Int) ≠ v))) := by
  refine ⟨addEdges_sets _ _ _, fun n => ?_, fun u v g => addEdges_edges _ _ _ _ _ _⟩
  have e : ∀ m, (addNode A q.name q.initial (q.acc.map fun n : Nat => (n : Int))).nodes.get? m =
      if (q.name : Int) = m then some (some (q.initial, q.acc.map fun n : Nat => (n : Int))) else A.nodes.get? m := by
    intro m
    show (A.nodes.set q.name _).get? m = _
    rw [Dict.get?_set]
  rw [addState, addEdges_nodes _ _ _ _ (by rw [e, if_pos rfl]; simp)]
  have e' := e n
  by_cases h : (q.name : Int) = n
  · rw [if_pos h] at e'
    rw [e', if_neg (by simp), if_pos h.symm]
  · rw [if_neg h] at e'
    rw [e', if_neg (Ne.symm h)]

theorem foldl_addState (l : List State) (hnd : (l.map (·.name)).Nodup) (k : Int) :
    (l.foldl addState ⟨k, [], []⟩).sets = k ∧
    (∀ q ∈ l, (l.foldl addState ⟨k, [], []⟩).nodes.get? q.name =
      some (some (q.initial, q.acc.map fun n : Nat => (n : Int)))) ∧
    (∀ n : Int, (∀ q ∈ l, (q.name : Int) ≠ n) → (l.foldl addState ⟨k, [], []⟩).nodes.get? n =
      if ∃ q ∈ l, ∃ t ∈ q.trans, (t.1 : Int) = n then some none else none) ∧
    (∀ u v g, (l.foldl addState ⟨k, [], []⟩).edges.get? (u, v) = some g ↔
      ∃ q ∈ l, (q.name : Int) = u ∧ LastGate q.trans v g) := by
  induction l using List.reverseRecOn with
  | nil => simp
  | append_singleton l q ih =>
    rw [List.map_append, List.nodup_append] at hnd
    obtain ⟨i1, i2, i3, i4⟩ := ih hnd.1
    have hq : ∀ r ∈ l, r.name ≠ q.name := fun r hr =>
      hnd.2.2 r.name (List.mem_map.2 ⟨r, hr, rfl⟩) q.name (by simp)
    obtain ⟨a1, a2, a3⟩ := addState_spec (l.foldl addState ⟨k, [], []⟩) q
    rw [List.foldl_append]
    show (addState (l.foldl addState ⟨k, [], []⟩) q).sets = k ∧ _
    refine ⟨a1.trans i1, ?_, ?_, ?_⟩
    · intro r hr
      show (addState (l.foldl addState ⟨k, [], []⟩) q).nodes.get? r.name = _
      rw [a2]
      rcases List.mem_append.1 hr with hr | hr
      · rw [if_neg (by exact_mod_cast hq r hr), i2 r hr, if_neg (by simp)]
      · rw [List.mem_singleton.1 hr, if_pos rfl]
    · intro n hn
      show (addState (l.foldl addState ⟨k, [], []⟩) q).nodes.get? n = _
      rw [a2, if_neg (fun e => hn q (by simp) e.symm), i3 n fun r hr => hn r (by simp [hr])]
      by_cases h1 : ∃ q ∈ l, ∃ t ∈ q.trans, (t.1 : Int) = n
      · have h2 : ∃ r ∈ l ++ [q], ∃ t ∈ r.trans, (t.1 : Int) = n := by
          obtain ⟨r, hr, h⟩ := h1
          exact ⟨r, by simp [hr], h⟩
        rw [if_pos h1, if_pos h2]
        simp
      · rw [if_neg h1]
        by_cases h3 : ∃ t ∈ q.trans, (t.1 : Int) = n
        · rw [if_pos ⟨rfl, h3⟩, if_pos ⟨q, by simp, h3⟩]
        · rw [if_neg (fun h => h3 h.2), if_neg]
          rintro ⟨r, hr, h⟩
          rcases List.mem_append.1 hr with hr | hr
          · exact h1 ⟨r, hr, h⟩
          · rw [List.mem_singleton.1 hr] at h
            exact h3 h
    · intro u v g
      show (addState (l.foldl addState ⟨k, [], []⟩) q).edges.get? (u, v) = some g ↔ _
      rw [a3, i4]
      constructor
      · rintro (⟨rfl, h⟩ | ⟨⟨r, hr, h⟩, _⟩)
        · exact ⟨q, by simp, rfl, h⟩
        · exact ⟨r, by simp [hr], h⟩
      · rintro ⟨r, hr, rfl, h⟩
        rcases List.mem_append.1 hr with hr | hr
        · exact .inr ⟨⟨r, hr, rfl, h⟩, fun e => absurd (by exact_mod_cast e) (hq r hr)⟩
        · rw [List.mem_singleton.1 hr] at h ⊢
          exact .inl ⟨rfl, h⟩

/-! ## C134 -/

theorem readlbt_eq {s : List Char} {count sets : Nat} {l : List State} (hs : TextOf s count sets l) (hl : l ≠ [])
    (hne : ∀ q ∈ l, q.trans ≠ []) (hg : ∀ q ∈ l, ∀ t ∈ q.trans, ∀ w ∈ t.2, GateWord w) :
    readlbt s = .ok (l.foldl addState ⟨sets, [], []⟩) := by
  obtain ⟨hp, hw⟩ := hs
  obtain ⟨y, h1, h2, h3, h4⟩ := split2_spec hp hw
  have hne' : l.flatMap stateWords ≠ [] := by
    obtain ⟨q, l, rfl⟩ := List.exists_cons_of_ne_nil hl
    simp [stateWords]
  let groups : List (List (List Char)) := l.flatMap fun q =>
    [digitsOf q.name :: (if q.initial then c!"1" else c!"0") :: q.acc.map digitsOf, q.trans.flatMap transWords]
  have hgr : words y = groups.flatMap fun g => g ++ [c!"-1"] := by
    rw [h2]
    simp only [groups, List.flatMap_assoc]
    congr 1
    funext q
    simp [stateWords]
  have hmem : ∀ g ∈ groups, g ≠ [] ∧ ∀ t ∈ g, ¬ c!"-1" <:+: t := by
    intro g hgm
    obtain ⟨q, hq, hgm⟩ := List.mem_flatMap.1 hgm
    rcases List.mem_cons.1 hgm with rfl | hgm
    · refine ⟨by simp, fun t ht => ?_⟩
      rcases List.mem_cons.1 ht with rfl | ht
      · exact digits_clean _
      · rcases List.mem_cons.1 ht with rfl | ht
        · cases q.initial
          · simp only [Bool.false_eq_true, if_false]
            exact (show digitsOf 0 = c!"0" from by decide +kernel) ▸ digits_clean 0
          · simp only [if_true]
            exact (show digitsOf 1 = c!"1" from by decide +kernel) ▸ digits_clean 1
        · obtain ⟨n, _, rfl⟩ := List.mem_map.1 ht
          exact digits_clean _
    · rw [List.mem_singleton.1 hgm]
      refine ⟨?_, fun t ht => ?_⟩
      · obtain ⟨t, ts, e⟩ := List.exists_cons_of_ne_nil (hne q hq)
        rw [e]
        simp [transWords]
      · obtain ⟨x, hx, ht⟩ := List.mem_flatMap.1 ht
        rcases List.mem_cons.1 ht with rfl | ht
        · exact digits_clean _
        · exact (hg q hq x hx t ht).2
  obtain ⟨us, e, k1, k2, k3, k4⟩ := split_groups groups (fun g hgm => (hmem g hgm).2) y hgr
  have hfilter : ((splitStr c!"-1" y).filter fun p => (strip p).length > 0) = us := by
    have : (fun p => decide ((strip p).length > 0)) = fun p => decide (words p ≠ []) := funext strip_pos
    rw [this, k1, List.filter_append, List.filter_eq_self.2, List.filter_cons_of_neg (by simp [k2])]
    · simp
    · intro u hu
      have : words u ∈ groups := by rw [← k3]; exact List.mem_map.2 ⟨u, hu, rfl⟩
      simpa using (hmem _ this).1
  unfold readlbt
  rw [h4, if_neg hne']
  simp only [item, toInt, List.getElem?_cons_zero, List.getElem?_cons_succ, pyInt_digits, ok_bind]
  rw [hfilter]
  exact readParts_spec l hne (fun q hq t ht w hw => (hg q hq t ht w hw).1) us
    (fun u hu c hc => h1 c (k4 u hu c hc)) k3 _ _

/-- The automaton that is read has the states of the text, and for each pair of states the gate of the last
transition between them. -/
theorem readlbt_reads {s : List Char} {count sets : Nat} {l : List State} (hs : TextOf s count sets l) (hl : l ≠ [])
    (hnd : (l.map (·.name)).Nodup) (hne : ∀ q ∈ l, q.trans ≠ [])
    (hg : ∀ q ∈ l, ∀ t ∈ q.trans, ∀ w ∈ t.2, GateWord w) :
    ∃ A, readlbt s = .ok A ∧ A.sets = sets ∧
      (∀ q ∈ l, A.nodes.get? q.name = some (some (q.initial, q.acc.map fun n : Nat => (n : Int)))) ∧
      (∀ n : Int, (∀ q ∈ l, (q.name : Int) ≠ n) → A.nodes.get? n =
        if ∃ q ∈ l, ∃ t ∈ q.trans, (t.1 : Int) = n then some none else none) ∧
      (∀ u v g, A.edges.get? (u, v) = some g ↔ ∃ q ∈ l, (q.name : Int) = u ∧ LastGate q.trans v g) :=
  ⟨_, readlbt_eq hs hl hne hg, foldl_addState l hnd sets⟩

/-- The words of the gates that `lbt` prints are words of gates. -/
theorem lbt_gateWord {w : List Char}
    (h : w ∈ [c!"t", c!"f", c!"!", c!"|", c!"&", c!"^", c!"i", c!"e"] ∨ ∃ n, w = 'p' :: digitsOf n) : GateWord w := by
  have key : '-' ∉ w → ¬ c!"-1" <:+: w := by
    rintro h ⟨a, b, rfl⟩
    exact h (by simp)
  rcases h with h | ⟨n, rfl⟩
  · simp only [List.mem_cons, List.not_mem_nil, or_false] at h
    rcases h with rfl | rfl | rfl | rfl | rfl | rfl | rfl | rfl <;> exact ⟨by decide +kernel, key (by decide)⟩
  · refine ⟨?_, key ?_⟩
    · have hns : ∀ c ∈ 'p' :: digitsOf n, isSpace c = false := by
        intro c hc
        rcases List.mem_cons.1 hc with rfl | hc
        · decide
        · exact dig_notSpace (digitsOf_all n c hc)
      unfold pyInt
      rw [strip_noSpace hns]
      obtain ⟨_, h2, _⟩ := digitsOf_spec n
      obtain ⟨d, l, e⟩ := List.exists_cons_of_ne_nil h2
      have hd : d ≠ '_' := by
        rintro rfl
        have := digitsOf_all n '_' (by rw [e]; simp)
        revert this; decide
      rw [e]
      show Option.map _ (digitsIn ('p' :: d :: l)) = none
      rw [digitsIn]
      · simp [isDig]
      · intro h
        cases h
      · rintro l' h
        exact hd (List.cons.inj h).1
    · intro h
      rcases List.mem_cons.1 h with h | h
      · revert h; decide
      · have := digitsOf_all n '-' h
        revert this; decide

/-- The line of a state in the DOT text. -/
def stateLine (q : State) : List Char :=
  digitsOf q.name ++ c!" [label=\"" ++ digitsOf q.name ++ c!"\\nacceptance sets: {" ++
    joinWith c!"," (q.acc.map digitsOf) ++ c!"}\"]\n"

theorem touch_wf {d : Dict Int (Option (Bool × List Int))} (h : d.Wf) (u : Int) : (touch d u).Wf := by
  unfold touch
  split
  · exact h
  · exact Dict.wf_set h _ _

theorem addEdges_wf (name : Int) (A : Gba) (h : A.nodes.Wf) (ts : List (Nat × List (List Char))) :
    (addEdges name A ts).nodes.Wf := by
  induction ts generalizing A with
  | nil => exact h
  | cons t ts ih => exact ih (addEdge A name t.1 (joinWith c!" " t.2)) (touch_wf (touch_wf h _) _)

theorem foldl_wf (l : List State) (A : Gba) (h : A.nodes.Wf) : (l.foldl addState A).nodes.Wf := by
  induction l generalizing A with
  | nil => exact h
  | cons q l ih => exact ih _ (addEdges_wf _ _ (Dict.wf_set h _ _) _)

theorem dotNodes_spec (l : List (Int × Option (Bool × List Int))) :
    (∀ x, dotNodes l = .ok x → (∀ p ∈ l, p.2 ≠ none) ∧
      ∀ p ∈ l, ∀ y, dotNode p.1 p.2 = .ok y → y <:+: x) ∧
    (∀ e, dotNodes l = .error e → e = .keyError ∧ ∃ p ∈ l, p.2 = none) := by
  induction l with
  | nil =>
    refine ⟨fun x _ => by simp, fun e h => by cases h⟩
  | cons p l ih =>
    obtain ⟨n, a⟩ := p
    cases a with
    | none =>
      refine ⟨fun x h => (by cases h), fun e h => ?_⟩
      have : e = .keyError := by
        simp only [dotNodes, dotNode, error_bind, Except.error.injEq] at h
        exact h.symm
      exact ⟨this, (n, none), by simp, rfl⟩
    | some b =>
      obtain ⟨i, acc⟩ := b
      simp only [dotNodes, dotNode, ok_bind]
      cases hr : dotNodes l with
      | error e =>
        refine ⟨fun x h => (by cases h), fun e' h => ?_⟩
        have : e = e' := by simpa using h
        subst this
        obtain ⟨h1, q, hq, h2⟩ := ih.2 e hr
        exact ⟨h1, q, by simp [hq], h2⟩
      | ok r =>
        refine ⟨fun x h => ?_, fun e h => (by cases h)⟩
        simp only [ok_bind, Except.ok.injEq] at h
        obtain ⟨h1, h2⟩ := ih.1 r hr
        refine ⟨fun q hq => ?_, fun q hq y hy => ?_⟩
        · rcases List.mem_cons.1 hq with rfl | hq
          · simp
          · exact h1 q hq
        · rcases List.mem_cons.1 hq with rfl | hq
          · simp only [Except.ok.injEq] at hy
            subst hy h
            exact List.prefix_append _ _ |>.isInfix
          · subst h
            exact (h2 q hq y hy).trans (List.suffix_append _ _).isInfix

/-- The DOT text of an automaton that has been read: it is written if and only if all successors are states of the
text, and it has a line for each state and for each edge. -/
theorem readlbt_dumpdot {s : List Char} {count sets : Nat} {l : List State} (hs : TextOf s count sets l) (hl : l ≠ [])
    (hnd : (l.map (·.name)).Nodup) (hne : ∀ q ∈ l, q.trans ≠ [])
    (hg : ∀ q ∈ l, ∀ t ∈ q.trans, ∀ w ∈ t.2, GateWord w) :
    ∃ A, readlbt s = .ok A ∧
      ((∀ q ∈ l, ∀ t ∈ q.trans, ∃ r ∈ l, r.name = t.1) → ∃ x, dumpdot A = .ok x ∧
        (∀ q ∈ l, stateLine q <:+: x) ∧
        ∀ q ∈ l, ∀ v g, LastGate q.trans v g →
          (digitsOf q.name ++ c!" -> " ++ intChars v ++ c!" [label=\"" ++ g ++ c!"\"]\n") <:+: x) ∧
      ((∃ q ∈ l, ∃ t ∈ q.trans, ∀ r ∈ l, r.name ≠ t.1) → dumpdot A = .error .keyError) := by
  obtain ⟨A, hA, _, h2, h3, h4⟩ := readlbt_reads hs hl hnd hne hg
  have hwf : A.nodes.Wf := by
    obtain ⟨B, hB, hw⟩ : ∃ B, readlbt s = .ok B ∧ B.nodes.Wf :=
      ⟨_, readlbt_eq hs hl hne hg, foldl_wf l _ (by simp [Dict.Wf, Dict.keys])⟩
    rw [hA] at hB
    cases hB
    exact hw
  refine ⟨A, hA, fun hcl => ?_, ?_⟩
  · cases hd : dotNodes A.nodes with
    | error e =>
      exfalso
      obtain ⟨_, ⟨n, a⟩, hp, rfl⟩ := (dotNodes_spec A.nodes).2 e hd
      have hget := LGraph.get?_of_mem hwf hp
      by_cases hn : ∃ q ∈ l, (q.name : Int) = n
      · obtain ⟨q, hq, rfl⟩ := hn
        rw [h2 q hq] at hget
        cases hget
      · rw [h3 n fun q hq e => hn ⟨q, hq, e⟩] at hget
        split at hget
        · rename_i hex
          obtain ⟨q, hq, t, ht, e⟩ := hex
          obtain ⟨r, hr, e'⟩ := hcl q hq t ht
          exact hn ⟨r, hr, by rw [e', e]⟩
        · cases hget
    | ok ns =>
      obtain ⟨_, k2⟩ := (dotNodes_spec A.nodes).1 ns hd
      refine ⟨_, by rw [dumpdot, hd]; rfl, fun q hq => ?_, fun q hq v g hlg => ?_⟩
      · have hm := LGraph.mem_of_get? (h2 q hq)
        have hy := k2 _ hm _ rfl
        have e : stateLine q = intChars q.name ++ c!" [label=\"" ++ intChars q.name ++ c!"\\nacceptance sets: {" ++
            joinWith c!"," ((q.acc.map fun n : Nat => (n : Int)).map intChars) ++ c!"}\"]\n" := by
          rw [List.map_map]
          rfl
        rw [e]
        obtain ⟨a, b, hab⟩ := hy
        exact ⟨c!"digraph A {\n" ++ a, b ++ (edgesOf A).flatMap dotEdge ++ c!"}\n", by rw [← hab]; simp⟩
      · have hm := LGraph.mem_of_get? ((h4 q.name v g).2 ⟨q, hq, rfl, hlg⟩)
        have hk : (q.name : Int) ∈ A.nodes.keys := (Dict.mem_keys_iff _ _).2 ⟨_, h2 q hq⟩
        have he : ((↑q.name, v), g) ∈ edgesOf A :=
          List.mem_flatMap.2 ⟨_, hk, List.mem_filter.2 ⟨hm, by simp⟩⟩
        obtain ⟨a, b, hab⟩ := List.append_of_mem he
        rw [hab]
        exact ⟨c!"digraph A {\n" ++ ns ++ a.flatMap dotEdge, b.flatMap dotEdge ++ c!"}\n", by
          simp [dotEdge, intChars]⟩
  · rintro ⟨q, hq, t, ht, hno⟩
    have hget := h3 t.1 fun r hr e => hno r hr (by exact_mod_cast e)
    rw [if_pos ⟨q, hq, t, ht, rfl⟩] at hget
    have hm := LGraph.mem_of_get? hget
    unfold dumpdot
    cases hd : dotNodes A.nodes with
    | error e =>
      rw [((dotNodes_spec A.nodes).2 e hd).1]
      rfl
    | ok ns => exact absurd rfl (((dotNodes_spec A.nodes).1 ns hd).1 _ hm)

/-- Two transitions between the same states: the gate of the first is lost. -/
theorem readlbt_parallel_counterexample :
    (readlbt c!"1 0\n0 1 -1\n0 p1\n0 p2\n-1\n").toOption.map (·.edges) = some [((0, 0), c!"p2")] := by
  decide +kernel

/-- A state without transitions: the state after it is read as its transitions. -/
theorem readlbt_dead_counterexample :
    (readlbt c!"2 0\n0 1 -1\n-1\n7 0 -1\n0 t\n-1\n").toOption =
      some ⟨0, [(0, some (false, [])), (7, none)], [((0, 7), c!""), ((0, 0), c!"")]⟩ := by
  decide +kernel

section
private def ex : List State :=
  [⟨0, true, [0, 1], [(0, [c!"p1"]), (12, [c!"&", c!"p1", c!"!", c!"p2"])]⟩, ⟨12, false, [], [(12, [c!"t"])]⟩]

private def exText : List Char :=
  c!"2 2\n0 1 0 1 -1\n0 p1\n12 & p1 ! p2\n-1\n" ++ c!"12 0 -1\n12  t\n-1\n"

example : TextOf exText 2 2 ex := by
  refine ⟨by decide +kernel, by decide +kernel⟩

example : (ex.map (·.name)).Nodup ∧ (∀ q ∈ ex, q.trans ≠ []) ∧ ∀ q ∈ ex, ∀ t ∈ q.trans, ∀ w ∈ t.2, GateWord w := by
  refine ⟨by decide, by simp [ex], ?_⟩
  intro q hq t ht w hw
  simp only [ex, List.mem_cons, List.not_mem_nil, or_false] at hq
  apply lbt_gateWord
  rcases hq with rfl | rfl
  · simp only [List.mem_cons, List.not_mem_nil, or_false] at ht
    rcases ht with rfl | rfl
    · simp only [List.mem_cons, List.not_mem_nil, or_false] at hw
      exact .inr ⟨1, by rw [hw]; decide +kernel⟩
    · simp only [List.mem_cons, List.not_mem_nil, or_false] at hw
      rcases hw with rfl | rfl | rfl | rfl
      · exact .inl (by simp)
      · exact .inr ⟨1, by decide +kernel⟩
      · exact .inl (by simp)
      · exact .inr ⟨2, by decide +kernel⟩
  · simp only [List.mem_cons, List.not_mem_nil, or_false] at ht
    subst ht
    simp only [List.mem_cons, List.not_mem_nil, or_false] at hw
    exact .inl (by simp [hw])

example : (readlbt exText).toOption = some ⟨2, [(0, some (true, [0, 1])), (12, some (false, []))],
    [((0, 0), c!"p1"), ((0, 12), c!"& p1 ! p2"), ((12, 12), c!"t")]⟩ := by
  decide +kernel

example : ((readlbt exText).toOption.bind fun A => (dumpdot A).toOption) = some (
    c!"digraph A {\n0 [label=\"0\\nacceptance sets: {0,1}\"]\n" ++ c!"12 [label=\"12\\nacceptance sets: {}\"]\n" ++
    c!"0 -> 0 [label=\"p1\"]\n0 -> 12 [label=\"& p1 ! p2\"]\n" ++ c!"12 -> 12 [label=\"t\"]\n}\n") := by
  decide +kernel
end

end Lbt
end Tulip
