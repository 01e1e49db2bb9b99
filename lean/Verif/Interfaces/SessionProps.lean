import Verif.Interfaces.Gr1cProps

/-!
# Interactive sessions with `gr1c` (C79), and domains in XML
-/

namespace Tulip

namespace Iface

open Synth

/-! ## State vectors -/

theorem fillFrom_ok {state : Attr Int} {val : String → Int} (ks : List String)
    (hk : ∀ k ∈ ks, Dict.get? state k = some (val k)) (i : Nat) (vec : List Int)
    (hi : i + ks.length ≤ vec.length) :
    fillFrom state i ks vec = .ok (vec.take i ++ ks.map val ++ vec.drop (i + ks.length)) := by
  induction ks generalizing i vec with
  | nil => simp [fillFrom]
  | cons k ks ih =>
    rw [List.length_cons] at hi
    have e : fillFrom state i (k :: ks) vec =
        (getE state k).bind fun x => (setAt vec i x).bind fun vec => fillFrom state (i + 1) ks vec := rfl
    have h1 : getE state k = .ok (val k) := by
      unfold getE
      rw [hk k (by simp)]
    have h2 : setAt vec i (val k) = .ok (vec.set i (val k)) := by
      unfold setAt
      rw [if_pos (by omega)]
    rw [e, h1]
    show (setAt vec i (val k)).bind _ = _
    rw [h2]
    show fillFrom state (i + 1) ks (vec.set i (val k)) = _
    rw [ih (fun q hq => hk q (by simp [hq])) (i + 1) _ (by rw [List.length_set]; omega)]
    have hlt : i < vec.length := by omega
    congr 1
    have h3 : (vec.set i (val k)).take (i + 1) = vec.take i ++ [val k] := by
      rw [List.take_add_one]
      simp [List.take_set_of_le, hlt]
    have h4 : (vec.set i (val k)).drop (i + 1 + ks.length) = vec.drop (i + 1 + ks.length) := by
      rw [List.drop_set_of_lt (by omega)]
    rw [h3, h4]
    simp only [List.map_cons, List.length_cons, List.append_assoc, List.singleton_append]
    rw [show i + 1 + ks.length = i + (ks.length + 1) by omega]

theorem rangeInts_length (n : Nat) : (rangeInts n).length = n := by simp [rangeInts]

/-- C79. The vector sent for a state over the declared variables lists the values of the variables of the
environment and then those of the system, in the order of their declaration. -/
theorem stateVector_spec {env sys : List String} {state : Attr Int} {val : String → Int}
    (hlen : state.length = (env ++ sys).length) (hval : ∀ k ∈ env ++ sys, Dict.get? state k = some (val k)) :
    stateVector env sys state = .ok ((env ++ sys).map val) := by
  rw [List.length_append] at hlen
  unfold stateVector
  rw [fillFrom_ok env (fun k hk => hval k (by simp [hk])) 0 _ (by rw [rangeInts_length]; omega), ok_bind,
    fillFrom_ok sys (fun k hk => hval k (by simp [hk])) env.length _ (by simp [rangeInts_length]; omega)]
  congr 1
  simp [rangeInts_length, hlen]

theorem moveVector_spec {env : List String} {move : Attr Int} {val : String → Int}
    (hlen : move.length = env.length) (hval : ∀ k ∈ env, Dict.get? move k = some (val k)) :
    moveVector env move = .ok (env.map val) := by
  unfold moveVector
  rw [fillFrom_ok env hval 0 _ (by rw [rangeInts_length]; omega)]
  congr 1
  simp [rangeInts_length, hlen]

/-- A state with a further variable: the solver is sent a position instead of a value. -/
theorem stateVector_counterexample :
    (stateVector ["x"] ["y"] [("x", 7), ("y", 8), ("z", 9)]).toOption = some [7, 8, 2] := by decide +kernel

/-! ## Words of a line -/

theorem words_tail (t cur : List Char) (h : ∀ c ∈ t, Gw.isSpace c = false) (hne : cur ++ t ≠ []) :
    Gw.wordsFrom cur t = [cur ++ t] := by
  induction t generalizing cur with
  | nil => simp at hne; simp [Gw.wordsFrom, hne]
  | cons c t ih =>
    unfold Gw.wordsFrom
    rw [h c (by simp)]
    simp only [Bool.false_eq_true, if_false]
    rw [ih (cur ++ [c]) (fun d hd => h d (by simp [hd])) (by simp)]
    simp

theorem words_head {sp : Char} (hsp : Gw.isSpace sp = true) (s t cur : List Char)
    (h : ∀ c ∈ s, Gw.isSpace c = false) (hne : cur ++ s ≠ []) :
    Gw.wordsFrom cur (s ++ sp :: t) = (cur ++ s) :: Gw.wordsFrom [] t := by
  induction s generalizing cur with
  | nil =>
    simp only [List.append_nil] at hne
    rw [List.nil_append]
    conv => lhs; unfold Gw.wordsFrom
    rw [if_pos hsp, if_neg hne, List.append_nil]
  | cons c s ih =>
    rw [List.cons_append]
    conv => lhs; unfold Gw.wordsFrom
    rw [h c (by simp)]
    simp only [Bool.false_eq_true, if_false]
    rw [ih (cur ++ [c]) (fun d hd => h d (by simp [hd])) (by simp)]
    simp

/-- A word: a nonempty text without whitespace. -/
def IsWord (s : List Char) : Prop := s ≠ [] ∧ ∀ c ∈ s, Gw.isSpace c = false

theorem words_join {l : List (List Char)} (h : ∀ w ∈ l, IsWord w) :
    Gw.words (joinWith c!" " l ++ c!"\n") = l := by
  unfold Gw.words
  induction l with
  | nil => rfl
  | cons w l ih =>
    obtain ⟨h1, h2⟩ := h w (by simp)
    cases l with
    | nil =>
      show Gw.wordsFrom [] (w ++ '\n' :: []) = [w]
      rw [words_head (by decide) w [] [] h2 (by simpa using h1)]
      rfl
    | cons w' l =>
      have e : joinWith c!" " (w :: w' :: l) ++ c!"\n" = w ++ ' ' :: (joinWith c!" " (w' :: l) ++ c!"\n") := by
        simp [joinWith]
      rw [e, words_head (by decide) w _ [] h2 (by simpa using h1), ih fun x hx => h x (by simp [hx])]
      rfl

theorem isWord_int (n : Int) : IsWord (intChars n) := by
  constructor
  · cases n with
    | ofNat n => exact (digitsOf_spec n).2.1
    | negSucc n => simp [intChars]
  · intro c hc
    rcases LtlFile.intChars_chars n c hc with h | rfl
    · exact Gw.dig_notSpace h
    · decide

theorem joinWith_cons' (w : List Char) {l : List (List Char)} (h : l ≠ []) :
    joinWith c!" " (w :: l) = w ++ ' ' :: joinWith c!" " l := by
  cases l with
  | nil => exact absurd rfl h
  | cons x l => simp [joinWith]

/-- C79. The words of the command `winning` are the values of the state vector. -/
theorem winningCommand_spec {env sys : List String} {state : Attr Int} {val : String → Int}
    (hlen : state.length = (env ++ sys).length) (hval : ∀ k ∈ env ++ sys, Dict.get? state k = some (val k)) :
    ∃ cmd, winningCommand env sys state = .ok cmd ∧
      Gw.words cmd = c!"winning" :: ((env ++ sys).map val).map intChars := by
  refine ⟨_, by unfold winningCommand; rw [stateVector_spec hlen hval]; rfl, ?_⟩
  have e : c!"winning " ++ joinAsStr ((env ++ sys).map val) ++ c!"\n" =
      c!"winning" ++ ' ' :: (joinAsStr ((env ++ sys).map val) ++ c!"\n") := by simp
  rw [e]
  unfold Gw.words
  rw [words_head (by decide) _ _ _ (by decide) (by decide)]
  have := words_join (l := ((env ++ sys).map val).map intChars) (by
    intro w hw
    obtain ⟨n, _, rfl⟩ := List.mem_map.mp hw
    exact isWord_int n)
  unfold Gw.words at this
  show _ :: Gw.wordsFrom [] _ = _
  unfold joinAsStr
  rw [this]
  rfl

/-- C79. The words of the command `envnext`. -/
theorem envNextCommand_spec {env sys : List String} {state : Attr Int} {val : String → Int}
    (hlen : state.length = (env ++ sys).length) (hval : ∀ k ∈ env ++ sys, Dict.get? state k = some (val k)) :
    ∃ cmd, envNextCommand env sys state = .ok cmd ∧
      Gw.words cmd = c!"envnext" :: ((env ++ sys).map val).map intChars := by
  refine ⟨_, by unfold envNextCommand; rw [stateVector_spec hlen hval]; rfl, ?_⟩
  have e : c!"envnext " ++ joinAsStr ((env ++ sys).map val) ++ c!"\n" =
      c!"envnext" ++ ' ' :: (joinAsStr ((env ++ sys).map val) ++ c!"\n") := by simp
  rw [e]
  unfold Gw.words
  rw [words_head (by decide) _ _ _ (by decide) (by decide)]
  have := words_join (l := ((env ++ sys).map val).map intChars) (by
    intro w hw
    obtain ⟨n, _, rfl⟩ := List.mem_map.mp hw
    exact isWord_int n)
  unfold Gw.words at this
  show _ :: Gw.wordsFrom [] _ = _
  unfold joinAsStr
  rw [this]
  rfl

theorem words_join_rest {l : List (List Char)} (h : ∀ w ∈ l, IsWord w) (rest : List Char) :
    Gw.wordsFrom [] (joinWith c!" " l ++ ' ' :: rest) = l ++ Gw.wordsFrom [] rest := by
  induction l with
  | nil =>
    show Gw.wordsFrom [] (' ' :: rest) = _
    conv => lhs; unfold Gw.wordsFrom
    rfl
  | cons w l ih =>
    obtain ⟨h1, h2⟩ := h w (by simp)
    cases l with
    | nil =>
      show Gw.wordsFrom [] (w ++ ' ' :: rest) = _
      rw [words_head (by decide) w rest [] h2 (by simpa using h1)]
      rfl
    | cons w' l =>
      have e : joinWith c!" " (w :: w' :: l) ++ ' ' :: rest = w ++ ' ' :: (joinWith c!" " (w' :: l) ++ ' ' :: rest) := by
        simp [joinWith]
      rw [e, words_head (by decide) w _ [] h2 (by simpa using h1), ih fun x hx => h x (by simp [hx])]
      rfl

/-- C79. The words of the command `sysnexta`: the state and the move of the environment. -/
theorem sysNextaCommand_spec {env sys : List String} {state move : Attr Int} {val mval : String → Int}
    (hlen : state.length = (env ++ sys).length) (hval : ∀ k ∈ env ++ sys, Dict.get? state k = some (val k))
    (hlen' : move.length = env.length) (hval' : ∀ k ∈ env, Dict.get? move k = some (mval k)) :
    ∃ cmd, sysNextaCommand env sys state move = .ok cmd ∧
      Gw.words cmd = c!"sysnexta" :: ((env ++ sys).map val ++ env.map mval).map intChars := by
  refine ⟨_, by unfold sysNextaCommand; rw [stateVector_spec hlen hval, moveVector_spec hlen' hval']; rfl, ?_⟩
  have e : c!"sysnexta " ++ joinAsStr ((env ++ sys).map val) ++ c!" " ++ joinAsStr (env.map mval) ++ c!"\n" =
      c!"sysnexta" ++ ' ' :: (joinAsStr ((env ++ sys).map val) ++ ' ' :: (joinAsStr (env.map mval) ++ c!"\n")) := by
    simp
  rw [e]
  unfold Gw.words
  rw [words_head (by decide) _ _ _ (by decide) (by decide)]
  unfold joinAsStr
  have hw : ∀ (l : List Int), ∀ w ∈ l.map intChars, IsWord w := by
    intro l w hw
    obtain ⟨n, _, rfl⟩ := List.mem_map.mp hw
    exact isWord_int n
  rw [words_join_rest (hw _)]
  have := words_join (hw (env.map mval))
  unfold Gw.words at this
  rw [this]
  simp

/-- C79. The words of the command `sysnext`: the state, the move of the environment and the goal. -/
theorem sysNextfeasCommand_spec {env sys : List String} {state move : Attr Int} {val mval : String → Int}
    {goals goal : Int} (hlen : state.length = (env ++ sys).length)
    (hval : ∀ k ∈ env ++ sys, Dict.get? state k = some (val k))
    (hlen' : move.length = env.length) (hval' : ∀ k ∈ env, Dict.get? move k = some (mval k)) :
    (0 ≤ goal ∧ goal < goals → ∃ cmd, sysNextfeasCommand env sys goals state move goal = .ok cmd ∧
      Gw.words cmd = c!"sysnext" :: ((env ++ sys).map val ++ env.map mval ++ [goal]).map intChars) ∧
    (¬ (0 ≤ goal ∧ goal < goals) → sysNextfeasCommand env sys goals state move goal = .error .valueError) := by
  constructor
  · intro hg
    refine ⟨_, by
      unfold sysNextfeasCommand
      rw [if_neg (by omega), stateVector_spec hlen hval, moveVector_spec hlen' hval']
      rfl, ?_⟩
    have e : c!"sysnext " ++ joinAsStr ((env ++ sys).map val) ++ c!" " ++ joinAsStr (env.map mval) ++ c!" " ++
        intChars goal ++ c!"\n" = c!"sysnext" ++ ' ' :: (joinAsStr ((env ++ sys).map val) ++ ' ' ::
          (joinAsStr (env.map mval) ++ ' ' :: (intChars goal ++ '\n' :: []))) := by
      simp
    rw [e]
    unfold Gw.words
    rw [words_head (by decide) _ _ _ (by decide) (by decide)]
    unfold joinAsStr
    have hw : ∀ (l : List Int), ∀ w ∈ l.map intChars, IsWord w := by
      intro l w hw
      obtain ⟨n, _, rfl⟩ := List.mem_map.mp hw
      exact isWord_int n
    rw [words_join_rest (hw _), words_join_rest (hw _),
      words_head (by decide) _ _ _ (isWord_int goal).2 (by simpa using (isWord_int goal).1)]
    simp [Gw.wordsFrom]
  · intro hg
    unfold sysNextfeasCommand
    rw [if_pos (by omega)]

/-! ## Moves that the solver prints -/

/-- A line of the solver's reply: the prompt may come first. -/
def moveLine (prompt : List Char) (b : Bool) (vals : List Int) : List Char :=
  (if b then prompt else []) ++ joinAsStr vals ++ c!"\n"

/-- A prompt that does not look like numbers: no minus sign, no newline, and some character that is neither a
digit nor a space. The default prompt is one. -/
def PromptOk (prompt : List Char) : Prop :=
  '-' ∉ prompt ∧ '\n' ∉ prompt ∧ ∃ c ∈ prompt, isDig c = false ∧ c ≠ ' '

theorem mem_joinAsStr {l : List Int} {c : Char} (h : c ∈ joinAsStr l) : isDig c = true ∨ c = '-' ∨ c = ' ' := by
  unfold joinAsStr at h
  induction l with
  | nil => cases h
  | cons n l ih =>
    cases l with
    | nil =>
      rcases LtlFile.intChars_chars n c h with h | h
      exacts [.inl h, .inr (.inl h)]
    | cons m l =>
      rw [List.map_cons, joinWith_cons' _ (by simp)] at h
      rcases List.mem_append.mp h with h | h
      · rcases LtlFile.intChars_chars n c h with h | h
        exacts [.inl h, .inr (.inl h)]
      · rcases List.mem_cons.mp h with h | h
        · exact .inr (.inr h)
        · exact ih h

theorem getLast_intChars (n : Int) : (intChars n).getLast? ≠ some '-' := by
  intro h
  have hd : ∀ m : Nat, (digitsOf m).getLast? ≠ some '-' := by
    intro m h
    have := Gw.digitsOf_all m '-' (List.mem_of_getLast? h)
    revert this; decide
  cases n with
  | ofNat m => exact hd m h
  | negSucc m =>
    unfold intChars at h
    rw [List.getLast?_cons] at h
    cases hl : (digitsOf (m + 1)).getLast? with
    | none =>
      rw [List.getLast?_eq_none_iff] at hl
      exact (digitsOf_spec (m + 1)).2.1 hl
    | some c =>
      rw [hl] at h
      simp only [Option.getD_some, Option.some.injEq] at h
      exact hd (m + 1) (h ▸ hl)

theorem getLast_joinAsStr (l : List Int) : (joinAsStr l).getLast? ≠ some '-' := by
  unfold joinAsStr
  induction l with
  | nil => simp [joinWith]
  | cons n l ih =>
    cases l with
    | nil => exact getLast_intChars n
    | cons m l =>
      rw [List.map_cons, joinWith_cons' _ (by simp)]
      rw [List.getLast?_append, List.getLast?_cons]
      cases hl : (joinWith c!" " (List.map intChars (m :: l))).getLast? with
      | none => simp
      | some c =>
        rw [hl] at ih
        simpa using ih

theorem not_end {s : List Char} (h1 : '\n' ∉ s) (h2 : s.getLast? ≠ some '-') :
    isIn c!"---\n" (s ++ c!"\n") = false := by
  unfold isIn
  rw [decide_eq_false_iff_not]
  rintro ⟨a, b, h⟩
  have e : (a ++ c!"---") ++ '\n' :: b = s ++ '\n' :: [] := by
    rw [← h]; simp
  rcases List.append_eq_append_iff.mp e with ⟨u, h3, h4⟩ | ⟨u, h3, h4⟩
  · cases u with
    | nil =>
      rw [List.append_nil] at h3
      apply h2
      rw [h3]
      simp
    | cons x u =>
      obtain ⟨rfl, _⟩ := List.cons.inj h4
      exact h1 (by rw [h3]; simp)
  · cases u with
    | nil =>
      rw [List.append_nil] at h3
      apply h2
      rw [← h3]
      simp
    | cons x u =>
      have := congrArg List.length h4
      simp at this

theorem readItems_ints (names : List String) (vals : List Int) (h : vals.length = names.length) :
    readItems (names.zip (vals.map intChars)) = .ok (names.zip vals) := by
  induction names generalizing vals with
  | nil => rfl
  | cons k names ih =>
    cases vals with
    | nil => simp at h
    | cons n vals =>
      have e : readItems ((k :: names).zip ((n :: vals).map intChars)) =
          match Gw.pyInt (intChars n) with
          | none => .error .valueError
          | some n => (readItems (names.zip (vals.map intChars))).bind fun r => .ok ((k, n) :: r) := rfl
      rw [e, Gw.pyInt_intChars]
      simp only
      rw [ih vals (by simpa using h)]
      rfl

theorem readMove_spec {prompt : List Char} (hp : PromptOk prompt) {names : List String} (hn : names.Nodup)
    (b : Bool) {vals : List Int} (h : vals.length = names.length) :
    readMove prompt names (moveLine prompt b vals) = .ok (names.zip vals) := by
  have hd : dropPrompt prompt (moveLine prompt b vals) = joinAsStr vals ++ c!"\n" := by
    have hp' := hp
    obtain ⟨_, _, c, hc, h1, h2⟩ := hp'
    have hne : prompt.isEmpty = false := by
      cases prompt with
      | nil => cases hc
      | cons => rfl
    unfold dropPrompt moveLine
    rw [hne]
    simp only [Bool.false_eq_true, if_false]
    cases b with
    | true =>
      rw [if_pos]
      · simp
      · unfold isIn
        rw [decide_eq_true_iff]
        exact ⟨[], joinAsStr vals ++ c!"\n", by simp⟩
    | false =>
      rw [if_neg]
      · simp
      · unfold isIn
        rw [decide_eq_true_iff]
        rintro ⟨a, b, e⟩
        have : c ∈ joinAsStr vals ++ c!"\n" := by
          simp only [Bool.false_eq_true, if_false, List.nil_append] at e
          rw [← e]
          simp [hc]
        rcases List.mem_append.mp this with h3 | h3
        · rcases mem_joinAsStr h3 with h3 | rfl | h3
          · rw [h3] at h1; cases h1
          · exact hp.1 hc
          · exact h2 h3
        · rw [List.mem_singleton] at h3
          subst h3
          exact hp.2.1 hc
  have e : readMove prompt names (moveLine prompt b vals) =
      (readItems (names.zip (Gw.words (dropPrompt prompt (moveLine prompt b vals))))).bind fun l =>
        .ok (dictOf l) := rfl
  rw [e, hd]
  unfold joinAsStr
  rw [words_join (by
    intro w hw
    obtain ⟨n, _, rfl⟩ := List.mem_map.mp hw
    exact isWord_int n), readItems_ints names vals h]
  show Except.ok _ = _
  rw [dictOf_nodup]
  rw [map_fst_zip names vals h]
  exact hn

/-- C79. The moves returned are those printed by the solver, in the same order, whether or not the prompt is
printed in front of a line; what comes after the line of dashes is not read. -/
theorem readMoves_spec {prompt : List Char} (hp : PromptOk prompt) {names : List String} (hn : names.Nodup)
    (moves : List (Bool × List Int)) (h : ∀ m ∈ moves, m.2.length = names.length) (b : Bool)
    (rest : List (List Char)) :
    readMoves prompt names (moves.map (fun m => moveLine prompt m.1 m.2) ++
      ((if b then prompt else []) ++ c!"---\n") :: rest) =
        .ok (some (moves.map fun m => names.zip m.2)) := by
  induction moves with
  | nil =>
    have : isIn c!"---\n" ((if b then prompt else []) ++ c!"---\n") = true := by
      unfold isIn
      rw [decide_eq_true_iff]
      exact ⟨if b then prompt else [], [], by simp⟩
    rw [List.map_nil, List.nil_append, readMoves, if_pos this]
    rfl
  | cons m l ih =>
    have hnot : isIn c!"---\n" (moveLine prompt m.1 m.2) = false := by
      unfold moveLine
      apply not_end
      · intro hc
        rcases List.mem_append.mp hc with hc | hc
        · split at hc
          · exact hp.2.1 hc
          · cases hc
        · rcases mem_joinAsStr hc with h | h | h <;> revert h <;> decide
      · rw [List.getLast?_append]
        have h1 := getLast_joinAsStr m.2
        cases hl : (joinAsStr m.2).getLast? with
        | some c =>
          rw [hl] at h1
          simpa using h1
        | none =>
          simp only [Option.none_or]
          intro h'
          have := List.mem_of_getLast? h'
          split at this
          · exact hp.1 this
          · cases this
    rw [List.map_cons, List.cons_append, readMoves, hnot]
    simp only [Bool.false_eq_true, if_false]
    rw [readMove_spec hp hn m.1 (h m (by simp)), ok_bind, ih fun x hx => h x (by simp [hx])]
    rfl

/-- The default prompt. -/
theorem defaultPrompt_ok : PromptOk c!">>> " := ⟨by decide, by decide, '>', by decide, by decide, by decide⟩

example : (readMoves c!">>> " ["x", "y"] [c!">>> 1 -2\n", c!"0 15\n", c!"---\n"]).toOption =
    some (some [[("x", 1), ("y", -2)], [("x", 0), ("y", 15)]]) := by decide +kernel

/-! ## Domains in XML -/

theorem upToBracket_ok {s : List Char} (h : ']' ∉ s) (rest : List Char) :
    upToBracket (s ++ ']' :: rest) = some s := by
  induction s with
  | nil => rfl
  | cons c s ih =>
    have hc : c ≠ ']' := fun e => h (by simp [e])
    rw [List.cons_append, upToBracket, if_neg hc, ih fun h' => h (by simp [h'])]
    rfl

/-- The text of a domain in the solver's output. -/
def xmlDom : Dom → List Char
  | .boolean => c!"boolean"
  | .range lo hi => c!"[" ++ intChars lo ++ c!"," ++ intChars hi ++ c!"]"
  | .strs _ => []

/-- The domains that the solver prints are read as they are. -/
theorem parseVar_spec (d : Dom) (h : ∀ l, d ≠ .strs l) : parseVar (xmlDom d) = .ok d := by
  cases d with
  | boolean => decide +kernel
  | strs l => exact absurd rfl (h l)
  | range lo hi =>
    have e : xmlDom (.range lo hi) = '[' :: ((intChars lo ++ ',' :: intChars hi) ++ ']' :: []) := by
      simp [xmlDom]
    have h1 : ']' ∉ intChars lo ++ ',' :: intChars hi := by
      intro h
      rcases List.mem_append.mp h with h | h
      · exact LtlFile.not_mem_intChars (by decide) (by decide) _ h
      · rcases List.mem_cons.mp h with h | h
        · revert h; decide
        · exact LtlFile.not_mem_intChars (by decide) (by decide) _ h
    have h2 : Gw.splitOn ',' (intChars lo ++ ',' :: intChars hi) = [intChars lo, intChars hi] := by
      have hlo : ',' ∉ intChars lo := LtlFile.not_mem_intChars (by decide) (by decide) lo
      have hhi : ',' ∉ intChars hi := LtlFile.not_mem_intChars (by decide) (by decide) hi
      unfold Gw.splitOn
      rw [Gw.splitOn_append, Gw.splitOn_none _ hlo, Gw.splitOn_none _ hhi]
      rfl
    rw [e]
    unfold parseVar
    simp only [if_true]
    rw [upToBracket_ok h1]
    simp only [h2, Gw.pyInt_intChars]

end Iface

end Tulip
