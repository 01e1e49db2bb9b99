import Verif.Interfaces.SessionRun
import Verif.Interfaces.SessionProps

/-!
# C122: every call of a `gr1c` session gets the answer to its own question
-/

namespace Tulip

namespace Iface

open Synth

/-! ## Specification -/

/-- What the specification in a file says: the winning states, the number of goals, the indices, and the
moves. -/
structure Oracle where
  win : List Char → List Int → Bool
  goals : List Char → Nat
  index : List Char → List Int → Int → Int
  envNext : List Char → List Int → List (List Int)
  sysNext : List Char → List Int → List Int → Int → List (List Int)
  sysNexta : List Char → List Int → List Int → List (List Int)
  vars : List Char → List Char

/-- Moves as printed: a line for each, and a line of dashes. -/
def movesText (l : List (List Int)) : List Char :=
  (l.map fun v => joinAsStr v ++ c!"\n").flatten ++ c!"---\n"

/-- The solver speaks the protocol: it prints the prompt when it starts, and after a command the answer,
a newline, and the prompt. -/
structure Speaks (S : Solver) (o : Oracle) (prompt : List Char) (env sys : List String) : Prop where
  banner : ∀ f, S.banner f = prompt
  winning : ∀ f v, v.length = (env ++ sys).length → S.respond f (c!"winning " ++ joinAsStr v ++ c!"\n") =
    (if o.win f v then c!"True\n" else c!"False\n") ++ prompt
  numgoals : ∀ f, S.respond f c!"numgoals\n" = intChars (o.goals f) ++ c!"\n" ++ prompt
  getindex : ∀ f v g, v.length = (env ++ sys).length →
    S.respond f (c!"getindex " ++ joinAsStr v ++ c!" " ++ intChars g ++ c!"\n") =
      intChars (o.index f v g) ++ c!"\n" ++ prompt
  envnext : ∀ f v, v.length = (env ++ sys).length →
    S.respond f (c!"envnext " ++ joinAsStr v ++ c!"\n") = movesText (o.envNext f v) ++ prompt
  sysnext : ∀ f v m g, v.length = (env ++ sys).length → m.length = env.length →
    S.respond f (c!"sysnext " ++ joinAsStr v ++ c!" " ++ joinAsStr m ++ c!" " ++ intChars g ++ c!"\n") =
      movesText (o.sysNext f v m g) ++ prompt
  sysnexta : ∀ f v m, v.length = (env ++ sys).length → m.length = env.length →
    S.respond f (c!"sysnexta " ++ joinAsStr v ++ c!" " ++ joinAsStr m ++ c!"\n") =
      movesText (o.sysNexta f v m) ++ prompt
  var : ∀ f, S.respond f c!"var\n" = o.vars f ++ c!"\n" ++ prompt
  varsLine : ∀ f, '\n' ∉ o.vars f
  envLength : ∀ f v, ∀ m ∈ o.envNext f v, m.length = env.length
  sysLength : ∀ f v m g, ∀ x ∈ o.sysNext f v m g, x.length = sys.length
  sysLengtha : ∀ f v m, ∀ x ∈ o.sysNexta f v m, x.length = sys.length

/-- The values of variables in a state, if all are there. -/
def valuesOf (state : Attr Int) : List String → Option (List Int)
  | [] => some []
  | k :: ks => match Dict.get? state k, valuesOf state ks with
    | some x, some xs => some (x :: xs)
    | _, _ => none

/-- The reference: the file of the solver that runs, if one runs, and the file that `reset` uses. -/
structure Ref where
  running : Option (List Char)
  file : Option (List Char)
deriving DecidableEq

/-- A question about given values (a missing variable is a `KeyError`) to the solver (none running is an
`AttributeError`). -/
def Ref.ask (r : Ref) (v : Option (List Int)) (answer : List Char → List Int → Val) : Except PyErr Val :=
  match v, r.running with
  | none, _ => .error .keyError
  | some _, none => .error .attribute
  | some v, some f => .ok (answer f v)

/-- A question about a goal: the goal must be one of the goals of the specification. -/
def Ref.askGoal (o : Oracle) (r : Ref) (goal : Int) (answer : Except PyErr Val) : Except PyErr Val :=
  if goal < 0 then .error .valueError
  else match r.running with
    | none => .error .attribute
    | some f => if goal < o.goals f then answer else .error .valueError

/-- What each call should return, and what should run afterwards. Questions change nothing. -/
def Ref.step (o : Oracle) (env sys : List String) (r : Ref) : Call → Ref × Except PyErr Val
  | .isWinning st => (r, r.ask (valuesOf st (env ++ sys)) fun f v => .bool (o.win f v))
  | .getIndex st g => (r, r.askGoal o g (r.ask (valuesOf st (env ++ sys)) fun f v => .int (o.index f v g)))
  | .envNext st => (r, r.ask (valuesOf st (env ++ sys)) fun f v =>
      .moves ((o.envNext f v).map fun m => env.zip m))
  | .sysNextfeas st mv g => (r, r.askGoal o g (match valuesOf mv env with
      | none => .error .keyError
      | some m => r.ask (valuesOf st (env ++ sys)) fun f v =>
          .moves ((o.sysNext f v m g).map fun x => sys.zip x)))
  | .sysNexta st mv => (r, match valuesOf mv env with
      | none => .error .keyError
      | some m => r.ask (valuesOf st (env ++ sys)) fun f v =>
          .moves ((o.sysNexta f v m).map fun x => sys.zip x))
  | .getVars => (r, match r.running with
      | none => .error .attribute
      | some f => .ok (.text (o.vars f)))
  | .numGoals => (r, match r.running with
      | none => .error .attribute
      | some f => .ok (.int (o.goals f)))
  | .reset name code =>
      if r.running.isSome ∧ code ≠ 0 then (⟨none, none⟩, .ok (.bool false))
      else (⟨name.or r.file, name.or r.file⟩, .ok (.bool true))
  | .close code => match r.running with
      | none => (r, .error .attribute)
      | some _ => ({ r with running := none }, .ok (.bool (decide (code = 0))))

/-- The results that a sequence of calls should have. -/
def Ref.run (o : Oracle) (env sys : List String) : Ref → List Call → List (Except PyErr Val)
  | _, [] => []
  | r, c :: cs => (r.step o env sys c).2 :: Ref.run o env sys (r.step o env sys c).1 cs

/-- The states and moves in a call mention no variables but the declared ones. -/
def CallOk (env sys : List String) : Call → Prop
  | .isWinning st | .getIndex st _ | .envNext st => Dict.Wf st ∧ ∀ k ∈ st.keys, k ∈ env ++ sys
  | .sysNextfeas st mv _ | .sysNexta st mv =>
    (Dict.Wf st ∧ ∀ k ∈ st.keys, k ∈ env ++ sys) ∧ Dict.Wf mv ∧ ∀ k ∈ mv.keys, k ∈ env
  | _ => True

/-! ## Vectors -/

theorem fillFrom_append (state : Attr Int) (l l' : List String) (i : Nat) (vec : List Int) :
    fillFrom state i (l ++ l') vec =
      (fillFrom state i l vec).bind fun v => fillFrom state (i + l.length) l' v := by
  induction l generalizing i vec with
  | nil => simp [fillFrom, Except.bind]
  | cons k l ih =>
    simp only [List.cons_append, fillFrom]
    cases getE state k with
    | error e => rfl
    | ok x =>
      simp only [ok_bind]
      cases setAt vec i x with
      | error e => rfl
      | ok v =>
        simp only [ok_bind]
        rw [ih]
        congr 1
        funext w
        rw [List.length_cons]
        congr 1
        omega

theorem valuesOf_some {state : Attr Int} {ks : List String} {xs : List Int} (h : valuesOf state ks = some xs) :
    (∀ k ∈ ks, Dict.get? state k = some ((Dict.get? state k).getD 0)) ∧
      xs = ks.map fun k => (Dict.get? state k).getD 0 := by
  induction ks generalizing xs with
  | nil => simp [valuesOf] at h; simp [← h]
  | cons k ks ih =>
    rw [valuesOf] at h
    cases h1 : Dict.get? state k with
    | none => simp [h1] at h
    | some x =>
      cases h2 : valuesOf state ks with
      | none => simp [h1, h2] at h
      | some ys =>
        simp only [h1, h2, Option.some.injEq] at h
        obtain ⟨i1, i2⟩ := ih h2
        subst h
        refine ⟨fun k' hk => ?_, by simp [h1, ← i2]⟩
        rcases List.mem_cons.1 hk with rfl | hk
        · rw [h1]; rfl
        · exact i1 k' hk

theorem valuesOf_length {state : Attr Int} {ks : List String} {xs : List Int} (h : valuesOf state ks = some xs) :
    xs.length = ks.length := by
  rw [(valuesOf_some h).2, List.length_map]

theorem fillFrom_missing {state : Attr Int} (ks pre : List String) (hn : (pre ++ ks).Nodup)
    (hp : ∀ k ∈ pre, k ∈ state.keys) (vec : List Int) (hv : vec.length = state.length)
    (h : valuesOf state ks = none) : fillFrom state pre.length ks vec = .error .keyError := by
  induction ks generalizing pre vec with
  | nil => simp [valuesOf] at h
  | cons k ks ih =>
    simp only [fillFrom, getE]
    cases h1 : Dict.get? state k with
    | none => rfl
    | some x =>
      have hk : k ∈ state.keys := by
        rw [Dict.mem_keys_iff, h1]; simp
      have hn' : ((pre ++ [k]) ++ ks).Nodup := by simpa using hn
      have hp' : ∀ y ∈ pre ++ [k], y ∈ state.keys := by
        intro y hy
        rcases List.mem_append.1 hy with hy | hy
        · exact hp y hy
        · rw [List.mem_singleton.1 hy]; exact hk
      have hl : (pre ++ [k]).length ≤ state.keys.length :=
        ((List.nodup_append.1 hn').1.subperm hp').length_le
      have hl' : pre.length < vec.length := by
        rw [hv]
        have : state.keys.length = state.length := by simp [Dict.keys]
        rw [List.length_append] at hl
        simp at hl
        omega
      have h2 : valuesOf state ks = none := by
        rw [valuesOf, h1] at h
        cases h2 : valuesOf state ks with
        | none => rfl
        | some y => rw [h2] at h; simp at h
      have := ih (pre ++ [k]) hn' hp' (vec.set pre.length x) (by simp [hv]) h2
      rw [List.length_append] at this
      simp only [ok_bind, setAt, if_pos hl']
      exact this

theorem length_of_values {state : Attr Int} {names : List String} (hn : names.Nodup) (hw : Dict.Wf state)
    (hk : ∀ k ∈ state.keys, k ∈ names) {v : List Int} (h : valuesOf state names = some v) :
    state.length = names.length := by
  have h1 := (valuesOf_some h).1
  have h2 : ∀ k ∈ names, k ∈ state.keys := by
    intro k hk
    rw [Dict.mem_keys_iff, h1 k hk]; simp
  have e : state.keys.length = state.length := by simp [Dict.keys]
  rw [← e]
  exact Nat.le_antisymm (List.Subperm.length_le (List.Nodup.subperm hw hk)) (hn.subperm h2).length_le

/-- The vector of a state without foreign variables: the values in the order of the variables, or `KeyError`
if a variable is missing. -/
theorem stateVector_eq {env sys : List String} (hn : (env ++ sys).Nodup) {state : Attr Int}
    (hw : Dict.Wf state) (hk : ∀ k ∈ state.keys, k ∈ env ++ sys) :
    stateVector env sys state = match valuesOf state (env ++ sys) with
      | none => .error .keyError
      | some v => .ok v := by
  cases h : valuesOf state (env ++ sys) with
  | some v =>
    obtain ⟨h1, h2⟩ := valuesOf_some h
    rw [stateVector_spec (length_of_values hn hw hk h) h1, h2]
  | none =>
    have := fillFrom_missing (env ++ sys) [] (by simpa using hn) (by simp) (rangeInts state.length)
      (rangeInts_length _) h
    rw [List.length_nil, fillFrom_append, Nat.zero_add] at this
    exact this

theorem moveVector_eq {env : List String} (hn : env.Nodup) {move : Attr Int}
    (hw : Dict.Wf move) (hk : ∀ k ∈ move.keys, k ∈ env) :
    moveVector env move = match valuesOf move env with
      | none => .error .keyError
      | some v => .ok v := by
  cases h : valuesOf move env with
  | some v =>
    obtain ⟨h1, h2⟩ := valuesOf_some h
    rw [moveVector_spec (length_of_values hn hw hk h) h1, h2]
  | none =>
    exact fillFrom_missing env [] (by simpa using hn) (by simp) (rangeInts move.length) (rangeInts_length _) h

/-! ## Reading -/

theorem takeLine_eq {a : List Char} (h : '\n' ∉ a) (rest : List Char) :
    takeLine (a ++ '\n' :: rest) = some (a ++ c!"\n", rest) := by
  induction a with
  | nil => simp [takeLine]
  | cons c a ih =>
    have hc : c ≠ '\n' := fun e => h (by simp [e])
    rw [List.cons_append, takeLine, if_neg hc, ih fun h' => h (by simp [h'])]
    rfl

theorem dropPrompt_self {prompt : List Char} (hp : PromptOk prompt) (t : List Char) :
    dropPrompt prompt (prompt ++ t) = t := by
  obtain ⟨_, _, c, hc, _⟩ := hp
  have hne : prompt.isEmpty = false := by
    cases prompt with
    | nil => cases hc
    | cons _ _ => rfl
  have hi : isIn prompt (prompt ++ t) = true := by
    unfold isIn
    rw [decide_eq_true_iff]
    exact ⟨[], t, by simp⟩
  rw [dropPrompt, hne, hi]
  simp

theorem moveLine_not_end {prompt : List Char} (hp : PromptOk prompt) (b : Bool) (v : List Int) :
    isIn c!"---\n" (moveLine prompt b v) = false := by
  unfold moveLine
  apply not_end
  · intro hc
    rcases List.mem_append.mp hc with hc | hc
    · split at hc
      · exact hp.2.1 hc
      · cases hc
    · rcases mem_joinAsStr hc with h | h | h <;> revert h <;> decide
  · rw [List.getLast?_append]
    have h1 := getLast_joinAsStr v
    cases hl : (joinAsStr v).getLast? with
    | some c =>
      rw [hl] at h1
      simpa using h1
    | none =>
      simp only [Option.none_or]
      intro h'
      have := List.mem_of_getLast? h'
      split at this
      · exact hp.1 this
      · cases this

theorem joinAsStr_newline (v : List Int) : '\n' ∉ joinAsStr v := by
  intro h
  rcases mem_joinAsStr h with h | h | h <;> revert h <;> decide

theorem intChars_newline (n : Int) : '\n' ∉ intChars n := by
  intro h
  have := (isWord_int n).2 _ h
  revert this; decide

/-- A session in which the prompt, and nothing else, was printed and not read. -/
def Ref.session (r : Ref) (env sys : List String) (prompt : List Char) : Session :=
  ⟨r.file, sys, env, prompt, r.running.map fun f => ⟨f, prompt⟩⟩

theorem readline_eq {s : Session} {f a rest : List Char} (h : '\n' ∉ a)
    (hs : s.proc = some ⟨f, a ++ '\n' :: rest⟩) :
    Act.readline s = .ret { s with proc := some ⟨f, rest⟩ } (a ++ c!"\n") := by
  simp only [Act.readline, hs, takeLine_eq h]

theorem bind_ret {β γ : Type} {a : Act β} {k : β → Act γ} {s s' : Session} {x : β} (h : a s = .ret s' x) :
    (a >>= k) s = k x s' := by
  show Act.andThen a k s = _
  simp only [Act.andThen, h]

theorem bind_raise {β γ : Type} {a : Act β} {k : β → Act γ} {s s' : Session} {e : PyErr}
    (h : a s = .raise s' e) : (a >>= k) s = .raise s' e := by
  show Act.andThen a k s = _
  simp only [Act.andThen, h]

theorem bind_self {γ : Type} (k : Session → Act γ) (s : Session) : (Act.self >>= k) s = k s s := rfl

theorem bind_lift_ok {β γ : Type} (x : β) (k : β → Act γ) (s : Session) :
    (Act.lift (.ok x) >>= k) s = k x s := rfl

theorem bind_lift_error {β γ : Type} (e : PyErr) (k : β → Act γ) (s : Session) :
    (Act.lift (.error e) >>= k) s = .raise s e := rfl

theorem movesLoop_eq {prompt : List Char} (hp : PromptOk prompt) {names : List String} (hn : names.Nodup)
    (l : List (List Int)) (hl : ∀ m ∈ l, m.length = names.length) (b : Bool) {s : Session} {f rest : List Char}
    (hpr : s.prompt = prompt) (hs : s.proc = some ⟨f, (if b then prompt else []) ++ (movesText l ++ rest)⟩)
    (fuel : Nat) (hf : l.length < fuel) :
    Act.movesLoop names fuel s = .ret { s with proc := some ⟨f, rest⟩ } (l.map fun m => names.zip m) := by
  induction l generalizing s b fuel with
  | nil =>
    obtain ⟨fuel, rfl⟩ : ∃ n, fuel = n + 1 := ⟨fuel - 1, by simp at hf; omega⟩
    have hd : '\n' ∉ (if b then prompt else []) ++ c!"---" := by
      intro h
      rcases List.mem_append.1 h with h | h
      · split at h
        · exact hp.2.1 h
        · cases h
      · revert h; decide
    have e : s.proc = some ⟨f, ((if b then prompt else []) ++ c!"---") ++ '\n' :: rest⟩ := by
      rw [hs]; simp [movesText]
    rw [Act.movesLoop, bind_ret (readline_eq hd e)]
    have hi : isIn c!"---\n" (((if b then prompt else []) ++ c!"---") ++ c!"\n") = true := by
      unfold isIn
      rw [decide_eq_true_iff]
      exact ⟨if b then prompt else [], [], by simp⟩
    rw [hi]
    rfl
  | cons v l ih =>
    obtain ⟨fuel, rfl⟩ : ∃ n, fuel = n + 1 := ⟨fuel - 1, by simp at hf; omega⟩
    have hd : '\n' ∉ (if b then prompt else []) ++ joinAsStr v := by
      intro h
      rcases List.mem_append.1 h with h | h
      · split at h
        · exact hp.2.1 h
        · cases h
      · exact joinAsStr_newline v h
    have e : s.proc = some ⟨f, ((if b then prompt else []) ++ joinAsStr v) ++ '\n' :: (movesText l ++ rest)⟩ := by
      rw [hs]; simp [movesText]
    rw [Act.movesLoop, bind_ret (readline_eq hd e)]
    have hi : isIn c!"---\n" (((if b then prompt else []) ++ joinAsStr v) ++ c!"\n") = false :=
      moveLine_not_end hp b v
    rw [hi]
    simp only [Bool.false_eq_true, if_false]
    rw [bind_self]
    have hm : readMove s.prompt names (((if b then prompt else []) ++ joinAsStr v) ++ c!"\n") =
        .ok (names.zip v) := by rw [hpr]; exact readMove_spec hp hn b (hl v (by simp))
    rw [hm, bind_lift_ok]
    have hr := ih (fun m hm => hl m (by simp [hm])) false (s := { s with proc := some ⟨f, movesText l ++ rest⟩ })
      hpr (by simp) fuel (by simpa using hf)
    rw [bind_ret hr]
    rfl

theorem movesText_length (l : List (List Int)) : l.length < (movesText l).length := by
  induction l with
  | nil => simp [movesText]
  | cons v l ih =>
    simp only [movesText, List.map_cons, List.flatten_cons, List.length_append, List.length_cons] at ih ⊢
    simp at ih ⊢
    omega

theorem moves_eq {prompt : List Char} (hp : PromptOk prompt) {names : List String} (hn : names.Nodup)
    (l : List (List Int)) (hl : ∀ m ∈ l, m.length = names.length) {s : Session} {f rest : List Char}
    (hpr : s.prompt = prompt) (hs : s.proc = some ⟨f, prompt ++ (movesText l ++ rest)⟩) :
    Act.moves names s = .ret { s with proc := some ⟨f, rest⟩ } (l.map fun m => names.zip m) := by
  simp only [Act.moves, hs]
  refine movesLoop_eq hp hn l hl true hpr (by simpa using hs) _ ?_
  have := movesText_length l
  simp only [List.length_append]
  omega

/-! ## Methods -/

section
variable {S : Solver} {o : Oracle} {prompt : List Char} {env sys : List String}

theorem write_none {r : Ref} (h : r.running = none) (cmd : List Char) :
    Act.write S cmd (r.session env sys prompt) = .raise (r.session env sys prompt) .attribute := by
  simp [Act.write, Ref.session, h]

/-- The session after a command was sent. -/
def Ref.sent (r : Ref) (env sys : List String) (prompt f t : List Char) : Session :=
  ⟨r.file, sys, env, prompt, some ⟨f, prompt ++ t⟩⟩

theorem write_some {r : Ref} {f : List Char} (h : r.running = some f) (cmd : List Char) :
    Act.write S cmd (r.session env sys prompt) = .ret (r.sent env sys prompt f (S.respond f cmd)) () := by
  simp [Act.write, Ref.session, h, Ref.sent]

theorem session_of {r : Ref} {f : List Char} (h : r.running = some f) :
    r.session env sys prompt = ⟨r.file, sys, env, prompt, some ⟨f, prompt⟩⟩ := by
  simp [Ref.session, h]

theorem readline_sent {r : Ref} {f : List Char} (hp : PromptOk prompt) (h : r.running = some f) {a : List Char}
    (ha : '\n' ∉ a) :
    Act.readline (r.sent env sys prompt f (a ++ c!"\n" ++ prompt)) =
      .ret (r.session env sys prompt) (prompt ++ a ++ c!"\n") := by
  rw [readline_eq (f := f) (a := prompt ++ a) (rest := prompt), session_of h]
  · rfl
  · intro hc
    rcases List.mem_append.1 hc with hc | hc
    · exact hp.2.1 hc
    · exact ha hc
  · simp [Ref.sent]

theorem moves_sent {r : Ref} {f : List Char} (hp : PromptOk prompt) (h : r.running = some f)
    {names : List String} (hn : names.Nodup) (l : List (List Int)) (hl : ∀ m ∈ l, m.length = names.length) :
    Act.moves names (r.sent env sys prompt f (movesText l ++ prompt)) =
      .ret (r.session env sys prompt) (l.map fun m => names.zip m) := by
  rw [moves_eq hp hn l hl (f := f) (rest := prompt) rfl rfl, session_of h]
  rfl

theorem dropLast_line {prompt : List Char} (hp : PromptOk prompt) (a : List Char) :
    (dropPrompt prompt (prompt ++ a ++ c!"\n")).dropLast = a := by
  rw [List.append_assoc, dropPrompt_self hp, List.dropLast_concat]

theorem not_true_false (p : List Char) (h : '\n' ∉ p) : isIn c!"True\n" (p ++ c!"False" ++ c!"\n") = false := by
  unfold isIn
  rw [decide_eq_false_iff_not]
  rintro ⟨a, b, e⟩
  have hb : b = [] := by
    by_contra hb
    obtain ⟨b', c, rfl⟩ := List.eq_nil_or_concat b |>.resolve_left hb
    rw [List.concat_eq_append, ← List.append_assoc] at e
    have h1 := (List.append_inj' e rfl).1
    have : '\n' ∈ p ++ c!"False" := by rw [← h1]; simp
    rcases List.mem_append.1 this with h' | h'
    · exact h h'
    · revert h'; decide
  subst hb
  rw [List.append_nil] at e
  have e' : (a ++ c!"") ++ c!"True\n" = (p ++ c!"F") ++ c!"alse\n" := by
    rw [List.append_nil, e]; simp
  have := (List.append_inj' e' rfl).2
  revert this; decide

theorem isIn_true (p : List Char) : isIn c!"True\n" (p ++ c!"True" ++ c!"\n") = true := by
  unfold isIn
  rw [decide_eq_true_iff]
  exact ⟨p, [], by simp⟩

variable (hS : Speaks S o prompt env sys) (hp : PromptOk prompt) (hn : (env ++ sys).Nodup)
include hS hp

theorem numGoals_eq (r : Ref) :
    Act.numGoals S (r.session env sys prompt) = match r.running with
      | none => .raise (r.session env sys prompt) .attribute
      | some f => .ret (r.session env sys prompt) (o.goals f) := by
  cases h : r.running with
  | none => exact bind_raise (write_none h _)
  | some f =>
    rw [Act.numGoals, bind_ret (write_some h _), hS.numgoals f, bind_ret (readline_sent hp h (intChars_newline _)),
      bind_self]
    have : (r.session env sys prompt).prompt = prompt := rfl
    rw [this, dropLast_line hp, Gw.pyInt_intChars]
    rfl

theorem getVars_eq (r : Ref) :
    Act.getVars S (r.session env sys prompt) = match r.running with
      | none => .raise (r.session env sys prompt) .attribute
      | some f => .ret (r.session env sys prompt) (o.vars f) := by
  cases h : r.running with
  | none => exact bind_raise (write_none h _)
  | some f =>
    rw [Act.getVars, bind_ret (write_some h _), hS.var f, bind_ret (readline_sent hp h (hS.varsLine f)),
      bind_self]
    have : (r.session env sys prompt).prompt = prompt := rfl
    rw [this, dropLast_line hp]
    rfl

include hn

theorem isWinning_eq (r : Ref) {st : Attr Int} (hw : Dict.Wf st) (hk : ∀ k ∈ st.keys, k ∈ env ++ sys) :
    Act.isWinning S st (r.session env sys prompt) = match valuesOf st (env ++ sys), r.running with
      | none, _ => .raise (r.session env sys prompt) .keyError
      | some _, none => .raise (r.session env sys prompt) .attribute
      | some v, some f => .ret (r.session env sys prompt) (o.win f v) := by
  rw [Act.isWinning, bind_self]
  have e : winningCommand (r.session env sys prompt).env (r.session env sys prompt).sys st =
      (stateVector env sys st).bind fun v => .ok (c!"winning " ++ joinAsStr v ++ c!"\n") := rfl
  rw [e, stateVector_eq hn hw hk]
  cases hvv : valuesOf st (env ++ sys) with
  | none => rfl
  | some v =>
    simp only [Except.bind]
    rw [bind_lift_ok]
    cases h : r.running with
    | none => exact bind_raise (write_none h _)
    | some f =>
      rw [bind_ret (write_some h _), hS.winning f v (valuesOf_length hvv)]
      cases hv : o.win f v with
      | true =>
        have e : (if true = true then c!"True\n" else c!"False\n") ++ prompt = c!"True" ++ c!"\n" ++ prompt := by
          simp
        rw [e, bind_ret (readline_sent hp h (by decide)), isIn_true]
        show Out.ret _ true = Out.ret _ (o.win f v)
        rw [hv]
      | false =>
        have e : (if false = true then c!"True\n" else c!"False\n") ++ prompt = c!"False" ++ c!"\n" ++ prompt := by
          simp
        rw [e, bind_ret (readline_sent hp h (by decide)), not_true_false _ hp.2.1]
        show Out.ret _ false = Out.ret _ (o.win f v)
        rw [hv]

theorem getIndex_eq (r : Ref) {st : Attr Int} (hw : Dict.Wf st) (hk : ∀ k ∈ st.keys, k ∈ env ++ sys) (g : Int) :
    Act.getIndex S st g (r.session env sys prompt) =
      if g < 0 then .raise (r.session env sys prompt) .valueError
      else match r.running with
        | none => .raise (r.session env sys prompt) .attribute
        | some f => if g < o.goals f then match valuesOf st (env ++ sys) with
            | none => .raise (r.session env sys prompt) .keyError
            | some v => .ret (r.session env sys prompt) (o.index f v g)
          else .raise (r.session env sys prompt) .valueError := by
  rw [Act.getIndex]
  split
  · rfl
  · have hg := numGoals_eq hS hp r
    cases h : r.running with
    | none => rw [h] at hg; exact bind_raise hg
    | some f =>
      rw [h] at hg
      rw [bind_ret hg]
      dsimp only
      by_cases hlt : g < o.goals f
      · rw [if_neg (by omega), if_pos hlt, bind_self]
        have e : getIndexCommand (r.session env sys prompt).env (r.session env sys prompt).sys st g =
            (stateVector env sys st).bind fun v =>
              .ok (c!"getindex " ++ joinAsStr v ++ c!" " ++ intChars g ++ c!"\n") := rfl
        rw [e, stateVector_eq hn hw hk]
        cases hvv : valuesOf st (env ++ sys) with
        | none => rfl
        | some v =>
          simp only [Except.bind]
          rw [bind_lift_ok, bind_ret (write_some h _), hS.getindex f v g (valuesOf_length hvv),
            bind_ret (readline_sent hp h (intChars_newline _))]
          have : (r.session env sys prompt).prompt = prompt := rfl
          rw [this, dropLast_line hp, Gw.pyInt_intChars]
          rfl
      · rw [if_pos (by omega), if_neg hlt]
        rfl

theorem envNext_eq (r : Ref) {st : Attr Int} (hw : Dict.Wf st) (hk : ∀ k ∈ st.keys, k ∈ env ++ sys) :
    Act.envNext S st (r.session env sys prompt) = match valuesOf st (env ++ sys), r.running with
      | none, _ => .raise (r.session env sys prompt) .keyError
      | some _, none => .raise (r.session env sys prompt) .attribute
      | some v, some f => .ret (r.session env sys prompt) ((o.envNext f v).map fun m => env.zip m) := by
  rw [Act.envNext, bind_self]
  have e : envNextCommand (r.session env sys prompt).env (r.session env sys prompt).sys st =
      (stateVector env sys st).bind fun v => .ok (c!"envnext " ++ joinAsStr v ++ c!"\n") := rfl
  rw [e, stateVector_eq hn hw hk]
  cases hvv : valuesOf st (env ++ sys) with
  | none => rfl
  | some v =>
    simp only [Except.bind]
    rw [bind_lift_ok]
    cases h : r.running with
    | none => exact bind_raise (write_none h _)
    | some f =>
      rw [bind_ret (write_some h _), hS.envnext f v (valuesOf_length hvv)]
      exact moves_sent hp h (List.nodup_append.1 hn).1 _ (hS.envLength f v)

theorem sysNexta_eq (r : Ref) {st mv : Attr Int} (hw : Dict.Wf st) (hk : ∀ k ∈ st.keys, k ∈ env ++ sys)
    (hw' : Dict.Wf mv) (hk' : ∀ k ∈ mv.keys, k ∈ env) :
    Act.sysNexta S st mv (r.session env sys prompt) =
      match valuesOf st (env ++ sys), valuesOf mv env, r.running with
      | some v, some m, some f => .ret (r.session env sys prompt) ((o.sysNexta f v m).map fun x => sys.zip x)
      | some _, some _, none => .raise (r.session env sys prompt) .attribute
      | _, _, _ => .raise (r.session env sys prompt) .keyError := by
  rw [Act.sysNexta, bind_self]
  have e : sysNextaCommand (r.session env sys prompt).env (r.session env sys prompt).sys st mv =
      (stateVector env sys st).bind fun v => (moveVector env mv).bind fun m =>
        .ok (c!"sysnexta " ++ joinAsStr v ++ c!" " ++ joinAsStr m ++ c!"\n") := rfl
  rw [e, stateVector_eq hn hw hk, moveVector_eq (List.nodup_append.1 hn).1 hw' hk']
  cases hvv : valuesOf st (env ++ sys) with
  | none => rfl
  | some v =>
    cases hmm : valuesOf mv env with
    | none => rfl
    | some m =>
      simp only [Except.bind]
      rw [bind_lift_ok]
      cases h : r.running with
      | none => exact bind_raise (write_none h _)
      | some f =>
        rw [bind_ret (write_some h _), hS.sysnexta f v m (valuesOf_length hvv) (valuesOf_length hmm)]
        exact moves_sent hp h (List.nodup_append.1 hn).2.1 _ (hS.sysLengtha f v m)

theorem sysNextfeas_eq (r : Ref) {st mv : Attr Int} (hw : Dict.Wf st) (hk : ∀ k ∈ st.keys, k ∈ env ++ sys)
    (hw' : Dict.Wf mv) (hk' : ∀ k ∈ mv.keys, k ∈ env) (g : Int) :
    Act.sysNextfeas S st mv g (r.session env sys prompt) =
      if g < 0 then .raise (r.session env sys prompt) .valueError
      else match r.running with
        | none => .raise (r.session env sys prompt) .attribute
        | some f => if g < o.goals f then match valuesOf st (env ++ sys), valuesOf mv env with
            | some v, some m => .ret (r.session env sys prompt) ((o.sysNext f v m g).map fun x => sys.zip x)
            | _, _ => .raise (r.session env sys prompt) .keyError
          else .raise (r.session env sys prompt) .valueError := by
  rw [Act.sysNextfeas]
  split
  · rfl
  · rename_i hg0
    have hg := numGoals_eq hS hp r
    cases h : r.running with
    | none => rw [h] at hg; exact bind_raise hg
    | some f =>
      rw [h] at hg
      rw [bind_ret hg, bind_self]
      dsimp only
      have e : sysNextfeasCommand (r.session env sys prompt).env (r.session env sys prompt).sys
          (o.goals f) st mv g = if g < 0 ∨ g > (o.goals f : Int) - 1 then .error .valueError else
          (stateVector env sys st).bind fun v => (moveVector env mv).bind fun m =>
            .ok (c!"sysnext " ++ joinAsStr v ++ c!" " ++ joinAsStr m ++ c!" " ++ intChars g ++ c!"\n") := rfl
      rw [e]
      by_cases hlt : g < o.goals f
      · rw [if_neg (by omega), if_pos hlt, stateVector_eq hn hw hk, moveVector_eq (List.nodup_append.1 hn).1 hw' hk']
        cases hvv : valuesOf st (env ++ sys) with
        | none => rfl
        | some v =>
          cases hmm : valuesOf mv env with
          | none => rfl
          | some m =>
            simp only [Except.bind]
            rw [bind_lift_ok, bind_ret (write_some h _), hS.sysnext f v m g (valuesOf_length hvv) (valuesOf_length hmm)]
            exact moves_sent hp h (List.nodup_append.1 hn).2.1 _ (hS.sysLength f v m g)
      · rw [if_pos (by omega), if_neg hlt]
        rfl

/-- A result as what a call does to a session. -/
def outOf (s : Session) : Except PyErr Val → Out Val
  | .ok v => .ret s v
  | .error e => .raise s e

omit hp hn in
theorem restart_eq (r : Ref) (name : Option (List Char)) :
    Act.restart S name (r.session env sys prompt) =
      .ret (Ref.session ⟨name.or r.file, name.or r.file⟩ env sys prompt) true := by
  cases name with
  | none => cases h : r.file <;> simp [Act.restart, Ref.session, startProc, hS.banner, h]
  | some f => simp [Act.restart, Ref.session, startProc, hS.banner]

/-- One call. -/
theorem call_eq (r : Ref) (c : Call) (hc : CallOk env sys c) :
    Act.call S c (r.session env sys prompt) =
      outOf ((r.step o env sys c).1.session env sys prompt) (r.step o env sys c).2 := by
  cases c with
  | isWinning st =>
    have e := isWinning_eq hS hp hn r hc.1 hc.2
    simp only [Act.call, Ref.step, Ref.ask]
    cases h1 : valuesOf st (env ++ sys) with
    | none => simp only [h1] at e; exact bind_raise e
    | some v =>
      cases h2 : r.running with
      | none => simp only [h1, h2] at e; exact bind_raise e
      | some f => simp only [h1, h2] at e; exact bind_ret e
  | getIndex st g =>
    have e := getIndex_eq hS hp hn r hc.1 hc.2 g
    simp only [Act.call, Ref.step, Ref.askGoal, Ref.ask]
    by_cases hg : g < 0
    · simp only [hg, if_true] at e ⊢; exact bind_raise e
    · simp only [hg, if_false] at e ⊢
      cases h2 : r.running with
      | none => simp only [h2] at e; exact bind_raise e
      | some f =>
        simp only [h2] at e
        by_cases hlt : g < o.goals f
        · simp only [hlt, if_true] at e ⊢
          cases h1 : valuesOf st (env ++ sys) with
          | none => simp only [h1] at e; exact bind_raise e
          | some v => simp only [h1] at e; exact bind_ret e
        · simp only [hlt, if_false] at e ⊢; exact bind_raise e
  | envNext st =>
    have e := envNext_eq hS hp hn r hc.1 hc.2
    simp only [Act.call, Ref.step, Ref.ask]
    cases h1 : valuesOf st (env ++ sys) with
    | none => simp only [h1] at e; exact bind_raise e
    | some v =>
      cases h2 : r.running with
      | none => simp only [h1, h2] at e; exact bind_raise e
      | some f => simp only [h1, h2] at e; exact bind_ret e
  | sysNextfeas st mv g =>
    have e := sysNextfeas_eq hS hp hn r hc.1.1 hc.1.2 hc.2.1 hc.2.2 g
    simp only [Act.call, Ref.step, Ref.askGoal, Ref.ask]
    by_cases hg : g < 0
    · simp only [hg, if_true] at e ⊢; exact bind_raise e
    · simp only [hg, if_false] at e ⊢
      cases h2 : r.running with
      | none => simp only [h2] at e; exact bind_raise e
      | some f =>
        simp only [h2] at e
        by_cases hlt : g < o.goals f
        · simp only [hlt, if_true] at e ⊢
          cases h1 : valuesOf st (env ++ sys) with
          | none =>
            simp only [h1] at e
            cases h3 : valuesOf mv env <;> exact bind_raise e
          | some v =>
            cases h3 : valuesOf mv env with
            | none => simp only [h1, h3] at e; exact bind_raise e
            | some m => simp only [h1, h3] at e; exact bind_ret e
        · simp only [hlt, if_false] at e ⊢; exact bind_raise e
  | sysNexta st mv =>
    have e := sysNexta_eq hS hp hn r hc.1.1 hc.1.2 hc.2.1 hc.2.2
    simp only [Act.call, Ref.step, Ref.ask]
    cases h1 : valuesOf st (env ++ sys) with
    | none =>
      simp only [h1] at e
      cases h3 : valuesOf mv env <;> exact bind_raise e
    | some v =>
      cases h3 : valuesOf mv env with
      | none => simp only [h1, h3] at e; exact bind_raise e
      | some m =>
        cases h2 : r.running with
        | none => simp only [h1, h2, h3] at e; exact bind_raise e
        | some f => simp only [h1, h2, h3] at e; exact bind_ret e
  | getVars =>
    have e := getVars_eq hS hp r
    simp only [Act.call, Ref.step]
    cases h2 : r.running with
    | none => simp only [h2] at e; exact bind_raise e
    | some f => simp only [h2] at e; exact bind_ret e
  | numGoals =>
    have e := numGoals_eq hS hp r
    simp only [Act.call, Ref.step]
    cases h2 : r.running with
    | none => simp only [h2] at e; exact bind_raise e
    | some f => simp only [h2] at e; exact bind_ret e
  | reset name code =>
    simp only [Act.call, Ref.step]
    cases h2 : r.running with
    | none =>
      have e : Act.reset S name code (r.session env sys prompt) = Act.restart S name (r.session env sys prompt) := by
        simp [Act.reset, Ref.session, h2]
      rw [restart_eq hS] at e
      rw [if_neg (by simp)]
      exact bind_ret e
    | some f =>
      by_cases hcode : code = 0
      · rw [if_neg (by simp [hcode])]
        have e : Act.reset S name code (r.session env sys prompt) =
            Act.restart S name (Ref.session ⟨none, r.file⟩ env sys prompt) := by
          simp [Act.reset, Ref.session, h2, hcode]
        rw [restart_eq hS] at e
        exact bind_ret e
      · rw [if_pos (by simp [hcode])]
        have e : Act.reset S name code (r.session env sys prompt) =
            .ret (Ref.session ⟨none, none⟩ env sys prompt) false := by
          simp [Act.reset, Ref.session, h2, hcode]
        exact bind_ret e
  | close code =>
    simp only [Act.call, Ref.step]
    cases h2 : r.running with
    | none =>
      have e : Act.close code (r.session env sys prompt) = .raise (r.session env sys prompt) .attribute := by
        simp [Act.close, Ref.session, h2]
      exact bind_raise e
    | some f =>
      have e : Act.close code (r.session env sys prompt) =
          .ret (Ref.session { r with running := none } env sys prompt) (decide (code = 0)) := by
        simp [Act.close, Ref.session, h2]
      exact bind_ret e

theorem runCalls_session (cs : List Call) (hc : ∀ c ∈ cs, CallOk env sys c) (r : Ref) :
    runCalls S (r.session env sys prompt) cs = some (Ref.run o env sys r cs) := by
  induction cs generalizing r with
  | nil => rfl
  | cons c cs ih =>
    have e := call_eq hS hp hn r c (hc c (by simp))
    have ih' := ih (fun x hx => hc x (by simp [hx])) (r.step o env sys c).1
    rw [runCalls, e, Ref.run]
    cases (r.step o env sys c).2 <;> simp only [outOf, ih'] <;> rfl

/-- **C122.** Whatever the sequence of calls, with exceptions, restarts with other files and failed exits in
between: no call waits for ever, and each call returns what the specification in the file of the solver
that then runs says about the arguments of this call. -/
theorem session_correct (file : Option (List Char)) (cs : List Call) (hc : ∀ c ∈ cs, CallOk env sys c) :
    runCalls S (Session.new S file sys (some env) prompt) cs =
      some (Ref.run o env sys ⟨file, file⟩ cs) := by
  have e : Session.new S file sys (some env) prompt = Ref.session ⟨file, file⟩ env sys prompt := by
    cases file <;> simp [Session.new, Ref.session, startProc, hS.banner]
  rw [e]
  exact runCalls_session hS hp hn cs hc _

end

/-- After a call of `reset` in which the old solver failed, a further `reset()` returns `True` although no
solver runs: the next question raises `AttributeError`. -/
theorem reset_counterexample (S : Solver) (f : List Char) (prompt : List Char) :
    runCalls S (Session.new S (some f) [] none prompt) [.reset none 1, .reset none 0, .numGoals] =
      some [.ok (.bool false), .ok (.bool true), .error .attribute] := rfl

/-! ## Example -/

/-- A solver for two files over one variable each. -/
def demoOracle : Oracle where
  win f v := decide (v = [1, 0]) || decide (f = c!"b")
  goals _ := 2
  index _ _ g := g + 7
  envNext _ _ := [[0], [1]]
  sysNext _ _ m _ := [[m.headD 0]]
  sysNexta _ _ _ := []
  vars _ := c!"x (0), y (1)"

/-- A solver that speaks the protocol: it looks at the words of the command. `n` is the number of variables of
the environment, `k` that of all variables. -/
def demoSolver (o : Oracle) (prompt : List Char) (n k : Nat) : Solver where
  banner _ := prompt
  respond f cmd :=
    let nums := ((Gw.words cmd).drop 1).map fun w => (Gw.pyInt w).getD 0
    (match (Gw.words cmd).head? with
    | some w =>
      if w = c!"winning" then (if o.win f nums then c!"True\n" else c!"False\n")
      else if w = c!"numgoals" then intChars (o.goals f) ++ c!"\n"
      else if w = c!"getindex" then intChars (o.index f (nums.take k) (nums.getD k 0)) ++ c!"\n"
      else if w = c!"envnext" then movesText (o.envNext f nums)
      else if w = c!"sysnext" then
        movesText (o.sysNext f (nums.take k) ((nums.drop k).take n) (nums.getD (k + n) 0))
      else if w = c!"sysnexta" then movesText (o.sysNexta f (nums.take k) (nums.drop k))
      else o.vars f ++ c!"\n"
    | none => []) ++ prompt

theorem words_first {w : List Char} (hw : IsWord w) (rest : List Char) :
    Gw.words (w ++ ' ' :: rest) = w :: Gw.words rest := by
  unfold Gw.words
  rw [words_head (by decide) w rest [] hw.2 (by simpa using hw.1)]
  rfl

theorem words_ints (v : List Int) : Gw.words (joinAsStr v ++ c!"\n") = v.map intChars :=
  words_join (by
    intro w hw
    obtain ⟨n, _, rfl⟩ := List.mem_map.mp hw
    exact isWord_int n)

theorem words_ints_rest (v : List Int) (rest : List Char) :
    Gw.words (joinAsStr v ++ ' ' :: rest) = v.map intChars ++ Gw.words rest :=
  words_join_rest (by
    intro w hw
    obtain ⟨n, _, rfl⟩ := List.mem_map.mp hw
    exact isWord_int n) rest

theorem nums_eq (v : List Int) : (v.map intChars).map (fun w => (Gw.pyInt w).getD 0) = v := by
  rw [List.map_map]
  conv => rhs; rw [← List.map_id v]
  exact List.map_congr_left fun n _ => by simp [Gw.pyInt_intChars]

theorem words_int (n : Int) : Gw.words (intChars n ++ c!"\n") = [intChars n] := by
  have := words_ints [n]
  simpa [joinAsStr, joinWith] using this

/-- Such solvers exist for every oracle with moves of the right lengths. -/
theorem demoSolver_speaks (o : Oracle) (prompt : List Char) (env sys : List String)
    (h1 : ∀ f, '\n' ∉ o.vars f) (h2 : ∀ f v, ∀ m ∈ o.envNext f v, m.length = env.length)
    (h3 : ∀ f v m g, ∀ x ∈ o.sysNext f v m g, x.length = sys.length)
    (h4 : ∀ f v m, ∀ x ∈ o.sysNexta f v m, x.length = sys.length) :
    Speaks (demoSolver o prompt env.length (env ++ sys).length) o prompt env sys where
  banner _ := rfl
  winning f v _ := by
    have e : c!"winning " ++ joinAsStr v ++ c!"\n" = c!"winning" ++ ' ' :: (joinAsStr v ++ c!"\n") := by simp
    simp only [demoSolver]
    rw [e, words_first ⟨by decide, by decide⟩, words_ints]
    simp only [List.drop_succ_cons, List.drop_zero, nums_eq, List.head?_cons, if_true]
  numgoals f := rfl
  getindex f v g hv := by
    have e : c!"getindex " ++ joinAsStr v ++ c!" " ++ intChars g ++ c!"\n" =
      c!"getindex" ++ ' ' :: (joinAsStr v ++ ' ' :: (intChars g ++ c!"\n")) := by simp
    simp only [demoSolver]
    rw [e, words_first ⟨by decide, by decide⟩, words_ints_rest, words_int]
    have e2 : v.map intChars ++ [intChars g] = (v ++ [g]).map intChars := by simp
    simp only [List.drop_succ_cons, List.drop_zero, e2, nums_eq, List.head?_cons]
    simp [← hv]
  envnext f v _ := by
    have e : c!"envnext " ++ joinAsStr v ++ c!"\n" = c!"envnext" ++ ' ' :: (joinAsStr v ++ c!"\n") := by simp
    simp only [demoSolver]
    rw [e, words_first ⟨by decide, by decide⟩, words_ints]
    simp only [List.drop_succ_cons, List.drop_zero, nums_eq, List.head?_cons]
    simp
  sysnext f v m g hv hm := by
    have e : c!"sysnext " ++ joinAsStr v ++ c!" " ++ joinAsStr m ++ c!" " ++ intChars g ++ c!"\n" =
      c!"sysnext" ++ ' ' :: (joinAsStr v ++ ' ' :: (joinAsStr m ++ ' ' :: (intChars g ++ c!"\n"))) := by simp
    simp only [demoSolver]
    rw [e, words_first ⟨by decide, by decide⟩, words_ints_rest, words_ints_rest, words_int]
    have e2 : v.map intChars ++ (m.map intChars ++ [intChars g]) = (v ++ (m ++ [g])).map intChars := by simp
    simp only [List.drop_succ_cons, List.drop_zero, e2, nums_eq, List.head?_cons]
    have e3 : (v ++ (m ++ [g])).getD ((env ++ sys).length + env.length) 0 = g := by
      rw [← hv, ← hm]; simp
    rw [e3, ← hv, ← hm]
    simp
  sysnexta f v m hv hm := by
    have e : c!"sysnexta " ++ joinAsStr v ++ c!" " ++ joinAsStr m ++ c!"\n" =
      c!"sysnexta" ++ ' ' :: (joinAsStr v ++ ' ' :: (joinAsStr m ++ c!"\n")) := by simp
    simp only [demoSolver]
    rw [e, words_first ⟨by decide, by decide⟩, words_ints_rest, words_ints]
    have e2 : v.map intChars ++ m.map intChars = (v ++ m).map intChars := by simp
    simp only [List.drop_succ_cons, List.drop_zero, e2, nums_eq, List.head?_cons]
    simp [← hv]
  var f := rfl
  varsLine := h1
  envLength := h2
  sysLength := h3
  sysLengtha := h4

/-- Non-vacuity: a history with restarts and exceptions, run by the model. -/
example :
    runCalls (demoSolver demoOracle c!">>> " 1 2) (Session.new (demoSolver demoOracle c!">>> " 1 2) (some c!"a") ["y"]
      (some ["x"]) c!">>> ")
      [.isWinning [("y", 0), ("x", 1)], .isWinning [("x", 0), ("y", 0)], .getIndex [("x", 0), ("y", 5)] 1,
       .getIndex [("x", 0), ("y", 5)] 2, .envNext [("x", 0)], .envNext [("x", 0), ("y", 1)],
       .sysNextfeas [("x", 0), ("y", 1)] [("x", -3)] 0, .sysNexta [("x", 0), ("y", 1)] [("x", 1)],
       .reset (some c!"b") 0, .isWinning [("x", 0), ("y", 0)], .close 0, .getVars, .reset none 0, .getVars] =
    some [.ok (.bool true), .ok (.bool false), .ok (.int 8), .error .valueError, .error .keyError,
      .ok (.moves [[("x", 0)], [("x", 1)]]), .ok (.moves [[("y", -3)]]), .ok (.moves []), .ok (.bool true),
      .ok (.bool true), .ok (.bool true), .error .attribute, .ok (.bool true),
      .ok (.text c!"x (0), y (1)")] := by
  have hs : Speaks (demoSolver demoOracle c!">>> " 1 2) demoOracle c!">>> " ["x"] ["y"] :=
    demoSolver_speaks demoOracle c!">>> " ["x"] ["y"] (by simp [demoOracle]) (by simp [demoOracle])
    (by simp [demoOracle]) (by simp [demoOracle])
  rw [session_correct (env := ["x"]) hs defaultPrompt_ok (by decide)]
  · rfl
  · intro c hc
    simp only [List.mem_cons, List.not_mem_nil, or_false] at hc
    rcases hc with rfl | rfl | rfl | rfl | rfl | rfl | rfl | rfl | rfl | rfl | rfl | rfl | rfl | rfl <;>
      simp [CallOk, Dict.Wf, Dict.keys]

end Iface

end Tulip
