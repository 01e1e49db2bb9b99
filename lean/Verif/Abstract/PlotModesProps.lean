import Verif.Abstract.PlotModes

/-!
# Which picture is saved in which file

`plotModePartitions_saves`: for an abstraction of a switched system with a merged partition, `plot_mode_partitions` writes two
files for each mode: the merged partition with the transitions of that mode, and the partition of that mode.
`plotModePartitions_unmerged`: without a merged partition it fails with `AssertionError`.
-/

namespace Tulip
namespace Plot

variable {ν V P : Type} [DecidableEq ν] [DecidableEq V]

/-! ## Specification -/

/-- The picture of the merged partition for a mode: no transition system is handed to polytope, and the arrows are those that
`plot_ts_on_partition` draws for the transitions labeled with the mode. -/
def ShowsMerged (sw : Switched ν V P) (only : Bool) (m : V × V) (pic : Picture ν V P) : Prop :=
  ∃ ppp ts, sw.common.ppp = some ppp ∧ sw.common.ts = some ts ∧ pic.part = ppp ∧ pic.trans = none ∧ pic.title = none ∧
    pic.annotated = true ∧
    plotTs ppp.regions ppp.adj ts sw.common.ppp2ts [("env_actions", m.1), ("sys_actions", m.2)] only = .ok pic.arrows

/-- The picture of the partition of a mode. -/
def ShowsMode (ab : Abs ν V P) (showTs only : Bool) (m : V × V) (pic : Picture ν V P) : Prop :=
  ∃ ppp ts, ab.ppp = some ppp ∧ ab.ts = some ts ∧ pic.part = ppp ∧ pic.only = only ∧ pic.arrows = [] ∧
    pic.title = some m ∧ pic.annotated = true ∧ pic.trans = (if showTs = true then some (ts, ab.ppp2ts) else none)

/-! ## Proofs -/

theorem mapM_all {α β : Type} {f : α → Except PyErr β} : ∀ {l : List α}, (∀ x ∈ l, ∃ y, f x = .ok y) →
    ∃ ys, l.mapM f = .ok ys ∧ List.Forall₂ (fun x y => f x = .ok y) l ys
  | [], _ => ⟨[], rfl, .nil⟩
  | x :: l, h => by
    obtain ⟨y, hy⟩ := h x (.head _)
    obtain ⟨ys, hys, hf⟩ := mapM_all (l := l) fun z hz => h z (.tail _ hz)
    refine ⟨y :: ys, ?_, .cons hy hf⟩
    rw [List.mapM_cons, hy, ok_bind, hys, ok_bind]
    rfl

theorem mapM_bad {α β : Type} {f : α → Except PyErr β} {e : PyErr} : ∀ {l : List α},
    (∀ x ∈ l, f x = .error e ∨ ∃ y, f x = .ok y) → (∃ x ∈ l, f x = .error e) → l.mapM f = .error e
  | [], _, h => by obtain ⟨x, hx, _⟩ := h; exact absurd hx List.not_mem_nil
  | x :: l, h, h' => by
    rw [List.mapM_cons]
    rcases h x (.head _) with hx | ⟨y, hy⟩
    · rw [hx]; rfl
    · rw [hy, ok_bind]
      obtain ⟨z, hz, he⟩ := h'
      rcases List.mem_cons.1 hz with rfl | hz
      · rw [hy] at he; cases he
      · rw [mapM_bad (fun w hw => h w (.tail _ hw)) ⟨z, hz, he⟩]; rfl

omit [DecidableEq ν] [DecidableEq V] in
/-- The files after `saveAll` for modes with distinct names. -/
theorem saveAll_get {name : V × V → List Char} : ∀ {axs : List (Picture ν V P)} {modes : List (V × V)}
    (files : Dict (List Char) (Picture ν V P)), modes.Nodup → (∀ a ∈ modes, ∀ b ∈ modes, name a = name b → a = b) →
    axs.length = modes.length →
    (∀ (i : Nat) m, modes[i]? = some m → (saveAll name axs modes files).get? (name m) = axs[i]?) ∧
    (∀ f, (∀ m ∈ modes, f ≠ name m) → (saveAll name axs modes files).get? f = files.get? f)
  | [], [], files, _, _, _ => ⟨by simp, fun _ _ => rfl⟩
  | [], _ :: _, _, _, _, h => by simp at h
  | _ :: _, [], _, _, _, h => by simp at h
  | a :: axs, m :: modes, files, hn, hi, hl => by
    have ih := saveAll_get (axs := axs) (modes := modes) (name := name) (files.set (name m) a) (List.nodup_cons.1 hn).2
      (fun x hx y hy => hi x (.tail _ hx) y (.tail _ hy)) (by simpa using hl)
    have e : saveAll name (a :: axs) (m :: modes) files = saveAll name axs modes (files.set (name m) a) := rfl
    rw [e]
    constructor
    · intro i k hk
      cases i with
      | zero =>
        simp at hk
        subst hk
        rw [ih.2 (name m) ?_, Dict.get?_set]
        · simp
        · intro x hx hne
          exact (List.nodup_cons.1 hn).1 (hi m (.head _) x (.tail _ hx) hne ▸ hx)
      | succ i =>
        have := ih.1 i k (by simpa using hk)
        rw [this]; simp
    · intro f hf
      rw [ih.2 f fun x hx => hf x (.tail _ hx), Dict.get?_set]
      rw [if_neg]
      intro he
      exact hf m (.head _) he.symm

omit [DecidableEq V] in
theorem names_ne (render : V × V → List Char) (a b : V × V) : mergedName render a ≠ partName render b := by
  intro h
  simp [mergedName, partName] at h

theorem forall₂_get {α β : Type} {R : α → β → Prop} : ∀ {l : List α} {ys : List β}, List.Forall₂ R l ys →
    ∀ {i : Nat} {x : α}, l[i]? = some x → ∃ y, ys[i]? = some y ∧ R x y
  | _, _, .nil, i, x, h => by simp at h
  | _, _, .cons hr hf, 0, x, h => by simp at h; subst h; exact ⟨_, rfl, hr⟩
  | _, _, .cons hr hf, i + 1, x, h => forall₂_get hf (i := i) (by simpa using h)

/-- **The files that are written.** The abstraction has a merged partition and a transition system, and so has each mode; the
states of transitions labeled with a mode have a region. Then `plot_mode_partitions` returns; for each mode the file
`merged_mode.pdf` is the picture of the merged partition with the transitions of that mode, and `part_mode.pdf` is the picture
of the partition of that mode; other files are not touched. -/
theorem plotModePartitions_saves {render : V × V → List Char} {sw : Switched ν V P} {showTs only : Bool}
    (files : Dict (List Char) (Picture ν V P)) (hw : sw.modes.keys.Nodup)
    (hr : ∀ a ∈ sw.modes.keys, ∀ b ∈ sw.modes.keys, render a = render b → a = b)
    {ppp : Parts P} {ts : LGraph ν V} (hp : sw.common.ppp = some ppp) (ht : sw.common.ts = some ts)
    (hm : ∀ p ∈ sw.modes, p.2.ppp.isSome ∧ p.2.ts.isSome)
    (ha : ∀ m ∈ sw.modes.keys,
      ∃ as, plotTs ppp.regions ppp.adj ts sw.common.ppp2ts [("env_actions", m.1), ("sys_actions", m.2)] only = .ok as) :
    ∃ out, plotModePartitions render sw showTs only files = .ok out ∧
      (∀ p ∈ sw.modes, ∃ a b, out.get? (c!"merged_" ++ render p.1 ++ c!".pdf") = some a ∧ ShowsMerged sw only p.1 a ∧
        out.get? (c!"part_" ++ render p.1 ++ c!".pdf") = some b ∧ ShowsMode p.2 showTs only p.1 b) ∧
      (∀ f, (∀ m ∈ sw.modes.keys, f ≠ c!"merged_" ++ render m ++ c!".pdf" ∧ f ≠ c!"part_" ++ render m ++ c!".pdf") →
        out.get? f = files.get? f) := by
  have h1 : ∀ m ∈ sw.modes.keys, ∃ pic, plotMerged sw.common ppp only m = .ok pic := by
    intro m hmm
    obtain ⟨as, has⟩ := ha m hmm
    unfold plotMerged plotAbstraction
    rw [hp, ht]
    dsimp only
    have : plotTs ppp.regions ppp.adj ts sw.common.ppp2ts (modeLabel m) only = .ok as := has
    rw [this]
    exact ⟨_, rfl⟩
  have h2 : ∀ p ∈ sw.modes, ∃ pic, plotMode showTs only p = .ok pic := by
    intro p hpp
    obtain ⟨x, hx⟩ := Option.isSome_iff_exists.1 (hm p hpp).1
    obtain ⟨y, hy⟩ := Option.isSome_iff_exists.1 (hm p hpp).2
    unfold plotMode plotAbstraction
    rw [hx, hy]
    exact ⟨_, rfl⟩
  obtain ⟨ms, hms, fm⟩ := mapM_all h1
  obtain ⟨ps, hps, fp⟩ := mapM_all h2
  have lm : ms.length = sw.modes.length := by rw [← fm.length_eq]; simp [Dict.keys]
  have lp : ps.length = sw.modes.length := fp.length_eq.symm
  have lk : sw.modes.keys.length = sw.modes.length := by simp [Dict.keys]
  have hsw : plotSwitched sw showTs only = .ok (ms ++ ps) := by
    unfold plotSwitched
    rw [hp]
    dsimp only
    rw [hms, ok_bind, hps, ok_bind]
  unfold plotModePartitions
  rw [hsw, ok_bind]
  by_cases he : (ms ++ ps).isEmpty
  · rw [if_pos he]
    have hz : sw.modes = [] := by
      rw [List.isEmpty_iff, List.append_eq_nil_iff] at he
      exact List.eq_nil_of_length_eq_zero (by rw [← lm, he.1]; rfl)
    refine ⟨files, rfl, ?_, fun _ _ => rfl⟩
    intro p hpp
    rw [hz] at hpp
    exact absurd hpp List.not_mem_nil
  · rw [if_neg he]
    have hl : ¬ (ms ++ ps).length ≠ 2 * sw.modes.length := by simp only [List.length_append, lm, lp]; omega
    dsimp only
    rw [if_neg hl]
    refine ⟨_, rfl, ?_, ?_⟩
    all_goals
      simp only [List.map_append]
      rw [List.take_left' (by simpa using lm), List.drop_left' (by simpa using lm)]
    · have inj1 : ∀ a ∈ sw.modes.keys, ∀ b ∈ sw.modes.keys, mergedName render a = mergedName render b → a = b := by
        intro a ha b hb h
        refine hr a ha b hb ?_
        simpa [mergedName] using h
      have inj2 : ∀ a ∈ sw.modes.keys, ∀ b ∈ sw.modes.keys, partName render a = partName render b → a = b := by
        intro a ha b hb h
        refine hr a ha b hb ?_
        simpa [partName] using h
      intro p hpp
      obtain ⟨i, hi⟩ := List.getElem?_of_mem hpp
      have hk : sw.modes.keys[i]? = some p.1 := by simp [Dict.keys, hi]
      obtain ⟨a, hia, hpa⟩ := forall₂_get fm hk
      obtain ⟨b, hib, hpb⟩ := forall₂_get fp hi
      have s2 := saveAll_get (name := partName render) (axs := ps.map fun p => { p with annotated := true })
        (saveAll (mergedName render) (ms.map fun p => { p with annotated := true }) sw.modes.keys files) hw inj2
        (by simp [lp, lk])
      have s1 := saveAll_get (name := mergedName render) (axs := ms.map fun p => { p with annotated := true })
        files hw inj1 (by simp [lm, lk])
      refine ⟨{ a with annotated := true }, { b with annotated := true }, ?_, ?_, ?_, ?_⟩
      · have := s2.2 (mergedName render p.1) fun m _ => names_ne render p.1 m
        refine this.trans ((s1.1 i p.1 hk).trans ?_)
        rw [List.getElem?_map, hia]; rfl
      · unfold plotMerged plotAbstraction at hpa
        rw [hp, ht] at hpa
        dsimp only at hpa
        obtain ⟨as, has⟩ := ha p.1 (List.mem_iff_getElem?.2 ⟨i, hk⟩)
        have has' : plotTs ppp.regions ppp.adj ts sw.common.ppp2ts (modeLabel p.1) only = .ok as := has
        rw [has'] at hpa
        cases hpa
        exact ⟨ppp, ts, hp, ht, rfl, rfl, rfl, rfl, has⟩
      · refine (s2.1 i p.1 hk).trans ?_
        rw [List.getElem?_map, hib]; rfl
      · obtain ⟨x, hx⟩ := Option.isSome_iff_exists.1 (hm p hpp).1
        obtain ⟨y, hy⟩ := Option.isSome_iff_exists.1 (hm p hpp).2
        unfold plotMode plotAbstraction at hpb
        rw [hx, hy] at hpb
        cases hpb
        exact ⟨x, y, hx, hy, rfl, rfl, rfl, rfl, rfl, rfl⟩
    · intro f hf
      have inj1 : ∀ a ∈ sw.modes.keys, ∀ b ∈ sw.modes.keys, mergedName render a = mergedName render b → a = b := by
        intro a ha b hb h
        refine hr a ha b hb ?_
        simpa [mergedName] using h
      have inj2 : ∀ a ∈ sw.modes.keys, ∀ b ∈ sw.modes.keys, partName render a = partName render b → a = b := by
        intro a ha b hb h
        refine hr a ha b hb ?_
        simpa [partName] using h
      rw [(saveAll_get (name := partName render) _ hw inj2 (by simp [lp, lk])).2 f fun m hm => (hf m hm).2,
        (saveAll_get (name := mergedName render) _ hw inj1 (by simp [lm, lk])).2 f fun m hm => (hf m hm).1]

/-- **Without a merged partition** the number of pictures is that of the modes, and the assertion fails if there is a mode;
no file is written. -/
theorem plotModePartitions_unmerged {render : V × V → List Char} {sw : Switched ν V P} {showTs only : Bool}
    (files : Dict (List Char) (Picture ν V P)) (hp : sw.common.ppp = none)
    (hm : ∀ p ∈ sw.modes, p.2.ppp.isSome ∧ p.2.ts.isSome) :
    plotModePartitions render sw showTs only files = if sw.modes = [] then .ok files else .error .assertion := by
  have h2 : ∀ p ∈ sw.modes, ∃ pic, plotMode showTs only p = .ok pic := by
    intro p hpp
    obtain ⟨x, hx⟩ := Option.isSome_iff_exists.1 (hm p hpp).1
    obtain ⟨y, hy⟩ := Option.isSome_iff_exists.1 (hm p hpp).2
    unfold plotMode plotAbstraction
    rw [hx, hy]
    exact ⟨_, rfl⟩
  obtain ⟨ps, hps, fp⟩ := mapM_all h2
  have hsw : plotSwitched sw showTs only = .ok ps := by
    unfold plotSwitched
    rw [hp]
    dsimp only
    rw [ok_bind, hps, ok_bind]; rfl
  unfold plotModePartitions
  rw [hsw, ok_bind]
  have hl := fp.length_eq
  by_cases hz : sw.modes = []
  · rw [if_pos hz]
    rw [hz] at hl
    rw [if_pos (by rw [List.isEmpty_iff]; exact List.eq_nil_of_length_eq_zero hl.symm)]
  · rw [if_neg hz]
    have hpos : 0 < sw.modes.length := List.length_pos_iff.2 hz
    rw [if_neg (by rw [List.isEmpty_iff]; intro h; rw [h] at hl; simp at hl; exact hz hl)]
    dsimp only
    rw [if_pos (by omega)]

/-- **A mode without a partition or a transition system** cannot be drawn: `AbstractSwitched.plot` raises
`AttributeError`. -/
theorem plotSwitched_missing {sw : Switched ν V P} {showTs only : Bool} (hp : sw.common.ppp = none)
    (hm : ∃ p ∈ sw.modes, p.2.ppp = none ∨ p.2.ts = none) : plotSwitched sw showTs only = .error .attribute := by
  have key : sw.modes.mapM (plotMode showTs only) = .error .attribute := by
    refine mapM_bad ?_ ?_
    · intro p _
      unfold plotMode
      split
      · exact .inr ⟨_, rfl⟩
      · exact .inl rfl
    · obtain ⟨p, hpp, h⟩ := hm
      refine ⟨p, hpp, ?_⟩
      unfold plotMode plotAbstraction
      rcases h with h | h
      · rw [h]
      · rw [h]; cases p.2.ppp <;> rfl
  unfold plotSwitched
  rw [hp]
  dsimp only
  rw [ok_bind, key]; rfl

/-! ## A case -/

/-- Two states; in mode `on` the second is reached, in mode `off` the first. -/
def modesTs : LGraph Nat String :=
  { edgeTypes := [("env_actions", { contains := fun _ => true }), ("sys_actions", { contains := fun _ => true })],
    nodes := [(0, []), (1, [])],
    edges := [(0, 1, [("env_actions", "e"), ("sys_actions", "on")]), (1, 0, [("env_actions", "e"), ("sys_actions", "off")])] }

/-- An abstraction with two modes. -/
def modesEx : Switched Nat String String :=
  ⟨⟨some ⟨["p", "q"], none⟩, some modesTs, [0, 1]⟩,
    [(("e", "on"), ⟨some ⟨["a"], none⟩, some {}, []⟩), (("e", "off"), ⟨some ⟨["b"], none⟩, some {}, []⟩)]⟩

example : ((plotModePartitions (fun m => m.2.toList) modesEx true false []).toOption.map fun d => (List.map (fun p =>
    (String.ofList p.1, p.2.part.regions, p.2.arrows, p.2.title)) d : List (String × List String × List (String × String) ×
      Option (String × String)))) =
    some [("merged_on.pdf", ["p", "q"], [("p", "q")], none), ("merged_off.pdf", ["p", "q"], [("q", "p")], none),
      ("part_on.pdf", ["a"], [], some ("e", "on")), ("part_off.pdf", ["b"], [], some ("e", "off"))] := by
  rfl

example : ∃ out, plotModePartitions (fun m => m.2.toList) modesEx true false [] = .ok out := by
  obtain ⟨out, h, _⟩ := plotModePartitions_saves (render := fun m => m.2.toList) (sw := modesEx) (showTs := true)
    (only := false) (ppp := ⟨["p", "q"], none⟩) (ts := modesTs) [] (by decide) (by decide) rfl rfl (by decide) (by
    intro m hm
    have : m = ("e", "on") ∨ m = ("e", "off") := by simpa [modesEx, Dict.keys] using hm
    rcases this with rfl | rfl
    · exact ⟨[("p", "q")], rfl⟩
    · exact ⟨[("q", "p")], rfl⟩)
  exact ⟨out, h⟩

example : plotModePartitions (fun m => m.2.toList) { modesEx with common := ⟨none, none, []⟩ } true false [] =
    .error .assertion := rfl

end Plot
end Tulip
