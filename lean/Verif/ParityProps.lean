import Verif.Parity
import Mathlib.Data.List.Dedup
import Mathlib.Data.List.Perm.Subperm
import Mathlib.Order.Basic
import Mathlib.Data.Nat.Find

/-!
# Properties of the parity-game functions (C64)

The specification: an infinite play follows the edges of the graph; a player forces a set from a node if
the player has a positional strategy such that every play from the node that follows it visits the set.
-/

namespace Tulip

namespace Parity

set_option linter.unusedSectionVars false

variable {α : Type} [DecidableEq α]

/-- The edges of a graph join its nodes. -/
structure Game.Wf (g : Game α) : Prop where
  nodup : g.nodes.Nodup
  closed : ∀ u v, g.edge u v = true → u ∈ g.nodes ∧ v ∈ g.nodes

/-- An infinite play from a node. -/
structure IsPlay (g : Game α) (v : α) (π : Nat → α) : Prop where
  start : π 0 = v
  moves : ∀ n, g.edge (π n) (π (n + 1)) = true

/-- The play follows the strategy of the player. -/
def Follows (g : Game α) (player : Nat) (σ : α → α) (π : Nat → α) : Prop :=
  ∀ n, g.player (π n) = player → π (n + 1) = σ (π n)

/-- The moves that the strategy chooses at the nodes of the player are edges. -/
def Legal (g : Game α) (player : Nat) (σ : α → α) : Prop :=
  ∀ v ∈ g.nodes, g.player v = player → g.edge v (σ v) = true

/-- The player can force a visit of the set. -/
def Forces (g : Game α) (player : Nat) (W : List α) (v : α) : Prop :=
  ∃ σ, Legal g player σ ∧ ∀ π, IsPlay g v π → Follows g player σ π → ∃ n, π n ∈ W

/-- The only successor of a node. -/
def OnlySucc (g : Game α) (v u : α) : Prop := ∀ u', g.edge v u' = true ↔ u' = u

/-- The nodes collected by the loop after some number of steps, as a specification. -/
def AttrN (g : Game α) (player : Nat) (W : List α) : Nat → α → Prop
  | 0, v => v ∈ W
  | n + 1, v => AttrN g player W n v ∨
      ∃ u, AttrN g player W n u ∧
        ((g.player v = player ∧ g.edge v u = true) ∨ OnlySucc g v u)

/-! ### One step -/

theorem mem_preds {g : Game α} (hg : g.Wf) {u v : α} : u ∈ g.preds v ↔ g.edge u v = true := by
  simp only [Game.preds, List.mem_filter]
  exact ⟨fun h => h.2, fun h => ⟨(hg.closed u v h).1, h⟩⟩

theorem mem_succs {g : Game α} (hg : g.Wf) {u v : α} : v ∈ g.succs u ↔ g.edge u v = true := by
  simp only [Game.succs, List.mem_filter]
  exact ⟨fun h => h.2, fun h => ⟨(hg.closed u v h).2, h⟩⟩

theorem one_succ {g : Game α} (hg : g.Wf) {v u : α} (h : g.edge v u = true) :
    (g.succs v).length = 1 ↔ OnlySucc g v u := by
  have hmem : ∀ {w : α}, w ∈ g.succs v ↔ g.edge v w = true := mem_succs hg
  have hnd : (g.succs v).Nodup := hg.nodup.filter _
  constructor
  · intro h1
    obtain ⟨w, hw⟩ := List.length_eq_one_iff.1 h1
    intro u'
    have e : w = u := by
      have := (hmem (w := u)).2 h
      rw [hw] at this
      exact (List.mem_singleton.1 this).symm
    rw [← hmem, hw, e]
    simp
  · intro ho
    have hle : (g.succs v).length ≤ [u].length := by
      refine (hnd.subperm ?_).length_le
      intro x hx
      simpa using (ho x).1 ((hmem (w := x)).1 hx)
    have hpos : 0 < (g.succs v).length := List.length_pos_of_mem ((hmem (w := u)).2 h)
    simp at hle
    omega

/-- **C64.** The predecessor step: exactly the nodes of the player with an edge into the set, and the nodes
whose only successor is in the set. -/
theorem mem_ctrlNext {g : Game α} (hg : g.Wf) (player : Nat) (W : List α) (v : α) :
    v ∈ ctrlNext g player W ↔
      ∃ u ∈ W, (g.player v = player ∧ g.edge v u = true) ∨ OnlySucc g v u := by
  simp only [ctrlNext, List.mem_flatMap, List.mem_filter, mem_preds hg, controlled,
    Bool.or_eq_true, beq_iff_eq]
  constructor
  · rintro ⟨u, hu, he, h⟩
    refine ⟨u, hu, ?_⟩
    rcases h with h | h
    · exact Or.inl ⟨h, he⟩
    · exact Or.inr ((one_succ hg he).1 h)
  · rintro ⟨u, hu, h⟩
    rcases h with ⟨h, he⟩ | h
    · exact ⟨u, hu, he, Or.inl h⟩
    · have he := (h u).2 rfl
      exact ⟨u, hu, he, Or.inr ((one_succ hg he).2 h)⟩

theorem ctrlNext_nodes {g : Game α} (player : Nat) (W : List α) :
    ctrlNext g player W ⊆ g.nodes := by
  intro v h
  simp only [ctrlNext, List.mem_flatMap, List.mem_filter, Game.preds] at h
  obtain ⟨_, _, ⟨h, _⟩, _⟩ := h
  exact h

/-! ### The loop -/

theorem sameSet_iff {a b : List α} : sameSet a b = true ↔ ∀ x, x ∈ a ↔ x ∈ b := by
  simp only [sameSet, Bool.and_eq_true, List.all_eq_true, List.contains_iff_mem]
  exact ⟨fun h x => ⟨h.1 x, h.2 x⟩, fun h => ⟨fun x hx => (h x).1 hx, fun x hx => (h x).2 hx⟩⟩

theorem AttrN.mono {g : Game α} {player : Nat} {W : List α} {n m : Nat} (h : n ≤ m) {v : α}
    (hv : AttrN g player W n v) : AttrN g player W m v := by
  induction h with
  | refl => exact hv
  | step _ ih => exact Or.inl ih

/-- Once a step adds nothing, no further step does. -/
theorem AttrN.stable {g : Game α} {player : Nat} {W : List α} {n : Nat}
    (h : ∀ v, AttrN g player W (n + 1) v → AttrN g player W n v) (m : Nat) {v : α}
    (hv : AttrN g player W m v) : AttrN g player W n v := by
  induction m generalizing v with
  | zero => exact AttrN.mono (Nat.zero_le n) hv
  | succ m ih =>
    rcases hv with hv | ⟨u, hu, hc⟩
    · exact ih hv
    · exact h v (Or.inr ⟨u, ih hu, hc⟩)

theorem attractorLoop_ok {g : Game α} (hg : g.Wf) {player : Nat} {W0 : List α} (fuel n : Nat)
    {W old A : List α} (hW : ∀ v, v ∈ W ↔ AttrN g player W0 n v)
    (hold : (n = 0 ∧ old = []) ∨ ∃ m, n = m + 1 ∧ ∀ v, v ∈ old ↔ AttrN g player W0 m v)
    (h : attractorLoop g player fuel W old = some A) :
    ∀ v, v ∈ A ↔ ∃ k, AttrN g player W0 k v := by
  induction fuel generalizing n W old with
  | zero => cases h
  | succ fuel ih =>
    unfold attractorLoop at h
    split at h
    · rename_i hs
      cases h
      rw [sameSet_iff] at hs
      intro v
      rw [hW]
      refine ⟨fun hv => ⟨n, hv⟩, ?_⟩
      rintro ⟨k, hk⟩
      rcases hold with ⟨rfl, rfl⟩ | ⟨m, rfl, hm⟩
      · refine AttrN.stable (n := 0) ?_ k hk
        rintro w (hw | ⟨u, hu, _⟩)
        · exact hw
        · exact absurd ((hs u).1 ((hW u).2 hu)) (by simp)
      · refine AttrN.mono (Nat.le_succ m) (AttrN.stable (n := m) ?_ k hk)
        intro w hw
        exact (hm w).1 ((hs w).1 ((hW w).2 hw))
    · refine ih (n + 1) ?_ (Or.inr ⟨n, rfl, hW⟩) h
      intro v
      rw [List.mem_append, hW, mem_ctrlNext hg]
      simp only [AttrN, hW]

/-- The loop ends: the set grows at each iteration but the last, and it is a subset of the nodes. -/
theorem attractorLoop_total {g : Game α} {player : Nat} (fuel : Nat) {W old : List α}
    (hW : W ⊆ g.nodes) (hsub : old ⊆ W)
    (hf : g.nodes.dedup.length + 1 ≤ fuel + old.dedup.length) :
    ∃ A, attractorLoop g player fuel W old = some A := by
  induction fuel generalizing W old with
  | zero =>
    exfalso
    have : old.dedup.length ≤ g.nodes.dedup.length := by
      refine ((List.nodup_dedup old).subperm ?_).length_le
      intro x hx
      exact List.mem_dedup.2 (hW (hsub (List.mem_dedup.1 hx)))
    omega
  | succ fuel ih =>
    unfold attractorLoop
    split
    · exact ⟨W, rfl⟩
    · rename_i hs
      refine ih ?_ (by intro x hx; simp [hx]) ?_
      · intro x hx
        rcases List.mem_append.1 hx with hx | hx
        · exact hW hx
        · exact ctrlNext_nodes player W hx
      · have hlt : old.dedup.length < W.dedup.length := by
          have hsp : List.Subperm old.dedup W.dedup := by
            refine (List.nodup_dedup old).subperm ?_
            intro x hx
            exact List.mem_dedup.2 (hsub (List.mem_dedup.1 hx))
          rcases Nat.lt_or_ge old.dedup.length W.dedup.length with h | h
          · exact h
          · exfalso
            have hp := hsp.perm_of_length_le h
            apply hs
            rw [sameSet_iff]
            intro x
            rw [← List.mem_dedup, ← hp.mem_iff, List.mem_dedup]
        omega

/-- **C64.** The attractor loop ends within as many steps as there are nodes, and whatever number of
iterations it is given, if it ends then it returns the least set that contains the target and is closed
under the predecessor step. -/
theorem attractor_spec {g : Game α} (hg : g.Wf) (player : Nat) {W : List α} (hW : W ⊆ g.nodes) :
    (∃ A, attractor g player (g.nodes.length + 1) W = some A) ∧
    ∀ fuel A, attractor g player fuel W = some A →
      W ⊆ A ∧ ctrlNext g player A ⊆ A ∧
      ∀ B : List α, W ⊆ B → ctrlNext g player B ⊆ B → A ⊆ B := by
  refine ⟨attractorLoop_total _ hW (by simp) ?_, ?_⟩
  · rw [hg.nodup.dedup]; simp
  · intro fuel A hA
    have hm := attractorLoop_ok hg fuel 0 (W0 := W) (by intro v; rfl) (Or.inl ⟨rfl, rfl⟩) hA
    refine ⟨fun v hv => (hm v).2 ⟨0, hv⟩, ?_, ?_⟩
    · intro v hv
      obtain ⟨u, hu, hc⟩ := (mem_ctrlNext hg player A v).1 hv
      obtain ⟨k, hk⟩ := (hm u).1 hu
      exact (hm v).2 ⟨k + 1, Or.inr ⟨u, hk, hc⟩⟩
    · intro B hB hcl v hv
      obtain ⟨k, hk⟩ := (hm v).1 hv
      clear hv
      induction k generalizing v with
      | zero => exact hB hk
      | succ k ih =>
        rcases hk with hk | ⟨u, hu, hc⟩
        · exact ih hk
        · exact hcl ((mem_ctrlNext hg player B v).2 ⟨u, ih hu, hc⟩)

/-! ### What the attractor means for plays -/

theorem IsPlay.shift {g : Game α} {v : α} {π : Nat → α} (h : IsPlay g v π) :
    IsPlay g (π 1) fun n => π (n + 1) := ⟨rfl, fun n => h.moves (n + 1)⟩

open Classical in
/-- The strategy: move closer to the target; where that is impossible, along any edge. -/
noncomputable def closer (g : Game α) (player : Nat) (W : List α) (v : α) : α :=
  if h : ∃ n u, AttrN g player W n u ∧ g.edge v u = true then
    Classical.choose (Nat.find_spec h)
  else if h : ∃ u, g.edge v u = true then Classical.choose h
  else v

open Classical in
theorem closer_spec {g : Game α} {player : Nat} {W : List α} {v u : α} {n : Nat}
    (hu : AttrN g player W n u) (he : g.edge v u = true) :
    AttrN g player W n (closer g player W v) := by
  have h : ∃ n u, AttrN g player W n u ∧ g.edge v u = true := ⟨n, u, hu, he⟩
  have hs := Classical.choose_spec (Nat.find_spec h)
  unfold closer
  rw [dif_pos h]
  exact AttrN.mono (Nat.find_min' h ⟨u, hu, he⟩) hs.1

open Classical in
theorem closer_legal {g : Game α} {player : Nat} {W : List α} {v : α}
    (h : ∃ u, g.edge v u = true) : g.edge v (closer g player W v) = true := by
  unfold closer
  split
  · rename_i h'
    exact (Classical.choose_spec (Nat.find_spec h')).2
  · exact Classical.choose_spec h

/-- No node is a dead end, in terms of edges. -/
theorem no_deadends {g : Game α} (hg : g.Wf) :
    hasDeadends g = false ↔ ∀ v ∈ g.nodes, ∃ u, g.edge v u = true := by
  simp only [hasDeadends, List.any_eq_false, List.isEmpty_iff]
  constructor
  · intro h v hv
    obtain ⟨u, hu⟩ := List.exists_mem_of_ne_nil _ (h v hv)
    exact ⟨u, (mem_succs hg).1 hu⟩
  · intro h v hv he
    obtain ⟨u, hu⟩ := h v hv
    have := (mem_succs hg).2 hu
    rw [he] at this
    simp at this

theorem closer_reaches {g : Game α} {player : Nat} {W : List α} (n : Nat) {v : α}
    (hv : AttrN g player W n v) {π : Nat → α} (hp : IsPlay g v π)
    (hf : Follows g player (closer g player W) π) : ∃ k, k ≤ n ∧ π k ∈ W := by
  induction n generalizing v π with
  | zero => exact ⟨0, Nat.le_refl 0, hp.start ▸ hv⟩
  | succ n ih =>
    rcases hv with hv | ⟨u, hu, hc⟩
    · obtain ⟨k, hk, h⟩ := ih hv hp hf
      exact ⟨k, by omega, h⟩
    · have hnext : AttrN g player W n (π 1) := by
        rcases hc with ⟨ho, he⟩ | ho
        · have := hf 0 (by rw [hp.start]; exact ho)
          rw [show (0 + 1) = 1 from rfl] at this
          rw [this, hp.start]
          exact closer_spec hu he
        · have := hp.moves 0
          rw [hp.start, ho] at this
          rw [show (0 + 1) = 1 from rfl] at this
          rw [this]; exact hu
      obtain ⟨k, hk, h⟩ := ih hnext hp.shift (fun m hm => hf (m + 1) hm)
      exact ⟨k + 1, by omega, h⟩

/-- **C64.** From every node of the computed attractor, the player can force a visit of the target. -/
theorem attractor_sound {g : Game α} (hg : g.Wf) (hd : hasDeadends g = false) {player fuel : Nat}
    {W A : List α} (h : attractor g player fuel W = some A) {v : α} (hv : v ∈ A) :
    Forces g player W v := by
  have hm := attractorLoop_ok hg fuel 0 (W0 := W) (by intro v; rfl) (Or.inl ⟨rfl, rfl⟩) h
  obtain ⟨k, hk⟩ := (hm v).1 hv
  refine ⟨closer g player W, fun u hu _ => closer_legal ((no_deadends hg).1 hd u hu), ?_⟩
  intro π hp hf
  obtain ⟨n, _, hn⟩ := closer_reaches k hk hp hf
  exact ⟨n, hn⟩

open Classical in
/-- A play in which every node moves along some edge, and the player along the strategy. -/
noncomputable def somePlay (g : Game α) (player : Nat) (σ : α → α) (v : α) : Nat → α
  | 0 => v
  | n + 1 =>
    let u := somePlay g player σ v n
    if g.player u = player then σ u
    else if h : ∃ w, g.edge u w = true then Classical.choose h else u

theorem somePlay_spec {g : Game α} (hg : g.Wf) (hd : hasDeadends g = false) {player : Nat}
    {σ : α → α} (hl : Legal g player σ) {v : α} (hv : v ∈ g.nodes) :
    IsPlay g v (somePlay g player σ v) ∧ Follows g player σ (somePlay g player σ v) := by
  have hmove : ∀ n, somePlay g player σ v n ∈ g.nodes →
      g.edge (somePlay g player σ v n) (somePlay g player σ v (n + 1)) = true := by
    intro n hn
    simp only [somePlay]
    split
    · rename_i h; exact hl _ hn h
    · have h := (no_deadends hg).1 hd _ hn
      rw [dif_pos h]
      exact Classical.choose_spec h
  have hin : ∀ n, somePlay g player σ v n ∈ g.nodes := by
    intro n
    induction n with
    | zero => exact hv
    | succ n ih => exact (hg.closed _ _ (hmove n ih)).2
  refine ⟨⟨rfl, fun n => hmove n (hin n)⟩, ?_⟩
  intro n hn
  simp only [somePlay]
  rw [if_pos hn]

/-- **C64.** If the nodes of the opponent have one successor each, then the computed attractor is exactly
the set of nodes from which the player can force a visit of the target. -/
theorem attractor_exact {g : Game α} (hg : g.Wf) (hd : hasDeadends g = false) {player fuel : Nat}
    (hone : ∀ v ∈ g.nodes, g.player v ≠ player → ∃ u, OnlySucc g v u)
    {W A : List α} (h : attractor g player fuel W = some A) {v : α} (hv : v ∈ g.nodes) :
    v ∈ A ↔ Forces g player W v := by
  refine ⟨attractor_sound hg hd h, ?_⟩
  rintro ⟨σ, hl, hσ⟩
  obtain ⟨hp, hf⟩ := somePlay_spec hg hd hl hv
  obtain ⟨n, hn⟩ := hσ _ hp hf
  have hm := attractorLoop_ok hg fuel 0 (W0 := W) (by intro v; rfl) (Or.inl ⟨rfl, rfl⟩) h
  rw [hm]
  clear hf
  generalize somePlay g player σ v = π at hp hn
  clear hσ
  induction n generalizing v π with
  | zero => exact ⟨0, hp.start ▸ hn⟩
  | succ n ih =>
    have he := hp.moves 0
    rw [hp.start] at he
    obtain ⟨k, hk⟩ := ih (hg.closed _ _ he).2 (fun n => π (n + 1)) hp.shift hn
    refine ⟨k + 1, Or.inr ⟨π 1, hk, ?_⟩⟩
    by_cases ho : g.player v = player
    · exact Or.inl ⟨ho, he⟩
    · obtain ⟨u, hu⟩ := hone v hv ho
      have := (hu (π 1)).1 he
      exact Or.inr (this ▸ hu)

/-! ### Other queries of the game graph -/

/-- The states and edges of a player. -/
theorem playerStates_spec (g : Game α) (n : Nat) (v u : α) :
    (v ∈ playerStates g n ↔ v ∈ g.nodes ∧ g.player v = n) ∧
    (v ∈ g.nodes → (edgeControlledBy g (v, u) = n ↔ v ∈ playerStates g n)) := by
  simp only [playerStates, edgeControlledBy, List.mem_filter, beq_iff_eq, @eq_comm _ n]
  exact ⟨trivial, fun h => by simp [h]⟩

theorem maxBy_fold (key : α → Int) (l : List α) (v : α) :
    let m := l.foldl (fun m u => if key u > key m then u else m) v
    (m = v ∨ m ∈ l) ∧ key v ≤ key m ∧ ∀ u ∈ l, key u ≤ key m := by
  induction l generalizing v with
  | nil => simp
  | cons w l ih =>
    simp only [List.foldl_cons]
    by_cases hw : key w > key v
    · simp only [hw, if_true]
      obtain ⟨h1, h2, h3⟩ := ih w
      refine ⟨Or.inr (by rcases h1 with h | h <;> simp [h]), by omega, ?_⟩
      intro u hu
      rcases List.mem_cons.1 hu with rfl | hu
      · exact h2
      · exact h3 u hu
    · simp only [hw, if_false]
      obtain ⟨h1, h2, h3⟩ := ih v
      refine ⟨by rcases h1 with h | h <;> simp [h], h2, ?_⟩
      intro u hu
      rcases List.mem_cons.1 hu with rfl | hu
      · omega
      · exact h3 u hu

/-- `max_color` returns a node of maximal color, and the default exactly in absence of nodes. -/
theorem maxColor_spec (g : Game α) :
    (maxColor g = none ↔ g.nodes = []) ∧
    ∀ v, maxColor g = some v → v ∈ g.nodes ∧ ∀ u ∈ g.nodes, g.color u ≤ g.color v := by
  unfold maxColor maxBy
  cases hn : g.nodes with
  | nil => simp
  | cons w l =>
    refine ⟨by simp, ?_⟩
    intro v hv
    obtain ⟨h1, h2, h3⟩ := maxBy_fold g.color l w
    cases hv
    refine ⟨by rcases h1 with h | h <;> simp [h], ?_⟩
    intro u hu
    rcases List.mem_cons.1 hu with rfl | hu
    · exact h2
    · exact h3 u hu

/-! ### Examples and counterexamples -/

/-- The game of `_main` in `contrib/parity_games/solve_parity_game.py:91-103`. -/
def mainGame : Game String where
  nodes := ["p0", "p1", "p2"]
  player v := if v = "p0" then 0 else 1
  color v := if v = "p1" then 0 else 1
  edge u v := [("p0", "p1"), ("p1", "p0"), ("p0", "p2"), ("p2", "p2")].contains (u, v)

theorem mainGame_wf : mainGame.Wf where
  nodup := by decide +kernel
  closed := by
    intro u v h
    simp only [mainGame, List.contains_iff_mem] at h ⊢
    revert h
    simp only [List.mem_cons, Prod.mk.injEq, List.not_mem_nil, or_false]
    rintro (⟨rfl, rfl⟩ | ⟨rfl, rfl⟩ | ⟨rfl, rfl⟩ | ⟨rfl, rfl⟩) <;> simp

/-- The hypotheses of the theorems are met: the attractor of `p2` for player 0 is everything. -/
example : hasDeadends mainGame = false ∧
    (attractor mainGame 0 4 ["p2"]).map List.dedup = some ["p1", "p0", "p2"] := by
  decide +kernel

example : ∀ v ∈ mainGame.nodes, mainGame.player v ≠ 0 → ∃ u, OnlySucc mainGame v u := by
  intro v hv hp
  simp only [mainGame, List.mem_cons, List.not_mem_nil, or_false] at hv
  rcases hv with rfl | rfl | rfl
  · simp [mainGame] at hp
  · exact ⟨"p0", fun u' => by simp [mainGame]⟩
  · exact ⟨"p2", fun u' => by simp [mainGame]⟩

/-- A node of the opponent with two successors, both in the target. -/
def forkGame : Game Nat where
  nodes := [0, 1, 2]
  player v := if v = 0 then 1 else 0
  color _ := 0
  edge u v := [(0, 1), (0, 2), (1, 1), (2, 2)].contains (u, v)

/-- The attractor misses nodes from which the player wins: the opponent at node 0 can only move to 1 or 2,
which are both in the target, and yet 0 is not in the computed attractor. -/
theorem attractor_counterexample :
    attractor forkGame 0 4 [1, 2] = some [1, 2, 1, 2] ∧ Forces forkGame 0 [1, 2] 0 := by
  refine ⟨by decide +kernel, fun v => v, ?_, ?_⟩
  · intro v hv hp
    simp only [forkGame, List.mem_cons, List.not_mem_nil, or_false] at hv
    rcases hv with rfl | rfl | rfl
    · simp [forkGame] at hp
    · rfl
    · rfl
  · intro π hp _
    have h := hp.moves 0
    rw [hp.start] at h
    refine ⟨1, ?_⟩
    simp only [forkGame, List.contains_iff_mem, List.mem_cons, Prod.mk.injEq, List.not_mem_nil,
      or_false, Nat.zero_add] at h
    simp only [List.mem_cons, List.not_mem_nil, or_false]
    omega

/-- `max_color` returns a node and not its color: the color of the returned node, 7, is not the value. -/
theorem maxColor_counterexample :
    maxColor { forkGame with color := fun v => if v = 2 then 7 else 0 } = some 2 := by decide +kernel

/-- **C64.** `McNaughton` raises an exception for a game with sinks, and a `TypeError` for every other game whose nodes
are no numbers; without nodes it returns empty sets. -/
theorem mcNaughton_raises (num : α → Option Int) (g : Game α) (fuel : Nat) :
    ((∃ v ∈ g.nodes, ∀ u ∈ g.nodes, g.edge v u = false) → mcNaughton num (fuel + 1) g = .error .exception) ∧
    ((∀ v ∈ g.nodes, ∃ u ∈ g.nodes, g.edge v u = true) → g.nodes ≠ [] → (∀ v ∈ g.nodes, num v = none) →
      mcNaughton num (fuel + 1) g = .error .typeError) ∧
    (g.nodes = [] → mcNaughton num (fuel + 1) g = .ok (some ([], []))) := by
  refine ⟨?_, ?_, ?_⟩
  · rintro ⟨v, hv, hs⟩
    have : hasDeadends g = true := by
      rw [hasDeadends, List.any_eq_true]
      refine ⟨v, hv, ?_⟩
      rw [List.isEmpty_iff, Game.succs, List.filter_eq_nil_iff]
      intro u hu
      simp [hs u hu]
    simp [mcNaughton, this]
  · intro hs hne hn
    have hd : hasDeadends g = false := by
      rw [hasDeadends, List.any_eq_false]
      intro v hv
      obtain ⟨u, hu, he⟩ := hs v hv
      rw [List.isEmpty_iff, Game.succs, List.filter_eq_nil_iff]
      intro h
      exact h u hu he
    obtain ⟨v, hv⟩ : ∃ v, maxColor g = some v := by
      unfold maxColor maxBy
      cases h : g.nodes with
      | nil => exact absurd h hne
      | cons a l => exact ⟨_, rfl⟩
    have hm : v ∈ g.nodes := ((maxColor_spec g).2 v hv).1
    simp [mcNaughton, hd, hv, hn v hm]
  · intro h
    simp [mcNaughton, hasDeadends, maxColor, maxBy, h]

theorem attractorLoop_nodes {g : Game α} {player : Nat} (fuel : Nat) {W old A : List α} (hW : W ⊆ g.nodes)
    (h : attractorLoop g player fuel W old = some A) : W ⊆ A ∧ A ⊆ g.nodes := by
  induction fuel generalizing W old with
  | zero => cases h
  | succ k ih =>
    rw [attractorLoop] at h
    split at h
    · cases h
      exact ⟨fun _ h => h, hW⟩
    · obtain ⟨h1, h2⟩ := ih (List.append_subset.2 ⟨hW, ctrlNext_nodes player W⟩) h
      exact ⟨fun v hv => h1 (List.mem_append_left _ hv), h2⟩

/-- The two sets have exactly the given elements, each in one of them. -/
def Splits (w : List α × List α) (l : List α) : Prop :=
  (∀ v, v ∈ l ↔ v ∈ w.1 ∨ v ∈ w.2) ∧ ∀ v, ¬ (v ∈ w.1 ∧ v ∈ w.2)

theorem mcLoop_splits {rec : Game α → Except PyErr (Option (List α × List α))} {c : Int} {sigma : Nat}
    (hrec : ∀ g w, rec g = .ok (some w) → Splits w g.nodes) (fuel : Nat) {p : Game α} {W l : List α}
    {w : List α × List α} (hl : Splits (p.nodes, W) l) (h : mcLoop rec c sigma fuel p W = .ok (some w)) :
    Splits w l := by
  induction fuel generalizing p W with
  | zero => cases h
  | succ k ih =>
    rw [mcLoop] at h
    cases ha : attractor p sigma k (p.nodes.filter fun v => p.color v == c) with
    | none => simp [ha] at h
    | some a =>
      simp only [ha] at h
      cases hr : rec (p.without a) with
      | error e => simp [hr, error_bind] at h
      | ok o =>
        simp only [hr, ok_bind] at h
        cases o with
        | none => simp at h
        | some w' =>
          simp only at h
          by_cases ho : (if sigma = 0 then w'.2 else w'.1).isEmpty = true
          · rw [if_pos ho] at h
            cases h
            have hm : ∀ v, v ∈ p.nodes.filter (fun v => !W.contains v) ↔ v ∈ p.nodes := by
              intro v
              simp only [List.mem_filter, List.contains_eq_mem, Bool.not_eq_true', decide_eq_false_iff_not]
              exact ⟨fun h => h.1, fun h => ⟨h, fun hw => hl.2 v ⟨h, hw⟩⟩⟩
            split
            · exact ⟨fun v => by rw [hl.1 v]; simp only [hm], fun v => by simpa only [hm] using hl.2 v⟩
            · exact ⟨fun v => by rw [hl.1 v]; simp only [hm]; exact or_comm,
                fun v => by simp only [hm]; exact fun h => hl.2 v ⟨h.2, h.1⟩⟩
          · rw [if_neg ho] at h
            cases hb : attractor p (1 - sigma) k (if sigma = 0 then w'.2 else w'.1) with
            | none => simp [hb] at h
            | some b =>
              simp only [hb] at h
              have hs := hrec _ _ hr
              have hsub : (if sigma = 0 then w'.2 else w'.1) ⊆ p.nodes := by
                intro v hv
                have : v ∈ (p.without a).nodes := by
                  rw [hs.1 v]
                  split at hv
                  · exact Or.inr hv
                  · exact Or.inl hv
                exact (List.mem_filter.1 this).1
              have hbn := (attractorLoop_nodes k hsub hb).2
              refine ih ⟨fun v => ?_, fun v => ?_⟩ h
              · rw [hl.1 v]
                simp only [Game.without, List.mem_filter, List.mem_append, List.contains_eq_mem, Bool.not_eq_true',
                  decide_eq_false_iff_not]
                by_cases hvb : v ∈ b
                · simp [hvb, hbn hvb]
                · simp [hvb]
              · simp only [Game.without, List.mem_filter, List.mem_append, List.contains_eq_mem, Bool.not_eq_true',
                  decide_eq_false_iff_not]
                rintro ⟨⟨h1, h2⟩, h3 | h3⟩
                · exact hl.2 v ⟨h1, h3⟩
                · exact h2 h3

/-- **C64.** Whatever `McNaughton` returns, each node of the game is in exactly one of the two sets, and nothing else is
in them. -/
theorem mcNaughton_splits (num : α → Option Int) (fuel : Nat) {g : Game α} {w : List α × List α}
    (h : mcNaughton num fuel g = .ok (some w)) :
    (∀ v, v ∈ g.nodes ↔ v ∈ w.1 ∨ v ∈ w.2) ∧ ∀ v, ¬ (v ∈ w.1 ∧ v ∈ w.2) := by
  induction fuel generalizing g w with
  | zero => cases h
  | succ k ih =>
    rw [mcNaughton] at h
    split at h
    · cases h
    · split at h
      · rename_i hm
        cases h
        simp [(maxColor_spec g).1.1 hm]
      · split at h
        · cases h
        · split at h
          · cases h
            simp
          · exact mcLoop_splits (fun g w h => ih h) k (l := g.nodes) ⟨by simp, by simp⟩ h

/-- **C64.** If the node with the highest color is a nonzero integer that is the color of no node, then `McNaughton` calls
itself with the same game without end. -/
theorem mcNaughton_diverges (num : α → Option Int) {g : Game α} {v : α} {c : Int}
    (hs : ∀ v ∈ g.nodes, ∃ u ∈ g.nodes, g.edge v u = true) (hv : v ∈ g.nodes)
    (hmax : ∀ u ∈ g.nodes, u ≠ v → g.color u < g.color v) (hc : num v = some c) (h0 : c ≠ 0)
    (hcol : ∀ u ∈ g.nodes, g.color u ≠ c) (fuel : Nat) : mcNaughton num fuel g = .ok none := by
  have hd : hasDeadends g = false := by
    rw [hasDeadends, List.any_eq_false]
    intro v hv
    obtain ⟨u, hu, he⟩ := hs v hv
    rw [List.isEmpty_iff, Game.succs, List.filter_eq_nil_iff]
    intro h
    exact h u hu he
  have hm : maxColor g = some v := by
    cases hm : maxColor g with
    | none => rw [(maxColor_spec g).1.1 hm] at hv; cases hv
    | some u =>
      obtain ⟨h1, h2⟩ := (maxColor_spec g).2 u hm
      by_cases hne : u = v
      · rw [hne]
      · exact absurd (h2 v hv) (Int.not_le.2 (hmax u h1 hne))
  have hw : g.without [] = g := by
    obtain ⟨n, p, c, e⟩ := g
    simp [Game.without]
  have hf : (g.nodes.filter fun v => g.color v == c) = [] := by
    rw [List.filter_eq_nil_iff]
    intro u hu
    simpa using hcol u hu
  induction fuel with
  | zero => rfl
  | succ k ih =>
    simp only [mcNaughton, hd, hm, hc, h0, if_false, Bool.false_eq_true]
    cases k with
    | zero => rfl
    | succ k =>
      rw [mcLoop, hf]
      have ha : ∀ s, attractor g s k [] = none ∨ attractor g s k [] = some [] := by
        intro s
        cases k with
        | zero => exact Or.inl rfl
        | succ k => exact Or.inr rfl
      rcases ha (c % 2).toNat with h | h
      · simp [h]
      · simp [h, hw, ih, ok_bind]

/-- One node with an odd color and an edge to itself. -/
def oddGame : Game Nat where
  nodes := [0]
  player _ := 0
  color _ := 1
  edge u v := u == 0 && v == 0

/-- `McNaughton` says that player 0 wins everywhere, although the highest color that occurs in a play is 1. -/
theorem mcNaughton_counterexample :
    (mcNaughton (fun n : Nat => some (n : Int)) 3 oddGame).toOption = some (some ([0], [])) ∧
      IsPlay oddGame 0 (fun _ => 0) ∧ ∀ π : Nat → Nat, IsPlay oddGame 0 π → ∀ i, oddGame.color (π i) = 1 := by
  exact ⟨by decide +kernel, ⟨rfl, fun _ => rfl⟩, fun _ _ _ => rfl⟩

example : mcNaughton (fun _ : String => none) 5 mainGame = .error .typeError := rfl

/-- Two nodes that are their colors, with edges to themselves. -/
def loopsGame : Game Nat where
  nodes := [1, 2]
  player _ := 0
  color v := v
  edge u v := u == v && (u == 1 || u == 2)

example : (mcNaughton (fun n : Nat => some (n : Int)) 9 loopsGame).toOption.map
    (fun w => w.map fun w => (w.1.dedup, w.2.dedup)) = some (some ([2], [1])) := by decide +kernel

/-- The game `loopsGame` with other colors: the node 2 still has the highest one. -/
def colorsGame : Game Nat := { loopsGame with color := fun v => if v = 2 then 7 else 4 }

example (fuel : Nat) : mcNaughton (fun n : Nat => some (n : Int)) fuel colorsGame = .ok none :=
  mcNaughton_diverges (fun n : Nat => some (n : Int)) (g := colorsGame) (v := 2) (c := 2)
    (by decide) (by decide) (by decide) rfl (by decide) (by decide) fuel

end Parity

end Tulip
