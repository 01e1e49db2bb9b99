import Verif.Gridworld.Animate
import Verif.Spec.ParserLemmas
import Mathlib.Tactic.Linarith
import Mathlib.Tactic.Ring
import Mathlib.Tactic.NormNum
import Mathlib.Algebra.Order.Ring.Abs
import Mathlib.Algebra.Order.Field.Rat

/-!
# What `animate_paths` shows and writes
-/

namespace Tulip
namespace Gw
namespace Anim

/-! ## Specification -/

/-- The point `p` shows the cell in row `k.1` and column `k.2`, up to the jitter. -/
def Near (jitter : Rat) (k : Int × Int) (p : Pt) : Prop := |p.1 - k.2| ≤ |jitter| / 2 ∧ |p.2 - k.1| ≤ |jitter| / 2

/-- At time `t` the marker of each path is at the cell `path[t]`, and its trail goes through the cells `path[0]`, …,
`path[t]`. -/
def ShowsTime (jitter : Rat) (paths : List (List (Int × Int))) (t : Nat) (f : Frame) : Prop :=
  List.Forall₂ (fun (path : List (Int × Int)) (l : Pt × List Pt) =>
    (∃ k, path[t]? = some k ∧ Near jitter k l.1) ∧ List.Forall₂ (Near jitter) (path.take (t + 1)) l.2) paths f.lines

/-- The random numbers are between zero and one. -/
def RandOk (rand : Nat → Nat → Nat → Rat) : Prop := ∀ n a k, 0 ≤ rand n a k ∧ rand n a k ≤ 1

/-! ## Proofs -/

theorem near_shake {jitter r s : Rat} (hr : 0 ≤ r ∧ r ≤ 1) (hs : 0 ≤ s ∧ s ≤ 1) (k : Int × Int) :
    Near jitter k (k.2 + jitter * (r - 1 / 2), k.1 + jitter * (s - 1 / 2)) := by
  have key : ∀ (a x : Rat), (0 ≤ x ∧ x ≤ 1) → |a + jitter * (x - 1 / 2) - a| ≤ |jitter| / 2 := by
    intro a x hx
    rw [show a + jitter * (x - 1 / 2) - a = jitter * (x - 1 / 2) by ring, abs_mul]
    have : |x - 1 / 2| ≤ 1 / 2 := by rw [abs_le]; constructor <;> linarith [hx.1, hx.2]
    have h := mul_le_mul_of_nonneg_left this (abs_nonneg jitter)
    linarith
  exact ⟨key _ _ hr, key _ _ hs⟩

theorem shake_near {jitter : Rat} {rand : Nat → Nat → Nat → Rat} (hr : RandOk rand) (n : Nat) (path : List (Int × Int)) :
    List.Forall₂ (Near jitter) path (shake jitter rand n path) := by
  have key : ∀ (l : List (Int × Int)) (i : Nat), List.Forall₂ (Near jitter) l ((l.zipIdx i).map fun p =>
      (((p.1.2 : Rat) + jitter * (rand n 0 p.2 - 1 / 2), (p.1.1 : Rat) + jitter * (rand n 1 p.2 - 1 / 2)) : Pt)) := by
    intro l
    induction l with
    | nil => intro i; exact .nil
    | cons k l ih => intro i; exact .cons (near_shake (hr _ _ _) (hr _ _ _) k) (ih (i + 1))
  exact key path 0

theorem data_ok {jitter : Rat} {rand : Nat → Nat → Nat → Rat} (hr : RandOk rand) : ∀ (ps : List (List (Int × Int))) (n : Nat),
    n + ps.length ≤ 7 → ∃ ds, data jitter rand n ps = .ok ds ∧ List.Forall₂ (fun p d => List.Forall₂ (Near jitter) p d) ps ds
  | [], _, _ => ⟨[], rfl, .nil⟩
  | p :: ps, n, h => by
    simp only [List.length_cons] at h
    obtain ⟨ds, hd, hf⟩ := data_ok hr ps (n + 1) (by omega)
    refine ⟨shake jitter rand n p :: ds, ?_, .cons (shake_near hr n p) hf⟩
    unfold data
    rw [if_neg (by omega), hd, ok_bind]

theorem data_many (jitter : Rat) (rand : Nat → Nat → Nat → Rat) : ∀ (ps : List (List (Int × Int))) (n : Nat),
    n ≤ 7 → 7 < n + ps.length → data jitter rand n ps = .error .indexError
  | [], n, h0, h => by simp at h; omega
  | p :: ps, n, h0, h => by
    unfold data
    split
    · rfl
    · rw [data_many jitter rand ps (n + 1) (by omega) (by simp only [List.length_cons] at h; omega)]; rfl

theorem forall₂_get {α β : Type} {R : α → β → Prop} : ∀ {l : List α} {ys : List β}, List.Forall₂ R l ys →
    ∀ {i : Nat} {x : α}, l[i]? = some x → ∃ y, ys[i]? = some y ∧ R x y
  | _, _, .nil, i, x, h => by simp at h
  | _, _, .cons hr hf, 0, x, h => by simp at h; subst h; exact ⟨_, rfl, hr⟩
  | _, _, .cons hr hf, i + 1, x, h => forall₂_get hf (i := i) (by simpa using h)

theorem forall₂_take {α β : Type} {R : α → β → Prop} : ∀ {l : List α} {ys : List β} (n : Nat), List.Forall₂ R l ys →
    List.Forall₂ R (l.take n) (ys.take n)
  | _, _, 0, _ => by simp
  | _, _, _ + 1, .nil => by simp
  | _, _, n + 1, .cons hr hf => .cons hr (forall₂_take n hf)

theorem linesAt_ok {jitter : Rat} {t : Nat} : ∀ {ps : List (List (Int × Int))} {ds : List (List Pt)},
    List.Forall₂ (fun p d => List.Forall₂ (Near jitter) p d) ps ds → (∀ p ∈ ps, t < p.length) →
    ∃ ls, linesAt t ds = .ok ls ∧ ∀ w, ShowsTime jitter ps t ⟨w, ls⟩
  | _, _, .nil, _ => ⟨[], rfl, fun _ => .nil⟩
  | _, _, .cons (a := p) (b := d) h hf, hl => by
    obtain ⟨ls, e, hs⟩ := linesAt_ok hf fun q hq => hl q (.tail _ hq)
    have hp := hl p (.head _)
    obtain ⟨x, hx, hn⟩ := forall₂_get h (List.getElem?_eq_getElem hp)
    refine ⟨(x, d.take (t + 1)) :: ls, ?_, fun w => ?_⟩
    · unfold linesAt
      rw [hx]
      dsimp only
      rw [e, ok_bind]
    · exact .cons ⟨⟨_, List.getElem?_eq_getElem hp, hn⟩, forall₂_take _ h⟩ (hs w)

theorem frames_ok {jitter : Rat} {ps : List (List (Int × Int))} {ds : List (List Pt)} (w : Bool)
    (h : List.Forall₂ (fun p d => List.Forall₂ (Near jitter) p d) ps ds) : ∀ ns : List Nat,
    (∀ n ∈ ns, ∀ p ∈ ps, n < p.length) →
    ∃ fs, frames w ds ns = .ok fs ∧ List.Forall₂ (fun t f => ShowsTime jitter ps t f ∧ f.world = w) ns fs
  | [], _ => ⟨[], rfl, .nil⟩
  | n :: ns, hl => by
    obtain ⟨ls, e, hs⟩ := linesAt_ok h (hl n (.head _))
    obtain ⟨fs, e', hf⟩ := frames_ok w h ns fun m hm => hl m (.tail _ hm)
    refine ⟨⟨w, ls⟩ :: fs, ?_, .cons ⟨hs w, rfl⟩ hf⟩
    unfold frames
    rw [e, ok_bind, e', ok_bind]

/-- **The animation**: one frame for each position of the first path, with the world drawn and each robot at its position. -/
theorem animate_shows {jitter : Rat} {rand : Nat → Nat → Nat → Rat} (hr : RandOk rand) {p : List (Int × Int)}
    {ps : List (List (Int × Int))} (hn : (p :: ps).length ≤ 7) (hl : ∀ q ∈ ps, p.length ≤ q.length) :
    ∃ fs, animate jitter rand (p :: ps) none = .ok (.animation fs) ∧ fs.length = p.length ∧
      ∀ t f, fs[t]? = some f → ShowsTime jitter (p :: ps) t f ∧ f.world = true := by
  obtain ⟨ds, hd, hf⟩ := data_ok (jitter := jitter) hr (p :: ps) 0 (by simpa using hn)
  obtain ⟨fs, he, hfs⟩ := frames_ok true hf (List.range p.length) (by
    intro n hn q hq
    have := List.mem_range.1 hn
    rcases List.mem_cons.1 hq with rfl | hq
    · exact this
    · exact lt_of_lt_of_le this (hl q hq))
  refine ⟨fs, ?_, ?_, ?_⟩
  · unfold animate
    dsimp only
    rw [hd, ok_bind, he, ok_bind]
  · rw [← hfs.length_eq]; simp
  · intro t f ht
    have hlen := hfs.length_eq
    have hlt : t < p.length := by
      have := (List.getElem?_eq_some_iff.1 ht).1
      rw [← hlen, List.length_range] at this
      exact this
    obtain ⟨g, hg, h⟩ := forall₂_get hfs (i := t) (x := t) (by simp [hlt])
    rw [ht] at hg
    cases hg
    exact h

/-- **The files**: one for each position of the first path, named by its number, with each robot at its position. The world is
not drawn in any of them. -/
theorem animate_writes {jitter : Rat} {rand : Nat → Nat → Nat → Rat} (hr : RandOk rand) {p : List (Int × Int)}
    {ps : List (List (Int × Int))} (hn : (p :: ps).length ≤ 7) (hl : ∀ q ∈ ps, p.length ≤ q.length) {pre : List Char}
    (hp : pre ≠ []) :
    ∃ fs, animate jitter rand (p :: ps) (some pre) = .ok (.files fs) ∧ fs.length = p.length ∧
      ∀ t name f, fs[t]? = some (name, f) →
        name = frameName pre (p.length - 1) t ∧ ShowsTime jitter (p :: ps) t f ∧ f.world = false := by
  obtain ⟨ds, hd, hf⟩ := data_ok (jitter := jitter) hr (p :: ps) 0 (by simpa using hn)
  obtain ⟨fs, he, hfs⟩ := frames_ok false hf (List.range p.length) (by
    intro n hn q hq
    have := List.mem_range.1 hn
    rcases List.mem_cons.1 hq with rfl | hq
    · exact this
    · exact lt_of_lt_of_le this (hl q hq))
  obtain ⟨c, cs, rfl⟩ := List.exists_cons_of_ne_nil hp
  have hlen := hfs.length_eq
  rw [List.length_range] at hlen
  refine ⟨_, by unfold animate; dsimp only; rw [hd, ok_bind, he, ok_bind], ?_, ?_⟩
  · simp [hlen]
  · intro t name f ht
    rw [List.getElem?_map, List.getElem?_zipIdx] at ht
    cases hg : fs[t]? with
    | none => simp [hg] at ht
    | some g =>
      have hlt : t < p.length := by rw [hlen]; exact (List.getElem?_eq_some_iff.1 hg).1
      obtain ⟨g', hg', h⟩ := forall₂_get hfs (i := t) (x := t) (by simp [hlt])
      rw [hg] at hg'
      cases hg'
      simp [hg] at ht
      exact ⟨ht.1.symm, ht.2 ▸ h⟩

/-- **A path that is shorter than the first one** ends the program with `IndexError`. -/
theorem animate_short {jitter : Rat} {rand : Nat → Nat → Nat → Rat} {p : List (Int × Int)}
    {ps : List (List (Int × Int))} (hl : ∃ q ∈ ps, q.length < p.length) (pre : Option (List Char)) :
    animate jitter rand (p :: ps) pre = .error .indexError := by
  have hshake : ∀ n q, (shake jitter rand n q).length = q.length := by intro n q; simp [shake]
  have hdata : ∀ (l : List (List (Int × Int))) (n : Nat), data jitter rand n l = .error .indexError ∨
      ∃ ds, data jitter rand n l = .ok ds ∧ List.Forall₂ (fun (q : List (Int × Int)) (d : List Pt) => d.length = q.length) l ds := by
    intro l
    induction l with
    | nil => intro n; exact .inr ⟨[], rfl, .nil⟩
    | cons q l ih =>
      intro n
      unfold data
      split
      · exact .inl rfl
      · rcases ih (n + 1) with h | ⟨ds, h, hf⟩
        · rw [h]; exact .inl rfl
        · rw [h]; exact .inr ⟨_, rfl, .cons (hshake n q) hf⟩
  have hframes : ∀ (w : Bool) (ds : List (List Pt)) (m : Nat), (∃ d ∈ ds, d.length = m) → ∀ ns : List Nat, m ∈ ns →
      frames w ds ns = .error .indexError := by
    intro w ds m hd ns
    have hlines : ∀ k, ∀ ds : List (List Pt), linesAt k ds = .error .indexError ∨ ∃ ls, linesAt k ds = .ok ls := by
      intro k ds
      induction ds with
      | nil => exact .inr ⟨[], rfl⟩
      | cons d ds ih =>
        unfold linesAt
        split
        · exact .inl rfl
        · rcases ih with h | ⟨ls, h⟩
          · rw [h]; exact .inl rfl
          · rw [h]; exact .inr ⟨_, rfl⟩
    have hbad : ∀ ds : List (List Pt), (∃ d ∈ ds, d.length = m) → linesAt m ds = .error .indexError := by
      intro ds
      induction ds with
      | nil => rintro ⟨d, h, _⟩; exact absurd h List.not_mem_nil
      | cons e ds ih =>
        rintro ⟨d, h, hd⟩
        unfold linesAt
        split
        · rfl
        · rename_i x hx
          rcases List.mem_cons.1 h with rfl | h
          · rw [List.getElem?_eq_none (by omega)] at hx; cases hx
          · rw [ih ⟨d, h, hd⟩]; rfl
    induction ns with
    | nil => intro h; exact absurd h List.not_mem_nil
    | cons n ns ih =>
      intro h
      unfold frames
      rcases List.mem_cons.1 h with rfl | h
      · rw [hbad ds hd]; rfl
      · rcases hlines n ds with h' | ⟨ls, h'⟩
        · rw [h']; rfl
        · rw [h', ok_bind, ih h]; rfl
  unfold animate
  dsimp only
  rcases hdata (p :: ps) 0 with h | ⟨ds, h, hf⟩
  · rw [h]; rfl
  · rw [h, ok_bind]
    obtain ⟨q, hq, hlt⟩ := hl
    obtain ⟨i, hi⟩ := List.getElem?_of_mem (List.mem_cons_of_mem p hq)
    obtain ⟨d, hd, hdl⟩ := forall₂_get hf hi
    have hex : ∃ d ∈ ds, d.length = q.length := ⟨d, List.mem_of_getElem? hd, hdl⟩
    have hm : q.length ∈ List.range p.length := List.mem_range.2 hlt
    split
    · rw [hframes false ds _ hex _ hm]; rfl
    · rw [hframes true ds _ hex _ hm]; rfl

/-- **More than seven paths** have no color: `IndexError`. -/
theorem animate_many {jitter : Rat} {rand : Nat → Nat → Nat → Rat} {paths : List (List (Int × Int))}
    (h : 7 < paths.length) (pre : Option (List Char)) : animate jitter rand paths pre = .error .indexError := by
  cases paths with
  | nil => rfl
  | cons p ps =>
    unfold animate
    dsimp only
    rw [data_many jitter rand (p :: ps) 0 (by omega) (by simpa using h)]
    rfl

/-! ### Names of files -/

theorem digitsOf_length_mono : ∀ {m n : Nat}, m ≤ n → (digitsOf m).length ≤ (digitsOf n).length := by
  intro m
  induction m using Nat.strongRecOn with
  | _ m ih =>
    intro n h
    rw [digitsOf.eq_def m, digitsOf.eq_def n]
    by_cases h1 : m < 10 <;> by_cases h2 : n < 10
    · simp [h1, h2]
    · simp [h1, h2]
    · omega
    · simp only [h1, h2, if_false, List.length_append, List.length_singleton]
      have := ih (m / 10) (by omega) (n := n / 10) (by omega)
      omega

theorem natOf_foldl (cs : List Char) : ∀ a : Nat,
    cs.foldl (fun a c => 10 * a + (c.toNat - 48)) a = a * 10 ^ cs.length + natOf cs := by
  induction cs with
  | nil => intro a; simp [natOf]
  | cons c cs ih =>
    intro a
    unfold natOf
    rw [List.foldl_cons, ih, List.foldl_cons, ih (10 * 0 + (c.toNat - 48)), List.length_cons, pow_succ]
    ring

theorem natOf_cons (c : Char) (cs : List Char) : natOf (c :: cs) = (c.toNat - 48) * 10 ^ cs.length + natOf cs := by
  unfold natOf
  rw [List.foldl_cons, natOf_foldl]
  simp [natOf]

theorem natOf_zfill (w : Nat) (s : List Char) : natOf (zfill w s) = natOf s := by
  unfold zfill
  induction w - s.length with
  | zero => rfl
  | succ k ih => rw [List.replicate_succ, List.cons_append, natOf_cons, ih]; simp

theorem natOf_lt : ∀ {cs : List Char}, (∀ c ∈ cs, isDig c = true) → natOf cs < 10 ^ cs.length
  | [], _ => by simp [natOf]
  | c :: cs, h => by
    have ih := natOf_lt fun x hx => h x (.tail _ hx)
    have hc := h c (.head _)
    simp only [isDig, Bool.and_eq_true, decide_eq_true_eq] at hc
    rw [natOf_cons, List.length_cons, pow_succ]
    have : (c.toNat - 48) * 10 ^ cs.length ≤ 9 * 10 ^ cs.length := Nat.mul_le_mul_right _ (by omega)
    omega

/-- Numerals of the same length are ordered as the numbers. -/
theorem lex_of_natOf : ∀ {a b : List Char}, (∀ c ∈ a, isDig c = true) → (∀ c ∈ b, isDig c = true) → a.length = b.length →
    natOf a < natOf b → List.Lex (fun c d : Char => c.toNat < d.toNat) a b
  | [], [], _, _, _, h => by simp [natOf] at h
  | [], _ :: _, _, _, h, _ => by simp at h
  | _ :: _, [], _, _, h, _ => by simp at h
  | c :: a, d :: b, ha, hb, hl, h => by
    simp only [List.length_cons, Nat.add_right_cancel_iff] at hl
    rw [natOf_cons, natOf_cons, hl] at h
    have hc := ha c (.head _)
    have hd := hb d (.head _)
    simp only [isDig, Bool.and_eq_true, decide_eq_true_eq] at hc hd
    have la := natOf_lt fun x hx => ha x (.tail _ hx)
    have lb := natOf_lt fun x hx => hb x (.tail _ hx)
    rw [hl] at la
    by_cases h1 : c.toNat < d.toNat
    · exact .rel h1
    · by_cases h2 : c.toNat = d.toNat
      · have : c = d := Char.toNat_inj.1 h2
        subst this
        exact .cons (lex_of_natOf (fun x hx => ha x (.tail _ hx)) (fun x hx => hb x (.tail _ hx)) hl (by omega))
      · exfalso
        have h3 : d.toNat - 48 + 1 ≤ c.toNat - 48 := by omega
        have := Nat.mul_le_mul_right (10 ^ b.length) h3
        rw [Nat.add_mul] at this
        omega

/-- **The names of the files are in the order of the frames**: the files sorted by name are the frames in the order of time; in
particular no file is overwritten. -/
theorem frameName_sorted (pre : List Char) {last s t : Nat} (hst : s < t) (ht : t ≤ last) :
    ∃ a b, frameName pre last s = pre ++ a ++ c!".png" ∧ frameName pre last t = pre ++ b ++ c!".png" ∧
      a.length = b.length ∧ natOf a = s ∧ natOf b = t ∧ List.Lex (fun c d : Char => c.toNat < d.toNat) a b := by
  have hlen : ∀ n, n ≤ last → (zfill (digitsOf last).length (digitsOf n)).length = (digitsOf last).length := by
    intro n hn
    have := digitsOf_length_mono hn
    simp [zfill]; omega
  have hdig : ∀ n, ∀ c ∈ zfill (digitsOf last).length (digitsOf n), isDig c = true := by
    intro n c hc
    unfold zfill at hc
    rcases List.mem_append.1 hc with h | h
    · rw [(List.mem_replicate.1 h).2]; decide
    · exact List.all_eq_true.1 (digitsOf_spec n).1 c h
  have hval : ∀ n, natOf (zfill (digitsOf last).length (digitsOf n)) = n := by
    intro n
    rw [natOf_zfill, (digitsOf_spec n).2.2]
  refine ⟨_, _, rfl, rfl, by rw [hlen s (by omega), hlen t ht], hval s, hval t, ?_⟩
  exact lex_of_natOf (hdig s) (hdig t) (by rw [hlen s (by omega), hlen t ht]) (by rw [hval, hval]; exact hst)

/-! ## A case -/

/-- Two robots; the second path is longer. -/
def pathsEx : List (List (Int × Int)) := [[(0, 0), (0, 1)], [(1, 2), (1, 1), (1, 0)]]

/-- The files that are written. -/
def writtenEx : Except PyErr Result → List (List Char × Frame)
  | .ok (.files fs) => fs
  | _ => []

example : writtenEx (animate 0 (fun _ _ _ => 1 / 3) pathsEx (some c!"run")) =
    [(c!"run0.png", ⟨false, [((0, 0), [(0, 0)]), ((2, 1), [(2, 1)])]⟩),
     (c!"run1.png", ⟨false, [((1, 0), [(0, 0), (1, 0)]), ((1, 1), [(2, 1), (1, 1)])]⟩)] := by
  decide +kernel

example : ∃ fs, animate (1 / 10) (fun _ _ _ => 1 / 3) pathsEx none = .ok (.animation fs) := by
  obtain ⟨fs, h, _⟩ := animate_shows (jitter := 1 / 10) (rand := fun _ _ _ => 1 / 3)
    (by intro n a k; constructor <;> norm_num) (p := [(0, 0), (0, 1)]) (ps := [[(1, 2), (1, 1), (1, 0)]])
    (by decide) (by decide)
  exact ⟨fs, h⟩

example : frameName c!"run" 12 7 = c!"run07.png" := by decide +kernel

end Anim
end Gw
end Tulip
