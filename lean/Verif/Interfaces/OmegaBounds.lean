import Verif.Interfaces.OmegaProps

/-!
# The care set of the interface to omega

`_int_bounds` of `tulip/interfaces/omega.py`. A decision diagram is the function of valuations that it represents.
-/

namespace Tulip
namespace Omega

open Cache

/-- `_int_bounds` (`tulip/interfaces/omega.py:90-109`): the conjunction, over the variables that are not booleans, of `(p <= var) & (var <= q)`. -/
def intBounds (vars : Dict String OmDom) : (String → Int) → Bool :=
  vars.foldl (fun u e =>
    match e.2 with
    | .bool => u
    | .range p q => fun x => u x && (decide (p ≤ x e.1) && decide (x e.1 ≤ q))) (fun _ => true)

theorem foldl_bounds (x : String → Int) : ∀ (l : Dict String OmDom) (u : (String → Int) → Bool),
    (l.foldl (fun u e =>
      match e.2 with
      | .bool => u
      | .range p q => fun x => u x && (decide (p ≤ x e.1) && decide (x e.1 ≤ q))) u) x = true ↔
    u x = true ∧ ∀ v p q, (v, OmDom.range p q) ∈ l → p ≤ x v ∧ x v ≤ q
  | [], u => by simp
  | (w, .bool) :: l, u => by
    rw [List.foldl_cons, foldl_bounds x l]
    simp
  | (w, .range a b) :: l, u => by
    rw [List.foldl_cons, foldl_bounds x l]
    simp only [Bool.and_eq_true, decide_eq_true_eq, List.mem_cons, Prod.mk.injEq, OmDom.range.injEq, and_assoc]
    refine and_congr_right fun _ => ⟨?_, ?_⟩
    · rintro ⟨h1, h2, h⟩ v p q (⟨rfl, rfl, rfl⟩ | hm)
      · exact ⟨h1, h2⟩
      · exact h v p q hm
    · intro h
      have := h w a b (Or.inl ⟨rfl, rfl, rfl⟩)
      exact ⟨this.1, this.2, fun v p q hm => h v p q (Or.inr hm)⟩

theorem mem_iff_get?_wf : ∀ {d : Dict String OmDom}, d.Wf → ∀ (k : String) (r : OmDom), (k, r) ∈ d ↔ Dict.get? d k = some r
  | [], _, k, r => by simp
  | (w, a) :: d, hw, k, r => by
    have hw' := List.nodup_cons.1 hw
    rw [Dict.get?_cons, List.mem_cons, mem_iff_get?_wf hw'.2]
    by_cases hk : w = k
    · subst hk
      rw [if_pos rfl]
      have hno : Dict.get? d w = none := by
        cases hc : Dict.get? d w with
        | none => rfl
        | some t' => exact absurd ((Dict.mem_keys_iff d w).2 ⟨t', hc⟩) hw'.1
      simp [hno, eq_comm]
    · simp [hk, Ne.symm hk]

/-- A value of an integer variable, or the index of a string, in the domain of a declaration. -/
def InDomain : Dom → Int → Prop
  | .boolean, _ => True
  | .range lo hi, i => lo ≤ i ∧ i ≤ hi
  | .strs l, i => 0 ≤ i ∧ i < l.length

/-- **C85.** The care set of the game has exactly the valuations in which each integer variable has a value in its declared range and
each variable with strings has the index of one of them. -/
theorem intBounds_correct {order : List Part} (horder : ∀ p, p ∈ order) (g0 : GRSpec) {ops : List Op}
    (hops : KeepsVars order (new g0) ops) {st' : Obj} {G : Game}
    (hst : toAutomaton order (run order (new g0) ops) = (st', .ok G))
    (hs : (run order (new g0) ops).spec.sysVars.Wf) (hG : G.vars.Wf) (x : String → Int) :
    intBounds G.vars x = true ↔ ∀ v d, DeclaredAs (run order (new g0) ops).spec v d → InDomain d (x v) := by
  have hr := toAutomaton_ranges horder g0 hops hst hs
  rw [intBounds, foldl_bounds]
  simp only [true_and]
  constructor
  · intro h v d hd
    have hc := convert_spec d
    have hm := (mem_iff_get?_wf hG v _).2 ((hr v _).2 ⟨d, hd, hc⟩)
    cases d with
    | boolean => trivial
    | range lo hi => exact h v lo hi hm
    | strs l =>
      have := h v _ _ hm
      exact ⟨this.1, by have := this.2; omega⟩
  · intro h v p q hm
    obtain ⟨d, hd, hc⟩ := (hr v _).1 ((mem_iff_get?_wf hG v _).1 hm)
    have := h v d hd
    cases hc with
    | int => exact this
    | strs e => exact ⟨this.1, by have := this.2; omega⟩

/-- The care set of the game of the example of C85: the index of `loc` is 0 or 1, and `n` is between 0 and 3. -/
example : ∃ G, (toAutomaton parts (run parts (new garage) used)).2 = .ok G ∧ G.vars.Wf ∧
    intBounds G.vars (fun v => if v = "loc" then 1 else 3) = true ∧ intBounds G.vars (fun v => if v = "loc" then 2 else 3) = false := by
  cases h : (toAutomaton parts (run parts (new garage) used)).2 with
  | error e => exact absurd h (by have : (toAutomaton parts (run parts (new garage) used)).2.toOption.isSome = true := by decide +kernel
                                  intro h; rw [h] at this; cases this)
  | ok G =>
    have hv : ((toAutomaton parts (run parts (new garage) used)).2.toOption.map (·.vars)) =
        some [("park", .bool), ("loc", .range 0 1), ("n", .range 0 3)] := by decide +kernel
    rw [h] at hv
    have hv : G.vars = _ := Option.some.inj hv
    exact ⟨G, rfl, by rw [hv]; simp [Dict.Wf, Dict.keys], by rw [hv]; decide, by rw [hv]; decide⟩

end Omega
end Tulip
