import Verif.Interfaces.Slugs
import Verif.Interfaces.Gr1cProps

/-!
# The interface to `slugs` (C55)
-/

namespace Tulip

namespace Iface

open Synth

/-! ### Specification -/

/-- A name of a variable: no character `@`. -/
def VarName (s : List Char) : Prop := '@' ∉ s

/-- The value `n` is one of the domain. Bits encode values that are not negative. -/
def InDom (n : Int) : SDom → Prop
  | .boolean => n = 0 ∨ n = 1
  | .range lo hi => 0 ≤ lo ∧ lo ≤ n ∧ n ≤ hi
  | .strs _ => False

/-- Bit `i` of a number. -/
def bitOf (n : Int) (i : Nat) : Int := n / 2 ^ i % 2

/-- The solver's variables for a variable with the value `n`: a Boolean variable is one of them; a variable in a
range has one for each binary digit of the upper bound, and the name of the first one tells the range. -/
def bitsFor (var : List Char) (n : Int) : SDom → List (List Char × Int)
  | .boolean => [(var, n)]
  | .range lo hi => (List.range (bitLen hi.toNat)).map fun (i : Nat) =>
      (if i = 0 then bitName0 var lo hi else bitName var i, bitOf n i)
  | .strs _ => []

/-- The solver's state for values of all variables. -/
def encode (vals : List (List Char × SDom × Int)) : Dict (List Char) Int :=
  vals.flatMap fun p => bitsFor p.1 p.2.2 p.2.1

/-! ### Numbers in binary -/

theorem bitLen_pos {n : Nat} (h : 0 < n) : 0 < bitLen n := by
  unfold bitLen
  rw [if_neg (by omega)]
  omega

theorem lt_two_pow_bitLen (n : Nat) : n < 2 ^ bitLen n := by
  induction n using Nat.strongRecOn with
  | _ n ih =>
    unfold bitLen
    split
    · omega
    · have := ih (n / 2) (by omega)
      rw [Nat.pow_succ]
      omega

/-- The step of `ofBits`. -/
def ofBitsStep (n b : Int) : Except PyErr Int :=
  if b = 0 then .ok (2 * n) else if b = 1 then .ok (2 * n + 1) else .error .valueError

theorem ofBits_eq (l : List Int) :
    ofBits l = if l.isEmpty then .error .valueError else foldE ofBitsStep 0 l := rfl

theorem bitOf_cases (n : Int) (i : Nat) : bitOf n i = 0 ∨ bitOf n i = 1 := by
  unfold bitOf
  omega

theorem ofBitsStep_ok (m b : Int) (h : b = 0 ∨ b = 1) : ofBitsStep m b = .ok (2 * m + b) := by
  unfold ofBitsStep
  rcases h with rfl | rfl <;> simp

theorem fold_bits (n : Int) (k : Nat) (m : Int) :
    foldE ofBitsStep m ((List.range k).map (bitOf n)).reverse = .ok (m * 2 ^ k + n % 2 ^ k) := by
  induction k generalizing m with
  | zero => simp [foldE, Int.emod_one]
  | succ k ih =>
    rw [List.range_succ, List.map_append, List.reverse_append, List.map_cons, List.map_nil, List.reverse_singleton,
      List.singleton_append, foldE, ofBitsStep_ok _ _ (bitOf_cases n k), ok_bind, ih]
    congr 1
    unfold bitOf
    have h1 : n % 2 ^ (k + 1) = n / 2 ^ k % 2 * 2 ^ k + n % 2 ^ k := by
      have h3 : (2 : Int) ^ k > 0 := by positivity
      have e : (2 : Int) ^ (k + 1) = 2 ^ k * 2 := by rw [pow_succ]
      rw [e]
      generalize (2 : Int) ^ k = P at h3
      have h4 := Int.mul_ediv_add_emod n P
      have h5 := Int.emod_nonneg n (ne_of_gt h3)
      have h6 := Int.emod_lt_of_pos n h3
      have h7 := Int.mul_ediv_add_emod (n / P) 2
      have h8 : n = (n / P % 2 * P + n % P) + P * 2 * (n / P / 2) := by
        conv => lhs; rw [← h4, ← h7]
        ring
      conv => lhs; rw [h8]
      rw [Int.add_mul_emod_self_left]
      apply Int.emod_eq_of_lt
      · rcases Int.emod_two_eq (n / P) with h' | h' <;> rw [h'] <;> omega
      · rcases Int.emod_two_eq (n / P) with h' | h' <;> rw [h'] <;> omega
    rw [h1, pow_succ]
    ring

theorem ofBits_spec {n : Int} {k : Nat} (hk : 0 < k) (h0 : 0 ≤ n) (h : n < 2 ^ k) :
    ofBits ((List.range k).map (bitOf n)).reverse = .ok n := by
  rw [ofBits_eq, if_neg, fold_bits, Int.emod_eq_of_lt h0 h]
  · simp
  · simp
    omega

/-! ### Decoding -/

theorem mapE_getE {bits : Dict (List Char) Int} {l : List (List Char × Int)}
    (h : ∀ p ∈ l, bits.get? p.1 = some p.2) : mapE (getE bits) (l.map (·.1)) = .ok (l.map (·.2)) := by
  induction l with
  | nil => rfl
  | cons p l ih =>
    have h1 : getE bits p.1 = .ok p.2 := by
      unfold getE
      rw [h p (by simp)]
    rw [List.map_cons, mapE, h1, ok_bind, ih fun q hq => h q (by simp [hq])]
    rfl

theorem bitNames_eq {var : List Char} {lo hi n : Int} (h : 0 < hi) :
    bitNames var lo hi = .ok ((bitsFor var n (.range lo hi)).map (·.1)) := by
  have hp : 0 < bitLen hi.toNat := bitLen_pos (by omega)
  have e : hi.natAbs = hi.toNat := by omega
  obtain ⟨k, hk⟩ : ∃ k, bitLen hi.toNat = k + 1 := ⟨bitLen hi.toNat - 1, by omega⟩
  unfold bitNames
  rw [e, bitsFor, hk, List.range_succ_eq_map]
  simp only [List.map_cons, List.map_map]
  rfl

/-- C55. If the solver's state gives each bit of the variable its value, decoding gives the value of the variable;
`hi` is positive. -/
theorem decodeVar_spec {bits : Dict (List Char) Int} {var : List Char} {n : Int} {d : SDom} (hd : InDom n d)
    (hpos : ∀ lo hi, d = .range lo hi → 0 < hi) (h : ∀ p ∈ bitsFor var n d, bits.get? p.1 = some p.2) :
    decodeVar bits var d = .ok n := by
  cases d with
  | boolean =>
    unfold decodeVar getE
    rw [h (var, n) (by simp [bitsFor])]
  | strs k => exact hd.elim
  | range lo hi =>
    have hp := hpos lo hi rfl
    obtain ⟨h0, h1, h2⟩ := hd
    have e : decodeVar bits var (.range lo hi) =
        (bitNames var lo hi).bind fun names => (mapE (getE bits) names).bind fun vals =>
          ofBits vals.reverse := rfl
    rw [e, bitNames_eq (n := n) hp]
    show (mapE (getE bits) _).bind _ = _
    rw [mapE_getE h]
    show ofBits _ = _
    have e2 : (bitsFor var n (.range lo hi)).map (·.2) = (List.range (bitLen hi.toNat)).map (bitOf n) := by
      simp [bitsFor]
    rw [e2]
    refine ofBits_spec (bitLen_pos (by omega)) (by omega) ?_
    have := lt_two_pow_bitLen hi.toNat
    have h3 : ((hi.toNat : Nat) : Int) < ((2 ^ bitLen hi.toNat : Nat) : Int) := by exact_mod_cast this
    push_cast at h3
    omega

theorem bitfields_foldE {bits : Dict (List Char) Int} (l : List (List Char × SDom × Int)) (d : Dict (List Char) Int)
    (h : ∀ p ∈ l, decodeVar bits p.1 p.2.1 = .ok p.2.2) :
    foldE (fun d p => (decodeVar bits p.1 p.2).bind fun n => .ok (d.set p.1 n)) d
      (l.map fun p => (p.1, p.2.1)) = .ok (Dict.update d (l.map fun p => (p.1, p.2.2))) := by
  induction l generalizing d with
  | nil => rfl
  | cons p l ih =>
    rw [List.map_cons, foldE, h p (by simp)]
    exact ih _ fun q hq => h q (by simp [hq])

/-- C55. Decoding a state of the solver gives the values of all variables that its bits encode. -/
theorem bitfieldsToInts_spec {bits : Dict (List Char) Int} {vals : List (List Char × SDom × Int)}
    (hnames : (vals.map (·.1)).Nodup) (hdom : ∀ p ∈ vals, InDom p.2.2 p.2.1)
    (hpos : ∀ p ∈ vals, ∀ lo hi, p.2.1 = .range lo hi → 0 < hi)
    (hbits : ∀ p ∈ vals, ∀ q ∈ bitsFor p.1 p.2.2 p.2.1, bits.get? q.1 = some q.2) :
    bitfieldsToInts bits (vals.map fun p => (p.1, p.2.1)) = .ok (vals.map fun p => (p.1, p.2.2)) := by
  have h := bitfields_foldE (bits := bits) vals [] fun p hp => decodeVar_spec (hdom p hp) (hpos p hp) (hbits p hp)
  unfold bitfieldsToInts
  refine h.trans ?_
  congr 1
  exact dictOf_nodup (by rw [List.map_map]; exact hnames)

/-! ### Names of bits -/

theorem split_at {a b s t : List Char} (ha : '@' ∉ a) (hb : '@' ∉ b) (h : a ++ '@' :: s = b ++ '@' :: t) :
    a = b ∧ s = t := by
  rcases List.append_eq_append_iff.mp h with ⟨u, h1, h2⟩ | ⟨u, h1, h2⟩
  · cases u with
    | nil => rw [List.append_nil] at h1; exact ⟨h1.symm, (List.cons.inj h2).2⟩
    | cons x u =>
      obtain ⟨rfl, _⟩ := List.cons.inj h2
      exact absurd (by rw [h1]; simp) hb
  · cases u with
    | nil => rw [List.append_nil] at h1; exact ⟨h1, (List.cons.inj h2).2.symm⟩
    | cons x u =>
      obtain ⟨rfl, _⟩ := List.cons.inj h2
      exact absurd (by rw [h1]; simp) ha

theorem digitsOf_inj {m n : Nat} (h : digitsOf m = digitsOf n) : m = n := by
  have h1 := (digitsOf_spec m).2.2
  rw [h, (digitsOf_spec n).2.2] at h1
  exact h1.symm

/-- The name of a bit of a variable. -/
theorem bitsFor_names {var : List Char} {n : Int} {d : SDom} {q : List Char × Int}
    (hq : q ∈ bitsFor var n d) : q.1 = var ∨ ∃ s, q.1 = var ++ '@' :: s := by
  cases d with
  | boolean =>
    rw [bitsFor, List.mem_singleton] at hq
    exact .inl (by rw [hq])
  | strs k => cases hq
  | range lo hi =>
    obtain ⟨i, _, rfl⟩ := List.mem_map.mp hq
    right
    simp only
    split
    · exact ⟨c!"0." ++ intChars lo ++ c!"." ++ intChars hi, by simp [bitName0]⟩
    · exact ⟨_, rfl⟩

theorem bitsFor_disjoint {a b : List Char} (ha : VarName a) (hb : VarName b) (hne : a ≠ b) {m n : Int} {d e : SDom}
    {p q : List Char × Int} (hp : p ∈ bitsFor a m d) (hq : q ∈ bitsFor b n e) : p.1 ≠ q.1 := by
  intro h
  rcases bitsFor_names hp with h1 | ⟨s, h1⟩ <;> rcases bitsFor_names hq with h2 | ⟨t, h2⟩ <;>
    rw [h1, h2] at h
  · exact hne h
  · exact ha (by rw [h]; simp)
  · exact hb (by rw [← h]; simp)
  · exact hne (split_at ha hb h).1

theorem bitName0_ne {var : List Char} {lo hi : Int} (i : Nat) : bitName0 var lo hi ≠ bitName var i := by
  intro h
  unfold bitName0 bitName at h
  have e : var ++ c!"@0." ++ intChars lo ++ c!"." ++ intChars hi =
      var ++ '@' :: (c!"0." ++ intChars lo ++ c!"." ++ intChars hi) := by simp
  rw [e, List.append_cancel_left_eq] at h
  have h2 := (List.cons.inj h).2
  have : '.' ∈ digitsOf i := by rw [← h2]; simp
  have := Gw.digitsOf_all i '.' this
  revert this; decide

theorem bitsFor_nodup (var : List Char) (n : Int) (d : SDom) : ((bitsFor var n d).map (·.1)).Nodup := by
  cases d with
  | boolean => simp [bitsFor]
  | strs k => simp [bitsFor]
  | range lo hi =>
    simp only [bitsFor, List.map_map]
    refine List.Nodup.map_on ?_ List.nodup_range
    intro i _ j _ h
    simp only [Function.comp_apply] at h
    split at h <;> split at h
    · omega
    · exact absurd h (bitName0_ne j)
    · exact absurd h.symm (bitName0_ne i)
    · unfold bitName at h
      rw [List.append_cancel_left_eq] at h
      exact digitsOf_inj (List.cons.inj h).2

theorem get?_of_nodup {κ β : Type} [DecidableEq κ] {d : Dict κ β} (h : (d.map (·.1)).Nodup) {p : κ × β}
    (hp : p ∈ d) : d.get? p.1 = some p.2 := by
  induction d with
  | nil => cases hp
  | cons q d ih =>
    rw [List.map_cons, List.nodup_cons] at h
    rw [Dict.get?_cons]
    rcases List.mem_cons.mp hp with rfl | hp
    · rw [if_pos rfl]
    · rw [if_neg, ih h.2 hp]
      intro e
      exact h.1 (e ▸ List.mem_map_of_mem (f := Prod.fst) hp)

theorem encode_nodup {vals : List (List Char × SDom × Int)} (hnames : (vals.map (·.1)).Nodup)
    (hv : ∀ p ∈ vals, VarName p.1) : ((encode vals).map (·.1)).Nodup := by
  induction vals with
  | nil => simp [encode]
  | cons p l ih =>
    rw [List.map_cons, List.nodup_cons] at hnames
    have e : encode (p :: l) = bitsFor p.1 p.2.2 p.2.1 ++ encode l := by simp [encode]
    rw [e, List.map_append, List.nodup_append]
    refine ⟨bitsFor_nodup _ _ _, ih hnames.2 fun q hq => hv q (by simp [hq]), ?_⟩
    intro x hx y hy
    obtain ⟨a, ha, rfl⟩ := List.mem_map.mp hx
    obtain ⟨b, hb, rfl⟩ := List.mem_map.mp hy
    obtain ⟨q, hq, hb⟩ := List.mem_flatMap.mp hb
    refine bitsFor_disjoint (hv p (by simp)) (hv q (by simp [hq])) ?_ ha hb
    intro e
    exact hnames.1 (e ▸ List.mem_map_of_mem (f := Prod.fst) hq)

/-- C55. Decoding gives the values that were encoded, for all tables of variables and all values in their
domains. -/
theorem bitfieldsToInts_encode {vals : List (List Char × SDom × Int)} (hnames : (vals.map (·.1)).Nodup)
    (hv : ∀ p ∈ vals, VarName p.1) (hdom : ∀ p ∈ vals, InDom p.2.2 p.2.1)
    (hpos : ∀ p ∈ vals, ∀ lo hi, p.2.1 = .range lo hi → 0 < hi) :
    bitfieldsToInts (encode vals) (vals.map fun p => (p.1, p.2.1)) = .ok (vals.map fun p => (p.1, p.2.2)) :=
  bitfieldsToInts_spec hnames hdom hpos fun p hp _ hq =>
    get?_of_nodup (encode_nodup hnames hv) (List.mem_flatMap.mpr ⟨p, hp, hq⟩)

/-! ### The graph -/

theorem or_or_ite {α : Type} (x : Option α) (y : α) {P Q R : Prop} [Decidable P] [Decidable Q] [Decidable R]
    (h : R ↔ P ∨ Q) :
    (x.or (if P then some y else none)).or (if Q then some y else none) = x.or (if R then some y else none) := by
  cases x with
  | some x => rfl
  | none => by_cases hp : P <;> by_cases hq : Q <;> simp [h, hp, hq]

theorem get?_touch {ν α : Type} [DecidableEq ν] (g : DiG ν α) (u w : ν) :
    (g.touch u).nodes.get? w = (g.nodes.get? w).or (if w = u then some none else none) := by
  unfold DiG.touch
  split
  · next h =>
    rw [Dict.has_iff] at h
    by_cases hw : w = u
    · subst hw
      obtain ⟨v, h⟩ := h
      rw [h, Option.some_or]
    · rw [if_neg hw, Option.or_none]
  · next h =>
    rw [Bool.not_eq_true, Dict.has_false_iff] at h
    rw [Dict.get?_set]
    by_cases hw : w = u
    · subst hw
      rw [if_pos rfl, if_pos rfl, h, Option.none_or]
    · rw [if_neg fun h' => hw h'.symm, if_neg hw, Option.or_none]

theorem wf_touch {ν α : Type} [DecidableEq ν] {g : DiG ν α} (h : g.nodes.Wf) (u : ν) : (g.touch u).nodes.Wf := by
  unfold DiG.touch
  split
  · exact h
  · exact Dict.wf_set h u none

/-- The nodes and edges after a call of `add_edge`. -/
theorem addEdge_spec {ν α : Type} [DecidableEq ν] (g : DiG ν α) (u v : ν) :
    (∀ w, (g.addEdge u v).nodes.get? w =
      (g.nodes.get? w).or (if w = u ∨ w = v then some none else none)) ∧
    (∀ e, e ∈ (g.addEdge u v).edges ↔ e ∈ g.edges ∨ e = (u, v)) ∧
    (g.nodes.Wf → (g.addEdge u v).nodes.Wf) ∧ (g.edges.Nodup → (g.addEdge u v).edges.Nodup) := by
  have hn : (g.addEdge u v).nodes = ((g.touch u).touch v).nodes := by
    unfold DiG.addEdge
    simp only
    split <;> rfl
  have he : ((g.touch u).touch v).edges = g.edges := by
    have : ∀ (g : DiG ν α) w, (g.touch w).edges = g.edges := by
      intro g w
      unfold DiG.touch
      split <;> rfl
    rw [this, this]
  refine ⟨fun w => ?_, fun e => ?_, fun h => ?_, fun h => ?_⟩
  · rw [hn, get?_touch, get?_touch]
    exact or_or_ite _ _ Iff.rfl
  · unfold DiG.addEdge
    simp only [he]
    split
    · next h =>
      rw [he]
      constructor
      · exact .inl
      · rintro (h' | rfl)
        exacts [h', h]
    · simp
  · rw [hn]
    exact wf_touch (wf_touch h u) v
  · unfold DiG.addEdge
    simp only [he]
    split
    · rw [he]; exact h
    · next h' =>
      rw [List.nodup_append]
      refine ⟨h, by simp, ?_⟩
      rintro a ha b hb rfl
      rw [List.mem_singleton] at hb
      exact h' (hb ▸ ha)

theorem addEdges_spec {ν α : Type} [DecidableEq ν] (es : List (ν × ν)) (g : DiG ν α) :
    (∀ w, (es.foldl (fun g e => g.addEdge e.1 e.2) g).nodes.get? w =
      (g.nodes.get? w).or (if ∃ e ∈ es, w = e.1 ∨ w = e.2 then some none else none)) ∧
    (∀ e, e ∈ (es.foldl (fun g e => g.addEdge e.1 e.2) g).edges ↔ e ∈ g.edges ∨ e ∈ es) ∧
    (g.nodes.Wf → (es.foldl (fun g e => g.addEdge e.1 e.2) g).nodes.Wf) ∧
    (g.edges.Nodup → (es.foldl (fun g e => g.addEdge e.1 e.2) g).edges.Nodup) := by
  induction es generalizing g with
  | nil => simp
  | cons e es ih =>
    obtain ⟨h1, h2, h3, h4⟩ := addEdge_spec g e.1 e.2
    obtain ⟨h5, h6, h7, h8⟩ := ih (g.addEdge e.1 e.2)
    refine ⟨fun w => ?_, fun x => ?_, fun h => h7 (h3 h), fun h => h8 (h4 h)⟩
    · rw [List.foldl_cons, h5, h1]
      exact or_or_ite _ _ (by simp only [List.mem_cons, exists_eq_or_imp])
    · rw [List.foldl_cons, h6, h2]
      simp only [List.mem_cons]
      tauto

theorem foldl_trans {ν α : Type} [DecidableEq ν] (u : ν) (l : List ν) (g : DiG ν α) :
    l.foldl (fun g v => g.addEdge u v) g = (l.map fun v => (u, v)).foldl (fun g e => g.addEdge e.1 e.2) g := by
  rw [List.foldl_map]

/-- The graph with bits. -/
theorem slugsNodes_spec {names : List (List Char)} (l : Dict Int SlugsNode) (hl : (l.map (·.1)).Nodup)
    (g : DiG Int (Dict (List Char) Int)) :
    (∀ w, (l.foldl (slugsNode names) g).nodes.get? w =
      match l.get? w with
      | some n => some (some (dictOf (names.zip n.state)))
      | none => (g.nodes.get? w).or (if ∃ x ∈ l, w ∈ x.2.trans then some none else none)) ∧
    (∀ e, e ∈ (l.foldl (slugsNode names) g).edges ↔
      e ∈ g.edges ∨ ∃ x ∈ l, e.1 = x.1 ∧ e.2 ∈ x.2.trans) ∧
    (g.nodes.Wf → (l.foldl (slugsNode names) g).nodes.Wf) ∧
    (g.edges.Nodup → (l.foldl (slugsNode names) g).edges.Nodup) := by
  induction l generalizing g with
  | nil => simp
  | cons x l ih =>
    rw [List.map_cons, List.nodup_cons] at hl
    have hx : Dict.get? l x.1 = none := by
      rw [← Dict.has_false_iff, ← Bool.not_eq_true, Dict.has_iff, ← Dict.mem_keys_iff]
      exact hl.1
    obtain ⟨h1, h2, h3, h4⟩ := addEdges_spec (x.2.trans.map fun v => (x.1, v))
      (g.addNode x.1 (dictOf (names.zip x.2.state)))
    rw [← foldl_trans] at h1 h2 h3 h4
    obtain ⟨h5, h6, h7, h8⟩ := ih hl.2 (slugsNode names g x)
    have h1' : ∀ w, (slugsNode names g x).nodes.get? w =
        if w = x.1 then some (some (dictOf (names.zip x.2.state)))
        else (g.nodes.get? w).or (if w ∈ x.2.trans then some none else none) := by
      intro w
      refine (h1 w).trans ?_
      unfold DiG.addNode
      simp only [Dict.get?_set]
      by_cases hw : w = x.1
      · subst hw; simp
      · have hw' : x.1 ≠ w := fun e => hw e.symm
        simp [hw, hw']
    refine ⟨fun w => ?_, fun e => ?_, fun h => h7 (h3 (Dict.wf_set h _ _)), fun h => h8 (h4 h)⟩
    · rw [List.foldl_cons, h5, h1', Dict.get?_cons]
      by_cases hw : w = x.1
      · subst hw
        rw [hx]
        simp
      · have hw' : x.1 ≠ w := fun e => hw e.symm
        rw [if_neg hw']
        cases Dict.get? l w with
        | some n => rfl
        | none =>
          rw [if_neg hw]
          exact or_or_ite _ _ (by simp only [List.mem_cons, exists_eq_or_imp])
    · rw [List.foldl_cons, h6]
      have : e ∈ (slugsNode names g x).edges ↔ e ∈ g.edges ∨ (e.1 = x.1 ∧ e.2 ∈ x.2.trans) := by
        refine (h2 e).trans ?_
        unfold DiG.addNode
        simp only [List.mem_map]
        constructor
        · rintro (h | ⟨v, hv, rfl⟩)
          exacts [.inl h, .inr ⟨rfl, hv⟩]
        · rintro (h | ⟨ha, hb⟩)
          · exact .inl h
          · exact .inr ⟨e.2, hb, by rw [← ha]⟩
      rw [this, or_assoc]
      simp only [List.mem_cons, exists_eq_or_imp]

theorem slugsInts_spec {vrs : Dict (List Char) SDom} (ints : Int → Dict (List Char) Int)
    (l : Dict Int (Option (Dict (List Char) Int))) (hl : (l.map (·.1)).Nodup)
    (h : ∀ x ∈ l, ∃ bits, x.2 = some bits ∧ bitfieldsToInts bits vrs = .ok (ints x.1))
    (g : DiG Int (Dict (List Char) Int)) (hg : ∀ x ∈ l, x.1 ∉ g.nodes.map (·.1)) :
    foldE (slugsInts vrs) g l = .ok ⟨g.nodes ++ l.map fun x => (x.1, some (ints x.1)), g.edges⟩ := by
  induction l generalizing g with
  | nil => simp [foldE]
  | cons x l ih =>
    rw [List.map_cons, List.nodup_cons] at hl
    obtain ⟨bits, h1, h2⟩ := h x (by simp)
    have h3 : slugsInts vrs g x = .ok (g.addNode x.1 (ints x.1)) := by
      unfold slugsInts
      rw [h1]
      show (bitfieldsToInts bits vrs).bind _ = _
      rw [h2]
      rfl
    have h4 : g.addNode x.1 (ints x.1) = ⟨g.nodes ++ [(x.1, some (ints x.1))], g.edges⟩ := by
      unfold DiG.addNode
      rw [LtlFile.set_new _ _ _ (hg x (by simp))]
    rw [foldE, h3, ok_bind, h4, ih hl.2 (fun y hy => h y (by simp [hy]))]
    · simp
    · intro y hy h'
      simp only [List.map_append, List.map_cons, List.map_nil, List.mem_append, List.mem_singleton] at h'
      rcases h' with h' | h'
      · exact hg y (by simp [hy]) h'
      · have : y.1 ∈ l.map (·.1) := List.mem_map_of_mem (f := Prod.fst) hy
        rw [h'] at this
        exact hl.1 this

/-- C55. The strategy returned has the nodes and edges that the solver prints, and the state of each node gives each
declared variable the integer that the bits of the node encode. -/
theorem slugsGraph_spec {sys env : Dict (List Char) SDom} {names : List (List Char)} {nodes : Dict Int SlugsNode}
    (hn : nodes.Wf) (htrans : ∀ u n, (u, n) ∈ nodes → ∀ v ∈ n.trans, v ∈ nodes.keys)
    {vals : Int → List (List Char × SDom × Int)}
    (hvars : ∀ u n, (u, n) ∈ nodes → (vals u).map (fun p => (p.1, p.2.1)) = Dict.update sys env)
    (hnames : ∀ u n, (u, n) ∈ nodes → ((vals u).map (·.1)).Nodup)
    (hdom : ∀ u n, (u, n) ∈ nodes → ∀ p ∈ vals u, InDom p.2.2 p.2.1)
    (hpos : ∀ u n, (u, n) ∈ nodes → ∀ p ∈ vals u, ∀ lo hi, p.2.1 = .range lo hi → 0 < hi)
    (hbits : ∀ u n, (u, n) ∈ nodes → ∀ p ∈ vals u, ∀ q ∈ bitsFor p.1 p.2.2 p.2.1,
      (dictOf (names.zip n.state)).get? q.1 = some q.2) :
    ∃ h, slugsGraph sys env names nodes = .ok h ∧
      (∀ u, u ∈ h.nodes.keys ↔ u ∈ nodes.keys) ∧
      (∀ u ∈ nodes.keys, h.nodes.get? u = some (some ((vals u).map fun p => (p.1, p.2.2)))) ∧
      (∀ u v, (u, v) ∈ h.edges ↔ ∃ n, (u, n) ∈ nodes ∧ v ∈ n.trans) ∧ h.edges.Nodup ∧ h.nodes.Wf := by
  obtain ⟨h1, h2, h3, h4⟩ := slugsNodes_spec (names := names) nodes hn DiG.empty
  have hwf := h3 (by unfold Dict.Wf Dict.keys DiG.empty; simp)
  have hnd := h4 (by simp [DiG.empty])
  have hget : ∀ u, u ∈ nodes.keys → ∃ n, (u, n) ∈ nodes ∧ nodes.get? u = some n := by
    intro u hu
    obtain ⟨n, h⟩ := (Dict.mem_keys_iff _ _).mp hu
    refine ⟨n, ?_, h⟩
    obtain ⟨x, hx, rfl⟩ := List.mem_map.mp hu
    have := get?_of_nodup hn hx
    rw [h] at this
    cases this
    exact hx
  have hsome : ∀ x ∈ (nodes.foldl (slugsNode names) DiG.empty).nodes, x.1 ∈ nodes.keys := by
    intro x hx
    have h5 := get?_of_nodup hwf hx
    rw [h1] at h5
    cases hg : nodes.get? x.1 with
    | some n => exact (Dict.mem_keys_iff _ _).mpr ⟨n, hg⟩
    | none =>
      rw [hg] at h5
      simp only [DiG.empty, Dict.get?_nil] at h5
      split at h5
      · next h6 =>
        obtain ⟨y, hy, h6⟩ := h6
        exact htrans y.1 y.2 hy _ h6
      · cases h5
  have hkeys : ∀ u ∈ nodes.keys, u ∈ (nodes.foldl (slugsNode names) DiG.empty).nodes.keys := by
    intro u hu
    obtain ⟨n, _, hg⟩ := hget u hu
    rw [Dict.mem_keys_iff, h1, hg]
    exact ⟨_, rfl⟩
  have h6 := slugsInts_spec (vrs := Dict.update sys env) (fun u => (vals u).map fun p => (p.1, p.2.2))
    (nodes.foldl (slugsNode names) DiG.empty).nodes hwf (by
      intro x hx
      obtain ⟨n, hm, hg⟩ := hget x.1 (hsome x hx)
      have h5 := get?_of_nodup hwf hx
      rw [h1, hg] at h5
      refine ⟨_, (Option.some.inj h5).symm, ?_⟩
      rw [← hvars x.1 n hm]
      exact bitfieldsToInts_spec (hnames _ n hm) (hdom _ n hm) (hpos _ n hm) (hbits _ n hm)) DiG.empty
    (by intro x _; simp [DiG.empty])
  have h7 := addEdges_spec (nodes.foldl (slugsNode names) DiG.empty).edges
    (⟨(nodes.foldl (slugsNode names) DiG.empty).nodes.map fun x =>
      (x.1, some ((vals x.1).map fun p => (p.1, p.2.2))), []⟩ : DiG Int (Dict (List Char) Int))
  have hk : Dict.keys ((nodes.foldl (slugsNode names) DiG.empty).nodes.map fun x =>
      (x.1, some ((vals x.1).map fun p => (p.1, p.2.2)))) =
      (nodes.foldl (slugsNode names) DiG.empty).nodes.keys := by
    simp [Dict.keys]
  have hwf' : Dict.Wf ((nodes.foldl (slugsNode names) DiG.empty).nodes.map fun x =>
      (x.1, some ((vals x.1).map fun p => (p.1, p.2.2)))) := by
    unfold Dict.Wf
    rw [hk]
    exact hwf
  have hval : ∀ u ∈ nodes.keys, Dict.get? ((nodes.foldl (slugsNode names) DiG.empty).nodes.map fun x =>
      (x.1, some ((vals x.1).map fun p => (p.1, p.2.2)))) u = some (some ((vals u).map fun p => (p.1, p.2.2))) := by
    intro u hu
    obtain ⟨x, hx, rfl⟩ := List.mem_map.mp (hkeys u hu)
    exact get?_of_nodup (p := (x.1, some ((vals x.1).map fun p => (p.1, p.2.2)))) hwf'
      (List.mem_map_of_mem (f := fun x => (x.1, some ((vals x.1).map fun p => (p.1, p.2.2)))) hx)
  have hnone : ∀ u, u ∉ nodes.keys → Dict.get? ((nodes.foldl (slugsNode names) DiG.empty).nodes.map fun x =>
      (x.1, some ((vals x.1).map fun p => (p.1, p.2.2)))) u = none := by
    intro u hu
    rw [← Dict.has_false_iff, ← Bool.not_eq_true, Dict.has_iff, ← Dict.mem_keys_iff, hk]
    intro h'
    obtain ⟨x, hx, rfl⟩ := List.mem_map.mp h'
    exact hu (hsome x hx)
  have hedge : ∀ e ∈ (nodes.foldl (slugsNode names) DiG.empty).edges, e.1 ∈ nodes.keys ∧ e.2 ∈ nodes.keys := by
    intro e he
    rcases (h2 e).mp he with he | ⟨x, hx, ha, hb⟩
    · cases he
    · exact ⟨by rw [ha]; exact List.mem_map_of_mem (f := Prod.fst) hx, htrans x.1 x.2 hx _ hb⟩
  refine ⟨_, ?_, ?_, ?_, ?_, h7.2.2.2 List.nodup_nil, h7.2.2.1 hwf'⟩
  · unfold slugsGraph
    simp only
    rw [h6, ok_bind]
    rfl
  · intro u
    rw [Dict.mem_keys_iff]
    constructor
    · rintro ⟨v, hv⟩
      by_contra hu
      have := (h7.1 u).symm.trans hv
      rw [hnone u hu, Option.none_or, if_neg] at this
      · cases this
      · rintro ⟨e, he, rfl | rfl⟩
        exacts [hu (hedge e he).1, hu (hedge e he).2]
    · intro hu
      refine ⟨some ((vals u).map fun p => (p.1, p.2.2)), (h7.1 u).trans ?_⟩
      show Option.or (Dict.get? _ u) _ = _
      rw [hval u hu, Option.some_or]
  · intro u hu
    refine (h7.1 u).trans ?_
    show Option.or (Dict.get? _ u) _ = _
    rw [hval u hu, Option.some_or]
  · intro u v
    refine (h7.2.1 (u, v)).trans ?_
    rw [h2]
    constructor
    · rintro (h | h | ⟨x, hx, rfl, hb⟩)
      · cases h
      · cases h
      · exact ⟨x.2, hx, hb⟩
    · rintro ⟨n, hm, hv⟩
      exact .inr (.inr ⟨(u, n), hm, rfl, hv⟩)

/-- The range `(0, 0)` has no bits: decoding raises `IndexError`. -/
theorem bitfields_zero_counterexample (bits : Dict (List Char) Int) (var : List Char) :
    bitfieldsToInts bits [(var, .range 0 0)] = .error .indexError := by
  have h : decodeVar bits var (.range 0 0) = .error .indexError := by
    have : bitNames var 0 0 = .error .indexError := by
      unfold bitNames
      have : bitLen (0 : Int).natAbs = 0 := by decide +kernel
      rw [this]
      rfl
    show (bitNames var 0 0).bind _ = _
    rw [this]
    rfl
  unfold bitfieldsToInts foldE
  rw [h]
  rfl

/-- Variables with strings as values cannot be decoded. -/
theorem bitfields_strs_counterexample (bits : Dict (List Char) Int) (var : List Char) (n : Nat) :
    ∃ e, bitfieldsToInts bits [(var, .strs n)] = .error e := by
  by_cases h : n < 2
  · exact ⟨.indexError, by simp [bitfieldsToInts, foldE, decodeVar, h]⟩
  · exact ⟨.attribute, by simp [bitfieldsToInts, foldE, decodeVar, h]⟩

def sampleVals : List (List Char × SDom × Int) :=
  [(c!"x", .boolean, 1), (c!"y", .range 0 5, 3), (c!"z", .range 2 11, 10)]

/-- A strategy of one node in the form of the solver. -/
example : ((slugsGraph [(c!"x", .boolean), (c!"y", .range 0 5)] [(c!"z", .range 2 11)]
    ((encode sampleVals).map (·.1)) [(0, ⟨(encode sampleVals).map (·.2), [0]⟩)]).toOption.map fun h =>
      h.edges) = some [(0, 0)] := by decide +kernel

example : ((slugsGraph [(c!"x", .boolean), (c!"y", .range 0 5)] [(c!"z", .range 2 11)]
    ((encode sampleVals).map (·.1)) [(0, ⟨(encode sampleVals).map (·.2), [0]⟩)]).toOption.map fun h =>
      h.nodes.flatMap fun p => ((p.2.getD []).map fun q => (p.1, q.1, q.2))) =
    some [(0, c!"x", 1), (0, c!"y", 3), (0, c!"z", 10)] := by decide +kernel

example : encode sampleVals = [(c!"x", 1), (c!"y@0.0.5", 1), (c!"y@1", 1), (c!"y@2", 0),
    (c!"z@0.2.11", 0), (c!"z@1", 1), (c!"z@2", 0), (c!"z@3", 1)] := by decide +kernel

example : (sampleVals.map (·.1)).Nodup ∧ (∀ p ∈ sampleVals, VarName p.1) ∧
    (∀ p ∈ sampleVals, InDom p.2.2 p.2.1) ∧
    (∀ p ∈ sampleVals, ∀ lo hi, p.2.1 = .range lo hi → 0 < hi) := by
  refine ⟨by decide, by unfold VarName; decide, ?_, ?_⟩
  · intro p hp
    simp only [sampleVals, List.mem_cons, List.not_mem_nil, or_false] at hp
    rcases hp with rfl | rfl | rfl <;> simp [InDom]
  · intro p hp
    simp only [sampleVals, List.mem_cons, List.not_mem_nil, or_false] at hp
    rcases hp with rfl | rfl | rfl <;> intro lo hi h <;> cases h <;> decide

end Iface

end Tulip
