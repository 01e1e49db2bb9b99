/-!
# Common definitions

Python exceptions as values, and association lists standing for `dict`.
-/

namespace Tulip

/-- Python exceptions that the modelled code raises. -/
inductive PyErr
  | typeError | valueError | keyError | indexError | assertion | attribute | runtime
  | exception   -- bare `Exception`
  | notImplemented | unboundLocal | stopIteration | nameError | syntaxErr | zeroDivision
  deriving DecidableEq, Repr

section
variable {ε α β : Type}
@[simp] theorem ok_bind (a : α) (f : α → Except ε β) : (Except.ok a >>= f) = f a := rfl
@[simp] theorem error_bind (e : ε) (f : α → Except ε β) : (Except.error e >>= f) = .error e := rfl
@[simp] theorem pure_eq_ok (a : α) : (pure a : Except ε α) = .ok a := rfl
@[simp] theorem map_ok (a : α) (f : α → β) : (f <$> (Except.ok a : Except ε α)) = .ok (f a) := rfl
@[simp] theorem map_error (e : ε) (f : α → β) :
    (f <$> (Except.error e : Except ε α)) = .error e := rfl
end

/-- A Python `dict` with insertion order: keys are kept distinct by `Dict.set`. -/
abbrev Dict (κ α : Type) := List (κ × α)

namespace Dict
variable {κ α : Type} [DecidableEq κ]

/-- `d.get(k)`. -/
def get? (d : Dict κ α) (k : κ) : Option α := (d.find? (fun p => p.1 == k)).map (·.2)

/-- `d[k] = v`: replace in place, or append. -/
def set : Dict κ α → κ → α → Dict κ α
  | [], k, v => [(k, v)]
  | (k', v') :: d, k, v => if k' = k then (k', v) :: d else (k', v') :: set d k v

/-- `d.update(e)`. -/
def update (d e : Dict κ α) : Dict κ α := e.foldl (fun d p => d.set p.1 p.2) d

/-- Keys in insertion order. -/
def keys (d : Dict κ α) : List κ := d.map (·.1)

/-- `k in d`. -/
def has (d : Dict κ α) (k : κ) : Bool := d.any (fun p => p.1 == k)

@[simp] theorem get?_nil (k : κ) : get? ([] : Dict κ α) k = none := rfl

theorem get?_cons (p : κ × α) (d : Dict κ α) (k : κ) :
    get? (p :: d) k = if p.1 = k then some p.2 else get? d k := by
  by_cases h : p.1 = k <;> simp [get?, h]

theorem get?_set (d : Dict κ α) (k k' : κ) (v : α) :
    (d.set k v).get? k' = if k = k' then some v else d.get? k' := by
  induction d with
  | nil => simp [set, get?_cons]
  | cons p d ih =>
    obtain ⟨a, b⟩ := p
    by_cases h : a = k
    · subst h
      simp only [set, if_true, get?_cons]
      split <;> rfl
    · simp only [set, if_neg h, get?_cons, ih]
      by_cases h' : a = k'
      · subst h'
        rw [if_pos rfl, if_neg (fun e => h e.symm), if_pos rfl]
      · simp only [if_neg h']

theorem has_iff (d : Dict κ α) (k : κ) : d.has k = true ↔ ∃ v, d.get? k = some v := by
  induction d with
  | nil => simp [has]
  | cons p d ih =>
    rw [get?_cons]
    by_cases h : p.1 = k
    · simp [has, h]
    · rw [if_neg h, ← ih]
      simp [has, h]

theorem has_false_iff (d : Dict κ α) (k : κ) : d.has k = false ↔ d.get? k = none := by
  rw [← Bool.not_eq_true, has_iff]
  cases d.get? k <;> simp

theorem mem_keys_iff (d : Dict κ α) (k : κ) : k ∈ d.keys ↔ ∃ v, d.get? k = some v := by
  rw [← has_iff]
  simp only [keys, has, List.mem_map, List.any_eq_true, beq_iff_eq]

/-- Distinct keys. -/
def Wf (d : Dict κ α) : Prop := d.keys.Nodup

theorem keys_set (d : Dict κ α) (k : κ) (v : α) :
    (d.set k v).keys = if k ∈ d.keys then d.keys else d.keys ++ [k] := by
  induction d with
  | nil => simp [set, keys]
  | cons p d ih =>
    obtain ⟨a, b⟩ := p
    by_cases h : a = k
    · subst h; simp [set, keys]
    · simp only [set, if_neg h]
      simp only [keys, List.map_cons] at ih ⊢
      rw [ih]
      by_cases hk : k ∈ d.map (·.1)
      · simp [hk]
      · have : k ≠ a := fun e => h e.symm
        simp [hk, this]

theorem wf_set {d : Dict κ α} (h : d.Wf) (k : κ) (v : α) : (d.set k v).Wf := by
  unfold Wf at *
  rw [keys_set]
  split
  · exact h
  · rename_i hk
    rw [List.nodup_append]
    refine ⟨h, by simp, ?_⟩
    intro a ha b hb
    simp only [List.mem_singleton] at hb
    subst hb
    intro e; subst e; exact hk ha

theorem wf_update {d : Dict κ α} (h : d.Wf) (e : Dict κ α) : (d.update e).Wf := by
  induction e generalizing d with
  | nil => exact h
  | cons p e ih => exact ih (wf_set h p.1 p.2)

theorem get?_update_wf {d e : Dict κ α} (he : e.Wf) (k : κ) :
    (d.update e).get? k = (e.get? k).or (d.get? k) := by
  induction e generalizing d with
  | nil => simp [update]
  | cons p e ih =>
    have hp : p.1 ∉ keys e := (List.nodup_cons.1 he).1
    have he' : Wf e := (List.nodup_cons.1 he).2
    have := ih (d := d.set p.1 p.2) he'
    simp only [update, List.foldl_cons] at this ⊢
    rw [this, get?_set, get?_cons]
    by_cases hk : p.1 = k
    · subst hk
      have : get? e p.1 = none := by
        cases h : get? e p.1 with
        | none => rfl
        | some v => exact absurd ((mem_keys_iff e p.1).2 ⟨v, h⟩) hp
      simp [this]
    · simp [hk]

end Dict

end Tulip
