import Verif.Interfaces.RealizableProps
import Verif.Synth.ToSpecReturnsProps

/-!
# When the interfaces to the solvers answer (C104, C105)

For specifications whose clauses use declared variables, the operators that the solver knows and string
constants as in `StrUse`, and whose primed variables are where they may be, `check_realizable` and `synthesize`
return (for gr1c and gr1py exactly if the options are ones that these solvers can decide).
-/

namespace Tulip

namespace Iface

open Synth Cache Trans

variable {ν δ : Type} [DecidableEq ν]

/-! ## Specification -/

/-- The operators of a formula are from these lists, and it has neither `<<>>` nor conditionals. -/
def OpsIn (un : List UnOp) (bin : List BinOp) (cmp : List CmpOp) (ar : List ArOp) : Ast → Prop
  | .var _ | .bool _ | .num _ | .str _ => True
  | .un op a => op ∈ un ∧ OpsIn un bin cmp ar a
  | .bin op a b => op ∈ bin ∧ OpsIn un bin cmp ar a ∧ OpsIn un bin cmp ar b
  | .cmp op a b => op ∈ cmp ∧ OpsIn un bin cmp ar a ∧ OpsIn un bin cmp ar b
  | .ar op a b => op ∈ ar ∧ OpsIn un bin cmp ar a ∧ OpsIn un bin cmp ar b
  | .trunc _ _ | .ite _ _ _ => False

/-- A clause that can be written for a solver with the binary operators `bin` and the arithmetic operators
`ar`: it is a formula, its variables are declared, its operators are known to the solver, its constants are
operands of binary operators, and its strings are compared with string variables that can have these values. -/
def Writable (g : GRSpec) (bin : List BinOp) (ar : List ArOp) (x : List Char) : Prop :=
  ∃ a, Tulip.parse x = some a ∧ (∀ v ∈ a.vars, v ∈ g.envVars.keys ∨ v ∈ g.sysVars.keys) ∧
    OpsIn [.not, .always, .eventually, .next] bin [.eq, .ne, .lt, .le, .gt, .ge] ar a ∧
    ConstsPaired false a ∧ StrUse (Cache.strVars g) a

/-- The options that gr1c and gr1py can decide: a Mealy strategy, the assumption up to the current step, and
`qinit` with both quantifiers, or with initial conditions on the side that is quantified only. -/
def Askable (g : GRSpec) : Prop :=
  g.moore = false ∧ g.plusOne = false ∧
    (g.qinit = c!"\\A \\E" ∨ g.qinit = c!"\\A \\A" ∧ g.sysInit = [] ∨ g.qinit = c!"\\E \\E" ∧ g.envInit = [])

/-! ## Clauses -/

theorem OpsIn.sub {un : List UnOp} {bin : List BinOp} {cmp : List CmpOp} {ar : List ArOp}
    {D : Dict String (List String)} {a b : Ast} {ctx : Above} (h : OpsIn un bin cmp ar a)
    (hs : subConstants D ctx a = .ok b) : OpsIn un bin cmp ar b := by
  induction a generalizing ctx b with
  | var x => cases hs; trivial
  | bool x => cases hs; trivial
  | num x => cases hs; trivial
  | str s =>
    simp only [subConstants, bind_ok_iff] at hs
    obtain ⟨v, _, hs⟩ := hs
    split at hs
    · cases hs
    · split at hs
      · cases hs; trivial
      · cases hs
  | un op x ih =>
    simp only [subConstants, bind_ok_iff, pure_eq_ok, Except.ok.injEq] at hs
    obtain ⟨x', hx, rfl⟩ := hs
    exact ⟨h.1, ih h.2 hx⟩
  | bin op x y ihx ihy | cmp op x y ihx ihy | ar op x y ihx ihy =>
    simp only [subConstants, bind_ok_iff, pure_eq_ok, Except.ok.injEq] at hs
    obtain ⟨x', hx, y', hy, rfl⟩ := hs
    exact ⟨h.1, ihx h.2.1 hx, ihy h.2.2 hy⟩
  | trunc => exact h.elim
  | ite => exact h.elim

theorem OpsIn.within {un : List UnOp} {bin : List BinOp} {cmp : List CmpOp} {ar : List ArOp} {a : Ast}
    (h : OpsIn un bin cmp ar a) (hs : NoStrConst a) : Within un bin cmp ar (fun _ => True) a := by
  induction a with
  | var | bool | num => trivial
  | str => exact hs.elim
  | un op x ih => exact ⟨h.1, ih h.2 hs⟩
  | bin op x y ihx ihy | cmp op x y ihx ihy | ar op x y ihx ihy =>
    exact ⟨h.1, ihx h.2.1 hs.1, ihy h.2.2 hs.2⟩
  | trunc => exact h.elim
  | ite => exact h.elim

theorem OpsIn.flatten {bin : List BinOp} {ar : List ArOp} (hb : .imp2 ∉ bin ∧ .bimp2 ∉ bin) {a : Ast}
    (h : OpsIn [.not, .always, .eventually, .next] bin [.eq, .ne, .lt, .le, .gt, .ge] ar a) :
    ∃ s, Tulip.flatten a = some s := by
  induction a with
  | var | num | str => exact ⟨_, rfl⟩
  | bool b => cases b <;> exact ⟨_, rfl⟩
  | un op x ih =>
    obtain ⟨s, hs⟩ := ih h.2
    have := h.1
    cases op <;> simp [Tulip.flatten, hs, unText] at this ⊢
  | bin op x y ihx ihy =>
    obtain ⟨s, hs⟩ := ihx h.2.1
    obtain ⟨r, hr⟩ := ihy h.2.2
    have := h.1
    cases op <;> simp [Tulip.flatten, hs, hr, binText]
    · exact hb.1 this
    · exact hb.2 this
  | cmp op x y ihx ihy =>
    obtain ⟨s, hs⟩ := ihx h.2.1
    obtain ⟨r, hr⟩ := ihy h.2.2
    have := h.1
    cases op <;> simp [Tulip.flatten, hs, hr, cmpText] at this ⊢
  | ar op x y ihx ihy =>
    obtain ⟨s, hs⟩ := ihx h.2.1
    obtain ⟨r, hr⟩ := ihy h.2.2
    cases op <;> simp [Tulip.flatten, hs, hr, arText]
  | trunc => exact h.elim
  | ite => exact h.elim

theorem mem_allVars_keys {g : GRSpec} {v : String} (h : v ∈ g.envVars.keys ∨ v ∈ g.sysVars.keys) :
    v ∈ (Cache.allVars g).keys := by
  unfold Cache.allVars
  rw [mem_keys_update]
  exact h

/-- The tree that the translations write for such a clause. -/
theorem Writable.tree {g : GRSpec} {bin : List BinOp} {ar : List ArOp} (hb : .imp2 ∉ bin ∧ .bimp2 ∉ bin)
    {x : List Char} (h : Writable g bin ar x) : ∃ b, ClauseTree g x b ∧
      Within [.not, .always, .eventually, .next] bin [.eq, .ne, .lt, .le, .gt, .ge] ar (fun _ => True) b := by
  obtain ⟨a, h1, h2, h3, h4, h5⟩ := h
  obtain ⟨b, hb1, hb2, _⟩ := subConstants_correct h5
  have ho := h3.sub hb1
  obtain ⟨f, hf⟩ := ho.flatten hb
  exact ⟨b, ⟨a, f, h1, ((checkIdents_iff h4).2).2 fun v hv => mem_allVars_keys (h2 v hv), hb1, hf⟩, ho.within hb2⟩

/-! ## The calls -/

/-- The propositional operators of gr1c and slugs. -/
abbrev solverBin : List BinOp := [.and, .or, .imp, .bimp]

theorem translateGr1c_returns {order : List Part} (horder : ∀ p, p ∈ order) {g : GRSpec} (hp : PrimesOk g)
    (hw : ∀ p, ∀ x ∈ part g p, Writable g solverBin [] x)
    (hs : ∀ v l, (v, Dom.strs l) ∈ g.envVars ++ g.sysVars → l ≠ []) :
    ∃ s, (translateGr1c order (new g)).2 = .ok s :=
  (translateGr1c_correct horder g (ops := []) trivial).2.1.2
    ⟨hp, fun p x hx => (hw p x hx).tree (by decide), hs⟩

theorem selectOptions_returns (g : GRSpec) : (∃ o, selectOptions g = .ok o) ↔ Askable g := by
  simp only [selectOptions_ok_iff, Askable]
  constructor
  · rintro ⟨o, h1, h2, ⟨h3, _⟩ | ⟨h3, h4, _⟩ | ⟨h3, h4, _⟩⟩
    · exact ⟨h1, h2, .inl h3⟩
    · exact ⟨h1, h2, .inr (.inl ⟨h3, h4⟩)⟩
    · exact ⟨h1, h2, .inr (.inr ⟨h3, h4⟩)⟩
  · rintro ⟨h1, h2, h3 | ⟨h3, h4⟩ | ⟨h3, h4⟩⟩
    · exact ⟨_, h1, h2, .inl ⟨h3, rfl⟩⟩
    · exact ⟨_, h1, h2, .inr (.inl ⟨h3, h4, rfl⟩)⟩
    · exact ⟨_, h1, h2, .inr (.inr ⟨h3, h4, rfl⟩)⟩

omit [DecidableEq ν] in
/-- **C105 (gr1c, gr1py).** For clauses that can be written for these solvers, with primed variables only
where they may be and no empty list of values, `check_realizable` returns exactly if the options are ones that
the solvers can decide. -/
theorem gr1cCheck_returns {order : List Part} (horder : ∀ p, p ∈ order) (E : Gr1cExe ν δ) (L : Gr1pyLib ν δ)
    {g : GRSpec} (hp : PrimesOk g) (hw : ∀ p, ∀ x ∈ part g p, Writable g solverBin [] x)
    (hs : ∀ v l, (v, Dom.strs l) ∈ g.envVars ++ g.sysVars → l ≠ []) :
    ((∃ b, gr1cCheck order (some E) g = .ok b) ↔ Askable g) ∧
    ((∃ b, gr1pyCheck order (some L) g = .ok b) ↔ Askable g) := by
  obtain ⟨s, hs⟩ := translateGr1c_returns horder hp hw hs
  rw [← selectOptions_returns]
  unfold gr1cCheck gr1pyCheck gr1pyInput
  cases ho : selectOptions g with
  | error e => simp [error_bind]
  | ok o => simp [ok_bind, hs]

omit [DecidableEq ν] in
theorem found_ok (r : Except PyErr (Option (Strategy ν))) : (∃ b, found r = .ok b) ↔ ∃ a, r = .ok a := by
  cases r <;> simp [found, Except.map]

/-- **C104 (gr1c, gr1py).** Then `synthesize` returns too, for solvers whose strategies can be read. -/
theorem gr1cSynthesize_returns {order : List Part} (horder : ∀ p, p ∈ order) {E : Gr1cExe ν δ} (hE : E.Sound)
    {L : Gr1pyLib ν δ} (hL : L.Sound)
    {g : GRSpec} (hp : PrimesOk g) (hw : ∀ p, ∀ x ∈ part g p, Writable g solverBin [] x)
    (hs : ∀ v l, (v, Dom.strs l) ∈ g.envVars ++ g.sysVars → l ≠ []) :
    ((∃ r, gr1cSynthesize order (some E) g = .ok r) ↔ Askable g) ∧
    ((∃ r, gr1pySynthesize order (some L) g = .ok r) ↔ Askable g) := by
  let E' : Gr1cExe ν δ := ⟨E.solve, fun o s => (E.solve o s).1⟩
  let L' : Gr1pyLib ν δ := ⟨L.solve, fun o s => (L.solve o s).isSome⟩
  have h := gr1cCheck_returns horder E' L' hp hw hs
  rw [gr1cCheck_agrees order (E := E') hE (fun _ _ => Iff.rfl) g,
    gr1pyCheck_agrees order (L := L') hL (fun _ _ => rfl) g, found_ok, found_ok] at h
  have e1 : gr1cSynthesize order (some E') g = gr1cSynthesize order (some E) g := rfl
  have e2 : gr1pySynthesize order (some L') g = gr1pySynthesize order (some L) g := by
    unfold gr1pySynthesize gr1pyInput
    cases selectOptions g with
    | error e => rfl
    | ok o => cases (translateGr1c order (new g)).2 <;> rfl
  rw [e1, e2] at h
  exact h

/-- **C105 (omega).** For clauses that use the operators of the package but the other spellings of
implication and equivalence, `is_realizable` returns, whatever the options are. -/
theorem omegaCheck_returns {order : List Part} (horder : ∀ p, p ∈ order) (L : OmegaLib ν) {g : GRSpec}
    (hw : ∀ p, ∀ x ∈ part g p, Writable g [.and, .or, .xor, .imp, .bimp, .strongUntil, .weakUntil, .release]
      [.add, .sub, .mul, .div] x) :
    (∃ b, omegaCheck order (some L) g = .ok b) ∧
    ((∀ G, L.sysFalse G = false) → ∃ r, omegaSynthesize order (some L) g = .ok r) := by
  have : ∃ G, (Omega.toAutomaton order (new g)).2 = .ok G := by
    refine (Omega.toAutomaton_correct horder g (ops := []) trivial
      (r := (Omega.toAutomaton order (new g)).2) (st' := (Omega.toAutomaton order (new g)).1) rfl).1.2 ?_
    intro p x hx
    obtain ⟨b, ⟨a, f, h1, h2, h3, h4⟩, _⟩ := (hw p x hx).tree (by decide)
    exact ⟨f, a, b, h1, h2, h3, h4⟩
  obtain ⟨G, hG⟩ := this
  refine ⟨by simp [omegaCheck, hG, ok_bind], fun hf => ?_⟩
  simp only [omegaSynthesize, hG, ok_bind, hf, Bool.false_eq_true, if_false]
  split <;> exact ⟨_, rfl⟩

/-- `slugs` says whether the file is realizable. -/
def SlugsAnswers (X : SlugsExe) : Prop := ∀ b s, (X b s).code = 0 ∧
  (c!"Specification is realizable" <:+: (X b s).err ∨ c!"Specification is unrealizable" <:+: (X b s).err)

/-- **C105 (slugs).** For clauses that can be written for slugs, without string variables and with primed
variables only where they may be, `check_realizable` returns exactly if the options are those of slugs. -/
theorem slugsCheck_returns {order : List Part} (horder : ∀ p, p ∈ order) {X : SlugsExe} (hX : SlugsAnswers X)
    {g : GRSpec} (hp : PrimesOk g) (hw : ∀ p, ∀ x ∈ part g p, Writable g solverBin [.add, .sub] x)
    (hs : ∀ v l, (v, Dom.strs l) ∉ g.envVars ++ g.sysVars) :
    (∃ b, slugsCheck order (some X) g = .ok b) ↔ g.moore = false ∧ g.plusOne = false := by
  obtain ⟨s, hs⟩ := (translateSlugs_correct horder g (ops := []) trivial).2.1.2
    ⟨hp, fun p x hx => (hw p x hx).tree (by decide), hs⟩
  have hs : (translateSlugs order (new g)).2 = .ok s := hs
  unfold slugsCheck slugsInput
  cases g.moore with
  | true => simp [error_bind]
  | false =>
    cases g.plusOne with
    | true => simp [error_bind]
    | false =>
      simp only [Bool.false_eq_true, if_false, hs, ok_bind, and_self, iff_true]
      unfold callSlugs
      have h1 := (hX false s).1
      simp only [h1, ne_eq, not_true_eq_false, if_false]
      split
      · exact ⟨_, rfl⟩
      · next h2 =>
        split
        · exact ⟨_, rfl⟩
        · next h3 =>
          exfalso
          rcases (hX false s).2 with h | h
          · exact h2 (by simpa [isIn] using h)
          · exact h3 (by simpa [isIn] using h)

/-- **C104 (slugs).** Then `synthesize` returns too, if the strategies that slugs prints are right. -/
theorem slugsSynthesize_returns {order : List Part} (horder : ∀ p, p ∈ order) {X : SlugsExe} (hX : SlugsAnswers X)
    (hsound : SlugsSound X) {g : GRSpec} (hp : PrimesOk g) (hpl : Plainly g)
    (hw : ∀ p, ∀ x ∈ part g p, Writable g solverBin [.add, .sub] x)
    (hb : ∀ k d, (k, d) ∈ g.envVars ++ g.sysVars → Dom.Bits d)
    (hs : ∀ v l, (v, Dom.strs l) ∉ g.envVars ++ g.sysVars) :
    (∃ r, slugsSynthesize order (some X) g = .ok r) ↔ g.moore = false ∧ g.plusOne = false := by
  have h := slugsCheck_returns horder (X := fun _ s => X true s) (fun _ s => hX true s) hp hw hs
  rw [slugsCheck_agrees horder (X := fun _ s => X true s) hsound (fun _ => ⟨rfl, rfl⟩) hpl hb, found_ok] at h
  exact h

/-- **C105.** `is_realizable` returns if the specification with the transition systems is one for which the
chosen solver answers. -/
theorem isRealizable_returns {order : List Part} (horder : ∀ p, p ∈ order)
    {ord : List (List Char) → List (List Char)}
    {check : Solvers (GRSpec → Except PyErr Bool)} (E : Gr1cExe ν δ) (P : Gr1pyLib ν δ)
    {X : SlugsExe} (hX : SlugsAnswers X) (L : OmegaLib ν)
    (h1 : check.gr1c = gr1cCheck order (some E)) (h2 : check.gr1py = gr1pyCheck order (some P))
    (h3 : check.slugs = some (slugsCheck order (some X))) (h4 : check.omega = omegaCheck order (some L))
    {s g : GRSpec} {env sys : Option TsArg} {ignoreEnv ignoreSys : Bool} {solver : String}
    (hsolver : solver ∈ ["gr1c", "gr1py", "slugs", "omega"])
    (hg : specPlusSys ord s env sys ignoreEnv ignoreSys = .ok g) (hp : PrimesOk g)
    (hw : ∀ p, ∀ x ∈ part g p, Writable g solverBin [] x)
    (hs : ∀ v l, (v, Dom.strs l) ∈ g.envVars ++ g.sysVars → l ≠ [])
    (hgr : solver = "gr1c" ∨ solver = "gr1py" → Askable g)
    (hsl : solver = "slugs" → (g.moore = false ∧ g.plusOne = false) ∧ ∀ v l, (v, Dom.strs l) ∉ g.envVars ++ g.sysVars) :
    ∃ b, isRealizable ord check s env sys ignoreEnv ignoreSys solver = .ok b := by
  have hmore : ∀ {bin : List BinOp} {ar : List ArOp}, solverBin ⊆ bin → ∀ p, ∀ x ∈ part g p, Writable g bin ar x := by
    intro bin ar hb p x hx
    obtain ⟨a, w1, w2, w3, w4, w5⟩ := hw p x hx
    refine ⟨a, w1, w2, ?_, w4, w5⟩
    clear w1 w2 w4 w5
    induction a with
    | var | bool | num | str => trivial
    | un op x ih => exact ⟨w3.1, ih w3.2⟩
    | bin op x y ihx ihy => exact ⟨hb w3.1, ihx w3.2.1, ihy w3.2.2⟩
    | cmp op x y ihx ihy => exact ⟨w3.1, ihx w3.2.1, ihy w3.2.2⟩
    | ar op x y ihx ihy => exact absurd w3.1 List.not_mem_nil
    | trunc => exact w3.elim
    | ite => exact w3.elim
  unfold isRealizable
  simp only [hg, ok_bind]
  simp only [List.mem_cons, List.not_mem_nil, or_false] at hsolver
  have hgc := gr1cCheck_returns horder E P hp hw hs
  rcases hsolver with rfl | rfl | rfl | rfl
  · rw [(pick_spec check check.gr1c).1.1, ok_bind, h1]
    exact hgc.1.2 (hgr (.inl rfl))
  · rw [(pick_spec check check.gr1c).1.2.1, ok_bind, h2]
    exact hgc.2.2 (hgr (.inr rfl))
  · rw [(pick_spec check _).2.2 h3, ok_bind]
    exact (slugsCheck_returns horder hX hp (hmore fun _ h => h) (hsl rfl).2).2 (hsl rfl).1
  · rw [(pick_spec check check.gr1c).1.2.2, ok_bind, h4]
    exact (omegaCheck_returns horder L (hmore (by decide))).1

/-! ## Non-vacuity -/

/-- The lamp, with a string variable for its color. -/
def coloredLamp : GRSpec :=
  { lamp with sysVars := [("y", .boolean), ("c", .strs ["red", "green"])],
              sysSafety := [c!"X y -> c = \"red\""] }

theorem coloredLamp_writable : ∀ p, ∀ x ∈ part coloredLamp p, Writable coloredLamp solverBin [] x := by
  have h1 : Tulip.parse c!"y" = some (.var "y") := by decide +kernel
  have h2 : Tulip.parse c!"X y -> c = \"red\"" =
      some (.bin .imp (.un .next (.var "y")) (.cmp .eq (.var "c") (.str "red"))) := by decide +kernel
  have hy : Writable coloredLamp solverBin [] c!"y" :=
    ⟨_, h1, by intro v hv; simp only [Ast.vars, List.mem_singleton] at hv; subst hv; exact .inr (by decide),
      trivial, trivial, .var rfl⟩
  intro p x hx
  cases p with
  | envInit | envSafety | envProg => exact absurd hx List.not_mem_nil
  | sysInit | sysProg =>
    obtain rfl := List.mem_singleton.1 hx
    exact hy
  | sysSafety =>
    obtain rfl := List.mem_singleton.1 hx
    refine ⟨_, h2, ?_, by simp [OpsIn], by simp [ConstsPaired], .bin (.un (.var rfl))
      (.varConst (.inl rfl) (l := ["red", "green"]) rfl (by decide) .here .here)⟩
    intro v hv
    simp only [Ast.vars, List.append_nil, List.mem_append, List.mem_singleton] at hv
    rcases hv with rfl | rfl <;> exact .inr (by decide)

/-- The interfaces to gr1c and gr1py answer for the colored lamp. -/
example (E : Gr1cExe ν δ) (L : Gr1pyLib ν δ) :
    (∃ b, gr1cCheck [.envInit, .envSafety, .envProg, .sysInit, .sysSafety, .sysProg] (some E) coloredLamp = .ok b) ∧
    (∃ b, gr1pyCheck [.envInit, .envSafety, .envProg, .sysInit, .sysSafety, .sysProg] (some L) coloredLamp = .ok b) := by
  have hp : PrimesOk coloredLamp := by
    have h1 : Tulip.parse c!"y" = some (.var "y") := by decide +kernel
    refine ⟨fun x hx a ha v => ?_, fun x hx => absurd hx List.not_mem_nil⟩
    have hx : x ∈ [c!"y"] := hx
    obtain rfl := List.mem_singleton.1 hx
    rw [h1] at ha
    cases ha
    simp [PrimedIn]
  have hs : ∀ v l, (v, Dom.strs l) ∈ coloredLamp.envVars ++ coloredLamp.sysVars → l ≠ [] := by
    intro v l h
    simp only [coloredLamp, lamp, List.cons_append, List.nil_append, List.mem_cons, Prod.mk.injEq, reduceCtorEq,
      and_false, false_or, List.not_mem_nil, or_false, Dom.strs.injEq] at h
    obtain ⟨_, rfl⟩ := h
    simp
  have h := gr1cCheck_returns (order := [.envInit, .envSafety, .envProg, .sysInit, .sysSafety, .sysProg])
    (by intro p; cases p <;> decide) E L hp coloredLamp_writable hs
  have ha : Askable coloredLamp := ⟨rfl, rfl, .inl rfl⟩
  exact ⟨h.1.2 ha, h.2.2 ha⟩

end Iface

end Tulip
