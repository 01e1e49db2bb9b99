import Verif.Interfaces.Gr1cXml
import Verif.Interfaces.Gr1cProps
import Verif.Interfaces.SessionProps
import Verif.Synth.DependentProps

/-!
# Strategies read from XML

C103: `load_aut_xml` and `load_mealy` return the strategy that the document describes.
-/

namespace Tulip

namespace Iface

open Synth

/-! ### Specification: the document that describes a strategy -/

/-- A node of a strategy: its number, its annotation (goal mode and reach value), its successors and the
values of the variables. -/
structure XmlNodeDesc where
  id : Int
  anno : List Int
  children : List Int
  state : List (String × Int)

/-- A strategy, with the variables and the specification that it realizes. -/
structure XmlDesc where
  env : List (String × Dom)
  sys : List (String × Dom)
  clauses : String → List (List Char)
  nodes : List XmlNodeDesc

/-- A tag in the namespace of the format. -/
def xtag (name : List Char) : List Char := c!"{" ++ defaultNamespace ++ c!"}" ++ name

/-- `<item key="…" value="…"/>`. -/
def xItem (k : String) (v : List Char) : Xml :=
  .mk (xtag c!"item") [("key", k.toList), ("value", v)] none []

/-- `<litem value="…"/>`. -/
def xLitem (v : List Char) : Xml := .mk (xtag c!"litem") [("value", v)] none []

/-- A list of numbers separated by spaces. -/
def xInts (name : List Char) (l : List Int) : Xml :=
  .mk (xtag name) [] (if l.isEmpty then none else some (joinAsStr l)) []

/-- A node. -/
def xNode (n : XmlNodeDesc) : Xml :=
  .mk (xtag c!"node") [] none [.mk (xtag c!"id") [] (some (intChars n.id)) [],
    xInts c!"anno" n.anno, xInts c!"child_list" n.children,
    .mk (xtag c!"state") [] none (n.state.map fun x => xItem x.1 (intChars x.2))]

/-- The variables with their domains. -/
def xVars (name : List Char) (l : List (String × Dom)) : Xml :=
  .mk (xtag name) [] none (l.map fun x => xItem x.1 (xmlDom x.2))

/-- The specification. -/
def xSpec (clauses : String → List (List Char)) : Xml :=
  .mk (xtag c!"spec") [] none
    (["env_init", "env_safety", "env_prog", "sys_init", "sys_safety", "sys_prog"].map fun t =>
      .mk (xtag t.toList) [] none ((clauses t).map xLitem))

/-- A document with the given strategy elements. -/
def xDocWith (p : XmlDesc) (aut : List Xml) : Xml :=
  .mk (xtag c!"tulipcon") [("version", c!"1")] none
    ([xVars c!"env_vars" p.env, xVars c!"sys_vars" p.sys, xSpec p.clauses] ++ aut)

/-- The element of the strategy; `text` is the text before the first node. -/
def xAut (text : Option (List Char)) (l : List XmlNodeDesc) : Xml :=
  .mk (xtag c!"aut") [("type", c!"basic")] text (l.map xNode)

/-- The document that describes a strategy. -/
def xDoc (p : XmlDesc) (text : List Char) : Xml := xDocWith p [xAut (some text) p.nodes]

/-- The document that describes only a specification. -/
def xSpecDoc (p : XmlDesc) : Xml := xDocWith p []

/-- Distinct names of variables with domains that the format has, and nodes that give each variable one
value. -/
structure XmlDesc.Ok (p : XmlDesc) : Prop where
  env : (p.env.map (·.1)).Nodup
  sys : (p.sys.map (·.1)).Nodup
  envDom : ∀ x ∈ p.env, ∀ l, x.2 ≠ .strs l
  sysDom : ∀ x ∈ p.sys, ∀ l, x.2 ≠ .strs l
  states : ∀ n ∈ p.nodes, (n.state.map (·.1)).Nodup

/-- The first node with the given number. -/
def firstNode (l : List XmlNodeDesc) (u : Int) : Option XmlNodeDesc := l.find? fun n => n.id = u

/-- The attributes of a node: the annotation gives the goal mode and the reach value if it has two
entries. -/
def XmlNodeDesc.attrs (n : XmlNodeDesc) : XmlNode :=
  match n.anno with
  | [m, r] => ⟨n.state, m, r⟩
  | _ => ⟨n.state, -1, -1⟩

/-! ### Elements -/

theorem nsPrefix_default (name : List Char) : nsPrefix defaultNamespace ++ name = xtag name := rfl

theorem xtag_inj {a b : List Char} : xtag a = xtag b ↔ a = b := by
  unfold xtag
  exact List.append_cancel_left_eq _ _ _ |>.to_iff

theorem findall_all {e : Xml} {t : List Char} (h : ∀ c ∈ e.children, c.tag = t) : e.findall t = e.children := by
  unfold Xml.findall
  rw [List.filter_eq_self]
  intro c hc
  simp [h c hc]

theorem mapE_map {ε α β γ : Type} (f : β → Except ε γ) (g : α → β) (l : List α) :
    mapE f (l.map g) = mapE (fun x => f (g x)) l := by
  induction l with
  | nil => rfl
  | cons x l ih => rw [List.map_cons, mapE, mapE, ih]

theorem castInt_intChars (n : Int) : castInt (intChars n) = .ok n := by
  unfold castInt
  rw [Gw.pyInt_intChars]

theorem wordsFrom_newline (s cur : List Char) : Gw.wordsFrom cur (s ++ ['\n']) = Gw.wordsFrom cur s := by
  induction s generalizing cur with
  | nil =>
    have h : Gw.isSpace '\n' = true := by decide
    by_cases hc : cur = [] <;> simp [Gw.wordsFrom, h, hc]
  | cons c s ih =>
    rw [List.cons_append, Gw.wordsFrom, Gw.wordsFrom, ih, ih]

theorem untaglist_ints (name : List Char) (l : List Int) :
    untaglist (some (xInts name l)) castInt defaultNamespace = .ok (xtag name, l) := by
  unfold untaglist xInts
  simp only [elemE, ok_bind, Xml.findall, Xml.children, List.filter_nil, List.isEmpty_nil, Bool.not_true,
    Bool.false_eq_true, if_false, Xml.text, Xml.tag]
  cases l with
  | nil => rfl
  | cons n l =>
    simp only [List.isEmpty_cons, Bool.false_eq_true, if_false]
    have h1 : Gw.words (joinAsStr (n :: l)) = (n :: l).map intChars := by
      unfold joinAsStr
      rw [Gw.words, ← wordsFrom_newline]
      apply words_join
      intro w hw
      obtain ⟨k, _, rfl⟩ := List.mem_map.mp hw
      exact isWord_int k
    rw [h1, mapE_map, Synth.mapE_ok (g := id) (fun x _ => castInt_intChars x)]
    simp

theorem untagdict_items {β : Type} (cast : List Char → Except PyErr β) (show' : β → List Char) (tag : List Char)
    (l : List (String × β)) (h : ∀ x ∈ l, cast (show' x.2) = .ok x.2) (hn : (l.map (·.1)).Nodup) :
    untagdict (some (.mk tag [] none (l.map fun x => xItem x.1 (show' x.2)))) cast defaultNamespace =
      .ok (tag, l, l.map (·.1)) := by
  unfold untagdict
  simp only [elemE, ok_bind, nsPrefix_default]
  rw [findall_all (by
    intro c hc
    obtain ⟨x, _, rfl⟩ := List.mem_map.mp hc
    rfl)]
  simp only [Xml.children]
  rw [mapE_map, Synth.mapE_ok (g := id)]
  · simp only [List.map_id, ok_bind, Xml.tag]
    rw [dictOf_nodup hn]
  · intro x hx
    unfold untagitem xItem
    simp only [Xml.attrib]
    have h1 : Dict.get? [("key", x.1.toList), ("value", show' x.2)] "value" = some (show' x.2) := rfl
    have h2 : Dict.get? [("key", x.1.toList), ("value", show' x.2)] "key" = some x.1.toList := rfl
    rw [h1, h2]
    simp only [keyE, ok_bind, h x hx, String.ofList_toList, id_eq]

theorem getE_of_mem {β : Type} {d : Dict String β} (hw : d.Wf) {k : String} {v : β} (h : (k, v) ∈ d) :
    getE d k = .ok v := by
  unfold getE
  rw [Synth.get?_of_mem_wf hw h]

theorem parseVars_vars {l : List (String × Dom)} (hn : (l.map (·.1)).Nodup)
    (hd : ∀ x ∈ l, ∀ s, x.2 ≠ .strs s) :
    parseVars (l.map (·.1)) (l.map fun x => (x.1, xmlDom x.2)) = .ok l := by
  unfold parseVars
  have hw : Dict.Wf (l.map fun x => (x.1, xmlDom x.2)) := by
    unfold Dict.Wf Dict.keys
    rw [List.map_map]
    exact hn
  rw [mapE_map, Synth.mapE_ok (g := id)]
  · simp only [ok_bind, List.map_id]
    rw [dictOf_nodup hn]
  · intro x hx
    have hm : (x.1, xmlDom x.2) ∈ l.map fun x => (x.1, xmlDom x.2) := List.mem_map.mpr ⟨x, hx, rfl⟩
    rw [getE_of_mem hw hm]
    simp only [ok_bind, parseVar_spec x.2 (hd x hx), id_eq]

theorem find_cons (e : Xml) (t : List Char) (tag a x c) (h : e.tag = t) :
    (Xml.mk tag a x (e :: c)).find t = some e := by
  unfold Xml.find
  simp [Xml.children, h]

/-- What the loop does with a node. -/
def nodeStep (st : List Int × DiG Int XmlNode) (n : XmlNodeDesc) : List Int × DiG Int XmlNode :=
  if n.id ∈ st.1 then st
  else (st.1 ++ [n.id], n.children.foldl (fun g v => g.addEdge n.id v) (st.2.addNode n.id n.attrs))

theorem loadXmlNode_step (st : List Int × DiG Int XmlNode) (n : XmlNodeDesc) (hn : (n.state.map (·.1)).Nodup) :
    loadXmlNode defaultNamespace st (xNode n) = .ok (nodeStep st n) := by
  unfold loadXmlNode
  have h1 : (xNode n).find (nsPrefix defaultNamespace ++ c!"id") =
      some (.mk (xtag c!"id") [] (some (intChars n.id)) []) := rfl
  have h2 : (xNode n).find (nsPrefix defaultNamespace ++ c!"anno") = some (xInts c!"anno" n.anno) := rfl
  have h3 : (xNode n).find (nsPrefix defaultNamespace ++ c!"child_list") =
      some (xInts c!"child_list" n.children) := rfl
  have h4 : (xNode n).find (nsPrefix defaultNamespace ++ c!"state") =
      some (.mk (xtag c!"state") [] none (n.state.map fun x => xItem x.1 (intChars x.2))) := rfl
  rw [h1, h2, h3, h4, untaglist_ints, untaglist_ints,
    untagdict_items castInt intChars _ _ (fun x _ => castInt_intChars x.2) hn]
  simp only [elemE, ok_bind, Xml.text, castInt_intChars, nsPrefix_default, ne_eq, not_true_eq_false, if_false]
  unfold nodeStep
  split
  · rfl
  · congr 2
    unfold XmlNodeDesc.attrs
    split
    · next h => simp only [h]
    · next h => split <;> simp_all

theorem foldE_step {σ α β : Type} {f : σ → β → Except PyErr σ} {g : σ → α → σ} (r : α → β) (l : List α)
    (h : ∀ s, ∀ x ∈ l, f s (r x) = .ok (g s x)) (s : σ) : foldE f s (l.map r) = .ok (l.foldl g s) := by
  induction l generalizing s with
  | nil => rfl
  | cons x l ih =>
    rw [List.map_cons, foldE, h s x (by simp), ok_bind, ih (fun s y hy => h s y (by simp [hy]))]
    rfl

/-! ### The graph -/

theorem get?_touchInt {α : Type} (g : DiG Int α) (u w : Int) :
    (g.touch u).nodes.get? w = if w = u then (g.nodes.get? w).or (some none) else g.nodes.get? w := by
  unfold DiG.touch
  split
  · next h =>
    obtain ⟨v, hv⟩ := (Dict.has_iff _ _).mp h
    split
    · next e => subst e; rw [hv]; rfl
    · rfl
  · next h =>
    have h' : g.nodes.get? u = none := (Dict.has_false_iff _ _).mp (by simpa using h)
    simp only [Dict.get?_set]
    by_cases e : w = u
    · subst e; simp [h']
    · have : ¬ u = w := fun e' => e e'.symm
      simp [e, this]

theorem touch_edges {α : Type} (g : DiG Int α) (u : Int) : (g.touch u).edges = g.edges := by
  unfold DiG.touch
  split <;> rfl

theorem touch_wf {α : Type} {g : DiG Int α} (h : g.nodes.Wf) (u : Int) : (g.touch u).nodes.Wf := by
  unfold DiG.touch
  split
  · exact h
  · exact Dict.wf_set h _ _

theorem addEdge_specInt {α : Type} (g : DiG Int α) (u v : Int) :
    (∀ w, (g.addEdge u v).nodes.get? w =
      if w = u ∨ w = v then (g.nodes.get? w).or (some none) else g.nodes.get? w) ∧
    (∀ e, e ∈ (g.addEdge u v).edges ↔ e ∈ g.edges ∨ e = (u, v)) ∧
    (g.nodes.Wf → (g.addEdge u v).nodes.Wf) ∧ (g.edges.Nodup → (g.addEdge u v).edges.Nodup) := by
  have hn : (g.addEdge u v).nodes = ((g.touch u).touch v).nodes := by
    unfold DiG.addEdge; dsimp only; split <;> rfl
  have he : (g.addEdge u v).edges = if (u, v) ∈ g.edges then g.edges else g.edges ++ [(u, v)] := by
    unfold DiG.addEdge
    dsimp only
    rw [touch_edges, touch_edges]
    split <;> simp [touch_edges]
  refine ⟨fun w => ?_, fun e => ?_, fun h => ?_, fun h => ?_⟩
  · rw [hn, get?_touchInt, get?_touchInt]
    by_cases h1 : w = u <;> by_cases h2 : w = v <;> simp [h1, h2]
    all_goals split <;> simp_all
  · rw [he]
    split
    · next h =>
      constructor
      · exact .inl
      · rintro (h' | rfl)
        exacts [h', h]
    · simp
  · rw [hn]; exact touch_wf (touch_wf h _) _
  · rw [he]
    split
    · exact h
    · next hx =>
      rw [List.nodup_append]
      refine ⟨h, by simp, ?_⟩
      rintro a ha b hb rfl
      rw [List.mem_singleton] at hb
      exact hx (hb ▸ ha)

theorem addEdgesFrom_spec {α : Type} (u : Int) (l : List Int) (g : DiG Int α) (hu : g.nodes.get? u ≠ none) :
    (∀ w, (l.foldl (fun g v => g.addEdge u v) g).nodes.get? w =
      if w ∈ l then (g.nodes.get? w).or (some none) else g.nodes.get? w) ∧
    (∀ e, e ∈ (l.foldl (fun g v => g.addEdge u v) g).edges ↔ e ∈ g.edges ∨ (e.1 = u ∧ e.2 ∈ l)) ∧
    (g.nodes.Wf → (l.foldl (fun g v => g.addEdge u v) g).nodes.Wf) ∧
    (g.edges.Nodup → (l.foldl (fun g v => g.addEdge u v) g).edges.Nodup) := by
  induction l generalizing g with
  | nil => simp
  | cons v l ih =>
    obtain ⟨a1, a2, a3, a4⟩ := addEdge_specInt g u v
    have hu' : (g.addEdge u v).nodes.get? u ≠ none := by
      rw [a1, if_pos (.inl rfl)]
      cases h : g.nodes.get? u <;> simp
    obtain ⟨b1, b2, b3, b4⟩ := ih (g.addEdge u v) hu'
    refine ⟨fun w => ?_, fun e => ?_, fun h => b3 (a3 h), fun h => b4 (a4 h)⟩
    · rw [List.foldl_cons, b1, a1]
      have hx : w = u → (g.nodes.get? w).or (some none) = g.nodes.get? w := by
        rintro rfl
        cases h : g.nodes.get? w with
        | none => exact absurd h hu
        | some _ => rfl
      have hy : ((g.nodes.get? w).or (some none)).or (some none) = (g.nodes.get? w).or (some none) := by
        cases g.nodes.get? w <;> rfl
      by_cases h1 : w = u <;> by_cases h2 : w = v <;> by_cases h3 : w ∈ l <;>
        simp only [h1, h2, h3, List.mem_cons, true_or, or_true, false_or, or_false, if_true, if_false, or_self] <;>
        simp_all
    · rw [List.foldl_cons, b2, a2]
      obtain ⟨x, y⟩ := e
      simp only [Prod.mk.injEq, List.mem_cons]
      tauto

theorem firstNode_append (l : List XmlNodeDesc) (n : XmlNodeDesc) (u : Int) :
    firstNode (l ++ [n]) u = (firstNode l u).or (if n.id = u then some n else none) := by
  unfold firstNode
  rw [List.find?_append]
  congr 1
  by_cases h : n.id = u <;> simp [h]

theorem firstNode_none {l : List XmlNodeDesc} {u : Int} : firstNode l u = none ↔ ∀ n ∈ l, n.id ≠ u := by
  unfold firstNode
  simp [List.find?_eq_none]

theorem firstNode_id {l : List XmlNodeDesc} {u : Int} {n : XmlNodeDesc} (h : firstNode l u = some n) :
    n.id = u ∧ n ∈ l := by
  unfold firstNode at h
  exact ⟨by simpa using List.find?_some h, List.mem_of_find?_eq_some h⟩

/-- What the loop has built from a list of nodes. -/
structure Built (l : List XmlNodeDesc) (st : List Int × DiG Int XmlNode) : Prop where
  ids : ∀ u, u ∈ st.1 ↔ ∃ n ∈ l, n.id = u
  state : ∀ u a, st.2.nodes.get? u = some (some a) ↔ ∃ n, firstNode l u = some n ∧ a = n.attrs
  other : ∀ u, st.2.nodes.get? u = some none ↔
    firstNode l u = none ∧ ∃ w n, firstNode l w = some n ∧ u ∈ n.children
  edges : ∀ u v, (u, v) ∈ st.2.edges ↔ ∃ n, firstNode l u = some n ∧ v ∈ n.children
  wf : st.2.nodes.Wf
  nodup : st.2.edges.Nodup

theorem nodeStep_built {l : List XmlNodeDesc} {st : List Int × DiG Int XmlNode} (h : Built l st)
    (n : XmlNodeDesc) : Built (l ++ [n]) (nodeStep st n) := by
  unfold nodeStep
  split
  · next hm =>
    have hf : ∀ u, firstNode (l ++ [n]) u = firstNode l u := by
      intro u
      rw [firstNode_append]
      cases hx : firstNode l u with
      | some m => rfl
      | none =>
        obtain ⟨m, hml, he⟩ := (h.ids n.id).mp hm
        have : n.id ≠ u := fun e => firstNode_none.mp hx m hml (he.trans e)
        simp [this]
    refine ⟨fun u => ?_, fun u a => ?_, fun u => ?_, fun u v => ?_, h.wf, h.nodup⟩
    · rw [h.ids]
      constructor
      · rintro ⟨m, hm, e⟩; exact ⟨m, by simp [hm], e⟩
      · rintro ⟨m, hm', e⟩
        rcases List.mem_append.mp hm' with hm' | hm'
        · exact ⟨m, hm', e⟩
        · rw [List.mem_singleton] at hm'
          subst hm'
          rw [← e]
          exact (h.ids _).mp hm
    · rw [h.state, hf]
    · rw [h.other, hf]; simp only [hf]
    · rw [h.edges, hf]
  · next hm =>
    have hnl : ∀ m ∈ l, m.id ≠ n.id := fun m hml e => hm ((h.ids _).mpr ⟨m, hml, e⟩)
    have hf0 : firstNode l n.id = none := firstNode_none.mpr hnl
    have hf : ∀ u, firstNode (l ++ [n]) u = if n.id = u then some n else firstNode l u := by
      intro u
      rw [firstNode_append]
      split
      · next e => rw [← e, hf0]; rfl
      · simp
    have hg : ∀ w, (st.2.addNode n.id n.attrs).nodes.get? w =
        if n.id = w then some (some n.attrs) else st.2.nodes.get? w := fun w => Dict.get?_set _ _ _ _
    obtain ⟨b1, b2, b3, b4⟩ := addEdgesFrom_spec n.id n.children (st.2.addNode n.id n.attrs) (by
      rw [hg, if_pos rfl]; simp)
    refine ⟨fun u => ?_, fun u a => ?_, fun u => ?_, fun u v => ?_, b3 (Dict.wf_set h.wf _ _), b4 h.nodup⟩
    · rw [List.mem_append, h.ids, List.mem_singleton]
      simp only [List.mem_append, List.mem_singleton]
      constructor
      · rintro (⟨m, hm, e⟩ | rfl)
        · exact ⟨m, .inl hm, e⟩
        · exact ⟨n, .inr rfl, rfl⟩
      · rintro ⟨m, hm | rfl, e⟩
        · exact .inl ⟨m, hm, e⟩
        · exact .inr e.symm
    · rw [b1, hg, hf]
      by_cases e : n.id = u
      · simp only [e, if_true]
        split <;> simp [eq_comm]
      · simp only [e, if_false]
        rw [← h.state]
        split
        · cases hx : st.2.nodes.get? u <;> simp
        · rfl
    · rw [b1, hg, hf]
      by_cases e : n.id = u
      · simp only [e, if_true]
        split <;> simp
      · simp only [e, if_false]
        have key : (∃ w m, firstNode (l ++ [n]) w = some m ∧ u ∈ m.children) ↔
            u ∈ n.children ∨ ∃ w m, firstNode l w = some m ∧ u ∈ m.children := by
          constructor
          · rintro ⟨w, m, h1, h2⟩
            rw [hf] at h1
            split at h1
            · injection h1 with h1; subst h1; exact .inl h2
            · exact .inr ⟨w, m, h1, h2⟩
          · rintro (h2 | ⟨w, m, h1, h2⟩)
            · exact ⟨n.id, n, by rw [hf, if_pos rfl], h2⟩
            · refine ⟨w, m, ?_, h2⟩
              rw [hf, if_neg, h1]
              rintro rfl
              rw [hf0] at h1
              cases h1
        rw [key]
        have hs := h.state u
        have ho := h.other u
        cases hx : firstNode l u with
        | some m =>
          have := (hs m.attrs).mpr ⟨m, hx, rfl⟩
          rw [this]
          simp
        | none =>
          have hne : ∀ a, st.2.nodes.get? u ≠ some (some a) := fun a e' => by
            obtain ⟨m, hm', _⟩ := (hs a).mp e'
            rw [hx] at hm'
            cases hm'
          rw [hx] at ho
          cases hy : st.2.nodes.get? u with
          | none =>
            rw [hy] at ho
            simp only [reduceCtorEq, true_and, false_iff] at ho
            by_cases hc : u ∈ n.children
            · simp [hc]
            · simp only [hc, if_false, false_or, true_and]
              simp [ho]
          | some o =>
            cases o with
            | some a => exact absurd hy (hne a)
            | none =>
              rw [hy] at ho
              simp only [true_and, true_iff] at ho
              simp [ho]
    · rw [b2, hf]
      have := h.edges u v
      show (u, v) ∈ st.2.edges ∨ _ ↔ _
      rw [this]
      by_cases e : n.id = u
      · simp only [e, if_true]
        have : firstNode l u = none := e ▸ hf0
        simp [this]
      · have e' : ¬ u = n.id := fun h => e h.symm
        simp [e, e']

theorem nodeStep_foldl (l : List XmlNodeDesc) : Built l (l.foldl nodeStep ([], DiG.empty)) := by
  suffices H : ∀ l' st, Built l' st → Built (l' ++ l) (l.foldl nodeStep st) by
    have h0 : Built [] (([], DiG.empty) : List Int × DiG Int XmlNode) :=
      ⟨by simp, by simp [DiG.empty, firstNode], by simp [DiG.empty, firstNode], by simp [DiG.empty, firstNode],
        by simp [DiG.empty, Dict.Wf, Dict.keys], by simp [DiG.empty]⟩
    simpa using H [] _ h0
  induction l with
  | nil => intro l' st h; simpa using h
  | cons n l ih =>
    intro l' st h
    have := ih _ _ (nodeStep_built h n)
    simpa using this

/-! ### Clauses -/

theorem untaglist_litems (tag : List Char) (l : List (List Char)) :
    untaglist (some (.mk tag [] none (l.map xLitem))) castStr defaultNamespace = .ok (tag, l) := by
  unfold untaglist
  have hf : (Xml.mk tag [] none (l.map xLitem)).findall (nsPrefix defaultNamespace ++ c!"litem") = l.map xLitem :=
    findall_all (by
      intro c hc
      obtain ⟨x, _, rfl⟩ := List.mem_map.mp hc
      rfl)
  simp only [elemE, ok_bind, hf, Xml.text, Xml.tag]
  cases l with
  | nil => rfl
  | cons x l =>
    rw [if_pos (by simp), mapE_map, Synth.mapE_ok (g := id)]
    · simp
    · intro y _
      rfl

theorem loadClauses_spec (clauses : String → List (List Char)) :
    loadClauses defaultNamespace (some (xSpec clauses)) =
      .ok (["env_init", "env_safety", "env_prog", "sys_init", "sys_safety", "sys_prog"].map fun t =>
        (t, (clauses t).map unescape)) := by
  unfold loadClauses
  rw [Synth.mapE_ok (g := fun t => (t, (clauses t).map unescape))]
  · rfl
  · intro t ht
    have h : (xSpec clauses).find (nsPrefix defaultNamespace ++ t.toList) =
        some (.mk (xtag t.toList) [] none ((clauses t).map xLitem)) := by
      simp only [specTags, List.mem_cons, List.not_mem_nil, or_false] at ht
      rcases ht with rfl | rfl | rfl | rfl | rfl | rfl <;> rfl
    simp only [elemE, ok_bind, h, untaglist_litems]

theorem dropPrefix_some {pat s r : List Char} (h : dropPrefix pat s = some r) : s = pat ++ r := by
  induction pat generalizing s with
  | nil => simpa [dropPrefix] using h
  | cons p ps ih =>
    cases s with
    | nil => simp [dropPrefix] at h
    | cons c cs =>
      rw [dropPrefix] at h
      split at h
      · next e => subst e; rw [ih h]; rfl
      · cases h

theorem replaceWith_id {pat s : List Char} (c : Char) (n : Nat) (h : ¬ pat <:+: s) :
    replaceWith pat c n s = s := by
  induction s generalizing n with
  | nil => cases n <;> rfl
  | cons d s ih =>
    cases n with
    | zero => rfl
    | succ n =>
      rw [replaceWith]
      split
      · next r hr => exact absurd ⟨[], r, by simpa using (dropPrefix_some hr).symm⟩ h
      · rw [ih]
        rintro ⟨a, b, e⟩
        exact h ⟨d :: a, b, by simp [← e]⟩

theorem unescape_id {s : List Char} (h1 : ¬ c!"&lt;" <:+: s) (h2 : ¬ c!"&gt;" <:+: s) (h3 : ¬ c!"&amp;" <:+: s) :
    unescape s = s := by
  unfold unescape
  simp only [replaceWith_id _ _ h1, replaceWith_id _ _ h2, replaceWith_id _ _ h3]

/-! ### C103 -/

theorem untagdict_vars {name : List Char} {l : List (String × Dom)} (hn : (l.map (·.1)).Nodup) :
    untagdict (some (xVars name l)) castStr defaultNamespace =
      .ok (xtag name, l.map fun x => (x.1, xmlDom x.2), l.map (·.1)) := by
  have h := untagdict_items castStr id (xtag name) (l.map fun x => (x.1, xmlDom x.2)) (fun _ _ => rfl)
    (by rw [List.map_map]; exact hn)
  rw [List.map_map, List.map_map] at h
  exact h

theorem loadAutXml_doc {p : XmlDesc} (h : p.Ok) (aut : List Xml) :
    loadAutXml defaultNamespace (xDocWith p aut) =
      match (xDocWith p aut).find (xtag c!"aut") with
      | none => .ok (.spec ⟨p.env, p.sys,
          ["env_init", "env_safety", "env_prog", "sys_init", "sys_safety", "sys_prog"].map fun t =>
            (t, (p.clauses t).map unescape)⟩)
      | some aut => match aut.text with
        | none => .error .attribute
        | some _ => loadXmlAut defaultNamespace p.env p.sys aut := by
  unfold loadAutXml
  have h0 : (xDocWith p aut).tag = nsPrefix defaultNamespace ++ c!"tulipcon" := rfl
  have h1 : (xDocWith p aut).attrib.get? "version" = some c!"1" := rfl
  have h2 : (xDocWith p aut).find (nsPrefix defaultNamespace ++ c!"env_vars") = some (xVars c!"env_vars" p.env) := rfl
  have h3 : (xDocWith p aut).find (nsPrefix defaultNamespace ++ c!"sys_vars") = some (xVars c!"sys_vars" p.sys) := rfl
  have h4 : (xDocWith p aut).find (nsPrefix defaultNamespace ++ c!"spec") = some (xSpec p.clauses) := rfl
  have h5 : castInt c!"1" = .ok 1 := by rfl
  rw [h0, h1, h2, h3, h4, untagdict_vars h.env, untagdict_vars h.sys, loadClauses_spec]
  simp only [ne_eq, not_true_eq_false, if_false, h5, ok_bind, parseVars_vars h.env h.envDom,
    parseVars_vars h.sys h.sysDom, nsPrefix_default]
  rfl

/-- C103. `load_aut_xml` of a document that describes a strategy returns a graph with the variables of the
document; the nodes with a state are those of the document, with their states and annotations, of nodes with
the same number the first one counts; the edges are those to the successors. -/
theorem loadAutXml_spec {p : XmlDesc} (h : p.Ok) (text : List Char) :
    ∃ g, loadAutXml defaultNamespace (xDoc p text) = .ok (.graph g) ∧ g.envVars = p.env ∧ g.sysVars = p.sys ∧
      (∀ u a, g.graph.nodes.get? u = some (some a) ↔ ∃ n, firstNode p.nodes u = some n ∧ a = n.attrs) ∧
      (∀ u, u ∈ g.graph.nodes.keys ↔
        (∃ n ∈ p.nodes, n.id = u) ∨ ∃ w n, firstNode p.nodes w = some n ∧ u ∈ n.children) ∧
      (∀ u v, (u, v) ∈ g.graph.edges ↔ ∃ n, firstNode p.nodes u = some n ∧ v ∈ n.children) ∧
      g.graph.nodes.Wf ∧ g.graph.edges.Nodup := by
  have hb := nodeStep_foldl p.nodes
  refine ⟨⟨p.env, p.sys, (p.nodes.foldl nodeStep ([], DiG.empty)).2⟩, ?_, rfl, rfl, hb.state, fun u => ?_,
    hb.edges, hb.wf, hb.nodup⟩
  · unfold xDoc
    rw [loadAutXml_doc h]
    have h1 : (xDocWith p [xAut (some text) p.nodes]).find (xtag c!"aut") = some (xAut (some text) p.nodes) := rfl
    rw [h1]
    show loadXmlAut _ _ _ _ = _
    unfold loadXmlAut
    have h2 : (xAut (some text) p.nodes).attrib.get? "type" = some c!"basic" := rfl
    rw [h2]
    simp only [keyE, ok_bind, ne_eq, not_true_eq_false, if_false, nsPrefix_default]
    rw [findall_all (by
      intro c hc
      obtain ⟨x, _, rfl⟩ := List.mem_map.mp hc
      rfl)]
    have h3 := foldE_step (f := loadXmlNode defaultNamespace) (g := nodeStep) xNode p.nodes
      (fun s n hn => loadXmlNode_step s n (h.states n hn)) ([], DiG.empty)
    show (foldE (loadXmlNode defaultNamespace) ([], DiG.empty) (p.nodes.map xNode) >>= _) = _
    rw [h3, ok_bind]
  · rw [Dict.mem_keys_iff]
    constructor
    · rintro ⟨v, hv⟩
      cases v with
      | some a =>
        obtain ⟨n, hn, _⟩ := (hb.state u a).mp hv
        exact .inl ⟨n, (firstNode_id hn).2, (firstNode_id hn).1⟩
      | none => exact .inr ((hb.other u).mp hv).2
    · intro hx
      cases hf : firstNode p.nodes u with
      | some n => exact ⟨_, (hb.state u n.attrs).mpr ⟨n, hf, rfl⟩⟩
      | none =>
        rcases hx with ⟨n, hn, e⟩ | hx
        · exact absurd e (firstNode_none.mp hf n hn)
        · exact ⟨_, (hb.other u).mpr ⟨hf, hx⟩⟩

/-- C103. `load_aut_xml` of a document without strategy returns the specification of the document, clause by
clause, if no clause contains the text of an entity. -/
theorem loadAutXml_spec_only {p : XmlDesc} (h : p.Ok)
    (hc : ∀ t, ∀ s ∈ p.clauses t, ¬ c!"&lt;" <:+: s ∧ ¬ c!"&gt;" <:+: s ∧ ¬ c!"&amp;" <:+: s) :
    ∃ s, loadAutXml defaultNamespace (xSpecDoc p) = .ok (.spec s) ∧ s.envVars = p.env ∧ s.sysVars = p.sys ∧
      ∀ t ∈ ["env_init", "env_safety", "env_prog", "sys_init", "sys_safety", "sys_prog"],
        s.clauses.get? t = some (p.clauses t) := by
  refine ⟨⟨p.env, p.sys,
    ["env_init", "env_safety", "env_prog", "sys_init", "sys_safety", "sys_prog"].map fun t =>
      (t, (p.clauses t).map unescape)⟩, ?_, rfl, rfl, ?_⟩
  · unfold xSpecDoc
    rw [loadAutXml_doc h]
    rfl
  · intro t ht
    have hu : (p.clauses t).map unescape = p.clauses t := by
      conv_rhs => rw [← List.map_id (p.clauses t)]
      apply List.map_congr_left
      intro s hs
      obtain ⟨h1, h2, h3⟩ := hc t s hs
      exact unescape_id h1 h2 h3
    rw [← hu]
    simp only [List.mem_cons, List.not_mem_nil, or_false] at ht
    rcases ht with rfl | rfl | rfl | rfl | rfl | rfl <;> rfl

/-- The text that stands for a character in XML. -/
def entity (c : Char) : List Char :=
  if c = '&' then c!"&amp;" else if c = '<' then c!"&lt;" else if c = '>' then c!"&gt;" else [c]

/-- Characters of a text, those that satisfy `p` as entities. -/
def entities (p : Char → Bool) (s : List Char) : List Char := s.flatMap fun c => if p c then entity c else [c]

theorem replaceWith_entities {p : Char → Bool} {c : Char} (hp : p '&' = true) (hc : c = '<' ∨ c = '>' ∧ p '<' = false ∨
    c = '&' ∧ p '<' = false ∧ p '>' = false) (hpc : p c = true) :
    ∀ (s : List Char) (n : Nat), (entities p s).length ≤ n →
      replaceWith (entity c) c n (entities p s) = entities (fun d => p d && d != c) s := by
  intro s
  induction s with
  | nil => intro n _; cases n <;> rfl
  | cons d s ih =>
    intro n hn
    have hx : ∀ x : Char, x ≠ '&' → ∀ r, dropPrefix (entity c) (x :: r) = none := by
      intro x hx r
      rcases hc with rfl | ⟨rfl, -⟩ | ⟨rfl, -⟩ <;> simp [entity, dropPrefix, Ne.symm hx]
    have hq : ∀ (w r : List Char) (m : Nat), '&' ∉ w →
        replaceWith (entity c) c (w.length + m) (w ++ r) = w ++ replaceWith (entity c) c m r := by
      intro w r m hw
      induction w with
      | nil => simp
      | cons y w ihw =>
        have : (y :: w).length + m = (w.length + m) + 1 := by simp; omega
        rw [this, List.cons_append, replaceWith, hx y (fun e => hw (by simp [e])), ihw fun e => hw (by simp [e])]
        rfl
    have hA : ∀ w : List Char, '&' ∉ w → (w ++ entities p s).length ≤ n →
        replaceWith (entity c) c n (w ++ entities p s) = w ++ entities (fun d => p d && d != c) s := by
      intro w hw hl
      rw [List.length_append] at hl
      obtain ⟨m, rfl⟩ : ∃ m, n = w.length + m := ⟨n - w.length, by omega⟩
      rw [hq w _ m hw, ih m (by omega)]
    have hB : ∀ w : List Char, '&' ∉ w → dropPrefix (entity c) ('&' :: (w ++ entities p s)) = none →
        ('&' :: (w ++ entities p s)).length ≤ n → replaceWith (entity c) c n ('&' :: (w ++ entities p s)) =
          '&' :: (w ++ entities (fun d => p d && d != c) s) := by
      intro w hw hd hl
      rw [List.length_cons, List.length_append] at hl
      obtain ⟨m, rfl⟩ : ∃ m, n = w.length + m + 1 := ⟨n - w.length - 1, by omega⟩
      rw [replaceWith, hd]
      simp only
      rw [hq w _ m hw, ih m (by omega)]
    have hC : (entity c ++ entities p s).length ≤ n →
        replaceWith (entity c) c n (entity c ++ entities p s) = c :: entities (fun d => p d && d != c) s := by
      intro hl
      have he : ∃ w, entity c = '&' :: w := by rcases hc with rfl | ⟨rfl, -⟩ | ⟨rfl, -⟩ <;> exact ⟨_, rfl⟩
      have hd : ∀ a b : List Char, dropPrefix a (a ++ b) = some b := by
        intro a b
        induction a with
        | nil => rfl
        | cons x a ih => simp [dropPrefix, ih]
      obtain ⟨w, hw⟩ := he
      rw [List.length_append, hw, List.length_cons] at hl
      obtain ⟨m, rfl⟩ : ∃ m, n = m + 1 := ⟨n - 1, by omega⟩
      have h0 := hd (entity c) (entities p s)
      rw [hw, List.cons_append] at h0 ⊢
      rw [replaceWith, h0]
      simp only
      rw [← hw, ih m (by omega)]
    have e1 : ∀ q, entities q (d :: s) = (if q d then entity d else [d]) ++ entities q s := fun q => by
      simp [entities]
    rw [e1] at hn ⊢
    rw [e1]
    by_cases hdc : d = c
    · subst hdc
      simp only [hpc, if_true, bne_self_eq_false, Bool.and_false, Bool.false_eq_true, if_false] at hn ⊢
      exact hC hn
    · have hbne : (p d && d != c) = p d := by simp [hdc]
      simp only [hbne]
      cases hpd : p d with
      | false =>
        simp only [hpd, Bool.false_eq_true, if_false] at hn ⊢
        exact hA [d] (by rintro h; simp at h; rw [← h, hp] at hpd; cases hpd) hn
      | true =>
        simp only [hpd, if_true] at hn ⊢
        by_cases h1 : d = '&'
        · subst h1
          refine hB c!"amp;" (by decide) ?_ hn
          rcases hc with rfl | ⟨rfl, -⟩ | ⟨rfl, -⟩
          · simp [entity, dropPrefix]
          · simp [entity, dropPrefix]
          · exact absurd rfl hdc
        · by_cases h2 : d = '<'
          · subst h2
            rcases hc with rfl | ⟨rfl, h⟩ | ⟨rfl, h, -⟩
            · exact absurd rfl hdc
            · rw [h] at hpd; cases hpd
            · rw [h] at hpd; cases hpd
          · by_cases h3 : d = '>'
            · subst h3
              rcases hc with rfl | ⟨rfl, h⟩ | ⟨rfl, -, h⟩
              · exact hB c!"gt;" (by decide) (by simp [entity, dropPrefix]) hn
              · exact absurd rfl hdc
              · rw [h] at hpd; cases hpd
            · have h4 : entity d = [d] := by simp [entity, h1, h2, h3]
              rw [h4] at hn ⊢
              exact hA [d] (by simpa using fun e => h1 e.symm) hn

/-- C103. Entities are replaced once: a text that is written with entities is read as it was. -/
theorem unescape_entities (s : List Char) : unescape (entities (fun _ => true) s) = s := by
  unfold unescape
  dsimp only
  have h1 := replaceWith_entities (p := fun _ => true) (c := '<') rfl (.inl rfl) rfl s _ (Nat.le_refl _)
  have h2 := replaceWith_entities (p := fun d => true && d != '<') (c := '>') rfl (.inr (.inl ⟨rfl, rfl⟩)) rfl s _
    (Nat.le_refl _)
  have h3 := replaceWith_entities (p := fun d => (true && d != '<') && d != '>') (c := '&') rfl
    (.inr (.inr ⟨rfl, rfl, rfl⟩)) rfl s _ (Nat.le_refl _)
  have e1 : entity '<' = c!"&lt;" := rfl
  have e2 : entity '>' = c!"&gt;" := rfl
  have e3 : entity '&' = c!"&amp;" := rfl
  rw [e1] at h1
  rw [e2] at h2
  rw [e3] at h3
  rw [h1, h2, h3]
  unfold entities
  conv_rhs => rw [← List.flatMap_singleton' s]
  apply List.flatMap_congr
  intro c _
  by_cases h : c = '<' ∨ c = '>' ∨ c = '&'
  · rcases h with rfl | rfl | rfl <;> rfl
  · simp only [not_or] at h
    simp [entity, h.1, h.2.1, h.2.2]

example : unescape c!"x &lt; y &amp;&amp; z &gt; 1" = c!"x < y && z > 1" ∧ unescape c!"&amp;lt;" = c!"&lt;" := by
  decide +kernel

/-- C103. Strategies of another type, or without a type, are rejected. -/
theorem loadAutXml_type {p : XmlDesc} (h : p.Ok) {attrib : Dict String (List Char)} {text : List Char}
    (nodes : List XmlNodeDesc) :
    (attrib.get? "type" = none →
      loadAutXml defaultNamespace (xDocWith p [.mk (xtag c!"aut") attrib (some text) (nodes.map xNode)]) =
        .error .keyError) ∧
    (∀ t, attrib.get? "type" = some t → t ≠ c!"basic" →
      loadAutXml defaultNamespace (xDocWith p [.mk (xtag c!"aut") attrib (some text) (nodes.map xNode)]) =
        .error .valueError) := by
  have key : loadAutXml defaultNamespace (xDocWith p [.mk (xtag c!"aut") attrib (some text) (nodes.map xNode)]) =
      loadXmlAut defaultNamespace p.env p.sys (.mk (xtag c!"aut") attrib (some text) (nodes.map xNode)) := by
    rw [loadAutXml_doc h]
    rfl
  have ha : (Xml.mk (xtag c!"aut") attrib (some text) (nodes.map xNode)).attrib = attrib := rfl
  rw [key]
  unfold loadXmlAut
  rw [ha]
  refine ⟨fun h0 => by rw [h0]; rfl, fun t ht hne => ?_⟩
  rw [ht]
  simp only [keyE, ok_bind]
  rw [if_pos hne]

/-- C103. Documents with another root, without version or of another version are rejected. -/
theorem loadAutXml_reject {ns : List Char} {e : Xml} :
    (e.tag ≠ nsPrefix ns ++ c!"tulipcon" → loadAutXml ns e = .error .typeError) ∧
    (e.tag = nsPrefix ns ++ c!"tulipcon" → e.attrib.get? "version" = none → loadAutXml ns e = .error .valueError) ∧
    (e.tag = nsPrefix ns ++ c!"tulipcon" → ∀ v n, e.attrib.get? "version" = some v → Gw.pyInt v = some n → n ≠ 1 →
      loadAutXml ns e = .error .valueError) := by
  refine ⟨fun h => ?_, fun h h' => ?_, fun h v n hv hn h1 => ?_⟩
  · unfold loadAutXml
    rw [if_pos h]
  · unfold loadAutXml
    rw [if_neg (by simp [h]), h']
  · unfold loadAutXml
    rw [if_neg (by simp [h]), hv]
    simp only [castInt, hn, ok_bind, ne_eq, h1, not_false_eq_true, if_true]

/-- C103. Documents whose version is not a number, or in which the variables are not declared, are rejected. -/
theorem loadAutXml_incomplete {ns : List Char} {e : Xml} (ht : e.tag = nsPrefix ns ++ c!"tulipcon") {v : List Char}
    (hv : e.attrib.get? "version" = some v) :
    (Gw.pyInt v = none → loadAutXml ns e = .error .valueError) ∧
    (Gw.pyInt v = some 1 → e.find (nsPrefix ns ++ c!"env_vars") = none → loadAutXml ns e = .error .attribute) ∧
    (e.find (nsPrefix ns ++ c!"sys_vars") = none ∨ e.find (nsPrefix ns ++ c!"spec") = none →
      ∃ err, loadAutXml ns e = .error err) := by
  unfold loadAutXml
  rw [if_neg (by simp [ht]), hv]
  refine ⟨fun h => ?_, fun h h' => ?_, fun h => ?_⟩
  · simp only [castInt, h, error_bind]
  · simp only [castInt, h, ok_bind, ne_eq, not_true_eq_false, if_false, h', untagdict, elemE, error_bind]
  · cases hn : castInt v with
    | error err => exact ⟨err, by simp only [hn, error_bind]⟩
    | ok n =>
      simp only [hn, ok_bind]
      by_cases h1 : n ≠ 1
      · exact ⟨_, by rw [if_pos h1]⟩
      rw [if_neg h1]
      cases he : untagdict (e.find (nsPrefix ns ++ c!"env_vars")) castStr defaultNamespace with
      | error err => exact ⟨err, by simp only [he, error_bind]⟩
      | ok x =>
        cases hs : untagdict (e.find (nsPrefix ns ++ c!"sys_vars")) castStr defaultNamespace with
        | error err => exact ⟨err, by simp only [he, hs, ok_bind, error_bind]⟩
        | ok y =>
          simp only [he, hs, ok_bind]
          rcases h with h | h
          · rw [h] at hs
            cases hs
          · cases parseVars x.2.2 x.2.1 with
            | error err => exact ⟨err, by simp only [error_bind]⟩
            | ok env =>
              cases parseVars y.2.2 y.2.1 with
              | error err => exact ⟨err, by simp only [ok_bind, error_bind]⟩
              | ok sys => exact ⟨.attribute, by rw [h]; rfl⟩

/-- C103. A node without a number, or whose number is not an integer, is rejected. -/
theorem loadXmlNode_reject {ns : List Char} (st : List Int × DiG Int XmlNode) {node : Xml} :
    (node.find (nsPrefix ns ++ c!"id") = none → loadXmlNode ns st node = .error .attribute) ∧
    ∀ e, node.find (nsPrefix ns ++ c!"id") = some e →
      (e.text = none → loadXmlNode ns st node = .error .typeError) ∧
      ∀ t, e.text = some t → Gw.pyInt t = none → loadXmlNode ns st node = .error .valueError := by
  unfold loadXmlNode
  refine ⟨fun h => by rw [h]; rfl, fun e h => ⟨fun h' => ?_, fun t h' hn => ?_⟩⟩
  · simp only [h, elemE, ok_bind, h', error_bind]
  · simp only [h, elemE, ok_bind, h', castInt, hn, error_bind]

/-- C103. The tags of the default namespace. -/
theorem tag_default (t : String) : (nsPrefix defaultNamespace ++ t.toList) =
    ("{http://tulip-control.sourceforge.net/ns/1}" ++ t).toList := by
  rw [String.toList_append]
  congr 1

/-- C103. The strategy meets what the construction of the Mealy machine requires, and its initial nodes are
those whose state satisfies the initial condition of the specification. -/
theorem loadAutXml_good {p : XmlDesc} (h : p.Ok) {vars : Dict String Dom}
    (hpos : ∀ n ∈ p.nodes, ∀ x ∈ n.state, 0 ≤ x.2) {text : List Char} {g : XmlGraph}
    (hg : loadAutXml defaultNamespace (xDoc p text) = .ok (.graph g)) :
    g.strategy.Good vars ∧
      (∀ u st, (u, st) ∈ g.strategy.nodes ↔
        ∃ n, firstNode p.nodes u = some n ∧ st = n.state.map fun x => (x.1, Synth.Elem.int x.2)) ∧
      (∀ u v, (u, v) ∈ g.strategy.edges ↔ ∃ n, firstNode p.nodes u = some n ∧ v ∈ n.children) ∧
      ∀ isInit u, IsInitial g.strategy isInit u ↔ ∃ n, firstNode p.nodes u = some n ∧
        isInit (n.state.map fun x => (x.1, Synth.Elem.int x.2)) = .ok true := by
  obtain ⟨g', h1, _, _, h2, h3, h4, h5, h6⟩ := loadAutXml_spec h text
  rw [hg] at h1
  obtain rfl : g = g' := by injection h1 with h1; injection h1
  have hst : ∀ n : XmlNodeDesc, n.attrs.state = n.state := by
    intro n; unfold XmlNodeDesc.attrs; split <;> rfl
  have hn : ∀ u st, (u, st) ∈ g.strategy.nodes ↔
      ∃ n, firstNode p.nodes u = some n ∧ st = n.state.map fun x => (x.1, Synth.Elem.int x.2) := by
    intro u st
    unfold XmlGraph.strategy
    simp only [List.mem_filterMap, Option.map_eq_some_iff, Prod.mk.injEq, Prod.exists]
    constructor
    · rintro ⟨w, o, hm, a, rfl, rfl, rfl⟩
      obtain ⟨n, hn, rfl⟩ := (h2 w a).mp (Synth.get?_of_mem_wf h5 hm)
      exact ⟨n, hn, by rw [hst]⟩
    · rintro ⟨n, hn, rfl⟩
      have := (h2 u n.attrs).mpr ⟨n, hn, rfl⟩
      exact ⟨u, some n.attrs, Synth.get?_mem this, n.attrs, rfl, rfl, by rw [hst]⟩
  refine ⟨⟨?_, ?_, ?_, h6, ?_⟩, hn, h4, fun isInit u => ?_⟩
  · have : g.strategy.nodes.keys.Sublist g.graph.nodes.keys := by
      have : ∀ l : Dict Int (Option XmlNode), (Dict.keys (l.filterMap fun p => p.2.map fun n =>
          (p.1, n.state.map fun x => (x.1, Synth.Elem.int x.2)))).Sublist (Dict.keys l) := by
        intro l
        induction l with
        | nil => exact List.Sublist.slnil
        | cons q l ih =>
          obtain ⟨u, o⟩ := q
          cases o with
          | none => exact List.Sublist.cons _ ih
          | some a => exact List.Sublist.cons_cons _ ih
      exact this _
    exact List.Nodup.sublist this h5
  · intro u st hm
    obtain ⟨n, hx, rfl⟩ := (hn u st).mp hm
    have := h.states n (firstNode_id hx).2
    unfold Dict.Wf Dict.keys
    rw [List.map_map]
    exact this
  · rintro ⟨u, v⟩ he
    obtain ⟨n, hx, _⟩ := (h4 u v).mp he
    exact List.mem_map_of_mem (f := Prod.fst) ((hn u _).mpr ⟨n, hx, rfl⟩)
  · intro u st k z l hm _ hget
    obtain ⟨n, hx, rfl⟩ := (hn u st).mp hm
    obtain ⟨x, hxs, e⟩ := List.mem_map.mp (Synth.get?_mem hget)
    injection e with e1 e2
    injection e2 with e2
    rw [← e2]
    exact hpos n (firstNode_id hx).2 x hxs
  · show (∃ st, (u, st) ∈ g.strategy.nodes ∧ isInit st = .ok true) ↔ _
    simp only [hn]
    constructor
    · rintro ⟨st, ⟨n, hx, rfl⟩, hi⟩; exact ⟨n, hx, hi⟩
    · rintro ⟨n, hx, hi⟩; exact ⟨_, ⟨n, hx, rfl⟩, hi⟩

/-- C103. `load_mealy` returns the strategy of the file, whatever the case of the name of the format. -/
theorem loadMealy_spec {δ V : Type} {p : XmlDesc} {format : List Char} (text : List Char) {q : Printed Int δ V} :
    (format.map Char.toLower = c!"tulipxml" → p.Ok → ∃ g,
      loadAutXml defaultNamespace (xDoc p text) = .ok (.graph g) ∧
        loadMealy (δ := δ) (V := V) format (.xml (xDoc p text)) = .ok (.xml g)) ∧
    (format.map Char.toLower = c!"json" → q.Ok → ∃ g, loadAutJson q.json = .ok g ∧
      loadMealy format (.json q.json) = .ok (.json g)) := by
  constructor
  · intro hf hp
    obtain ⟨g, hg, _⟩ := loadAutXml_spec hp text
    refine ⟨g, hg, ?_⟩
    unfold loadMealy
    simp only [hf, if_true, hg]
    rfl
  · intro hf hq
    obtain ⟨g, hg, _⟩ := loadAutJson_spec hq
    refine ⟨g, hg, ?_⟩
    unfold loadMealy
    have : ¬ (c!"json" : List Char) = c!"tulipxml" := by decide
    simp only [hf, this, if_false, if_true, hg]
    rfl

/-! ### Examples -/

/-- A strategy with two nodes, and a repeated one. -/
def xmlExample : XmlDesc :=
  { env := [("x", .boolean)], sys := [("y", .range 0 3)]
    clauses := fun t => if t = "sys_init" then [c!"y = 0 && x"] else []
    nodes := [⟨0, [0, 1], [1, 0], [("x", 0), ("y", 3)]⟩, ⟨1, [], [0], [("x", 1), ("y", -2)]⟩,
      ⟨0, [5, 5], [7], [("x", 1)]⟩] }

theorem xmlExample_ok : xmlExample.Ok :=
  ⟨by decide, by decide, by
    intro x hx l
    simp only [xmlExample, List.mem_singleton] at hx
    subst hx; simp, by
    intro x hx l
    simp only [xmlExample, List.mem_singleton] at hx
    subst hx; simp, by
    intro n hn
    simp only [xmlExample, List.mem_cons, List.not_mem_nil, or_false] at hn
    rcases hn with rfl | rfl | rfl <;> decide⟩

/-- The nodes, with their attributes, and the edges. -/
def graphOf (r : Except PyErr XmlResult) : Option (List (Int × Option XmlNode) × List (Int × Int)) :=
  match r with
  | .ok (.graph g) => some (g.graph.nodes, g.graph.edges)
  | _ => none

example : graphOf (loadAutXml defaultNamespace (xDoc xmlExample c!"\n")) =
    some ([(0, some ⟨[("x", 0), ("y", 3)], 0, 1⟩), (1, some ⟨[("x", 1), ("y", -2)], -1, -1⟩)],
      [(0, 1), (0, 0), (1, 0)]) := by decide +kernel

example : ∀ t, ∀ s ∈ xmlExample.clauses t, ¬ c!"&lt;" <:+: s ∧ ¬ c!"&gt;" <:+: s ∧ ¬ c!"&amp;" <:+: s := by
  intro t s hs
  simp only [xmlExample] at hs
  split at hs
  · rw [List.mem_singleton] at hs
    subst hs
    decide
  · cases hs

/-- If there is no text between the element of the strategy and its first node, then `load_aut_xml` raises an
`AttributeError`. -/
theorem loadAutXml_text_counterexample :
    xmlExample.Ok ∧
    loadAutXml defaultNamespace (xDocWith xmlExample [xAut none xmlExample.nodes]) = .error .attribute :=
  ⟨xmlExample_ok, by rw [loadAutXml_doc xmlExample_ok]; rfl⟩

/-- The document of `xmlExample` without strategy and with tags without namespace. -/
def plainDoc : Xml :=
  .mk c!"tulipcon" [("version", c!"1")] none
    [.mk c!"env_vars" [] none [.mk c!"item" [("key", c!"x"), ("value", c!"boolean")] none []],
     .mk c!"sys_vars" [] none [.mk c!"item" [("key", c!"y"), ("value", c!"[0,3]")] none []],
     .mk c!"spec" [] none
      (["env_init", "env_safety", "env_prog", "sys_init", "sys_safety", "sys_prog"].map fun t =>
        .mk t.toList [] none [])]

/-- If the namespace is not the default one, then the variables are lost. -/
theorem loadAutXml_namespace_counterexample :
    (match loadAutXml [] plainDoc with
      | .ok (.spec s) => s.envVars.isEmpty && s.sysVars.isEmpty
      | _ => false) = true := by decide +kernel

/-- `load_mealy` of a file in an unknown format raises `UnboundLocalError`, and of a file with only a
specification `AttributeError`. -/
theorem loadMealy_counterexample :
    (match loadMealy (δ := String) (V := Int) c!"dot" (.xml (xDoc xmlExample c!"\n")) with
      | .error .unboundLocal => true
      | _ => false) = true ∧
    (match loadMealy (δ := String) (V := Int) c!"TulipXML" (.xml (xSpecDoc xmlExample)) with
      | .error .attribute => true
      | _ => false) = true := by decide +kernel

end Iface

end Tulip
