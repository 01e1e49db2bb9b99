import Verif.Interfaces.XmlIo

/-!
# C144: data that is exported to XML and imported again
-/

namespace Tulip
namespace XmlIo

variable {F M : Type}

/-! ## Specification -/

/-- Reading the text of an integer, a float or an array gives it back, and `True` and `False` are not integers. -/
structure Codec.Good (c : Codec F M) : Prop where
  int : ∀ i, c.readInt (c.showInt i) = .ok i
  float : ∀ x, c.readFloat (c.showFloat x) = .ok x
  mat : ∀ m, c.readMat (c.showMat m) = .ok m
  bool : ∀ b, c.readInt (boolText b) = .error .valueError

/-- A polytope without the attributes that are computed when needed. -/
def Poly.bare (p : Poly F M) : Poly F M := { A := p.A, b := p.b }

/-- A region without these attributes and without its propositions. -/
def Region.bare (r : Region F M) : Region F M := { polys := r.polys.map Poly.bare }

/-- A linear system with the polytopes without these attributes. -/
def Lti.bare (s : Lti F M) : Lti F M :=
  { s with Uset := s.Uset.map Poly.bare, Wset := s.Wset.map Poly.bare, domain := s.domain.map Poly.bare }

mutual
/-- Data with the polytopes and regions in it without these attributes. -/
def Data.bare : Data F M → Data F M
  | .dict l => .dict l.bare
  | .list l => .list l.bare
  | .tuple l => .tuple l.bare
  | .set l => .set l.bare
  | .poly p => .poly p.bare
  | .region r => .region r.bare
  | .lti s => .lti s.bare
  | .pwa d l => .pwa (d.map Poly.bare) (l.map Lti.bare)
  | .switched cts size sl el dyn => .switched cts.bare size.bare sl.bare el.bare dyn.bare
  | .ppp d rs n adj ps => .ppp d.bare (rs.map Region.bare) n adj ps.bare
  | .int i => .int i
  | .bool b => .bool b
  | .npBool b => .npBool b
  | .str s => .str s
  | .float x => .float x
  | .matrix m => .matrix m
  | .adj n l => .adj n l
/-- In a list. -/
def Datas.bare : Datas F M → Datas F M
  | .nil => .nil
  | .cons d l => .cons d.bare l.bare
/-- In a dictionary. -/
def Pairs.bare : Pairs F M → Pairs F M
  | .nil => .nil
  | .cons k v l => .cons k.bare v.bare l.bare
end

mutual
/-- Data without bools and sets, in which the keys of dictionaries are distinct and adjacency matrices have their indices within their size. -/
def Data.Ok : Data F M → Prop
  | .dict l => l.Ok ∧ (l.bare.toList.map (·.1)).Nodup
  | .list l => l.Ok
  | .tuple l => l.Ok
  | .set _ => False
  | .switched cts size sl el dyn =>
    cts.Ok ∧ size.Ok ∧ sl.Ok ∧ el.Ok ∧ dyn.Ok ∧ (dyn.bare.toList.map (·.1)).Nodup
  | .ppp _ _ n adj ps => (∀ e ∈ adj, e.1 < n ∧ e.2 < n) ∧ ps.Ok ∧ (ps.bare.toList.map (·.1)).Nodup
  | .bool _ => False
  | .npBool _ => False
  | .adj n l => ∀ e ∈ l, e.1 < n ∧ e.2 < n
  | .int _ | .str _ | .float _ | .matrix _ | .poly _ | .region _ | .lti _ | .pwa _ _ => True
/-- In a list. -/
def Datas.Ok : Datas F M → Prop
  | .nil => True
  | .cons d l => d.Ok ∧ l.Ok
/-- In a dictionary. -/
def Pairs.Ok : Pairs F M → Prop
  | .nil => True
  | .cons k v l => k.Ok ∧ v.Ok ∧ l.Ok
end

mutual
/-- How deep the elements of the data are nested: an element of a polytope has elements of arrays, and so on. -/
def Data.depth : Data F M → Nat
  | .int _ | .bool _ | .npBool _ | .str _ | .float _ | .matrix _ => 1
  | .dict l => l.depth + 1
  | .list l | .tuple l | .set l => l.depth + 1
  | .adj _ _ => 4
  | .poly _ => 2
  | .region _ => 4
  | .lti _ => 3
  | .pwa _ _ => 5
  | .switched a b e f l => max (max (max a.depth b.depth) (max e.depth f.depth)) (l.depth + 1) + 1
  | .ppp _ _ _ _ l => max 5 (l.depth + 1) + 1
/-- In a list. -/
def Datas.depth : Datas F M → Nat
  | .nil => 0
  | .cons d l => max d.depth l.depth
/-- In a dictionary. -/
def Pairs.depth : Pairs F M → Nat
  | .nil => 0
  | .cons k v l => max (max k.depth v.depth) l.depth
end

/-! ## Lemmas -/

theorem Datas.ofList_toList : ∀ l : Datas F M, Datas.ofList l.toList = l
  | .nil => rfl
  | .cons d l => by rw [Datas.toList, Datas.ofList, Datas.ofList_toList l]

theorem Datas.toList_ofList : ∀ l : List (Data F M), (Datas.ofList l).toList = l
  | [] => rfl
  | d :: l => by rw [Datas.ofList, Datas.toList, Datas.toList_ofList l]

theorem Pairs.ofList_toList : ∀ l : Pairs F M, Pairs.ofList l.toList = l
  | .nil => rfl
  | .cons k v l => by rw [Pairs.toList, Pairs.ofList, Pairs.ofList_toList l]

theorem set_new {κ α : Type} [DecidableEq κ] {d : Dict κ α} {k : κ} (v : α) (h : k ∉ d.map (·.1)) :
    d.set k v = d ++ [(k, v)] := by
  induction d with
  | nil => rfl
  | cons p d ih =>
    obtain ⟨a, b⟩ := p
    simp only [List.map_cons, List.mem_cons, not_or] at h
    simp only [Dict.set, if_neg (Ne.symm h.1), List.cons_append, ih h.2]

theorem foldl_set_new {κ α : Type} [DecidableEq κ] : ∀ (l : List (κ × α)) (d : Dict κ α), ((d ++ l).map (·.1)).Nodup →
    l.foldl (fun (d : Dict κ α) kv => d.set kv.1 kv.2) d = d ++ l
  | [], d, _ => (List.append_nil d).symm
  | (k, v) :: l, d, h => by
    have hk : k ∉ d.map (·.1) := by
      rw [List.map_append, List.map_cons, List.nodup_append] at h
      intro hk
      exact h.2.2 _ hk _ (List.mem_cons_self) rfl
    rw [List.foldl_cons, set_new v hk, foldl_set_new l]
    · simp
    · simpa using h

theorem mapM_ok {α β : Type} {f : α → Except PyErr β} {g : α → β} : ∀ {l : List α}, (∀ a ∈ l, f a = .ok (g a)) →
    l.mapM f = .ok (l.map g)
  | [], _ => rfl
  | a :: l, h => by
    rw [List.mapM_cons, h a List.mem_cons_self, mapM_ok fun b hb => h b (List.mem_cons_of_mem _ hb)]
    rfl

@[simp] theorem tag_leaf (t : String) (ty : Ty) (s : String) : (leaf t ty s).tag = t := rfl
@[simp] theorem tag_tree (t : String) (ty : Ty) (s : List Node) : (tree t ty s).tag = t := rfl
@[simp] theorem tag_mk (t : String) (ty : Option Ty) (s : Option String) (l : List Node) : (Node.mk t ty s l).tag = t := rfl

theorem tag_export (c : Codec F M) (d : Data F M) (tag : String) : (exportXml c d tag).tag = tag := by
  cases d <;> simp [exportXml, exportInt, exportBool, exportMat, exportAdj, exportPoly, exportRegion, exportLti]

theorem first_cons (tag t : String) (ty : Option Ty) (s : Option String) (n : Node) (l : List Node) :
    (Node.mk t ty s (n :: l)).first tag = if n.tag = tag then .ok n else (Node.mk t ty s l).first tag := by
  by_cases h : n.tag = tag <;> simp [Node.first, Node.findall, Node.children, h]

theorem findall_cons (tag t : String) (ty : Option Ty) (s : Option String) (n : Node) (l : List Node) :
    (Node.mk t ty s (n :: l)).findall tag = if n.tag = tag then n :: (Node.mk t ty s l).findall tag else (Node.mk t ty s l).findall tag := by
  by_cases h : n.tag = tag <;> simp [Node.findall, Node.children, h]

variable [DecidableEq F] [DecidableEq M] {c : Codec F M}

theorem import_mat (g : c.Good) (m : Nat) (x : M) (tag : String) : importXml c (m + 1) (exportMat c x tag) = .ok (.matrix x) := by
  show (do return Data.matrix (← c.readMat (← Node.getText (leaf tag .ndarray (c.showMat x))))) = _
  simp [Node.getText, leaf, Node.text, g.mat]

theorem import_int (g : c.Good) (m : Nat) (x : Int) (tag : String) : importXml c (m + 1) (exportInt c x tag) = .ok (.int x) := by
  show (do return Data.int (← c.readInt (← Node.getText (leaf tag .int (c.showInt x))))) = _
  simp [Node.getText, leaf, Node.text, g.int]

theorem import_tuple (m : Nat) (tag : String) (l : List Node) :
    importXml c (m + 1) (tree tag .tuple l) = (do return .tuple (.ofList (← l.mapM (importXml c m)))) := rfl

theorem import_list (m : Nat) (tag : String) (l : List Node) :
    importXml c (m + 1) (tree tag .list l) = (do return .list (.ofList (← l.mapM (importXml c m)))) := rfl

theorem import_poly (g : c.Good) (m : Nat) (p : Poly F M) (tag : String) :
    importXml c (m + 2) (exportPoly c p tag) = .ok (.poly p.bare) := by
  rw [exportPoly, tree, importXml]
  simp [Node.type, first_cons, exportMat, asMat, Poly.bare]
  rw [← exportMat, ← exportMat, import_mat g, import_mat g]
  rfl

theorem import_polys (g : c.Good) (m : Nat) (l : List (Poly F M)) (tag : String) :
    importXml c (m + 3) (tree tag .list (l.map (exportPoly c · "item"))) = .ok (.list (.ofList (l.map fun p => .poly p.bare))) := by
  rw [import_list, List.mapM_map, mapM_ok (g := fun p => .poly p.bare) fun p _ => import_poly g m p _]
  rfl

theorem import_region (g : c.Good) (m : Nat) (r : Region F M) (tag : String) :
    importXml c (m + 4) (exportRegion c r tag) = .ok (.region r.bare) := by
  rw [exportRegion, List.cons_append, tree, importXml]
  simp only [Node.type, first_cons, tag_tree, if_pos, ok_bind, import_polys g, asList, Datas.toList_ofList, List.mapM_map]
  rw [mapM_ok (f := asPoly ∘ fun p : Poly F M => (.poly p.bare : Data F M)) (g := Poly.bare) fun p _ => rfl]
  rfl

theorem import_regions (g : c.Good) (m : Nat) (l : List (Region F M)) (tag : String) :
    importXml c (m + 5) (tree tag .list (l.map (exportRegion c · "item"))) = .ok (.list (.ofList (l.map fun p => .region p.bare))) := by
  rw [import_list, List.mapM_map, mapM_ok (g := fun p => .region p.bare) fun p _ => import_region g m p _]
  rfl

theorem import_lti (g : c.Good) (m : Nat) (s : Lti F M) (tag : String) :
    importXml c (m + 3) (exportLti c s tag) = .ok (.lti s.bare) := by
  obtain ⟨A, B, E, K, U, W, D⟩ := s
  have tp : ∀ (p : Poly F M) t, (exportPoly c p t).tag = t := fun _ _ => rfl
  have tm : ∀ (p : M) t, (exportMat c p t).tag = t := fun _ _ => rfl
  have e : ∀ t ty s tag, (Node.mk t ty s []).findall tag = [] := fun _ _ _ _ => rfl
  rw [exportLti, tree, importXml]
  cases U <;> cases W <;> cases D <;>
    simp [Node.type, first_cons, findall_cons, Node.optPoly, tp, tm, e, import_mat g, import_poly g, asMat, asPoly, Lti.bare]

theorem import_ltis (g : c.Good) (m : Nat) (l : List (Lti F M)) (tag : String) :
    importXml c (m + 4) (tree tag .list (l.map (exportLti c · "item"))) = .ok (.list (.ofList (l.map fun p => .lti p.bare))) := by
  rw [import_list, List.mapM_map, mapM_ok (g := fun p => .lti p.bare) fun p _ => import_lti g m p _]
  rfl

theorem import_adj (g : c.Good) (m : Nat) (n : Nat) (l : List (Nat × Nat)) (h : ∀ e ∈ l, e.1 < n ∧ e.2 < n) (tag : String) :
    importXml c (m + 4) (exportAdj c n l tag) = .ok (.adj n l) := by
  have ti : ∀ (p : Int) t, (exportInt c p t).tag = t := fun _ _ => rfl
  have hl : importXml c (m + 3) (tree "index_list" .list (l.map fun e => tree "item" .tuple [exportInt c e.1 "item", exportInt c e.2 "item"])) =
      .ok (.list (.ofList (l.map fun e => .tuple (.cons (.int e.1) (.cons (.int e.2) .nil))))) := by
    rw [import_list, List.mapM_map, mapM_ok (g := fun e => .tuple (.cons (.int e.1) (.cons (.int e.2) .nil)))]
    · rfl
    · intro e _
      rw [Function.comp_apply, import_tuple]
      simp [import_int g, Datas.ofList]
  have hi : ∀ (k : Nat), asNat (.int (k : Int) : Data F M) = .ok k := fun k => by simp [asNat]
  rw [exportAdj, tree, importXml]
  simp only [Node.type, first_cons, ti, tag_tree, import_int g, hi, hl, ok_bind, asList, Datas.toList_ofList, List.mapM_map, if_pos,
    if_neg (show ¬ ("num_states" = "index_list") by decide)]
  rw [mapM_ok (g := id) fun e _ => by simp [asIndex, hi]]
  rw [List.map_id, ok_bind, if_pos]
  · rfl
  · simpa using fun a b hab => h (a, b) hab

mutual
theorem import_data (g : c.Good) : (d : Data F M) → d.Ok → ∀ m ≥ d.depth, ∀ tag, importXml c m (exportXml c d tag) = .ok d.bare
  | .int i, _ => fun m hm tag => by
      rw [Data.depth] at hm
      obtain ⟨m, rfl⟩ := Nat.exists_eq_add_of_le' hm
      rw [exportXml, import_int g, Data.bare]
  | .bool _, h => by cases h
  | .npBool _, h => by cases h
  | .set _, h => by cases h
  | .str s, _ => fun m hm tag => by
      rw [Data.depth] at hm
      obtain ⟨m, rfl⟩ := Nat.exists_eq_add_of_le' hm
      rw [exportXml, Data.bare]; rfl
  | .float x, _ => fun m hm tag => by
      rw [Data.depth] at hm
      obtain ⟨m, rfl⟩ := Nat.exists_eq_add_of_le' hm
      rw [exportXml, Data.bare]
      show (do return Data.float (← c.readFloat (← Node.getText (leaf tag .float (c.showFloat x))))) = _
      simp [Node.getText, leaf, Node.text, g.float]
  | .matrix x, _ => fun m hm tag => by
      rw [Data.depth] at hm
      obtain ⟨m, rfl⟩ := Nat.exists_eq_add_of_le' hm
      rw [exportXml, import_mat g, Data.bare]
  | .adj n l, h => fun m hm tag => by
      rw [Data.depth] at hm
      obtain ⟨m, rfl⟩ := Nat.exists_eq_add_of_le' hm
      rw [Data.Ok] at h
      rw [exportXml, import_adj g m n l h, Data.bare]
  | .poly p, _ => fun m hm tag => by
      rw [Data.depth] at hm
      obtain ⟨m, rfl⟩ := Nat.exists_eq_add_of_le' hm
      rw [exportXml, import_poly g, Data.bare]
  | .region p, _ => fun m hm tag => by
      rw [Data.depth] at hm
      obtain ⟨m, rfl⟩ := Nat.exists_eq_add_of_le' hm
      rw [exportXml, import_region g, Data.bare]
  | .lti p, _ => fun m hm tag => by
      rw [Data.depth] at hm
      obtain ⟨m, rfl⟩ := Nat.exists_eq_add_of_le' hm
      rw [exportXml, import_lti g, Data.bare]
  | .pwa d l, _ => fun m hm tag => by
      rw [Data.depth] at hm
      obtain ⟨m, rfl⟩ := Nat.exists_eq_add_of_le' hm
      have tp : ∀ (p : Poly F M) t, (exportPoly c p t).tag = t := fun _ _ => rfl
      have e : ∀ t ty s tag, (Node.mk t ty s []).findall tag = [] := fun _ _ _ _ => rfl
      have hl := import_ltis g m l "ltilist"
      have hm : ∀ l : List (Lti F M), l.mapM (asLti ∘ fun p => (.lti p.bare : Data F M)) = .ok (l.map Lti.bare) := fun l => mapM_ok fun _ _ => rfl
      rw [exportXml, Data.bare, tree, importXml]
      cases d <;> simp [Node.type, first_cons, findall_cons, Node.optPoly, tp, e, import_poly g, asPoly, hl, asList, Datas.toList_ofList, List.mapM_map, hm]
  | .list l, h => fun m hm tag => by
      rw [Data.Ok] at h
      rw [Data.depth] at hm
      obtain ⟨m, rfl⟩ := Nat.exists_eq_add_of_le' (Nat.le_of_add_left_le hm : 1 ≤ m)
      rw [exportXml, import_list, import_items g l h m (by omega), Data.bare, ok_bind, Datas.ofList_toList]; rfl
  | .tuple l, h => fun m hm tag => by
      rw [Data.Ok] at h
      rw [Data.depth] at hm
      obtain ⟨m, rfl⟩ := Nat.exists_eq_add_of_le' (Nat.le_of_add_left_le hm : 1 ≤ m)
      rw [exportXml, import_tuple, import_items g l h m (by omega), Data.bare, ok_bind, Datas.ofList_toList]; rfl
  | .dict l, h => fun m hm tag => by
      rw [Data.Ok] at h
      rw [Data.depth] at hm
      rw [exportXml, import_pairs g l h.1 h.2 m hm, Data.bare]
  | .switched cts size sl el dyn, h => fun m hm tag => by
      rw [Data.Ok] at h
      rw [Data.depth] at hm
      obtain ⟨m, rfl⟩ := Nat.exists_eq_add_of_le' (Nat.le_of_add_left_le hm : 1 ≤ m)
      have h1 := import_data g cts h.1 m (by omega)
      have h2 := import_data g size h.2.1 m (by omega)
      have h3 := import_data g sl h.2.2.1 m (by omega)
      have h4 := import_data g el h.2.2.2.1 m (by omega)
      have h5 := import_pairs g dyn h.2.2.2.2.1 h.2.2.2.2.2 m (by omega)
      rw [exportXml, tree, importXml]
      simp [Node.type, first_cons, tag_export, h1, h2, h3, h4, h5, asDict, Data.bare]
  | .ppp d rs n adj ps, h => fun m hm tag => by
      rw [Data.Ok] at h
      rw [Data.depth] at hm
      obtain ⟨m, rfl⟩ := Nat.exists_eq_add_of_le' (show 6 ≤ m by omega)
      have h5 := import_pairs g ps h.2.1 h.2.2 (m + 5) (by omega)
      have tp : ∀ (p : Poly F M) t, (exportPoly c p t).tag = t := fun _ _ => rfl
      have ta : ∀ n l t, (exportAdj c n l t).tag = t := fun _ _ _ => rfl
      have hl := import_regions g m rs "list_reg"
      have hp := import_poly g (m + 3) d "domain"
      have ha := import_adj g (m + 1) n adj h.1 "adj"
      have hm : ∀ l : List (Region F M), l.mapM (asRegion ∘ fun p => (.region p.bare : Data F M)) = .ok (l.map Region.bare) := fun l => mapM_ok fun _ _ => rfl
      rw [exportXml, tree, importXml]
      simp [Node.type, first_cons, tp, ta, hp, ha, asPoly, hl, asList, Datas.toList_ofList, List.mapM_map, hm, asAdj, h5, asDict, Data.bare]
theorem import_items (g : c.Good) : (l : Datas F M) → l.Ok → ∀ m ≥ l.depth, (exportItems c l).mapM (importXml c m) = .ok l.bare.toList
  | .nil, _ => fun _ _ => by rw [exportItems, Datas.bare]; rfl
  | .cons d l, h => fun m hm => by
      rw [Datas.Ok] at h
      rw [Datas.depth] at hm
      rw [exportItems, List.mapM_cons, import_data g d h.1 m (by omega), import_items g l h.2 m (by omega), Datas.bare]; rfl
theorem import_pairList (g : c.Good) : (l : Pairs F M) → l.Ok → ∀ m ≥ l.depth,
    (exportPairs c l).mapM (fun p => do
        let k ← importXml c m (← p.first "key")
        let v ← importXml c m (← p.first "value")
        return (k, v)) = .ok l.bare.toList
  | .nil, _ => fun _ _ => by rw [exportPairs, Pairs.bare]; rfl
  | .cons k v l, h => fun m hm => by
      rw [Pairs.Ok] at h
      rw [Pairs.depth] at hm
      have h1 := import_data g k h.1 m (by omega)
      have h2 := import_data g v h.2.1 m (by omega)
      rw [exportPairs, List.mapM_cons, import_pairList g l h.2.2 m (by omega), Pairs.bare]
      simp [first_cons, tag_export, h1, h2, Pairs.toList]
theorem import_pairs (g : c.Good) (l : Pairs F M) (h : l.Ok) (hn : (l.bare.toList.map (·.1)).Nodup) :
    ∀ m ≥ l.depth + 1, ∀ tag, importXml c m (tree tag .dict (exportPairs c l)) = .ok (.dict l.bare) := by
  intro m hm tag
  obtain ⟨m, rfl⟩ := Nat.exists_eq_add_of_le' (Nat.le_of_add_left_le hm : 1 ≤ m)
  rw [tree, importXml]
  simp only [Node.type, Node.children]
  rw [import_pairList g l h m (by omega), ok_bind, foldl_set_new _ _ (by simpa using hn), List.nil_append, Pairs.ofList_toList]
  rfl
end

/-! ## Indentation -/

/-- The types of elements whose text is read. -/
def Ty.isLeaf : Ty → Bool
  | .str | .int | .float | .bool | .ndarray => true
  | _ => false

mutual
/-- Elements whose text is read have no children. -/
def Node.Leafy : Node → Prop
  | .mk _ ty _ ch => ((ty.any Ty.isLeaf) = true → ch = []) ∧ AllLeafy ch
/-- All the elements of a list. -/
def AllLeafy : List Node → Prop
  | [] => True
  | n :: l => n.Leafy ∧ AllLeafy l
end

theorem allLeafy_iff : ∀ l : List Node, AllLeafy l ↔ ∀ n ∈ l, n.Leafy
  | [] => by simp [AllLeafy]
  | n :: l => by simp [AllLeafy, allLeafy_iff l]

theorem prettyAll_eq (i : Nat) : ∀ l : List Node, prettyAll i l = l.map (pretty i)
  | [] => rfl
  | n :: l => by rw [prettyAll, prettyAll_eq i l]; rfl

theorem tag_pretty (i : Nat) : ∀ n : Node, (pretty i n).tag = n.tag
  | .mk _ _ _ _ => by rw [pretty]; rfl

theorem findall_pretty (i : Nat) (t : String) : ∀ n : Node, (pretty i n).findall t = (n.findall t).map (pretty (i + 1))
  | .mk _ _ _ ch => by
    rw [pretty, Node.findall, Node.findall, prettyAll_eq]
    simp only [Node.children, List.filter_map]
    congr 1
    apply List.filter_congr
    intro x _
    simp [tag_pretty]

theorem leafy_findall {n : Node} (h : n.Leafy) {t : String} {x : Node} (hx : x ∈ n.findall t) : x.Leafy := by
  obtain ⟨t', ty, s, ch⟩ := n
  rw [Node.Leafy] at h
  exact (allLeafy_iff _).1 h.2 x (List.mem_filter.1 hx).1

/-- Import commutes with finding an element in the indented tree. -/
theorem first_pretty {α : Type} {f : Node → Except PyErr α} {n : Node} (h : n.Leafy)
    (hf : ∀ x : Node, x.Leafy → ∀ i, f (pretty i x) = f x) (i : Nat) (t : String) {β : Type} (k : α → Except PyErr β) :
    ((pretty i n).first t >>= fun x => f x >>= k) = (n.first t >>= fun x => f x >>= k) := by
  have hl : ∀ x ∈ n.findall t, x.Leafy := fun x hx => leafy_findall h hx
  rw [Node.first, Node.first, findall_pretty]
  revert hl
  generalize n.findall t = l
  intro hl
  cases l with
  | nil => rfl
  | cons x l => simp only [List.map_cons, ok_bind, hf x (hl x List.mem_cons_self)]

theorem mapM_congr' {α β : Type} {f g : α → Except PyErr β} : ∀ {l : List α}, (∀ a ∈ l, f a = g a) → l.mapM f = l.mapM g
  | [], _ => rfl
  | a :: l, h => by
    rw [List.mapM_cons, List.mapM_cons, h a List.mem_cons_self, mapM_congr' fun b hb => h b (List.mem_cons_of_mem _ hb)]

theorem import_pretty (c : Codec F M) : ∀ (m : Nat) (n : Node), n.Leafy → ∀ i, importXml c m (pretty i n) = importXml c m n
  | 0, _, _, _ => rfl
  | m + 1, n, h, i => by
    have ih := import_pretty c m
    have h1 := @first_pretty (Data F M) (importXml c m) n h ih i
    have h2 : ∀ t, (pretty i n).optPoly (importXml c m) t = n.optPoly (importXml c m) t := by
      intro t
      have hl : ∀ x ∈ n.findall t, x.Leafy := fun x hx => leafy_findall h hx
      rw [Node.optPoly, Node.optPoly, findall_pretty]
      revert hl
      generalize n.findall t = l
      intro hl
      cases l with
      | nil => rfl
      | cons x l => simp only [List.map_cons, ih x (hl x List.mem_cons_self)]
    have h3 : (pretty i n).type = n.type := by cases n; rw [pretty]; rfl
    have h4 : ∀ ty, n.type = some ty → ty.isLeaf = true → (pretty i n).text = n.text := by
      intro ty hty hl
      obtain ⟨t', ty', s, ch⟩ := n
      rw [Node.Leafy] at h
      have hty : ty' = some ty := hty
      have : ch = [] := h.1 (by rw [hty]; exact hl)
      rw [pretty, this]; rfl
    have h5 : ∀ x ∈ n.children, x.Leafy := by
      obtain ⟨t', ty', s, ch⟩ := n
      rw [Node.Leafy] at h
      exact (allLeafy_iff _).1 h.2
    have h6 : (pretty i n).children = n.children.map (pretty (i + 1)) := by
      cases n; rw [pretty, prettyAll_eq]; rfl
    have h7 : (pretty i n).children.mapM (importXml c m) = n.children.mapM (importXml c m) := by
      rw [h6, List.mapM_map]
      exact mapM_congr' fun x hx => ih x (h5 x hx) _
    have h8 : ((pretty i n).children.mapM fun p => do
        let k ← importXml c m (← p.first "key")
        let v ← importXml c m (← p.first "value")
        return (k, v)) = n.children.mapM fun p => do
        let k ← importXml c m (← p.first "key")
        let v ← importXml c m (← p.first "value")
        return (k, v) := by
      rw [h6, List.mapM_map]
      refine mapM_congr' fun x hx => ?_
      rw [Function.comp_apply, first_pretty (h5 x hx) ih]
      simp only [first_pretty (h5 x hx) ih]
    rw [importXml, importXml, h3]
    cases hty : n.type with
    | none => rfl
    | some ty =>
      cases ty <;> first
        | rfl
        | (have h9 := h4 _ hty rfl; simp only [Node.getText, h9]; done)
        | (simp only [h1, h2, h7, h8]; done)

theorem leafy_tree (t : String) (ty : Ty) (l : List Node) (hty : ty.isLeaf = false) (h : ∀ n ∈ l, n.Leafy) : (tree t ty l).Leafy := by
  rw [tree, Node.Leafy]
  exact ⟨by simp [hty], (allLeafy_iff _).2 h⟩

theorem leafy_leaf (t : String) (ty : Ty) (s : String) : (leaf t ty s).Leafy := by
  simp [leaf, Node.Leafy, AllLeafy]

theorem leafy_node (t : String) (s : Option String) (l : List Node) (h : ∀ n ∈ l, n.Leafy) : (Node.mk t none s l).Leafy := by
  rw [Node.Leafy]
  exact ⟨by simp, (allLeafy_iff _).2 h⟩

theorem leafy_cache (c : Codec F M) (k : Cache F M) : ∀ n ∈ exportCache c k, n.Leafy := by
  intro n hn
  simp only [exportCache, List.mem_append, Option.mem_toList, Option.map_eq_some_iff] at hn
  rcases hn with (((((⟨_, _, rfl⟩ | ⟨_, _, rfl⟩) | ⟨_, _, rfl⟩) | ⟨_, _, rfl⟩) | hn) | ⟨_, _, rfl⟩) | ⟨_, _, rfl⟩
  · exact leafy_leaf _ _ _
  · refine leafy_node _ _ _ fun n hn => ?_
    simp only [List.mem_cons, List.not_mem_nil, or_false] at hn
    rcases hn with rfl | rfl <;> exact leafy_leaf _ _ _
  · exact leafy_leaf _ _ _
  · exact leafy_leaf _ _ _
  · split at hn
    · rw [List.mem_singleton.1 hn]; exact leafy_leaf _ _ _
    · cases hn
  · exact leafy_leaf _ _ _
  · exact leafy_leaf _ _ _

theorem leafy_poly (c : Codec F M) (p : Poly F M) (t : String) : (exportPoly c p t).Leafy := by
  refine leafy_tree _ _ _ rfl fun n hn => ?_
  rcases List.mem_cons.1 hn with rfl | hn
  · exact leafy_leaf _ _ _
  rcases List.mem_cons.1 hn with rfl | hn
  · exact leafy_leaf _ _ _
  exact leafy_cache _ _ _ hn

theorem leafy_map {α : Type} {f : α → Node} (h : ∀ a, (f a).Leafy) (l : List α) : ∀ n ∈ l.map f, n.Leafy := by
  intro n hn
  obtain ⟨a, _, rfl⟩ := List.mem_map.1 hn
  exact h a

theorem leafy_region (c : Codec F M) (r : Region F M) (t : String) : (exportRegion c r t).Leafy := by
  refine leafy_tree _ _ _ rfl fun n hn => ?_
  rw [List.cons_append] at hn
  rcases List.mem_cons.1 hn with rfl | hn
  · exact leafy_tree _ _ _ rfl (leafy_map (fun p => leafy_poly c p _) _)
  rcases List.mem_append.1 hn with hn | hn
  · exact leafy_cache _ _ _ hn
  · split at hn
    · cases hn
    · rw [List.mem_singleton.1 hn]
      exact leafy_tree _ _ _ rfl (leafy_map (fun p => leafy_leaf _ _ _) _)

theorem leafy_lti (c : Codec F M) (s : Lti F M) (t : String) : (exportLti c s t).Leafy := by
  refine leafy_tree _ _ _ rfl fun n hn => ?_
  simp only [List.mem_append, Option.mem_toList, Option.map_eq_some_iff, List.mem_cons, List.not_mem_nil, or_false] at hn
  rcases hn with (((rfl | rfl | rfl | rfl) | ⟨_, _, rfl⟩) | ⟨_, _, rfl⟩) | ⟨_, _, rfl⟩
  all_goals first | exact leafy_leaf _ _ _ | exact leafy_poly _ _ _

theorem leafy_adj (c : Codec F M) (n : Nat) (l : List (Nat × Nat)) (t : String) : (exportAdj c n l t).Leafy := by
  refine leafy_tree _ _ _ rfl fun x hn => ?_
  simp only [List.mem_cons, List.not_mem_nil, or_false] at hn
  rcases hn with rfl | rfl
  · exact leafy_leaf _ _ _
  · refine leafy_tree _ _ _ rfl (leafy_map (fun e => leafy_tree _ _ _ rfl fun x hn => ?_) _)
    simp only [List.mem_cons, List.not_mem_nil, or_false] at hn
    rcases hn with rfl | rfl <;> exact leafy_leaf _ _ _

mutual
theorem leafy_export (c : Codec F M) : ∀ (d : Data F M) (t : String), (exportXml c d t).Leafy
  | .int _, _ | .bool _, _ | .npBool _, _ | .str _, _ | .float _, _ | .matrix _, _ => by rw [exportXml]; exact leafy_leaf _ _ _
  | .dict l, _ => by rw [exportXml]; exact leafy_tree _ _ _ rfl (leafy_pairs c l)
  | .list l, _ | .tuple l, _ | .set l, _ => by rw [exportXml]; exact leafy_tree _ _ _ rfl (leafy_items c l)
  | .adj _ _, _ => by rw [exportXml]; exact leafy_adj _ _ _ _
  | .poly _, _ => by rw [exportXml]; exact leafy_poly _ _ _
  | .region _, _ => by rw [exportXml]; exact leafy_region _ _ _
  | .lti _, _ => by rw [exportXml]; exact leafy_lti _ _ _
  | .pwa d l, _ => by
      rw [exportXml]
      refine leafy_tree _ _ _ rfl fun x hn => ?_
      simp only [List.mem_append, Option.mem_toList, Option.map_eq_some_iff, List.mem_cons, List.not_mem_nil, or_false] at hn
      rcases hn with ⟨_, _, rfl⟩ | rfl
      · exact leafy_poly _ _ _
      · exact leafy_tree _ _ _ rfl (leafy_map (fun p => leafy_lti c p _) _)
  | .switched a b e f l, _ => by
      rw [exportXml]
      refine leafy_tree _ _ _ rfl fun x hn => ?_
      simp only [List.mem_cons, List.not_mem_nil, or_false] at hn
      rcases hn with rfl | rfl | rfl | rfl | rfl
      · exact leafy_export c a _
      · exact leafy_export c b _
      · exact leafy_export c e _
      · exact leafy_export c f _
      · exact leafy_tree _ _ _ rfl (leafy_pairs c l)
  | .ppp d rs n a l, _ => by
      rw [exportXml]
      refine leafy_tree _ _ _ rfl fun x hn => ?_
      simp only [List.mem_cons, List.not_mem_nil, or_false] at hn
      rcases hn with rfl | rfl | rfl | rfl
      · exact leafy_poly _ _ _
      · exact leafy_tree _ _ _ rfl (leafy_map (fun p => leafy_region c p _) _)
      · exact leafy_adj _ _ _ _
      · exact leafy_tree _ _ _ rfl (leafy_pairs c l)
theorem leafy_items (c : Codec F M) : ∀ l : Datas F M, ∀ n ∈ exportItems c l, n.Leafy
  | .nil => by rw [exportItems]; intro n hn; cases hn
  | .cons d l => by
      rw [exportItems]
      intro n hn
      rcases List.mem_cons.1 hn with rfl | hn
      · exact leafy_export c d _
      · exact leafy_items c l n hn
theorem leafy_pairs (c : Codec F M) : ∀ l : Pairs F M, ∀ n ∈ exportPairs c l, n.Leafy
  | .nil => by rw [exportPairs]; intro n hn; cases hn
  | .cons k v l => by
      rw [exportPairs]
      intro n hn
      rcases List.mem_cons.1 hn with rfl | hn
      · refine leafy_node _ _ _ fun x hx => ?_
        simp only [List.mem_cons, List.not_mem_nil, or_false] at hx
        rcases hx with rfl | rfl
        · exact leafy_export c k _
        · exact leafy_export c v _
      · exact leafy_pairs c l n hn
end

/-! ## Theorems -/

/-- **C144.** Data without bools and sets, as a part of a file, is imported as it was exported, apart from the attributes of polytopes and regions
that are computed when needed and from the propositions of regions, if the depth of the recursion is at least the depth of the data. -/
theorem import_export (g : c.Good) (d : Data F M) (h : d.Ok) :
    ∀ m ≥ d.depth, ∀ tag, importXml c m (exportXml c d tag) = .ok d.bare := import_data g d h

/-- **C144.** A file can be written only of polytopes, regions, systems and partitions. If its data has no bools and no sets, the import
gives it back, also from the indented tree. -/
theorem importXML_exportXML (g : c.Good) (d : Data F M) (tag : String) :
    (∀ x, exportTop c d tag = .ok x → d.Ok → ∀ m ≥ d.depth, importXml c m (pretty 1 x) = .ok d.bare) ∧
    ((∃ x, exportTop c d tag = .ok x) ↔
      (∃ p, d = .poly p) ∨ (∃ r, d = .region r) ∨ (∃ s, d = .lti s) ∨ (∃ o l, d = .pwa o l) ∨
      (∃ a b e f l, d = .switched a b e f l) ∨ (∃ o rs n a l, d = .ppp o rs n a l)) := by
  constructor
  · intro x hx h m hm
    have hx : x = exportXml c d tag := by
      cases d <;> first | (injection hx with hx; exact hx.symm) | cases hx
    rw [hx, import_pretty c m _ (leafy_export c d tag), import_data g d h m hm]
  · cases d <;> simp [exportTop]

theorem Region.bare_bare (r : Region F M) : r.bare.bare = r.bare := by
  simp [Region.bare, Poly.bare]

theorem Lti.bare_bare (s : Lti F M) : s.bare.bare = s.bare := by
  obtain ⟨A, B, E, K, U, W, D⟩ := s
  cases U <;> cases W <;> cases D <;> simp [Lti.bare, Poly.bare]

mutual
theorem Data.bare_bare : ∀ d : Data F M, d.bare.bare = d.bare
  | .dict l => by simp only [Data.bare, Pairs.bare_bare l]
  | .list l | .tuple l | .set l => by simp only [Data.bare, Datas.bare_bare l]
  | .poly p => by simp only [Data.bare, Poly.bare]
  | .region r => by simp only [Data.bare, Region.bare_bare]
  | .lti s => by simp only [Data.bare, Lti.bare_bare]
  | .pwa d l => by cases d <;> simp [Data.bare, Lti.bare_bare, Poly.bare]
  | .switched a b e f l => by
      simp only [Data.bare, Data.bare_bare a, Data.bare_bare b, Data.bare_bare e, Data.bare_bare f, Pairs.bare_bare l]
  | .ppp d rs n a l => by
      have : (rs.map Region.bare).map Region.bare = rs.map Region.bare := by simp [Region.bare_bare]
      simp only [Data.bare, Pairs.bare_bare l, this, Poly.bare]
  | .int _ | .bool _ | .npBool _ | .str _ | .float _ | .matrix _ | .adj _ _ => by simp only [Data.bare]
theorem Datas.bare_bare : ∀ l : Datas F M, l.bare.bare = l.bare
  | .nil => by simp only [Datas.bare]
  | .cons d l => by simp only [Datas.bare, Data.bare_bare d, Datas.bare_bare l]
theorem Pairs.bare_bare : ∀ l : Pairs F M, l.bare.bare = l.bare
  | .nil => by simp only [Pairs.bare]
  | .cons k v l => by simp only [Pairs.bare, Data.bare_bare k, Data.bare_bare v, Pairs.bare_bare l]
end

mutual
theorem Data.ok_bare : ∀ d : Data F M, d.Ok → d.bare.Ok
  | .dict l, h => by
      simp only [Data.Ok, Data.bare, Pairs.bare_bare] at h ⊢
      exact ⟨Pairs.ok_bare l h.1, h.2⟩
  | .list l, h | .tuple l, h => by
      simp only [Data.Ok, Data.bare] at h ⊢
      exact Datas.ok_bare l h
  | .set _, h | .bool _, h | .npBool _, h => by simp [Data.Ok] at h
  | .switched a b e f l, h => by
      simp only [Data.Ok, Data.bare, Pairs.bare_bare] at h ⊢
      exact ⟨Data.ok_bare a h.1, Data.ok_bare b h.2.1, Data.ok_bare e h.2.2.1, Data.ok_bare f h.2.2.2.1,
        Pairs.ok_bare l h.2.2.2.2.1, h.2.2.2.2.2⟩
  | .ppp d rs n a l, h => by
      simp only [Data.Ok, Data.bare, Pairs.bare_bare] at h ⊢
      exact ⟨h.1, Pairs.ok_bare l h.2.1, h.2.2⟩
  | .adj _ _, h => by simpa only [Data.Ok, Data.bare] using h
  | .poly _, _ | .region _, _ | .lti _, _ | .pwa _ _, _ | .int _, _ | .str _, _ | .float _, _ | .matrix _, _ => by
      simp only [Data.bare, Data.Ok]
theorem Datas.ok_bare : ∀ l : Datas F M, l.Ok → l.bare.Ok
  | .nil, _ => by simp only [Datas.bare, Datas.Ok]
  | .cons d l, h => by
      simp only [Datas.bare, Datas.Ok] at h ⊢
      exact ⟨Data.ok_bare d h.1, Datas.ok_bare l h.2⟩
theorem Pairs.ok_bare : ∀ l : Pairs F M, l.Ok → l.bare.Ok
  | .nil, _ => by simp only [Pairs.bare, Pairs.Ok]
  | .cons k v l, h => by
      simp only [Pairs.bare, Pairs.Ok] at h ⊢
      exact ⟨Data.ok_bare k h.1, Data.ok_bare v h.2.1, Pairs.ok_bare l h.2.2⟩
end

mutual
theorem Data.depth_bare : ∀ d : Data F M, d.bare.depth = d.depth
  | .dict l => by simp only [Data.bare, Data.depth, Pairs.depth_bare l]
  | .list l | .tuple l | .set l => by simp only [Data.bare, Data.depth, Datas.depth_bare l]
  | .switched a b e f l => by
      simp only [Data.bare, Data.depth, Data.depth_bare a, Data.depth_bare b, Data.depth_bare e, Data.depth_bare f, Pairs.depth_bare l]
  | .ppp d rs n a l => by simp only [Data.bare, Data.depth, Pairs.depth_bare l]
  | .poly _ | .region _ | .lti _ | .pwa _ _ | .int _ | .bool _ | .npBool _ | .str _ | .float _ | .matrix _ | .adj _ _ => by
      simp only [Data.bare, Data.depth]
theorem Datas.depth_bare : ∀ l : Datas F M, l.bare.depth = l.depth
  | .nil => by simp only [Datas.bare]
  | .cons d l => by simp only [Datas.bare, Datas.depth, Data.depth_bare d, Datas.depth_bare l]
theorem Pairs.depth_bare : ∀ l : Pairs F M, l.bare.depth = l.depth
  | .nil => by simp only [Pairs.bare]
  | .cons k v l => by simp only [Pairs.bare, Pairs.depth, Data.depth_bare k, Data.depth_bare v, Pairs.depth_bare l]
end

/-- **C144.** Data that was imported from an export is exported and imported without any change. -/
theorem import_again (g : c.Good) (d : Data F M) (h : d.Ok) (m : Nat) (hm : m ≥ d.depth) (tag : String) (d' : Data F M)
    (hd : importXml c m (exportXml c d tag) = .ok d') : importXml c m (exportXml c d' tag) = .ok d' := by
  rw [import_export g d h m hm] at hd
  rw [← Except.ok.inj hd, import_export g d.bare (d.ok_bare h) m (by rw [d.depth_bare]; exact hm), d.bare_bare]

/-- **C144**, what fails: with any depth, a bool raises `ValueError` (its text is read as an integer), the `numpy.bool_` that is false becomes true, and a set raises
`TypeError`. -/
theorem import_bool_set_counterexample (g : c.Good) (m : Nat) (tag : String) :
    (∀ b, importXml c (m + 1) (exportXml c (.bool b) tag) = .error .valueError) ∧
    importXml c (m + 1) (exportXml c (.npBool false) tag) = .ok (.npBool true) ∧
    (∀ l, importXml c (m + 1) (exportXml c (.set l) tag) = .error .typeError) := by
  refine ⟨fun b => ?_, ?_, fun l => ?_⟩
  · rw [exportXml]
    show (do return Data.int (← c.readInt (← Node.getText (leaf tag .int (boolText b))))) = _
    simp [Node.getText, leaf, Node.text, g.bool]
  · rw [exportXml]
    rfl
  · rw [exportXml]
    rfl

/-- **C144**, what fails: a region with a proposition is imported without it. -/
theorem import_props_counterexample (g : c.Good) (m : Nat) (tag : String) (l : List (Poly F M)) :
    importXml c (m + 4) (exportXml c (.region { polys := l, props := ["p"] }) tag) = .ok (.region { polys := l.map Poly.bare }) := by
  rw [exportXml, import_region g]
  rfl

/-! ### Example -/

/-- Integers in unary notation. -/
def unary : Int → String
  | .ofNat n => String.ofList (List.replicate n '1')
  | .negSucc n => String.ofList ('-' :: List.replicate n '1')

/-- Reading them. -/
def readUnary (s : String) : Except PyErr Int :=
  match s.toList with
  | '-' :: l => if l = List.replicate l.length '1' then .ok (.negSucc l.length) else .error .valueError
  | l => if l = List.replicate l.length '1' then .ok (.ofNat l.length) else .error .valueError

theorem readUnary_unary (i : Int) : readUnary (unary i) = .ok i := by
  cases i with
  | ofNat n =>
    cases n <;> simp [readUnary, unary, List.replicate_succ]
  | negSucc n => simp [readUnary, unary]

/-- Texts of integers, also as floats and arrays. -/
def unaryCodec : Codec Int Int where
  showInt := unary
  readInt := readUnary
  showFloat := unary
  readFloat := readUnary
  showMat := unary
  readMat := readUnary

theorem unaryCodec_good : unaryCodec.Good :=
  ⟨readUnary_unary, readUnary_unary, readUnary_unary, fun b => by cases b <;> simp [unaryCodec, readUnary, boolText]⟩

/-- A switched system with two modes. -/
def switchedExample : Data Int Int :=
  let p : Poly Int Int := { A := 1, b := -2, cache := { chebR := some 3, dim := 1, fulldim := some true } }
  let s (i : Int) : Data Int Int := .pwa (some p) [{ A := i, B := 1, E := 0, K := 0, Uset := some p, Wset := none, domain := some p }]
  .switched (.poly p) (.tuple (.cons (.int 1) (.cons (.int 2) .nil))) (.list (.cons (.str "on") (.cons (.str "off") .nil)))
    (.list (.cons (.str "wind") .nil))
    (.cons (.tuple (.cons (.str "wind") (.cons (.str "on") .nil))) (s 2)
      (.cons (.tuple (.cons (.str "wind") (.cons (.str "off") .nil))) (s 3) .nil))

example : switchedExample.Ok ∧ (∃ x, exportTop unaryCodec switchedExample "object" = .ok x) := by
  refine ⟨?_, ⟨_, rfl⟩⟩
  simp [switchedExample, Data.Ok, Datas.Ok, Pairs.Ok, Pairs.bare, Datas.bare, Data.bare, Pairs.toList]

/-- A partition in two regions. -/
def partitionExample : Data Int Int :=
  let p (i : Int) : Poly Int Int := { A := 1, b := i, cache := { bbox := some (0, i) } }
  .ppp (p 2) [{ polys := [p 1], props := ["home"] }, { polys := [p 2, p (-1)] }] 2 [(0, 0), (0, 1), (1, 1)]
    (.cons (.str "home") (.poly (p 1)) (.cons (.str "lot") (.region { polys := [p 2] }) .nil))

example : partitionExample.Ok ∧ (∃ x, exportTop unaryCodec partitionExample "object" = .ok x) := by
  refine ⟨?_, ⟨_, rfl⟩⟩
  simp [partitionExample, Data.Ok, Pairs.Ok, Pairs.bare, Data.bare, Pairs.toList]

end XmlIo
end Tulip
