import Verif.Basic

/-!
# Model of `contrib/xml/xmlio.py`

Export of data structures to trees of XML elements and import from them. Floats and arrays are of any types `F` and `M`, with
functions for their texts (`str` and `float`, `str(x.tolist())` and `eval`); so are the texts of integers.
The strings of the attribute `type` (lines 83-101) are distinct, and are values of `Ty`. Without the tails of elements, which are not read, and without transition systems, which cannot be imported.
`_make_pretty` uses `getchildren`, that Python has not had since version 3.9; it is modelled as the list of children.
-/

namespace Tulip
namespace XmlIo

/-- The values of the attribute `type` (`contrib/xml/xmlio.py:83-101`). -/
inductive Ty
  | set | str | int | float | bool | polytope | ndarray | region | dict | ppp | adjmatrix | tuple | list | lti | pwa | switched
  deriving DecidableEq, Repr

/-- An element: its tag, attribute `type`, text and children (`xml.etree.ElementTree.Element`). -/
inductive Node
  | mk (tag : String) (type : Option Ty) (text : Option String) (children : List Node)

/-- `node.tag`. -/
def Node.tag : Node → String
  | .mk t _ _ _ => t

/-- `node.attrib.get('type')`. -/
def Node.type : Node → Option Ty
  | .mk _ t _ _ => t

/-- `node.text`. -/
def Node.text : Node → Option String
  | .mk _ _ t _ => t

/-- `list(node)`. -/
def Node.children : Node → List Node
  | .mk _ _ _ c => c

/-- Functions for the texts: `str` and `int` of integers, `str` and `float` of floats, and
`str(data.tolist())` and `eval('numpy.array(…)')` of arrays (`contrib/xml/xmlio.py:200-209, 469-497`). -/
structure Codec (F M : Type) where
  showInt : Int → String
  readInt : String → Except PyErr Int
  showFloat : F → String
  readFloat : String → Except PyErr F
  showMat : M → String
  readMat : String → Except PyErr M

/-- The attributes of polytopes and regions that are computed when needed: `minrep`, `bbox`, `chebXc`, `chebR`, `dim`, `fulldim`, `volume`. -/
structure Cache (F M : Type) where
  minrep : Option Bool := none
  bbox : Option (M × M) := none
  chebXc : Option M := none
  chebR : Option F := none
  dim : Nat := 0
  fulldim : Option Bool := none
  volume : Option F := none
  deriving DecidableEq

/-- `polytope.Polytope`. Its constructor is modelled without the normalization of the rows. -/
structure Poly (F M : Type) where
  A : M
  b : M
  cache : Cache F M := {}
  deriving DecidableEq

/-- `polytope.Region`. Its constructor is modelled without the removal of empty polytopes. -/
structure Region (F M : Type) where
  polys : List (Poly F M)
  cache : Cache F M := {}
  props : List String := []
  deriving DecidableEq

/-- `hybrid.LtiSysDyn`, without the time semantics and the time step, which are not exported. -/
structure Lti (F M : Type) where
  A : M
  B : M
  E : M
  K : M
  Uset : Option (Poly F M)
  Wset : Option (Poly F M)
  domain : Option (Poly F M)
  deriving DecidableEq

mutual
/-- The data structures: Python `int`, `bool`, `numpy.bool_`, `str`, `float`, arrays, dictionaries, lists, tuples, sets,
adjacency matrices (their size and the indices of the entries that are not zero), polytopes, regions, linear, piecewise affine and switched systems, and partitions. -/
inductive Data (F M : Type) where
  | int (i : Int)
  | bool (b : Bool)
  | npBool (b : Bool)
  | str (s : String)
  | float (x : F)
  | matrix (m : M)
  | dict (l : Pairs F M)
  | list (l : Datas F M)
  | tuple (l : Datas F M)
  | set (l : Datas F M)
  | adj (n : Nat) (l : List (Nat × Nat))
  | poly (p : Poly F M)
  | region (r : Region F M)
  | lti (s : Lti F M)
  | pwa (domain : Option (Poly F M)) (subsys : List (Lti F M))
  | switched (cts size sysLabels envLabels : Data F M) (dynamics : Pairs F M)
  | ppp (domain : Poly F M) (regions : List (Region F M)) (n : Nat) (adj : List (Nat × Nat)) (props : Pairs F M)
  deriving DecidableEq
/-- Lists of data. -/
inductive Datas (F M : Type) where
  | nil
  | cons (d : Data F M) (l : Datas F M)
  deriving DecidableEq
/-- The items of dictionaries. -/
inductive Pairs (F M : Type) where
  | nil
  | cons (k v : Data F M) (l : Pairs F M)
  deriving DecidableEq
end

variable {F M : Type}

/-- The Python list of data. -/
def Datas.toList : Datas F M → List (Data F M)
  | .nil => []
  | .cons d l => d :: l.toList

/-- And back. -/
def Datas.ofList : List (Data F M) → Datas F M
  | [] => .nil
  | d :: l => .cons d (Datas.ofList l)

/-- The items of a dictionary. -/
def Pairs.toList : Pairs F M → List (Data F M × Data F M)
  | .nil => []
  | .cons k v l => (k, v) :: l.toList

/-- And back. -/
def Pairs.ofList : List (Data F M × Data F M) → Pairs F M
  | [] => .nil
  | (k, v) :: l => .cons k v (Pairs.ofList l)

/-! ## Export -/

variable (c : Codec F M)

/-- `str` of a bool. -/
def boolText (b : Bool) : String := if b then "True" else "False"

/-- `ET.SubElement(parent, tag, type=ty)` with the text `text`. -/
def leaf (tag : String) (ty : Ty) (text : String) : Node := .mk tag (some ty) (some text) []

/-- An element with children. -/
def tree (tag : String) (ty : Ty) (ch : List Node) : Node := .mk tag (some ty) none ch

/-- The branch of `_export_xml` for arrays (`contrib/xml/xmlio.py:493-497`). -/
def exportMat (m : M) (tag : String) : Node := leaf tag .ndarray (c.showMat m)

/-- The branch of `_export_xml` for integers (`contrib/xml/xmlio.py:469-474`). -/
def exportInt (i : Int) (tag : String) : Node := leaf tag .int (c.showInt i)

/-- The branch of `_export_xml` for `bool`: Python's `bool` is an `int`, so that the branch for integers is taken (`contrib/xml/xmlio.py:469-474`). -/
def exportBool (b : Bool) (tag : String) : Node := leaf tag .int (boolText b)

/-- The optional parts of a polytope, in the order of lines 758-781 (`contrib/xml/xmlio.py`). -/
def exportCache (k : Cache F M) : List Node :=
  (k.minrep.map (exportBool · "minrep")).toList ++
  (k.bbox.map fun b => Node.mk "bbox" none none [exportMat c b.1 "lb", exportMat c b.2 "ub"]).toList ++
  (k.chebXc.map (exportMat c · "chebXc")).toList ++
  (k.chebR.map fun x => leaf "chebR" .float (c.showFloat x)).toList ++
  (if k.dim ≠ 0 then [exportInt c k.dim "dim"] else []) ++
  (k.fulldim.map (exportBool · "fulldim")).toList ++
  (k.volume.map fun x => leaf "volume" .float (c.showFloat x)).toList

/-- `_export_polytope` (`contrib/xml/xmlio.py:728-781`). -/
def exportPoly (p : Poly F M) (tag : String) : Node :=
  tree tag .polytope (exportMat c p.A "A" :: exportMat c p.b "b" :: exportCache c p.cache)

/-- `_export_region` (`contrib/xml/xmlio.py:784-835`). The order of the optional parts is that of polytopes, which nothing depends on. -/
def exportRegion (r : Region F M) (tag : String) : Node :=
  tree tag .region (tree "list_poly" .list (r.polys.map (exportPoly c · "item")) :: exportCache c { r.cache with minrep := none } ++
    (if r.props = [] then [] else [tree "props" .set (r.props.map (leaf "item" .str ·))]))

/-- `_export_ltisys` (`contrib/xml/xmlio.py:621-653`). -/
def exportLti (s : Lti F M) (tag : String) : Node :=
  tree tag .lti ([exportMat c s.A "A", exportMat c s.B "B", exportMat c s.E "E", exportMat c s.K "K"] ++
    (s.Uset.map (exportPoly c · "Uset")).toList ++ (s.Wset.map (exportPoly c · "Wset")).toList ++
    (s.domain.map (exportPoly c · "domain")).toList)

/-- `_export_adj` (`contrib/xml/xmlio.py:838-876`). -/
def exportAdj (n : Nat) (l : List (Nat × Nat)) (tag : String) : Node :=
  tree tag .adjmatrix [exportInt c n "num_states",
    tree "index_list" .list (l.map fun e => tree "item" .tuple [exportInt c e.1 "item", exportInt c e.2 "item"])]

mutual
/-- `_export_xml`, with a parent (`contrib/xml/xmlio.py:386-520`), with `_export_list` (919-941), `_export_dict` (879-916),
`_export_pwasys` (656-681), `_export_hybridsys` (684-725) and `_export_ppp` (590-618). -/
def exportXml : Data F M → String → Node
  | .int i, tag => exportInt c i tag
  | .bool b, tag => exportBool b tag
  | .npBool b, tag => leaf tag .bool (boolText b)
  | .str s, tag => leaf tag .str s
  | .float x, tag => leaf tag .float (c.showFloat x)
  | .matrix m, tag => exportMat c m tag
  | .dict l, tag => tree tag .dict (exportPairs l)
  | .list l, tag => tree tag .list (exportItems l)
  | .tuple l, tag => tree tag .tuple (exportItems l)
  | .set l, tag => tree tag .set (exportItems l)
  | .adj n l, tag => exportAdj c n l tag
  | .poly p, tag => exportPoly c p tag
  | .region r, tag => exportRegion c r tag
  | .lti s, tag => exportLti c s tag
  | .pwa d l, tag => tree tag .pwa ((d.map (exportPoly c · "domain")).toList ++ [tree "ltilist" .list (l.map (exportLti c · "item"))])
  | .switched cts size sl el dyn, tag =>
    tree tag .switched [exportXml cts "cts_ss", exportXml size "disc_domain_size", exportXml sl "sys_labels",
      exportXml el "env_labels", tree "dynamics" .dict (exportPairs dyn)]
  | .ppp d rs n adj ps, tag =>
    tree tag .ppp [exportPoly c d "domain", tree "list_reg" .list (rs.map (exportRegion c · "item")), exportAdj c n adj "adj",
      tree "proplist" .dict (exportPairs ps)]
/-- The loop of `_export_list` (`contrib/xml/xmlio.py:937-938`). -/
def exportItems : Datas F M → List Node
  | .nil => []
  | .cons d l => exportXml d "item" :: exportItems l
/-- The loop of `_export_dict` (`contrib/xml/xmlio.py:910-913`). -/
def exportPairs : Pairs F M → List Node
  | .nil => []
  | .cons k v l => Node.mk "pair" none none [exportXml k "key", exportXml v "value"] :: exportPairs l
end

/-- The element that `exportXML` makes (`contrib/xml/xmlio.py:161-164`): without a parent. For numbers, texts and arrays `ET.SubElement` raises; for
dictionaries, lists, tuples, sets and adjacency matrices `_export_xml` returns nothing. -/
def exportTop (d : Data F M) (tag : String) : Except PyErr Node :=
  match d with
  | .int _ | .bool _ | .npBool _ | .str _ | .float _ | .matrix _ => .error .typeError
  | .dict _ | .list _ | .tuple _ | .set _ | .adj _ _ => .error .attribute
  | d => .ok (exportXml c d tag)

mutual
/-- `_make_pretty` (`contrib/xml/xmlio.py:104-137`), without the tails. -/
def pretty (indent : Nat) : Node → Node
  | .mk tag ty text ch =>
    .mk tag ty (if ch.isEmpty then text else some ("\n" ++ "".pushn '\t' indent ++ text.getD "")) (prettyAll (indent + 1) ch)
/-- Its loop (`contrib/xml/xmlio.py:128-137`). -/
def prettyAll (indent : Nat) : List Node → List Node
  | [] => []
  | n :: l => pretty indent n :: prettyAll indent l
end

/-! ## Import -/

/-- `node.findall(tag)`. -/
def Node.findall (n : Node) (tag : String) : List Node := n.children.filter (·.tag == tag)

/-- `node.findall(tag)[0]`. -/
def Node.first (n : Node) (tag : String) : Except PyErr Node :=
  match n.findall tag with
  | [] => .error .indexError
  | x :: _ => .ok x

/-- The text of a leaf that is read as a number. -/
def Node.getText (n : Node) : Except PyErr String :=
  match n.text with
  | none => .error .typeError
  | some t => .ok t

/-- The arguments of constructors: an array. -/
def asMat : Data F M → Except PyErr M
  | .matrix m => .ok m
  | _ => .error .typeError

/-- A polytope. -/
def asPoly : Data F M → Except PyErr (Poly F M)
  | .poly p => .ok p
  | _ => .error .typeError

/-- An optional polytope (`contrib/xml/xmlio.py:323-337`). -/
def Node.optPoly (f : Node → Except PyErr (Data F M)) (n : Node) (tag : String) : Except PyErr (Option (Poly F M)) :=
  match n.findall tag with
  | [] => .ok none
  | x :: _ => do return some (← asPoly (← f x))

/-- A region. -/
def asRegion : Data F M → Except PyErr (Region F M)
  | .region p => .ok p
  | _ => .error .typeError

/-- A linear system. -/
def asLti : Data F M → Except PyErr (Lti F M)
  | .lti p => .ok p
  | _ => .error .typeError

/-- A size. -/
def asNat : Data F M → Except PyErr Nat
  | .int i => if 0 ≤ i then .ok i.toNat else .error .valueError
  | _ => .error .typeError

/-- Two indices. -/
def asIndex : Data F M → Except PyErr (Nat × Nat)
  | .tuple (.cons i (.cons j .nil)) => do
    let i ← asNat i
    let j ← asNat j
    return (i, j)
  | _ => .error .typeError

/-- An adjacency matrix. -/
def asAdj : Data F M → Except PyErr (Nat × List (Nat × Nat))
  | .adj n l => .ok (n, l)
  | _ => .error .typeError

/-- A list. -/
def asList : Data F M → Except PyErr (List (Data F M))
  | .list l => .ok l.toList
  | _ => .error .typeError

/-- A dictionary. -/
def asDict : Data F M → Except PyErr (Pairs F M)
  | .dict l => .ok l
  | _ => .error .typeError

variable [DecidableEq F] [DecidableEq M]

/-- `_import_xml` (`contrib/xml/xmlio.py:188-235`), with the functions that it calls (238-383). Parts of partitions and labels of switched systems that are
missing, and the text `None` of strings, raise here, whereas there they give `None`; exported elements have them. The first argument bounds the depth of the recursion, as Python does. -/
def importXml : Nat → Node → Except PyErr (Data F M)
  | 0, _ => .error .runtime
  | fuel + 1, node =>
    let mat (tag : String) : Except PyErr M := do asMat (← importXml fuel (← node.first tag))
    let optPoly (tag : String) : Except PyErr (Option (Poly F M)) := node.optPoly (importXml fuel) tag
    let list (tag : String) : Except PyErr (List (Data F M)) := do asList (← importXml fuel (← node.first tag))
    match node.type with
    | none => .error .keyError
    | some .str => match node.text with
      | none => .error .typeError
      | some t => .ok (.str t)
    | some .int => do return .int (← c.readInt (← node.getText))
    | some .float => do return .float (← c.readFloat (← node.getText))
    | some .bool => .ok (.npBool (match node.text with | none => false | some t => t != ""))
    | some .ndarray => do return .matrix (← c.readMat (← node.getText))
    | some .tuple => do return .tuple (.ofList (← node.children.mapM (importXml fuel)))
    | some .list => do return .list (.ofList (← node.children.mapM (importXml fuel)))
    | some .set => .error .typeError -- the name of the argument is `type_STR` (line 219)
    | some .dict => do
      let l ← node.children.mapM fun p => do
        let k ← importXml fuel (← p.first "key")
        let v ← importXml fuel (← p.first "value")
        return (k, v)
      return .dict (.ofList (l.foldl (fun (d : Dict (Data F M) (Data F M)) kv => d.set kv.1 kv.2) []))
    | some .adjmatrix => do
      let n ← asNat (← importXml fuel (← node.first "num_states"))
      let l ← (← list "index_list").mapM asIndex
      if l.all (fun e => e.1 < n && e.2 < n) then return .adj n l else .error .indexError
    | some .polytope => do
      let A ← mat "A"
      let b ← mat "b"
      return .poly { A := A, b := b }
    | some .region => do
      let l ← (← list "list_poly").mapM asPoly
      return .region { polys := l }
    | some .lti => do
      let A ← mat "A"
      let B ← mat "B"
      let E ← mat "E"
      let K ← mat "K"
      let U ← optPoly "Uset"
      let W ← optPoly "Wset"
      let d ← optPoly "domain"
      return .lti { A := A, B := B, E := E, K := K, Uset := U, Wset := W, domain := d }
    | some .pwa => do
      let d ← optPoly "domain"
      let l ← (← list "ltilist").mapM asLti
      return .pwa d l
    | some .switched => do
      let size ← importXml fuel (← node.first "disc_domain_size")
      let cts ← importXml fuel (← node.first "cts_ss")
      let dyn ← asDict (← importXml fuel (← node.first "dynamics"))
      let sl ← importXml fuel (← node.first "sys_labels")
      let el ← importXml fuel (← node.first "env_labels")
      return .switched cts size sl el dyn
    | some .ppp => do
      let d ← asPoly (← importXml fuel (← node.first "domain"))
      let rs ← (← list "list_reg").mapM asRegion
      let (n, adj) ← asAdj (← importXml fuel (← node.first "adj"))
      let ps ← asDict (← importXml fuel (← node.first "proplist"))
      return .ppp d rs n adj ps

end XmlIo
end Tulip
