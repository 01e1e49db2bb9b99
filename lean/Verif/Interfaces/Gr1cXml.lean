import Verif.Interfaces.Gr1c

/-!
# Model of the reader of strategies in XML

`tulip/interfaces/gr1c.py`: `_untaglist`, `_untagdict`, `load_aut_xml` and `load_mealy`. The decoding of
XML text is not modelled: the model starts from the tree that `xml.etree.ElementTree.fromstring` returns.
-/

namespace Tulip

namespace Iface

open Synth

/-- An element of `xml.etree.ElementTree`: `tag`, `attrib`, `text` and the child elements. Tags in a
namespace `ns` are written `{ns}name`. -/
inductive Xml
  | mk (tag : List Char) (attrib : Dict String (List Char)) (text : Option (List Char)) (children : List Xml)

namespace Xml

def tag : Xml → List Char
  | mk t _ _ _ => t

def attrib : Xml → Dict String (List Char)
  | mk _ a _ _ => a

def text : Xml → Option (List Char)
  | mk _ _ t _ => t

def children : Xml → List Xml
  | mk _ _ _ c => c

/-- `elem.findall(tag)`. Simplification: the path is the tag of a child. -/
def findall (e : Xml) (t : List Char) : List Xml := e.children.filter fun c => c.tag = t

/-- `elem.find(tag)`. Simplification: as in `findall`. -/
def find (e : Xml) (t : List Char) : Option Xml := e.children.find? fun c => c.tag = t

end Xml

/-- `DEFAULT_NAMESPACE`, `gr1c.py:64`. -/
def defaultNamespace : List Char := c!"http://tulip-control.sourceforge." ++ c!"net/ns/1"

/-- The prefix of tags, `gr1c.py:167-170`, `:224-227`, `:268-271`. -/
def nsPrefix (ns : List Char) : List Char := if ns.isEmpty then [] else c!"{" ++ ns ++ c!"}"

/-- The result of `elem.find`, when its attributes are read: `None` has none. -/
def elemE : Option Xml → Except PyErr Xml
  | some e => .ok e
  | none => .error .attribute

/-- `int(s)`. -/
def castInt (s : List Char) : Except PyErr Int :=
  match Gw.pyInt s with
  | some n => .ok n
  | none => .error .valueError

/-- `str(s)`. -/
def castStr (s : List Char) : Except PyErr (List Char) := .ok s

variable {β : Type}

/-- `_untaglist`, `gr1c.py:137-180`, for an element `x`. -/
def untaglist (x : Option Xml) (cast : List Char → Except PyErr β) (ns : List Char) :
    Except PyErr (List Char × List β) := do
  let elem ← elemE x
  let litems := elem.findall (nsPrefix ns ++ c!"litem")
  if !litems.isEmpty then
    let li ← mapE (fun k => do
      let v ← keyE (k.attrib.get? "value")
      cast v) litems
    .ok (elem.tag, li)
  else match elem.text with
    | none => .ok (elem.tag, [])
    | some t => do
      let li ← mapE cast (Gw.words t)
      .ok (elem.tag, li)

/-- The key and the value of an item, `gr1c.py:240-244`; the value is evaluated first. Keys are strings. -/
def untagitem (cast : List Char → Except PyErr β) (item : Xml) : Except PyErr (String × β) := do
  let v ← keyE (item.attrib.get? "value")
  let x ← cast v
  let k ← keyE (item.attrib.get? "key")
  .ok (String.ofList k, x)

/-- `_untagdict`, `gr1c.py:183-248`, for an element `x` and with `cast_f_keys` not given: the tag, the
dictionary and the list of keys in the order in which they are found, with repetitions. -/
def untagdict (x : Option Xml) (cast : List Char → Except PyErr β) (ns : List Char) :
    Except PyErr (List Char × Dict String β × List String) := do
  let elem ← elemE x
  let items := elem.findall (nsPrefix ns ++ c!"item")
  let l ← mapE (untagitem cast) items
  .ok (elem.tag, dictOf l, l.map (·.1))

/-- The specification that `load_aut_xml` reads, `gr1c.py:294-314`. -/
structure XmlSpec where
  envVars : Dict String Dom
  sysVars : Dict String Dom
  /-- The lists of clauses, by the name of the attribute. -/
  clauses : Dict String (List (List Char))

/-- The attributes of a node of the strategy, `gr1c.py:366-370`. -/
structure XmlNode where
  state : Attr Int
  mode : Int
  rgrad : Int
  deriving DecidableEq, Repr

/-- The graph that `load_aut_xml` returns: `env_vars`, `sys_vars` and the graph itself. -/
structure XmlGraph where
  envVars : Dict String Dom
  sysVars : Dict String Dom
  graph : DiG Int XmlNode

/-- The value that `load_aut_xml` returns. -/
inductive XmlResult
  | spec (s : XmlSpec)
  | graph (g : XmlGraph)

/-- `s.startswith(pat)`, and the rest. -/
def dropPrefix : List Char → List Char → Option (List Char)
  | [], s => some s
  | _ :: _, [] => none
  | p :: ps, c :: cs => if p = c then dropPrefix ps cs else none

/-- `s.replace(pat, [c])` for a text `pat` that is not empty. -/
def replaceWith (pat : List Char) (c : Char) : Nat → List Char → List Char
  | 0, s => s
  | _ + 1, [] => []
  | n + 1, d :: s => match dropPrefix pat (d :: s) with
    | some rest => c :: replaceWith pat c n rest
    | none => d :: replaceWith pat c n s

/-- The replacement of entities, `gr1c.py:311-313`. -/
def unescape (s : List Char) : List Char :=
  let s := replaceWith c!"&lt;" '<' s.length s
  let s := replaceWith c!"&gt;" '>' s.length s
  replaceWith c!"&amp;" '&' s.length s

/-- The names of the lists of clauses, `gr1c.py:297-299`. -/
def specTags : List String :=
  ["env_init", "env_safety", "env_prog", "sys_init", "sys_safety", "sys_prog"]

/-- The loop over `spec_tags`, `gr1c.py:300-314`. -/
def loadClauses (ns : List Char) (s : Option Xml) : Except PyErr (Dict String (List (List Char))) := do
  let l ← mapE (fun (t : String) => do
    let e ← elemE s
    match e.find (nsPrefix ns ++ t.toList) with
    | none => .error .valueError
    | some x => do
      let p ← untaglist (some x) castStr ns
      .ok (t, p.2.map unescape)) specTags
  .ok (dictOf l)

/-- The body of the loop over the nodes, `gr1c.py:334-372`. The namespace is not passed on when the
annotation and the children are read, `:338-340` and `:345-347`. -/
def loadXmlNode (ns : List Char) (st : List Int × DiG Int XmlNode) (node : Xml) :
    Except PyErr (List Int × DiG Int XmlNode) := do
  let idElem ← elemE (node.find (nsPrefix ns ++ c!"id"))
  let idText ← (match idElem.text with
    | none => .error .typeError
    | some t => .ok t : Except PyErr (List Char))
  let thisId ← castInt idText
  let name ← untaglist (node.find (nsPrefix ns ++ c!"anno")) castInt defaultNamespace
  let mr : Int × Int := match name.2 with
    | [m, r] => (m, r)
    | _ => (-1, -1)
  let children ← untaglist (node.find (nsPrefix ns ++ c!"child_list")) castInt defaultNamespace
  if children.1 ≠ nsPrefix ns ++ c!"child_list" then .error .valueError
  else
    let state ← untagdict (node.find (nsPrefix ns ++ c!"state")) castInt ns
    if state.1 ≠ nsPrefix ns ++ c!"state" then .error .valueError
    else if thisId ∈ st.1 then .ok st
    else
      let g := st.2.addNode thisId ⟨state.2.1, mr.1, mr.2⟩
      .ok (st.1 ++ [thisId], children.2.foldl (fun g v => g.addEdge thisId v) g)

/-- The automaton, `gr1c.py:323-373`. -/
def loadXmlAut (ns : List Char) (env sys : Dict String Dom) (aut : Xml) : Except PyErr XmlResult := do
  let type ← keyE (aut.attrib.get? "type")
  if type ≠ c!"basic" then .error .valueError
  else
    let s ← foldE (loadXmlNode ns) ([], DiG.empty) (aut.findall (nsPrefix ns ++ c!"node"))
    .ok (.graph ⟨env, sys, s.2⟩)

/-- `load_aut_xml`, `gr1c.py:251-373`, for an element `elem`. The namespace is not passed on when the
variables are read, `:286-289`. An automaton without text raises `AttributeError`, because elements have no
method `getchildren`, `:318-319`, in the versions of Python that the package supports. -/
def loadAutXml (ns : List Char) (elem : Xml) : Except PyErr XmlResult := do
  if elem.tag ≠ nsPrefix ns ++ c!"tulipcon" then .error .typeError
  else match elem.attrib.get? "version" with
    | none => .error .valueError
    | some v => do
      let n ← castInt v
      if n ≠ 1 then .error .valueError
      else
        let e ← untagdict (elem.find (nsPrefix ns ++ c!"env_vars")) castStr defaultNamespace
        let s ← untagdict (elem.find (nsPrefix ns ++ c!"sys_vars")) castStr defaultNamespace
        let env ← parseVars e.2.2 e.2.1
        let sys ← parseVars s.2.2 s.2.1
        let clauses ← loadClauses ns (elem.find (nsPrefix ns ++ c!"spec"))
        match elem.find (nsPrefix ns ++ c!"aut") with
        | none => .ok (.spec ⟨env, sys, clauses⟩)
        | some aut => match aut.text with
          | none => .error .attribute
          | some _ => loadXmlAut ns env sys aut

/-- The contents of a file with a strategy: XML or JSON. -/
inductive Contents (δ V : Type)
  | xml (x : Xml)
  | json (j : AutJson Int δ V)

/-- The strategy that `load_mealy` returns. -/
inductive Loaded (δ V : Type)
  | xml (g : XmlGraph)
  | json (g : AutGraph Int δ V)

/-- `load_mealy`, `gr1c.py:623-654`, for a file that is well-formed XML or JSON. The error for an unknown
format is made and not raised, `:646-648`, so the next statement reads a variable without value. A tuple has
no method `nodes`, `:650`. Simplification: a file in the other format than the given one raises a
`SyntaxError` (XML) or `ValueError` (JSON). -/
def loadMealy {δ V : Type} (format : List Char) (c : Contents δ V) : Except PyErr (Loaded δ V) :=
  let f := format.map Char.toLower
  if f = c!"tulipxml" then
    match c with
    | .json _ => .error .syntaxErr
    | .xml x => do
      match (← loadAutXml defaultNamespace x) with
      | .spec _ => .error .attribute
      | .graph g => .ok (.xml g)
  else if f = c!"json" then
    match c with
    | .xml _ => .error .valueError
    | .json j => do
      let g ← loadAutJson j
      .ok (.json g)
  else .error .unboundLocal

/-- The strategy that `strategy2mealy` reads from a graph returned by `load_aut_xml`: it has no attribute
`initial_nodes`. -/
def XmlGraph.strategy (a : XmlGraph) : Strategy Int :=
  { nodes := a.graph.nodes.filterMap fun p => p.2.map fun n => (p.1, n.state.map fun x => (x.1, Elem.int x.2))
    edges := a.graph.edges
    initialNodes := none }

end Iface

end Tulip
