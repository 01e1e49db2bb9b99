import Verif.Transys.Machines
import Verif.Spec.Translate
import Verif.Spec.LtlFile
import Verif.Gridworld.World

/-!
# Model of `tulip/interfaces/lily.py`

The call of Lily and the reader of the strategy that it writes. Lily itself is a parameter. Files are a
dictionary from names to contents. The order in which Python enumerates a set of texts is a parameter.
-/

namespace Tulip
namespace Lily

open Tulip.Trans Mach

/-- `x in s` for texts. -/
def occurs (x : List Char) : List Char → Bool
  | [] => x.isEmpty
  | c :: s => x.isPrefixOf (c :: s) || occurs x s

/-! ## The reader of strategies -/

/-- `\w`. Simplification: ASCII. -/
def isWordChar (c : Char) : Bool :=
  (65 ≤ c.toNat && c.toNat ≤ 90) || (97 ≤ c.toNat && c.toNat ≤ 122) || (48 ≤ c.toNat && c.toNat ≤ 57) || c == '_'

/-- `re.findall(r'(\w+)=(0|1)', s)`, `lily.py:255-258` (blanks in the pattern are ignored, `re.VERBOSE`),
as the pairs of a word and a value: `w` is the word that ends at the current position, or before the `=` just
read, if `eq` is set. (No match starts inside of a word, because the longest word is tried first.) -/
def findAll : List Char → Bool → List Char → List (List Char × Bool)
  | _, _, [] => []
  | w, true, c :: s =>
    if c = '0' then (w, false) :: findAll [] false s
    else if c = '1' then (w, true) :: findAll [] false s
    else if isWordChar c then findAll [c] false s
    else findAll [] false s
  | w, false, c :: s =>
    if isWordChar c then findAll (w ++ [c]) false s
    else if c = '=' ∧ w ≠ [] then findAll w true s
    else findAll [] false s

/-- `_parse_label`, `lily.py:250-259`. -/
def parseLabel (s : List Char) : Attr Bool :=
  (findAll [] false s).foldl (fun d p => d.set (String.ofList p.1) p.2) []

/-- `attr['label']`, `lily.py:235`, `:245`: `attr` is the text after `[label="`, and an index of a text is
an integer. -/
def labelItem (_annot : List Char) : Except PyErr (List Char) := .error .typeError

/-- The nodes of the graph: those of the system are numbered, `lily.py:204`, `:208-209`. -/
inductive Node
  | sys (n : Nat)
  | other (s : List Char)
  deriving DecidableEq, Repr

/-- The lines that are read, `lily.py:160-167`: those that start with `"`, and of these the ones that start
with `"title"`. -/
def titleLines (text : List Char) : List (List Char) :=
  ((Gw.splitlines text).filter fun l => c!"\"".isPrefixOf l).filter fun l => c!"\"title\"".isPrefixOf l

/-- `'->' in line`, `lily.py:168-169`. -/
def isEdgeLine (l : List Char) : Bool := occurs c!"->" l

/-- `edge, annot = line.split('[label="')`, `start, end = edge.split('->')`, `lily.py:178-182`. -/
def readEdge (line : List Char) : Except PyErr (List Char × List Char × List Char) :=
  match LtlFile.splitStr c!"[label=\"" line with
  | [edge, annot] => match LtlFile.splitStr c!"->" edge with
    | [a, b] => .ok (Gw.strip a, Gw.strip b, annot)
    | _ => .error .valueError
  | _ => .error .valueError

/-- The loop over the lines of edges, `lily.py:175-185`. -/
def readEdges : List (List Char) → Except PyErr (List (List Char × List Char × List Char))
  | [] => .ok []
  | l :: ls => do
    let e ← readEdge l
    let es ← readEdges ls
    .ok (e :: es)

/-- The loop over the lines of nodes, `lily.py:192-198`: the nodes of the environment. -/
def readNodes : List (List Char) → Except PyErr (List (List Char))
  | [] => .ok []
  | l :: ls => do
    let n ← (match LtlFile.splitStr c!"[" l with
      | [node, annot] => if occurs c!"shape=" annot then .ok [] else .ok [Gw.strip node]
      | _ => .error .valueError : Except PyErr (List (List Char)))
    let ns ← readNodes ls
    .ok (n ++ ns)

/-- `node.startswith('init-')`, `lily.py:186-187`. -/
def isInit (n : List Char) : Bool := c!"init-".isPrefixOf n

/-- `mapping.get(x, x)`, `lily.py:208-209`. -/
def nodeOf (sysNodes : List (List Char)) (x : List Char) : Node :=
  if x ∈ sysNodes then .sys (sysNodes.idxOf x) else .other x

/-- The successors of a node, `lily.py:205-210`, without repetitions. -/
def succs (es : List (Node × Node × List Char)) (u : Node) : List Node :=
  ((es.filter fun e => decide (e.1 = u)).map (·.2.1)).dedup

/-- `edge_labels[u, v]`, `lily.py:211`: the last annotation. -/
def edgeLabel (es : List (Node × Node × List Char)) (u v : Node) : Except PyErr (List Char) :=
  match (es.filter fun e => decide (e.1 = u ∧ e.2.1 = v)).getLast? with
  | some e => .ok e.2.2
  | none => .error .keyError

/-- The loop over the successors of a node of the environment, `lily.py:242-246`. -/
def addReactions (es : List (Node × Node × List Char)) (u v : Node) :
    List Node → LGraph Node Bool → Except PyErr (LGraph Node Bool)
  | [], g => .ok g
  | w :: ws, g =>
    if g.hasNode w then do
      let a ← edgeLabel es v w
      let s ← labelItem a
      let g ← g.addEdge u w (parseLabel s)
      addReactions es u v ws g
    else .error .assertion

/-- One round of the loop over the states, `lily.py:229-246`. -/
def labelState (es : List (Node × Node × List Char)) (g : LGraph Node Bool) (u : Node) :
    Except PyErr (LGraph Node Bool) :=
  match succs es u with
  | [v] => do
    let a ← edgeLabel es u v
    let s ← labelItem a
    let g ← g.addNode u (parseLabel s)
    if g.hasNode v then g.addEdge u v [] else addReactions es u v (succs es v) g
  | _ => .error .assertion

/-- `_lily_strategy2moore`, `lily.py:139-247`. `ord` enumerates a set. -/
def strategy2moore (ord : List (List Char) → List (List Char)) (text : List Char) (envVars sysVars : List String) :
    Except PyErr (Machine Node Bool) := do
  let lines := titleLines text
  let edges ← readEdges (ord (lines.filter isEdgeLine).dedup)
  let envNodes ← readNodes (ord (lines.filter fun l => !isEdgeLine l).dedup)
  let nodes := (edges.flatMap fun e => [e.1, e.2.1]).dedup
  let phantom := ord (nodes.filter isInit)
  let sysNodes := ord ((nodes.filter fun n => !isInit n).filter fun n => !decide (n ∈ envNodes))
  let es := edges.map fun e => (nodeOf sysNodes e.1, nodeOf sysNodes e.2.1, e.2.2)
  let m : Machine Node Bool := newMoore (envVars.map fun x => (x, [false, true])) (sysVars.map fun x => (x, [false, true]))
  let g ← toExcept (m.graph.addNodesFrom ((List.range sysNodes.length).map fun i => (.sys i, [])))
  let g ← toExcept (LGraph.seqM (fun g v => g.addInitial v) g
    (phantom.flatMap fun u => succs es (nodeOf sysNodes u)))
  let g ← toExcept (LGraph.seqM (labelState es) g g.nodes.keys)
  .ok { m with graph := g }

/-! ## The call of Lily -/

/-- The argument `formula`, `lily.py:58-62`: a text, an `LTL` with its variables, or a `GRSpec`. -/
inductive Formula
  | str (s : List Char)
  | ltl (s : List Char) (inputs outputs : Dict String Dom)
  | gr (g : GRSpec)

/-- The files. -/
abbrev Files := Dict String (List Char)

/-- The executable `lily.pl`: what it makes of the files, when it is called with a formula and the name of
the file that contains the partition of the variables. -/
abbrev Exe := List Char → String → Files → Files

/-- `IO_PARTITION_FILE`, `lily.py:54`. -/
def partitionFile : String := "io_partition.txt"

/-- `DOTFILE`, `lily.py:55`. -/
def dotFile : String := "ltl2vl-synthesis.dot"

/-- The variables, `lily.py:89-95`. `dict(None)` is a `TypeError`. -/
def variablesOf (f : Formula) (envVars sysVars : Option (Dict String Dom)) :
    Except PyErr (Dict String Dom × Dict String Dom) :=
  match f with
  | .gr g => .ok (g.envVars, g.sysVars)
  | .ltl _ i o => .ok (i, o)
  | .str _ => match envVars, sysVars with
    | some e, some s => .ok (e, s)
    | _, _ => .error .typeError

/-- A specification that declares the variables, for the table of the language. -/
def declare (e s : Dict String Dom) : GRSpec :=
  ⟨e, s, [], [], [], [], [], [], false, false, [], []⟩

/-- The formula that is passed to Lily, `lily.py:100-106`. -/
def formulaOf (order : List Cache.Part) (f : Formula) (e s : Dict String Dom) : Except PyErr (List Char) :=
  let go (x : List Char) : Except PyErr (List Char) := match parse x with
    | none => .error .exception
    | some t => text (wring (declare e s)) false t
  match f with
  | .gr g => (translateWring order (Cache.new g)).2
  | .ltl x _ _ => go x
  | .str x => go x

/-- The partition of the variables, `lily.py:108-110`. -/
def partitionText (e s : Dict String Dom) : List Char :=
  c!".inputs " ++ joinWith c!" " (e.keys.map String.toList) ++ c!"\n.outputs " ++
    joinWith c!" " (s.keys.map String.toList)

/-- What `synthesize` leaves: the files, and the result. -/
abbrev Outcome := Files × Except PyErr (Option (Machine Node Bool))

/-- After Lily has ended, `lily.py:129-136`. A file that does not exist is an `OSError`, written `exception`
here. -/
def readResult (ord : List (List Char) → List (List Char)) (e s : Dict String Dom) (files : Files) :
    Except PyErr (Option (Machine Node Bool)) :=
  match files.get? dotFile with
  | none => .error .exception
  | some text =>
    if c!"Formula is not realizable".isPrefixOf text then .ok none
    else (strategy2moore ord text e.keys s.keys).map some

/-- `synthesize`, `lily.py:58-136`. `none` for the executable: it is not found. Its return code and output
are not looked at. -/
def synthesize (order : List Cache.Part) (ord : List (List Char) → List (List Char)) (exe : Option Exe)
    (files : Files) (f : Formula) (envVars sysVars : Option (Dict String Dom)) : Outcome :=
  match variablesOf f envVars sysVars with
  | .error err => (files, .error err)
  | .ok (e, s) =>
    if (e.update s).all fun p => decide (p.2 = .boolean) then
      match formulaOf order f e s with
      | .error err => (files, .error err)
      | .ok x =>
        let files := files.set partitionFile (partitionText e s)
        match exe with
        | none => (files, .error .exception)
        | some E =>
          let files := E x partitionFile files
          (files, readResult ord e s files)
    else (files, .error .typeError)

end Lily
end Tulip
