import Verif.Interfaces.Gr1c

/-!
# Model of the interface to `slugs`

`tulip/interfaces/slugs.py:110-164`: reading the strategy that `slugs` returns. The solver, its compiler and
the decoding of JSON are not modelled. Names are lists of characters.
-/

namespace Tulip

namespace Iface

open Synth

/-- Domains of variables in `slugs.py:150-163`; `strs n` is a list of `n` strings. -/
inductive SDom
  | boolean
  | range (lo hi : Int)
  | strs (n : Nat)
  deriving DecidableEq, Repr

/-- `n.bit_length()` of a natural number. -/
def bitLen (n : Nat) : Nat := if n = 0 then 0 else bitLen (n / 2) + 1

/-- `f'{var}@{i}'`, `slugs.py:156`. -/
def bitName (var : List Char) (i : Nat) : List Char := var ++ '@' :: digitsOf i

/-- `f'{var}@0.{dom[0]}.{dom[1]}'`, `slugs.py:158`. -/
def bitName0 (var : List Char) (lo hi : Int) : List Char :=
  var ++ c!"@0." ++ intChars lo ++ c!"." ++ intChars hi

/-- `bitnames`, `slugs.py:155-158`: assignment to the first entry of an empty list raises. -/
def bitNames (var : List Char) (lo hi : Int) : Except PyErr (List (List Char)) :=
  match (List.range (bitLen hi.natAbs)).map (bitName var) with
  | [] => .error .indexError
  | _ :: l => .ok (bitName0 var lo hi :: l)

/-- `int(s, 2)` of the text of a list of bits, most significant first, `slugs.py:161-163`. Simplification:
values other than 0 and 1 raise `ValueError` (in the code, a value such as 10 would stand for two
digits). -/
def ofBits (l : List Int) : Except PyErr Int :=
  if l.isEmpty then .error .valueError
  else foldE (fun n b => if b = 0 then .ok (2 * n) else if b = 1 then .ok (2 * n + 1) else .error .valueError) 0 l

/-- The value of one variable, `slugs.py:152-163`. A list of strings has no number at index 1. -/
def decodeVar (bits : Dict (List Char) Int) (var : List Char) : SDom → Except PyErr Int
  | .boolean => getE bits var
  | .range lo hi => do
    let names ← bitNames var lo hi
    let vals ← mapE (getE bits) names
    ofBits vals.reverse
  | .strs n => if n < 2 then .error .indexError else .error .attribute

/-- `_bitfields_to_ints`, `slugs.py:137-164`. -/
def bitfieldsToInts (bits : Dict (List Char) Int) (vrs : Dict (List Char) SDom) :
    Except PyErr (Dict (List Char) Int) :=
  foldE (fun d p => do
    let n ← decodeVar bits p.1 p.2
    .ok (d.set p.1 n)) [] vrs

/-- A node of the JSON output of `slugs`. Simplification: names of nodes are integers. -/
structure SlugsNode where
  state : List Int
  trans : List Int

/-- The body of the loop over the nodes, `slugs.py:116-121`. -/
def slugsNode (names : List (List Char)) (g : DiG Int (Dict (List Char) Int)) (p : Int × SlugsNode) :
    DiG Int (Dict (List Char) Int) :=
  p.2.trans.foldl (fun g v => g.addEdge p.1 v) (g.addNode p.1 (dictOf (names.zip p.2.state)))

/-- The body of the second loop over the nodes, `slugs.py:123-126`. -/
def slugsInts (vrs : Dict (List Char) SDom) (h : DiG Int (Dict (List Char) Int))
    (p : Int × Option (Dict (List Char) Int)) : Except PyErr (DiG Int (Dict (List Char) Int)) := do
  let bits ← keyE p.2
  let ints ← bitfieldsToInts bits vrs
  .ok (h.addNode p.1 ints)

/-- The graph that `synthesize` returns for a realizable specification, `slugs.py:110-134`: `sys` and `env`
are the declared variables, `names` the key `'variables'` of the solver's output. -/
def slugsGraph (sys env : Dict (List Char) SDom) (names : List (List Char)) (nodes : Dict Int SlugsNode) :
    Except PyErr (DiG Int (Dict (List Char) Int)) := do
  let vrs := Dict.update sys env
  let g := nodes.foldl (slugsNode names) DiG.empty
  let h ← foldE (slugsInts vrs) DiG.empty g.nodes
  .ok (g.edges.foldl (fun h e => h.addEdge e.1 e.2) h)

end Iface

end Tulip
