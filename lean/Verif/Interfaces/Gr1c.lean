import Verif.Synth.Strategy
import Verif.Synth.ToSpec
import Verif.Gridworld.World

/-!
# Model of the interface to `gr1c`

`tulip/interfaces/gr1c.py`: the choice of the initial option, the graphs read from the solver's JSON
output, the domains read from its XML output, and the messages of interactive sessions. The solver and
the decoding of JSON and XML are not modelled: JSON values are structures, lists and dictionaries.
-/

namespace Tulip

namespace Iface

open Synth

/-! ## The initial option -/

/-- The options that `select_options` returns, `gr1c.py:588-590`. -/
inductive InitOption
  | allEnvExistSysInit
  | oneSideInit
  deriving DecidableEq, Repr

/-- `select_options`, `gr1c.py:585-620`. -/
def selectOptions (spec : GRSpec) : Except PyErr InitOption :=
  if spec.moore then .error .assertion
  else if spec.plusOne then .error .assertion
  else if spec.qinit = c!"\\A \\E" then .ok .allEnvExistSysInit
  else if spec.qinit = c!"\\E \\A" then .error .valueError
  else if spec.qinit = c!"\\A \\A" then
    if spec.sysInit.isEmpty then .ok .oneSideInit else .error .assertion
  else if spec.qinit = c!"\\E \\E" then
    if spec.envInit.isEmpty then .ok .oneSideInit else .error .assertion
  else .error .valueError

/-! ## Graphs -/

variable {ν α δ V : Type} [DecidableEq ν]

/-- A `networkx.DiGraph`: nodes with the attribute `'state'`, if they have one, and edges, without
parallel edges. Other attributes of nodes are not modelled. -/
structure DiG (ν α : Type) where
  nodes : Dict ν (Option α)
  edges : List (ν × ν)

/-- `nx.DiGraph()`. -/
def DiG.empty : DiG ν α := ⟨[], []⟩

/-- `g.add_node(u, state=a)`. -/
def DiG.addNode (g : DiG ν α) (u : ν) (a : α) : DiG ν α := { g with nodes := g.nodes.set u (some a) }

/-- The node that `g.add_edge` adds if it is not there. -/
def DiG.touch (g : DiG ν α) (u : ν) : DiG ν α :=
  if g.nodes.has u then g else { g with nodes := g.nodes.set u none }

/-- `g.add_edge(u, v)`. -/
def DiG.addEdge (g : DiG ν α) (u v : ν) : DiG ν α :=
  let g := (g.touch u).touch v
  if (u, v) ∈ g.edges then g else { g with edges := g.edges ++ [(u, v)] }

/-! ## Reading a strategy in JSON -/

/-- A node of the JSON output of `gr1c`: `none` for a missing key. Simplification: the other keys of the
node are copied to the graph by the code and are not modelled. -/
structure NodeJson (ν V : Type) where
  state : Option (List V)
  trans : Option (List ν)
  initial : Option Bool

/-- The JSON output of `gr1c`; each variable is a dictionary with one item. -/
structure AutJson (ν δ V : Type) where
  version : Int
  env : List (Dict String δ)
  sys : List (Dict String δ)
  nodes : Dict ν (NodeJson ν V)

/-- The graph returned by `load_aut_json`, with its attributes. -/
structure AutGraph (ν δ V : Type) where
  envVars : Dict String δ
  sysVars : Dict String δ
  initialNodes : List ν
  graph : DiG ν (Attr V)

/-- `list(v.items())[0]`, `gr1c.py:436-437`, and `list(v.keys())[0]`, `gr1c.py:443`. -/
def firstItem (d : Dict String δ) : Except PyErr (String × δ) :=
  match d with
  | [] => .error .indexError
  | p :: _ => .ok p

/-- `dict(l)` for a list of pairs. -/
def dictOf {κ β : Type} [DecidableEq κ] (l : List (κ × β)) : Dict κ β := Dict.update [] l

/-- A missing key. -/
def keyE {β : Type} : Option β → Except PyErr β
  | some x => .ok x
  | none => .error .keyError

/-- The pairs `(list(symtab[i].keys())[0], state[i])`, `gr1c.py:442-445`. -/
def statePairs : List (Dict String δ) → List V → Except PyErr (List (String × V))
  | [], _ => .ok []
  | d :: ds, state => do
    let p ← firstItem d
    match state with
    | [] => .error .indexError
    | x :: xs => do
      let r ← statePairs ds xs
      .ok ((p.1, x) :: r)

/-- The body of the first loop over the nodes, `gr1c.py:440-448`. -/
def loadNode (symtab : List (Dict String δ)) (s : List ν × DiG ν (Attr V)) (p : ν × NodeJson ν V) :
    Except PyErr (List ν × DiG ν (Attr V)) := do
  let state ← keyE p.2.state
  let l ← statePairs symtab state
  let g := s.2.addNode p.1 (dictOf l)
  let b ← keyE p.2.initial
  .ok (if b && !decide (p.1 ∈ s.1) then s.1 ++ [p.1] else s.1, g)

/-- The body of the second loop, `gr1c.py:449-451`. -/
def loadEdges (g : DiG ν (Attr V)) (p : ν × NodeJson ν V) : Except PyErr (DiG ν (Attr V)) := do
  let l ← keyE p.2.trans
  .ok (l.foldl (fun g v => g.addEdge p.1 v) g)

/-- `load_aut_json`, `gr1c.py:415-452`. -/
def loadAutJson (j : AutJson ν δ V) : Except PyErr (AutGraph ν δ V) := do
  if j.version ≠ 1 then .error .valueError
  else
    let symtab := j.env ++ j.sys
    let env ← mapE firstItem j.env
    let sys ← mapE firstItem j.sys
    let s ← foldE (loadNode symtab) ([], DiG.empty) j.nodes
    let g ← foldE loadEdges s.2 j.nodes
    .ok ⟨dictOf env, dictOf sys, s.1, g⟩

/-- The strategy read by `strategy2mealy` from a graph returned by `load_aut_json`: reading the state of
a node without state raises `KeyError`, `synth.py:1709`. -/
def AutGraph.strategy (a : AutGraph ν δ Synth.Elem) : Strategy ν :=
  { nodes := a.graph.nodes.filterMap fun p => p.2.map fun st => (p.1, st)
    edges := a.graph.edges
    initialNodes := some a.initialNodes }

/-! ## Domains in XML -/

/-- The text before the first `']'`; `none` if there is none, `gr1c.py:389-390`. -/
def upToBracket : List Char → Option (List Char)
  | [] => none
  | c :: s => if c = ']' then some [] else (upToBracket s).map (c :: ·)

/-- The domain of one variable in `_parse_vars`, `gr1c.py:386-403`. The second component of the pair in
the domain `[lo, hi]` is read with its leading space. -/
def parseVar (dom : List Char) : Except PyErr Dom :=
  match dom with
  | [] => .error .indexError
  | c :: rest =>
    if c = '[' then
      match upToBracket rest with
      | none => .error .valueError
      | some inner => match Gw.splitOn ',' inner with
        | [a, b] => match Gw.pyInt a, Gw.pyInt b with
          | some lo, some hi => .ok (.range lo hi)
          | _, _ => .error .valueError
        | _ => .error .valueError
    else if dom = c!"boolean" then .ok .boolean
    else .error .valueError

/-- `_parse_vars`, `gr1c.py:377-412`. -/
def parseVars (variables' : List String) (vardict : Dict String (List Char)) :
    Except PyErr (Dict String Dom) := do
  let l ← mapE (fun var => do
    let text ← getE vardict var
    let dom ← parseVar text
    .ok (var, dom)) variables'
  .ok (dictOf l)

/-! ## Interactive sessions -/

/-- `l[i] = x`. -/
def setAt {β : Type} (l : List β) (i : Nat) (x : β) : Except PyErr (List β) :=
  if i < l.length then .ok (l.set i x) else .error .indexError

/-- The loop `for ind in range(len(names)): vector[ind + start] = state[names[ind]]`,
`gr1c.py:721-724`. -/
def fillFrom (state : Attr Int) : Nat → List String → List Int → Except PyErr (List Int)
  | _, [], vec => .ok vec
  | i, k :: ks, vec => do
    let x ← getE state k
    let vec ← setAt vec i x
    fillFrom state (i + 1) ks vec

/-- The list `list(range(n))`. -/
def rangeInts (n : Nat) : List Int := (List.range n).map fun (i : Nat) => (i : Int)

/-- The state vector of `iswinning`, `gr1c.py:720-724`, `getindex`, `:744-748`, `env_next`, `:766-770`,
`sys_nextfeas`, `:802-806`, and `sys_nexta`, `:838-842`. -/
def stateVector (env sys : List String) (state : Attr Int) : Except PyErr (List Int) := do
  let vec ← fillFrom state 0 env (rangeInts state.length)
  fillFrom state env.length sys vec

/-- The vector of a move of the environment, `gr1c.py:807-809` and `:843-845`. -/
def moveVector (env : List String) (move : Attr Int) : Except PyErr (List Int) :=
  fillFrom move 0 env (rangeInts move.length)

/-- `_join_as_str`, `gr1c.py:932-937`. -/
def joinAsStr (l : List Int) : List Char := joinWith c!" " (l.map intChars)

/-- The command that `iswinning` sends, `gr1c.py:725-728`. -/
def winningCommand (env sys : List String) (state : Attr Int) : Except PyErr (List Char) := do
  let v ← stateVector env sys state
  .ok (c!"winning " ++ joinAsStr v ++ c!"\n")

/-- The command that `env_next` sends, `gr1c.py:771-774`. -/
def envNextCommand (env sys : List String) (state : Attr Int) : Except PyErr (List Char) := do
  let v ← stateVector env sys state
  .ok (c!"envnext " ++ joinAsStr v ++ c!"\n")

/-- The command that `sys_nexta` sends, `gr1c.py:846-852`. -/
def sysNextaCommand (env sys : List String) (state move : Attr Int) : Except PyErr (List Char) := do
  let v ← stateVector env sys state
  let m ← moveVector env move
  .ok (c!"sysnexta " ++ joinAsStr v ++ c!" " ++ joinAsStr m ++ c!"\n")

/-- The command that `sys_nextfeas` sends, `gr1c.py:798-815`. `goals` is the number of goals. -/
def sysNextfeasCommand (env sys : List String) (goals : Int) (state move : Attr Int) (goal : Int) :
    Except PyErr (List Char) := do
  if goal < 0 ∨ goal > goals - 1 then .error .valueError
  else
    let v ← stateVector env sys state
    let m ← moveVector env move
    .ok (c!"sysnext " ++ joinAsStr v ++ c!" " ++ joinAsStr m ++ c!" " ++ intChars goal ++ c!"\n")

/-- `pat in s`. -/
def isIn (pat s : List Char) : Bool := decide (pat <:+: s)

/-- Removal of the prompt, `gr1c.py:778-781`: if the prompt occurs anywhere in the line, as many
characters are removed from the start. -/
def dropPrompt (prompt line : List Char) : List Char :=
  if prompt.isEmpty then line else if isIn prompt line then line.drop prompt.length else line

/-- The items `(k, int(s))`, `gr1c.py:782-785`. -/
def readItems : List (String × List Char) → Except PyErr (List (String × Int))
  | [] => .ok []
  | p :: l => match Gw.pyInt p.2 with
    | none => .error .valueError
    | some n => do
      let r ← readItems l
      .ok ((p.1, n) :: r)

/-- The move in a line, `gr1c.py:778-785`. -/
def readMove (prompt : List Char) (names : List String) (line : List Char) : Except PyErr (Attr Int) := do
  let l ← readItems (names.zip (Gw.words (dropPrompt prompt line)))
  .ok (dictOf l)

/-- The loop that reads moves, `gr1c.py:775-787`, `:816-828`, `:853-865`: `names` are the variables of the
environment in `env_next` and those of the system in the other methods. The lines are those the solver
prints; when they end the loop never ends (`readline` returns `''` for ever): `none`. -/
def readMoves (prompt : List Char) (names : List String) :
    List (List Char) → Except PyErr (Option (List (Attr Int)))
  | [] => .ok none
  | line :: ls =>
    if isIn c!"---\n" line then .ok (some [])
    else do
      let m ← readMove prompt names line
      let r ← readMoves prompt names ls
      .ok (r.map (m :: ·))

end Iface

end Tulip
