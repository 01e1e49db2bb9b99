import Verif.Spec.GRSpec

/-!
# Model of `GRSpec.pretty`

`tulip/spec/form.py:643-696`.
-/

namespace Tulip

namespace Pretty

/-- The declarations of one side, `form.py:646-650`, `:652-656`. `render` is the text of a domain, the value of
`str(v)`. -/
def varsText (render : Dom → List Char) (vars : Dict String Dom) : List Char :=
  if vars = [] then c!"\t(none)\n"
  else vars.foldl (fun s p => s ++ (c!"\t" ++ p.1.toList ++ c!"\t" ++ render p.2 ++ c!"\n")) []

/-- The conjuncts of one part, `form.py:659-676`, `:678-695`: nothing if there are none. `op` is the temporal operator in
front of each conjunct. -/
def partText (head op : List Char) (fs : List (List Char)) : List Char :=
  if fs = [] then []
  else c!"    " ++ head ++ c!"\n\t  " ++ op ++
    joinWith (c!"\n\t& " ++ op) (fs.map fun f => c!"(" ++ f ++ c!")") ++ c!"\n"

/-- `GRSpec.pretty`, `form.py:643-696`. -/
def pretty (render : Dom → List Char) (g : GRSpec) : List Char :=
  c!"ENVIRONMENT VARIABLES:\n" ++ varsText render g.envVars ++
  c!"\nSYSTEM VARIABLES:\n" ++ varsText render g.sysVars ++
  c!"\nFORMULA:\n" ++ c!"ASSUMPTION:\n" ++
  partText c!"INITIAL" [] g.envInit ++ partText c!"SAFETY" c!"[]" g.envSafety ++
  partText c!"LIVENESS" c!"[]<>" g.envProg ++
  c!"GUARANTEE:\n" ++
  partText c!"INITIAL" [] g.sysInit ++ partText c!"SAFETY" c!"[]" g.sysSafety ++
  partText c!"LIVENESS" c!"[]<>" g.sysProg

end Pretty

end Tulip
