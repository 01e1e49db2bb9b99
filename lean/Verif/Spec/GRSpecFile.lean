import Verif.Spec.Cache
import Verif.Spec.LtlFile

/-!
# Files with GR(1) specifications

`GRSpec.dumps`, `GRSpec.__str__`, `GRSpec.sub_values` and `LTL.load` of `tulip/spec/form.py`.
-/

namespace Tulip

namespace GrFile

open LtlFile

/-- A domain of a `GRSpec` as a domain of an `LTL`: the same object (`form.py:549-553`). -/
def domOf : Dom → VDom
  | .boolean => .boolean
  | .range lo hi => .range lo hi
  | .strs l => .values (l.map fun s => .str s.toList)

/-- The dictionaries `input_variables` and `output_variables` are the dictionaries `env_vars` and `sys_vars`
(`form.py:549-553`). -/
def tableOf (d : Dict String Dom) : Dict (List Char) VDom := d.map fun p => (p.1.toList, domOf p.2)

/-- The attributes of a `GRSpec` that `LTL.dumps` reads. -/
def ltlOf (s : GRSpec) : Ltl := ⟨s.formula, tableOf s.envVars, tableOf s.sysVars⟩

/-- `GRSpec.__str__` (`form.py:607-608`). -/
def toStr (s : GRSpec) : List Char := s.toCanon

/-- `GRSpec.dumps` (`form.py:610-616`): the object afterwards, and the text. -/
def dumps (s : GRSpec) (stamp : Option (List Char)) : GRSpec × Except PyErr (List Char) :=
  let s := { s with formula := s.toCanon }
  (s, LtlFile.dumps (ltlOf s) stamp)

/-- The argument of `LTL.load`: the name of a file, or an open file with what is left to read. -/
inductive Source
  | name (s : List Char)
  | file (contents : List Char)
  deriving DecidableEq, Repr

/-- `LTL.load` (`form.py:286-299`). The parameter `modeU` tells whether `open` knows the mode `'rU'` (up to
Python 3.10; later versions raise `ValueError` before they look for the file), `disk` the files, with lines
that end in `'\n'`. Simplification: an error of the operating system is `Exception`. -/
def load (modeU : Bool) (disk : List Char → Option (List Char)) : Source → Except PyErr Ltl
  | .file t => loads t
  | .name n =>
    if modeU then match disk n with
      | none => .error .exception
      | some t => loads t
    else .error .valueError

/-- The loop of `GRSpec.sub_values` (`form.py:839-843`) over the items of the copy of `_ast`. -/
def subLoop (values : Dict String PyConst) : Dict (List Char) Ast → Except PyErr (Dict (List Char) Ast)
  | [] => .ok []
  | p :: l => do
    let t ← Tulip.subValues values p.2
    let r ← subLoop values l
    .ok ((p.1, t) :: r)

/-- `GRSpec.sub_values` (`form.py:816-845`). The object is not changed: the loop works on a deep copy. -/
def subValues (st : Cache.Obj) (values : Dict String PyConst) : Except PyErr (Dict (List Char) Ast) :=
  subLoop values st.ast

end GrFile

end Tulip
