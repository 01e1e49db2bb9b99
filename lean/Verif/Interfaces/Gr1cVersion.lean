import Verif.Gridworld.World

/-!
# Model of the calls of `gr1c` that are not about solving, `tulip/interfaces/gr1c.py`

The executable is a parameter. The comparison of versions is that of the package `packaging`, a parameter too.
-/

namespace Tulip
namespace Gr1cV

open Gw

/-- The exceptions of the functions in this file: `OSError`, `subprocess.CalledProcessError`, `IndexError`,
`ValueError`, `packaging.version.InvalidVersion` and `Exception`. -/
inductive Err
  | os | called | index | value | invalid | exception
  deriving DecidableEq, Repr

/-- The executable: the return code and the output of `gr1c -V`, and the return code of `gr1c -s` for the given
standard input. -/
structure Exe where
  versionCode : Int
  versionOut : List Char
  syntaxCode : List Char → Int

/-- `subprocess.check_output(["gr1c", "-V"])`; `none` if there is no executable in the path. -/
def versionText : Option Exe → Except Err (List Char)
  | none => .error .os
  | some E => if E.versionCode = 0 then .ok E.versionOut else .error .called

/-- `s.split()[1]`. -/
def second (s : List Char) : Except Err (List Char) :=
  match words s with
  | _ :: v :: _ => .ok v
  | _ => .error .index

/-- The numbers of a version, `gr1c.py:124-132`. -/
def readVersion (v : List Char) : Except Err (Int × Int × Int) :=
  match splitOn '.' v with
  | [x, y, z] => match pyInt x, pyInt y, pyInt z with
    | some a, some b, some c => .ok (a, b, c)
    | _, _, _ => .error .value
  | _ => .error .value

/-- `get_version`, `gr1c.py:108-133`. -/
def getVersion (exe : Option Exe) : Except Err (Int × Int × Int) := do
  let s ← versionText exe
  let v ← second s
  readVersion v

/-- `check_gr1c`, `gr1c.py:80-91`. `geq v` is `_pkg.parse_version(v) >= _pkg.parse_version(GR1C_MIN_VERSION)`, `none`
if `v` is not a version. -/
def checkGr1c (geq : List Char → Option Bool) (exe : Option Exe) : Except Err Bool :=
  match versionText exe with
  | .error .os => .ok false
  | .error e => .error e
  | .ok s => do
    let v ← second s
    match geq v with
    | none => .error .invalid
    | some b => .ok b

/-- `_assert_gr1c`, `gr1c.py:94-105`. -/
def assertGr1c (geq : List Char → Option Bool) (exe : Option Exe) : Except Err Unit := do
  let b ← checkGr1c geq exe
  if b then .ok () else .error .exception

/-- `check_syntax`, `gr1c.py:455-479`. The log is not modelled. (The executable is found when its version has been
found.) -/
def checkSyntax (geq : List Char → Option Bool) (exe : Option Exe) (spec : List Char) : Except Err Bool := do
  assertGr1c geq exe
  match exe with
  | none => .error .os
  | some E => .ok (E.syntaxCode spec == 0)

end Gr1cV
end Tulip
