import Verif.Model.Py
/-! # Model of `set_raypath` (raytools/__init__.py 20-33) -/
namespace Verif.Raypath
open Verif.Py

/-- `list(dict.fromkeys(l))`: insert the entries one after the other, a repeated key keeps its place. -/
def fromkeys (l : List Str) : List Str := l.foldl (fun acc x => if x ∈ acc then acc else acc ++ [x]) []

/-- raytools/__init__.py 20-33: `dir` is `os.path.dirname(basefile) + os.path.sep + subd`, `env` the value of RAYPATH
(`none`: not set), the path separator is ':' (POSIX). Returns the new value of RAYPATH. -/
def setRaypath (dir : Str) (env : Option Str) : Str :=
  let rt := [['.'], dir]
  match env with
  | none => joinWith ':' rt
  | some e => joinWith ':' (fromkeys (rt ++ splitOn ':' e))

end Verif.Raypath
