import Verif.Model.Py
import Mathlib.Data.Rat.Floor
/-!
# Names of converted images (raytools/imagetools.py 41-43, 63-65, 169-170, 177-188)

Paths are text. Rotation angles are rational numbers (every float is one), centres are whole numbers as the command line
gives them.
-/
namespace Verif.Names
open Verif.Py

/-- `imgf.rsplit(".", 1)[0]` -/
def stem (p : Str) : Str :=
  match p.reverse.dropWhile (· ≠ '.') with
  | [] => p
  | _ :: r => r.reverse

/-- one decimal digit -/
def digit (k : ℕ) : Char := Char.ofNat (48 + k)

/-- decimal digits of `n`, at most `fuel` of them -/
def decGo : ℕ → ℕ → Str
  | 0, _ => []
  | f + 1, n => if n < 10 then [digit n] else decGo f (n / 10) ++ [digit (n % 10)]

/-- `str(n)` of a natural number -/
def dec (n : ℕ) : Str := decGo (n + 1) n

/-- `str(z)` of an integer -/
def sdec (z : ℤ) : Str := if z < 0 then '-' :: dec z.natAbs else dec z.natAbs

/-- `f"{z:02d}"` -/
def pad2 (z : ℤ) : Str := if 0 ≤ z ∧ z < 10 then '0' :: sdec z else sdec z

/-- `int(x)`: truncation towards zero -/
def truncQ (x : ℚ) : ℤ := x.num.tdiv x.den

/-- output of `hdr_uv2ang`, imagetools.py 43 -/
def angName (p : Str) : Str := stem p ++ "_ang.hdr".toList
/-- output of `hdr_ang2uv`, imagetools.py 65 -/
def uvName (p : Str) : Str := stem p ++ "_uv.hdr".toList
/-- output of `hdr_solid2ang`, imagetools.py 170 with the mapper names of 148 and 151 -/
def solidName (reverse : Bool) (p : Str) : Str :=
  stem p ++ (if reverse then "_2vts.hdr".toList else "_2vta.hdr".toList)

/-- `f"_r{int(rotate):02d}"` when the angle is not zero, imagetools.py 181-182, 185-186 -/
def rotPart (rotate : ℚ) : Str := if rotate ≠ 0 then '_' :: 'r' :: pad2 (truncQ rotate) else []

/-- `f"_{center[0]}-{center[1]}"`, imagetools.py 183-184 -/
def centrePart : Option (List ℤ) → Except PyErr Str
  | none => .ok []
  | some (x :: y :: _) => .ok ('_' :: (sdec x ++ '-' :: sdec y))
  | some _ => .error .IndexError

/-- `cl` of `hdr_rotate`, imagetools.py 179-186 -/
def rotSuffix (rotate : ℚ) (center : Option (List ℤ)) (first : Bool) : Except PyErr Str :=
  (centrePart center).map fun c => if first then rotPart rotate ++ c else c ++ rotPart rotate

/-- output of `hdr_rotate`, imagetools.py 188 -/
def rotName (rotate : ℚ) (center : Option (List ℤ)) (first : Bool) (p : Str) : Except PyErr Str :=
  (rotSuffix rotate center first).map fun cl => stem p ++ cl ++ ".hdr".toList

end Verif.Names
