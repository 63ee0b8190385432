import Mathlib.Data.Rat.Defs
import Mathlib.Algebra.Order.Field.Rat

/-! Reading numbers in decimal notation, for the statements about printed tables: an optional minus sign, digits, optionally a point
and digits, optionally an exponent with a sign. -/

namespace Verif.Spec

/-- a row of digits as a whole number -/
def readNat (s : List Char) : ℕ := s.foldl (fun a c => 10 * a + (c.toNat - 48)) 0

/-- the exponent part -/
def readExp : List Char → Option ℤ
  | [] => some 0
  | 'e' :: '+' :: ex => if ex ≠ [] ∧ ex.all Char.isDigit then some (readNat ex) else none
  | 'e' :: '-' :: ex => if ex ≠ [] ∧ ex.all Char.isDigit then some (-(readNat ex : ℤ)) else none
  | _ => none

/-- digits, point, digits, and the rest -/
def readFrac (ip : List Char) : List Char → Option ℚ
  | '.' :: r =>
    if r.takeWhile Char.isDigit = [] then none
    else (readExp (r.dropWhile Char.isDigit)).map fun e =>
      ((readNat ip : ℚ) + (readNat (r.takeWhile Char.isDigit) : ℚ) / 10 ^ (r.takeWhile Char.isDigit).length) * 10 ^ e
  | r => (readExp r).map fun e => (readNat ip : ℚ) * 10 ^ e

/-- a number without sign -/
def readAbs (s : List Char) : Option ℚ :=
  if s.takeWhile Char.isDigit = [] then none else readFrac (s.takeWhile Char.isDigit) (s.dropWhile Char.isDigit)

/-- a number -/
def readNum : List Char → Option ℚ
  | '-' :: s => (readAbs s).map fun v => -v
  | s => readAbs s

end Verif.Spec
