import Verif.Model.Rounded
import Mathlib.Data.Int.Log
import Mathlib.Algebra.Ring.Int.Parity

/-! The arithmetic of binary64: every result is the exact one rounded to 53 significant bits, ties to even.
Simplification: the exponent is unbounded (no overflow, no subnormal numbers). The trigonometric functions and the
square root are correctly rounded, the product of a row and a vector adds from left to right. -/

namespace Verif.Fp
open Verif.Geo Real

/-- round to the nearest integer, ties to even -/
noncomputable def rne (x : ℝ) : ℤ :=
  if x - ⌊x⌋ < 1 / 2 then ⌊x⌋ else if 1 / 2 < x - ⌊x⌋ then ⌊x⌋ + 1 else if Even ⌊x⌋ then ⌊x⌋ else ⌊x⌋ + 1

/-- the unit in the last place of a number with 53 significant bits -/
noncomputable def ulp (x : ℝ) : ℝ := (2 : ℝ) ^ (Int.log 2 |x| - 52)

/-- round to 53 significant bits -/
noncomputable def rnd (x : ℝ) : ℝ := rne (x / ulp x) * ulp x

/-- binary64 with an unbounded exponent -/
noncomputable def binary64 : Arith where
  u := 2⁻¹ ^ 52
  add a b := rnd (a + b)
  sub a b := rnd (a - b)
  mul a b := rnd (a * b)
  div a b := rnd (a / b)
  sqrt a := rnd √a
  sin a := rnd (Real.sin a)
  cos a := rnd (Real.cos a)
  atan2 a b := rnd (arctan2 a b)
  dot3 a b := rnd (rnd (rnd (a.x * b.x) + rnd (a.y * b.y)) + rnd (a.z * b.z))
  pi := rnd π

end Verif.Fp
