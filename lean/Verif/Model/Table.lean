import Verif.Model.Names
import Mathlib.Data.Int.Log

/-! The printed table of the `metric` command, raytools/cli.py 145-147, with the number format `f"{i:.06g}"`. A float is a
rational number, a signed zero, an infinity or nan. -/

namespace Verif.Tab
open Verif.Py Verif.Names

/-- a float64 as the formatter sees it; the value of `fin` is not 0 -/
inductive Val
  | fin (x : ℚ)
  | zero (neg : Bool)
  | inf (neg : Bool)
  | nan

/-- the nearest whole number, ties to even -/
def roundEven (x : ℚ) : ℤ :=
  if Int.fract x < 1 / 2 then ⌊x⌋ else if 1 / 2 < Int.fract x then ⌊x⌋ + 1 else if ⌊x⌋ % 2 = 0 then ⌊x⌋ else ⌊x⌋ + 1

/-- the decimal exponent of a positive number -/
def expo (x : ℚ) : ℤ := Int.log 10 x

/-- six significant digits as a whole number, from 100000 to 1000000: CPython's `PyOS_double_to_string(x, 'g', 6)`, correctly rounded -/
def mant (x : ℚ) : ℕ := (roundEven (x / 10 ^ (expo x - 5))).toNat

/-- when rounding reaches the next power of ten the exponent moves up -/
def sig (x : ℚ) : ℕ × ℤ := if mant x = 1000000 then (100000, expo x + 1) else (mant x, expo x)

/-- the six digits -/
def six (m : ℕ) : List ℕ := [m / 100000 % 10, m / 10000 % 10, m / 1000 % 10, m / 100 % 10, m / 10 % 10, m % 10]

/-- trailing zeros are dropped -/
def trim (l : List ℕ) : List ℕ := (l.reverse.dropWhile (· = 0)).reverse

/-- digits before and after the point; the point goes with the last digit after it -/
def pointed (ip fp : List ℕ) : Str := ip.map digit ++ if trim fp = [] then [] else '.' :: (trim fp).map digit

/-- exponents have a sign and at least two digits -/
def expText (e : ℤ) : Str :=
  'e' :: (if e < 0 then '-' else '+') :: if e.natAbs < 10 then '0' :: dec e.natAbs else dec e.natAbs

/-- format `g` with six digits of a positive number: fixed point for exponents from -4 to 5 -/
def gText (m : ℕ) (e : ℤ) : Str :=
  if -4 ≤ e ∧ e < 6 then
    if 0 ≤ e then pointed ((six m).take (e.toNat + 1)) ((six m).drop (e.toNat + 1))
    else pointed [0] (List.replicate (-e - 1).toNat 0 ++ six m)
  else pointed ((six m).take 1) ((six m).drop 1) ++ expText e

/-- `f"{i:.06g}"`, cli.py 147 -/
def cell : Val → Str
  | .fin x => if x < 0 then '-' :: gText (sig (-x)).1 (sig (-x)).2 else gText (sig x).1 (sig x).2
  | .zero neg => if neg then "-0".toList else "0".toList
  | .inf neg => if neg then "-inf".toList else "inf".toList
  | .nan => "nan".toList

/-- cli.py 145: `"image\t" + "\t".join(metrics)` -/
def headText (names : List Str) : Str := "image".toList ++ '\t' :: joinWith '\t' names

/-- cli.py 147: `img + "\t" + "\t".join(cells)` -/
def rowText (img : Str) (vals : List Val) : Str := img ++ '\t' :: joinWith '\t' (vals.map cell)

/-- what is printed, one line after the other -/
def tableText (names : List Str) (rows : List (Str × List Val)) : Str :=
  headText names ++ '\n' :: (rows.flatMap fun r => rowText r.1 r.2 ++ ['\n'])

end Verif.Tab
