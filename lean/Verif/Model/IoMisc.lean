import Mathlib.Data.Real.Basic
import Mathlib.Algebra.BigOperators.Fin
import Mathlib.Algebra.Order.Field.Basic
import Verif.Model.Py
/-! # Model of smaller functions of raytools/io.py: load_txt, is_hdr, rgb2rad, rgb2lum, rgbe2lum -/
namespace Verif.IoMisc
open Verif.Py

/-! ## load_txt -/

/-- A candidate to load. -/
inductive Cand
  | str (path : Str) | bytes (path : Str) | other
  deriving DecidableEq

/-- raytools/io.py 358-391 `load_txt`. `isfile` is `os.path.isfile`, `loadtxt` the outcome of `np.loadtxt`. -/
def loadTxt {α : Type} (isfile : Str → Bool) (loadtxt : Str → Except PyErr α) : Cand → Except PyErr α
  | .str p | .bytes p =>
    if isfile p then
      match loadtxt p with
      | .ok a => .ok a
      | .error .ValueError | .error .AttributeError => .error .ValueError
      | .error e => .error e
    else .error .FileNotFoundError
  | .other => .error .TypeError

/-! ## is_hdr -/

/-- A Python value that is text or bytes; `==` between the two kinds is always False. -/
inductive TB
  | text (s : Str) | bytes (b : List Nat)
  deriving DecidableEq

/-- raytools/io.py 298-302 `is_hdr`: the file is opened in text mode, ten characters are read and compared with a bytes
literal. `decode` is the text decoding of the file's content (`none`: UnicodeDecodeError). -/
def isHdr (decode : List Nat → Option Str) (content : List Nat) : Except PyErr Bool :=
  match decode content with
  | none => .error .UnicodeDecodeError
  | some s => .ok (decide (TB.text (s.take 10) = TB.bytes ("#?RADIANCE".toList.map Char.toNat)))

/-! ## luminance -/
open scoped BigOperators

/-- raytools/io.py 329-330 `rgb2rad` for one pixel with `n` channels: `einsum('...j,j->...', rgb, vlambda)`. -/
noncomputable def rgb2rad {n : Nat} (rgb vlambda : Fin n → ℝ) : ℝ := ∑ j, rgb j * vlambda j

/-- raytools/io.py 333-334 `rgb2lum`. -/
noncomputable def rgb2lum {n : Nat} (rgb vlambda : Fin n → ℝ) : ℝ := ∑ j, rgb j * (vlambda j * 179)

/-- The default channel weights (raytools/io.py 329, 333). -/
noncomputable def vlambda0 : Fin 3 → ℝ := ![0.265, 0.670, 0.065]

/-- The exponent `rgbe[:, 3] - 128`: in an unsigned 8 bit array the subtraction wraps around modulo 256, in a wider
(signed) integer array it does not. -/
def expo (uint8 : Bool) (e : Nat) : Int := if uint8 then ((e : Int) - 128) % 256 else (e : Int) - 128

/-- raytools/io.py 337-355 `rgbe2lum` for one row: `c i` are the three mantissas. -/
noncomputable def rgbe2lum (uint8 : Bool) (c : Fin 3 → Nat) (e : Nat) : ℝ :=
  let v : ℝ := (2 : ℝ) ^ (expo uint8 e) / 256
  rgb2lum (fun i => if c i = 0 then 0 else ((c i : ℝ) + 0.5) * v) vlambda0

end Verif.IoMisc
