import Verif.Model.IoMisc
import Mathlib.Data.Int.Log
import Mathlib.Algebra.Order.Floor.Ring
import Mathlib.Data.Real.Archimedean

/-! The values of pictures in files.

`Model/Bytes.lean` treats the pixel store of Radiance as exact. Here is the store itself: four bytes per pixel, a common
exponent and three mantissas. It is code of Radiance, not of the repository (`setcolr` and `colr_color` in
src/common/color.c), written down from its documentation and trusted. `s` is the factor of the mantissas: 256 in new
versions, 255.9999 in old ones. `f` is the rounding to 4 byte floats: `astype('<f')` in `np2bytes`, raytools/io.py 63-64,
and the floats pvalue reads and prints (`-df`, lines 181, 202, 240, 261). Simplification: channels of 2^127 and more
(where the exponent does not fit a byte) are excluded by the theorems. -/

namespace Verif.Rgbe

/-- four bytes of a pixel -/
structure Px where
  m : Fin 3 → ℕ
  e : ℕ

/-- the largest of the channels, `setcolr` -/
noncomputable def top (c : Fin 3 → ℝ) : ℝ := max (max (c 0) (c 1)) (c 2)

/-- the exponent of `frexp`: `d = x * 2 ^ e` with `1/2 ≤ x < 1` -/
noncomputable def expOf (d : ℝ) : ℤ := Int.log 2 d + 1

/-- `setcolr`: black up to 1e-32; negative channels have the mantissa zero -/
noncomputable def setcolr (s : ℝ) (c : Fin 3 → ℝ) : Px :=
  if top c ≤ 1e-32 then ⟨fun _ => 0, 0⟩
  else ⟨fun i => ⌊c i * (s / 2 ^ expOf (top c))⌋.toNat, (expOf (top c) + 128).toNat⟩

/-- `colr_color`: half a step is added, also to the mantissa zero -/
noncomputable def color (p : Px) : Fin 3 → ℝ :=
  if p.e = 0 then fun _ => 0 else fun i => ((p.m i : ℝ) + 1 / 2) * 2 ^ ((p.e : ℤ) - 136)

/-- `carray2hdr` (raytools/io.py 186-203), the pixel stored in row `r` from the top and column `x`: `ar.T[::-1]` as in
`Bytes.carray2hdr`, rounded to floats and stored -/
noncomputable def saveC (f : ℝ → ℝ) (s : ℝ) (H : ℕ) (ar : Fin 3 → ℕ → ℕ → ℝ) : ℕ → ℕ → Px :=
  fun r x => setcolr s fun c => f (ar c x (H - 1 - r))

/-- `hdr2carray` (raytools/io.py 248-267): as in `Bytes.hdr2carray` -/
noncomputable def loadC (f : ℝ → ℝ) (H : ℕ) (p : ℕ → ℕ → Px) : Fin 3 → ℕ → ℕ → ℝ :=
  fun c x y => f (color (p (H - 1 - y) x) c)

/-- `array2hdr` (raytools/io.py 164-183): `pvalue -b` stores grey -/
noncomputable def save (f : ℝ → ℝ) (s : ℝ) (H : ℕ) (ar : ℕ → ℕ → ℝ) : ℕ → ℕ → Px :=
  fun r x => setcolr s fun _ => f (ar x (H - 1 - r))

/-- `hdr2array` (raytools/io.py 223-245): `pvalue -b` prints the brightness, with weights `w` of Radiance (sum one) -/
noncomputable def load (f : ℝ → ℝ) (w : Fin 3 → ℝ) (H : ℕ) (p : ℕ → ℕ → Px) : ℕ → ℕ → ℝ :=
  fun x y => f (∑ i, w i * color (p (H - 1 - y) x) i)

end Verif.Rgbe
