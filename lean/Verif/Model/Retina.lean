import Mathlib.Analysis.SpecialFunctions.Exp
import Mathlib.Analysis.SpecialFunctions.Pow.Real
import Mathlib.Analysis.SpecialFunctions.Sqrt
import Mathlib.Algebra.Order.Floor.Ring

/-! Retinal point spread and cell densities, raytools/evaluate/retina.py, one row, over the reals. -/

namespace Verif.Retina
open Real

/-- `hpsf`, retina.py 11-20 -/
noncomputable def hpsf (x fwhm : ℝ) : ℝ := (fwhm / 2) ^ 2 / (x ^ 2 + (fwhm / 2) ^ 2)

/-- `inv_hpsf`, retina.py 23-26 -/
noncomputable def invHpsf (y fwhm : ℝ) : ℝ := √((fwhm / 2) ^ 2 / y - (fwhm / 2) ^ 2)

/-- the default value of `fwhm`, retina.py 11, 23, 29 -/
noncomputable def fwhm0 : ℝ := 0.183333

/-- `r0`, retina.py 53 -/
noncomputable def r0 (omega : ℝ) : ℝ := √(omega / π) * 180 / π

/-- `lmax` after line 54; `hpsf(1)` has the default width whatever `fwhm` is -/
noncomputable def lclip (lmax lmin : ℝ) : ℝ := max (min lmax (lmin / hpsf 1 fwhm0)) lmin

/-- `blur_sun`, retina.py 29-56 -/
noncomputable def blurSun (omega lmax lmin fwhm : ℝ) : ℝ :=
  ((r0 omega + invHpsf (lmin / lclip lmax lmin) fwhm) / r0 omega) ^ 2

/-- the rows of `mrdc`, retina.py 95-99 -/
noncomputable def mrdc (mi : Fin 4) : ℝ × ℝ × ℝ :=
  match mi with
  | 0 => (0.9851255243509307, 1.057910790284875, 22.139309670912258)
  | 1 => (0.9934935604656688, 1.0354962329628912, 16.346430181031927)
  | 2 => (0.9729319961934142, 1.0841663616483523, 7.632575316432455)
  | 3 => (0.9960391452747578, 0.993222146189384, 12.131840717293096)

/-- `rgcf_density_on_meridian`, retina.py 71-102 -/
noncomputable def rgcfMeridian (deg : ℝ) (mi : Fin 4) : ℝ :=
  33162.4 * (mrdc mi).1 * (1 + deg / (mrdc mi).2.1) ^ (-2 : ℤ) + (1 - (mrdc mi).1) * exp (-deg / (mrdc mi).2.2)

/-- `rgc_density_on_meridian`, retina.py 105-132; `interp` is `np.interp` on the tables of lines 225-354, given in Model/Curcio.lean -/
def rgcMeridian (interp : ℝ → Fin 4 → ℝ) (deg : ℝ) (mi : Fin 4) : ℝ := max (interp deg mi) 1

/-- assignment of a real to an entry of an array: C truncation when its dtype is integer -/
noncomputable def store (isInt : Bool) (x : ℝ) : ℝ :=
  if isInt then (if 0 ≤ x then (⌊x⌋ : ℝ) else (⌈x⌉ : ℝ)) else x

/-- `r`, retina.py 152 -/
noncomputable def ecc (p : ℝ × ℝ) : ℝ := √(p.1 ^ 2 + p.2 ^ 2)

/-- `xmi`, retina.py 153 -/
noncomputable def xmi (p : ℝ × ℝ) : Fin 4 := if p.1 > 0 then 0 else 2

/-- `ymi`, retina.py 154: the test is on `xy[:, 0]` -/
noncomputable def ymi (p : ℝ × ℝ) : Fin 4 := if p.1 > 0 then 1 else 3

/-- `den`, retina.py 157-160: written into the array `np.square(xy)`, which has the dtype of `xy` -/
noncomputable def den (isInt : Bool) (func : ℝ → Fin 4 → ℝ) (p : ℝ × ℝ) : ℝ :=
  store isInt (p.1 ^ 2 / func (ecc p) (xmi p)) + store isInt (p.2 ^ 2 / func (ecc p) (ymi p))

/-- `rgcf_density_xy`, retina.py 135-161 (`x / 0` is 0 here, `inf` in numpy) -/
noncomputable def densityXY (isInt : Bool) (func : ℝ → Fin 4 → ℝ) (p : ℝ × ℝ) : ℝ :=
  if ecc p = 0 then func (ecc p) (ymi p) else ecc p ^ 2 / den isInt func p

/-- `binocular_density`, retina.py 164-185 (`90*xy` keeps an integer dtype) -/
noncomputable def binocular (isInt : Bool) (func : ℝ → Fin 4 → ℝ) (p : ℝ × ℝ) : ℝ :=
  (densityXY isInt func (90 * p.1, 90 * p.2) + densityXY isInt func (-(90 * p.1), 90 * p.2)) / 2

/-- `rgcf_density`, retina.py 188-202 -/
noncomputable def rgcfDensity (isInt : Bool) (p : ℝ × ℝ) : ℝ := binocular isInt rgcfMeridian p

/-- `rgc_density`, retina.py 205-220 -/
noncomputable def rgcDensity (isInt : Bool) (interp : ℝ → Fin 4 → ℝ) (p : ℝ × ℝ) : ℝ :=
  binocular isInt (rgcMeridian interp) p

end Verif.Retina
