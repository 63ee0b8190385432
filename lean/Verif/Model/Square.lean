import Verif.Model.Vec

/-! The Shirley-Chiu square/disk/sphere maps, raytools/translate.py 34-114, per row, over the reals. -/

namespace Verif.Geo
open Real

/-- `n = np.where(u > 1.0, -1, 1)`, translate.py 44, 67. -/
noncomputable def hemi (u : ℝ) : ℝ := if u > 1 then -1 else 1

/-- `u = np.where(u > 1.0, u - 1.0, u)`, translate.py 45, 69. -/
noncomputable def foldU (u : ℝ) : ℝ := if u > 1 then u - 1 else u

/-- `r`, translate.py 49, 73: `np.where(cond, a, np.where(b == 0, 0, b))`, `cond = a*a > b*b`. -/
noncomputable def sqR (a b : ℝ) : ℝ := if a * a > b * b then a else if b = 0 then 0 else b

/-- `phi`, translate.py 50, 74.  The divisions in unselected branches are evaluated by numpy with errors
ignored and thrown away; the model only evaluates the selected one. -/
noncomputable def sqPhi (a b : ℝ) : ℝ :=
  (if a * a > b * b then b / (2 * a) else if b = 0 then 0 else 1 - a / (2 * b)) * π / 2

/-- `translate.uv2xy`, raytools/translate.py 34-53, one row. -/
noncomputable def uv2xy (uv : ℝ × ℝ) : ℝ × ℝ :=
  (hemi uv.1 * cos (sqPhi (2 * foldU uv.1 - 1) (2 * uv.2 - 1)) * sqR (2 * foldU uv.1 - 1) (2 * uv.2 - 1),
   sin (sqPhi (2 * foldU uv.1 - 1) (2 * uv.2 - 1)) * sqR (2 * foldU uv.1 - 1) (2 * uv.2 - 1))

/-- `sphterm = r*np.sqrt(2 - r*r)`, translate.py 75. -/
noncomputable def sphterm (r : ℝ) : ℝ := r * √(2 - r * r)

/-- `translate.uv2xyz`, raytools/translate.py 56-81, one row; `e` is the uninitialised row of
`np.empty` (line 63) that the three assignments overwrite. -/
noncomputable def uv2xyzOn (e : V3) (ax : Axes) (xsign : ℝ) (uv : ℝ × ℝ) : V3 :=
  ((e.set ax.a0 (xsign * hemi uv.1 * cos (sqPhi (2 * foldU uv.1 - 1) (2 * uv.2 - 1))
        * sphterm (sqR (2 * foldU uv.1 - 1) (2 * uv.2 - 1)))).set ax.a1
      (sin (sqPhi (2 * foldU uv.1 - 1) (2 * uv.2 - 1))
        * sphterm (sqR (2 * foldU uv.1 - 1) (2 * uv.2 - 1)))).set ax.a2
    (hemi uv.1 * (1 - sqR (2 * foldU uv.1 - 1) (2 * uv.2 - 1) * sqR (2 * foldU uv.1 - 1) (2 * uv.2 - 1)))

/-- `uv2xyz` with default axes (the uninitialised row is irrelevant, `uv2xyzOn_std`). -/
noncomputable def uv2xyz (xsign : ℝ) (uv : ℝ × ℝ) : V3 := uv2xyzOn V3.zero Axes.std xsign uv

/-- `phi` after the wrap, translate.py 100-102. -/
noncomputable def wrapPhi (x y : ℝ) : ℝ :=
  arctan2 y x + (if arctan2 y x < -(π / 4) then 2 * π else 0)

/-- the four-way `np.where`, translate.py 103-106. -/
noncomputable def wedge (r phi : ℝ) : ℝ × ℝ :=
  if phi < π / 4 then (r, phi * r / (π / 4))
  else if phi < 3 * (π / 4) then (-(phi - π / 2) * r / (π / 4), r)
  else if phi < 5 * (π / 4) then (-r, -(phi - π) * r / (π / 4))
  else ((phi - 3 * π / 2) * r / (π / 4), -r)

/-- translate.py 99-106: disk point to centred square point. -/
noncomputable def disk2sq (x y : ℝ) : ℝ × ℝ := wedge (√(x ^ 2 + y ^ 2)) (wrapPhi x y)

/-- `n = np.where(z < 0, -1, 1)`, translate.py 95. -/
noncomputable def zsign (z : ℝ) : ℝ := if z < 0 then -1 else 1

/-- translate.py 96-106: `(a[:,0], a[:,1])` for the (already permuted) components `x y z`. -/
noncomputable def xyz2sq (x y z : ℝ) : ℝ × ℝ :=
  disk2sq (x / √(2 - (1 - zsign z * z))) (y / √(2 - (1 - zsign z * z)))

/-- translate.py 107-113: centred square to uv. -/
noncomputable def sq2uv (flipu : Bool) (n : ℝ) (a : ℝ × ℝ) : ℝ × ℝ :=
  (if flipu then ((if n < 0 then 3 else 1) - a.1 * n) / 2 else (a.1 + 2 - n) / 2, (a.2 + 1) / 2)

/-- `translate.xyz2uv`, raytools/translate.py 84-114, one row. -/
noncomputable def xyz2uvA (normalize : Bool) (ax : Axes) (flipu : Bool) (p : V3) : ℝ × ℝ :=
  sq2uv flipu (zsign ((if normalize then norm p else p).get ax.a2))
    (xyz2sq ((if normalize then norm p else p).get ax.a0) ((if normalize then norm p else p).get ax.a1)
      ((if normalize then norm p else p).get ax.a2))

/-- `xyz2uv(p, flipu=flipu)` with the other arguments at their defaults. -/
noncomputable def xyz2uv (flipu : Bool) (p : V3) : ℝ × ℝ := xyz2uvA false Axes.std flipu p

end Verif.Geo
