import Verif.Model.Vec
import Mathlib.LinearAlgebra.Matrix.Determinant.Basic
import Mathlib.LinearAlgebra.Matrix.Notation

/-! Angular coordinates, chords, angles and rotations: raytools/translate.py 215-325, 570-642, 679-689,
per row, over the reals. -/

namespace Verif.Geo
open Real

open Classical in
/-- `translate.xyz2xy`, raytools/translate.py 215-225, one row. -/
noncomputable def xyz2xy (ax : Axes) (flip : Bool) (p : V3) : ℝ × ℝ :=
  (if flip then
      -(arctan2 (√(p.get ax.a0 ^ 2 + p.get ax.a1 ^ 2)) (p.get ax.a2) / (π / 2)
        * sin (arctan2 (p.get ax.a0) (p.get ax.a1)))
    else arctan2 (√(p.get ax.a0 ^ 2 + p.get ax.a1 ^ 2)) (p.get ax.a2) / (π / 2)
        * sin (arctan2 (p.get ax.a0) (p.get ax.a1)),
   arctan2 (√(p.get ax.a0 ^ 2 + p.get ax.a1 ^ 2)) (p.get ax.a2) / (π / 2)
        * cos (arctan2 (p.get ax.a0) (p.get ax.a1)))

/-- `translate.tpnorm`, raytools/translate.py 232-237, one row (the in-place write is the subject of C56). -/
noncomputable def tpnorm (tp : ℝ × ℝ) : ℝ × ℝ := (fmod (tp.1 + π) π, fmod (tp.2 + 2 * π) (2 * π))

/-- the direction of spherical angles, translate.py 247-249 -/
noncomputable def sph (tp : ℝ × ℝ) : V3 := ⟨sin tp.1 * cos tp.2, sin tp.1 * sin tp.2, cos tp.1⟩

/-- `translate.tp2xyz`, raytools/translate.py 240-250, one row. -/
noncomputable def tp2xyz (normalize : Bool) (tp : ℝ × ℝ) : V3 :=
  norm (sph (if normalize then tpnorm tp else tp))

open Classical in
/-- `phi` of `xyz2tp`, translate.py 257-259. -/
noncomputable def tpPhi (theta x y : ℝ) : ℝ :=
  if isclose theta 0 1e-10 then π else if isclose theta π 1e-10 then π else arctan2 y x

/-- `translate.xyz2tp`, raytools/translate.py 253-260, one row (`np.arccos` is NaN outside [-1,1]; the real
`arccos` is clamped there, theorems assume unit vectors). -/
noncomputable def xyz2tp (p : V3) : ℝ × ℝ := tpnorm (arccos p.z, tpPhi (arccos p.z) p.x p.y)

/-- `translate.aa2xyz`, raytools/translate.py 263-268, one row. -/
noncomputable def aa2xyz (aa : ℝ × ℝ) : V3 :=
  tp2xyz true (π / 2 - aa.1 * π / 180, π / 2 - aa.2 * π / 180 + π)

/-- `translate.xyz2aa`, raytools/translate.py 271-276, one row. -/
noncomputable def xyz2aa (p : V3) : ℝ × ℝ :=
  ((π / 2 - (xyz2tp p).1) / (π / 180), (π / 2 - ((xyz2tp p).2 - π)) / (π / 180))

/-- `translate.chord2theta`, raytools/translate.py 279-292. -/
noncomputable def chord2theta (c : ℝ) : ℝ := 2 * arcsin (c / 2)

/-- `translate.theta2chord`, raytools/translate.py 295-308. -/
noncomputable def theta2chord (t : ℝ) : ℝ := 2 * sin (t / 2)

/-- `np.clip(x, -1, 1)` -/
noncomputable def clip1 (x : ℝ) : ℝ := min (max x (-1)) 1

/-- `translate.ctheta`, raytools/translate.py 311-315, one row of `b`. -/
noncomputable def ctheta (a b : V3) : ℝ := clip1 (a.dot b)

/-- `translate.radians`, raytools/translate.py 318-320. -/
noncomputable def radians (a b : V3) : ℝ := arccos (ctheta a b)

/-- `translate.degrees`, raytools/translate.py 323-325. -/
noncomputable def degrees (a b : V3) : ℝ := radians a b * 180 / π

/-- 3x3 matrices -/
abbrev M3 := Matrix (Fin 3) (Fin 3) ℝ

/-- `M @ v`, i.e. `np.einsum('ij,kj->ki', M, v)` for one row -/
def M3.app (M : M3) (v : V3) : V3 :=
  ⟨M 0 0 * v.x + M 0 1 * v.y + M 0 2 * v.z, M 1 0 * v.x + M 1 1 * v.y + M 1 2 * v.z,
   M 2 0 * v.x + M 2 1 * v.y + M 2 2 * v.z⟩

/-- the z rotation of `rmtx_elem`, translate.py 573-575 -/
noncomputable def rotZ (t : ℝ) : M3 := !![cos t, -sin t, 0; sin t, cos t, 0; 0, 0, 1]

/-- `np.roll(m, s, (0, 1))` -/
def roll (m : M3) (s : Fin 3) : M3 := fun i j => m (i - s) (j - s)

/-- angle in radians, translate.py 571-572 -/
noncomputable def angleOf (degrees : Bool) (t : ℝ) : ℝ := if degrees then t * π / 180 else t

/-- `translate.rmtx_elem`, raytools/translate.py 570-576 (`axis - 2` modulo 3). -/
noncomputable def rmtxElem (degrees : Bool) (axis : Fin 3) (t : ℝ) : M3 :=
  roll (rotZ (angleOf degrees t)) (axis - 2)

/-- `translate.rotate_elem`, raytools/translate.py 579-581, one row. -/
noncomputable def rotateElem (degrees : Bool) (axis : Fin 3) (t : ℝ) (v : V3) : V3 :=
  (rmtxElem degrees axis t).app v

/-- `np.all(np.isclose(vs, w), 1)`, translate.py 617-618 (default `atol=1e-8`) -/
def allClose (v w : V3) : Prop := isclose v.x w.x 1e-8 ∧ isclose v.y w.y 1e-8 ∧ isclose v.z w.z 1e-8

/-- `np.stack(rows).T` for one `v`: the transpose of the listed rows, translate.py 627, 635 -/
noncomputable def yawM (y : ℝ) : M3 := !![cos y, -sin y, 0; sin y, cos y, 0; 0, 0, 1]
noncomputable def pitchM (p : ℝ) : M3 := !![1, 0, 0; 0, cos p, -sin p; 0, sin p, cos p]

open Classical in
/-- `ymtx` of `translate.rmtx_yp`, raytools/translate.py 612-629, one row (line 629 after 628). -/
noncomputable def ymtx (v : V3) : M3 :=
  if allClose (norm v) ⟨0, 0, -1⟩ then !![-1, 0, 0; 0, -1, 0; 0, 0, 1]
  else if allClose (norm v) ⟨0, 0, 1⟩ then !![1, 0, 0; 0, 1, 0; 0, 0, 1]
  else yawM (3 * π / 2 - (xyz2tp (norm v)).2)

open Classical in
/-- `pmtx` of `translate.rmtx_yp`, raytools/translate.py 631-637, one row. -/
noncomputable def pmtx (v : V3) : M3 :=
  if allClose (norm v) ⟨0, 0, -1⟩ then !![1, 0, 0; 0, -1, 0; 0, 0, -1]
  else if allClose (norm v) ⟨0, 0, 1⟩ then !![1, 0, 0; 0, 1, 0; 0, 0, 1]
  else pitchM (-(xyz2tp (norm v)).1)

/-- forward transform, docstring of `rmtx_yp` (translate.py 605) and mapper.py: `pmtx @ (ymtx @ p)` -/
noncomputable def fwd (v p : V3) : V3 := (pmtx v).app ((ymtx v).app p)

/-- backward transform: `ymtx.T @ (pmtx.T @ p)` (translate.py 606) -/
noncomputable def bwd (v p : V3) : V3 := M3.app (ymtx v).transpose (M3.app (pmtx v).transpose p)

/-- `translate.reflect`, raytools/translate.py 679-681, one ray and one normal. -/
def reflect (ray n : V3) : V3 :=
  ⟨ray.x - 2 * n.x * ray.dot n, ray.y - 2 * n.y * ray.dot n, ray.z - 2 * n.z * ray.dot n⟩

/-- the mask of `translate.reflect`, translate.py 686 -/
def reflMask (ray n : V3) : Prop := isclose (reflect ray n).len 1 1e-8

/-- `reflect` on all rays and normals, before `squeeze`: entry `[i][k]` (translate.py 680-681) -/
def reflectAll (rays normals : List V3) : List (List V3) := rays.map fun r => normals.map fun n => reflect r n

end Verif.Geo
