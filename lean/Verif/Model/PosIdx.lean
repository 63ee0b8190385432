import Mathlib.Analysis.SpecialFunctions.Trigonometric.Arctan
import Verif.Model.ViewMapper

/-! Position index, raytools/evaluate/positionindex.py, one direction, over the reals. `none` is numpy's `nan`. -/

namespace Verif.Pos
open Verif.Geo Verif.Map Real

/-- `_to_plane` then `_angle_vv((0,1,0), .) * 180/pi`, positionindex.py 52, 76-85: the angle from vertical of the
direction projected to the view plane; `nan` (0/0) on the view axis. -/
noncomputable def tau (v : V3) : Option ℝ :=
  if v.x = 0 ∧ v.y = 0 then none else some (arccos (v.y / √(v.x ^ 2 + v.y ^ 2 + 0 ^ 2)) * 180 / π)

/-- `_get_pidx_guth`, positionindex.py 87-91 -/
noncomputable def pidxGuth (sigma tau : ℝ) : ℝ :=
  exp ((35.2 - 0.31889 * tau - 1.22 * exp (-2 * tau / 9)) / 1000 * sigma
    + (21 + 0.26667 * tau - 0.002963 * tau * tau) / 100000 * sigma * sigma)

/-- the denominator of `_get_pidx_kim`, positionindex.py 99 -/
noncomputable def kimDen (tau : ℝ) : ℝ := -0.000009 * tau ^ 3 + 0.0013 * tau ^ 2 + 0.0853 * tau + 8.772

/-- `_get_pidx_kim`, positionindex.py 93-99 -/
noncomputable def pidxKim (sigma tau : ℝ) : ℝ :=
  exp ((sigma - (-0.000009 * tau ^ 3 + 0.0014 * tau ^ 2 + 0.0866 * tau + 21.633)) / kimDen tau)

/-- `beta` in degrees, positionindex.py 60-62: `arctan(r / z)`, with numpy's `r / 0 = inf` for `r > 0` -/
noncomputable def betaDeg (v : V3) : ℝ :=
  180 / π * (if v.z = 0 then π / 2 else arctan (√(v.x ^ 2 + (v.y * 1.15) ^ 2) / v.z))

/-- `sigma` after the below-horizon replacement, positionindex.py 62 -/
noncomputable def sigmaOf (v : V3) (sigma : ℝ) : ℝ := if v.y < 0 then betaDeg v else sigma

/-- `tau` after the below-horizon replacement, positionindex.py 57 -/
noncomputable def tauOf (v : V3) : Option ℝ := if v.y < 0 then some 90 else tau v

/-- `_positions`, positionindex.py 49-70, one row: `vec` in view coordinates.  `nan` becomes 1 (line 69), the
assignment of 16 behind the viewer (line 64) comes before the `minimum` and before the replacement of `nan`. -/
noncomputable def positionsV (guth : Bool) (v : V3) (sigma : ℝ) : ℝ :=
  if guth then
    if v.z < 0 then min 16 16
    else (tauOf v).elim 1 fun t => min 16 (pidxGuth (sigmaOf v sigma) t)
  else (tau v).elim 1 fun t => pidxKim sigma t

/-- `positions`, positionindex.py 28-47, one row -/
noncomputable def positions (guth : Bool) (m : View) (p : V3) : ℝ :=
  positionsV guth (m.w2v (Geo.norm p)) (m.degrees (Geo.norm p))

/-- `positions_vec`, positionindex.py 72-74: the `up` argument is not used -/
noncomputable def positionsVec (guth : Bool) (viewvec : V3) (_up : V3) (p : V3) : ℝ :=
  positions guth (View.new viewvec 360) p

end Verif.Pos
