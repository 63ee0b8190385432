import Verif.Model.Binary64
import Verif.Model.Angles

/-! `translate.rmtx_elem` and `translate.rotate_elem` (raytools/translate.py 570-581) in double precision.
Simplification: sine and cosine are correctly rounded, and `np.einsum` adds from left to right. -/

namespace Verif.Fp
open Verif.Geo

/-- angle in radians, raytools/translate.py 571-572 -/
noncomputable def turnAngleF (degrees : Bool) (t : ℝ) : ℝ := if degrees then rnd (rnd (t * rnd Real.pi) / 180) else t

/-- the z rotation, raytools/translate.py 573-575 -/
noncomputable def rotZF (t : ℝ) : M3 :=
  !![rnd (Real.cos t), -rnd (Real.sin t), 0; rnd (Real.sin t), rnd (Real.cos t), 0; 0, 0, 1]

/-- `translate.rmtx_elem`, raytools/translate.py 570-576 -/
noncomputable def rmtxElemF (degrees : Bool) (axis : Fin 3) (t : ℝ) : M3 :=
  roll (rotZF (turnAngleF degrees t)) (axis - 2)

/-- `translate.rotate_elem`, raytools/translate.py 579-581, one row -/
noncomputable def rotateElemF (degrees : Bool) (axis : Fin 3) (t : ℝ) (v : V3) : V3 :=
  app binary64 (rmtxElemF degrees axis t) v

end Verif.Fp
