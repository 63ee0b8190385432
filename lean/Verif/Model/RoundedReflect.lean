import Verif.Model.RoundedNorm
import Verif.Model.Vec

/-! `translate.reflect` (raytools/translate.py 679-690) in rounded arithmetic, one ray and one normal. -/

namespace Verif.Fp
open Verif.Geo

variable (A : Arith)

/-- one coordinate of lines 680-681: `ray - 2 * normal * dot` from left to right -/
noncomputable def reflCoord (r n c : ℝ) : ℝ := A.sub r (A.mul (A.mul 2 n) c)

/-- `translate.reflect`, lines 680-681 -/
noncomputable def reflectF (ray n : V3) : V3 :=
  ⟨reflCoord A ray.x n.x (A.dot3 ray n), reflCoord A ray.y n.y (A.dot3 ray n), reflCoord A ray.z n.z (A.dot3 ray n)⟩

/-- the mask of `translate.reflect`, line 686; the comparison of `np.isclose` is exact -/
def reflMaskF (ray n : V3) : Prop := isclose (nrm A (reflectF A ray n)) 1 1e-8

end Verif.Fp
