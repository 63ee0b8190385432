import Verif.Model.Rounded

/-! Normalised vectors and the angles taken from them, in rounded arithmetic. A nan is `none`. -/

namespace Verif.Fp
open Verif.Geo

variable (A : Arith)

/-- `np.linalg.norm(v, axis=-1)`, translate.py 19, and `np.sqrt(np.sum(np.square(v)))`, 24, of three numbers -/
noncomputable def nrm (v : V3) : ℝ := A.sqrt (A.add (A.add (A.mul v.x v.x) (A.mul v.y v.y)) (A.mul v.z v.z))

/-- `translate.norm`, translate.py 17-19, one row: 0 / 0 is nan -/
noncomputable def normF (v : V3) : Option V3 :=
  if nrm A v = 0 then none else some ⟨A.div v.x (nrm A v), A.div v.y (nrm A v), A.div v.z (nrm A v)⟩

/-- `translate.norm1`, translate.py 22-27 -/
noncomputable def norm1F (v : V3) : V3 :=
  if nrm A v = 0 then ⟨A.div v.x 1, A.div v.y 1, A.div v.z 1⟩
  else ⟨A.div v.x (nrm A v), A.div v.y (nrm A v), A.div v.z (nrm A v)⟩

/-- `np.arccos`: nan outside [-1, 1]. The value is not rounded. -/
noncomputable def npArccos (c : ℝ) : Option ℝ := if -1 ≤ c ∧ c ≤ 1 then some (Real.arccos c) else none

/-- `theta` of `xyz2tp`, translate.py 256 -/
noncomputable def thetaF (p : V3) : Option ℝ := npArccos p.z

/-- `theta` of `rmtx_yp(v)`, translate.py 612-614: the angle of the pitch matrix -/
noncomputable def pitchF (v : V3) : Option ℝ := (normF A v).bind thetaF

/-- `_to_plane`, positionindex.py 77-81, one row -/
noncomputable def toPlaneF (v : V3) : Option V3 := normF A ⟨v.x, v.y, 0⟩

/-- `tau` in radians, positionindex.py 51 and 83-85, one row -/
noncomputable def tauF (v : V3) : Option ℝ := (toPlaneF A v).bind fun p => npArccos (A.dot3 ⟨0, 1, 0⟩ p)

/-- the angle between two directions without the `np.clip` of translate.py 315 -/
noncomputable def rawAngle (a b : V3) : Option ℝ := npArccos (A.dot3 a b)

/-- `translate.radians`, translate.py 311-320: `np.clip` to [-1, 1] first -/
noncomputable def radiansF (a b : V3) : Option ℝ := npArccos (min (max (A.dot3 a b) (-1)) 1)

end Verif.Fp
