import Verif.Model.RoundedAxis

/-! Spherical angles and altitude and azimuth in rounded arithmetic. -/

namespace Verif.Fp
open Verif.Geo

variable (A : Arith) (acos : ℝ → ℝ)

/-- `tpnorm`, translate.py 232-237, one row -/
noncomputable def tpnormF (tp : ℝ × ℝ) : ℝ × ℝ :=
  (modF (A.add tp.1 A.pi) A.pi, modF (A.add tp.2 (A.mul 2 A.pi)) (A.mul 2 A.pi))

/-- `xyz`, translate.py 245-249, one row -/
noncomputable def sphF (tp : ℝ × ℝ) : V3 :=
  ⟨A.mul (A.sin tp.1) (A.cos tp.2), A.mul (A.sin tp.1) (A.sin tp.2), A.cos tp.1⟩

/-- `tp2xyz(thetaphi)`, translate.py 240-250, one row -/
noncomputable def tp2xyzF (tp : ℝ × ℝ) : Option V3 := normF A (sphF A (tpnormF A tp))

/-- `xyz2tp(xyz)`, translate.py 253-260, one row -/
noncomputable def xyz2tpF (p : V3) : ℝ × ℝ := tpnormF A (acos p.z, phiF A acos p)

/-- `np.pi/2 - a * np.pi/180`, translate.py 266 -/
noncomputable def radF (a : ℝ) : ℝ := A.sub (A.div A.pi 2) (A.div (A.mul a A.pi) 180)

/-- `aa2xyz(aa)`, translate.py 263-268, one row -/
noncomputable def aa2xyzF (aa : ℝ × ℝ) : Option V3 := tp2xyzF A (radF A aa.1, A.add (radF A aa.2) A.pi)

/-- `(np.pi/2 - t)/(np.pi/180)`, translate.py 276 -/
noncomputable def degF (t : ℝ) : ℝ := A.div (A.sub (A.div A.pi 2) t) (A.div A.pi 180)

/-- `xyz2aa(xyz)`, translate.py 271-276, one row -/
noncomputable def xyz2aaF (p : V3) : ℝ × ℝ :=
  (degF A (xyz2tpF A acos p).1, degF A (A.sub (xyz2tpF A acos p).2 A.pi))

end Verif.Fp
