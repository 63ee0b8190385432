import Verif.Model.Binary64
import Mathlib.Analysis.SpecialFunctions.Trigonometric.Inverse

/-! `translate.chord2theta` and `translate.theta2chord` (raytools/translate.py 279-308) in double precision.
Simplification: sine and arc sine are correctly rounded. -/

namespace Verif.Fp

/-- the argument of the arc sine, raytools/translate.py 292; outside [-1, 1] `np.arcsin` returns NaN -/
noncomputable def asinArgF (c : ℝ) : ℝ := rnd (c / 2)

/-- `translate.chord2theta`, raytools/translate.py 279-292, for arguments of the arc sine in [-1, 1] -/
noncomputable def chord2thetaF (c : ℝ) : ℝ := rnd (2 * rnd (Real.arcsin (asinArgF c)))

/-- `translate.theta2chord`, raytools/translate.py 295-308 -/
noncomputable def theta2chordF (t : ℝ) : ℝ := rnd (2 * rnd (Real.sin (rnd (t / 2))))

end Verif.Fp
