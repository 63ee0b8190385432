import Verif.Model.RoundedNorm

/-! `in_view` in rounded arithmetic. `acos` is `np.arccos` on [-1, 1], rounded. -/

namespace Verif.Fp
open Verif.Geo

variable (A : Arith) (acos : ℝ → ℝ)

/-- `self.radians(vec)`, angularmixin.py 269-271 with `ctheta` 263-267, one row. `d` is `self.dxyz`, normalised by the
setter (viewmapper.py 63-66); `np.clip` is exact. -/
noncomputable def angleF (d v : V3) : ℝ := acos (min (max (A.dot3 d v) (-1)) 1)

/-- `self._chordfactor * self.viewangle * np.pi / 360`, angularmixin.py 115 -/
noncomputable def rimF (cf va : ℝ) : ℝ := A.div (A.mul (A.mul cf va) A.pi) 360

/-- `in_view(vec, indices=False, tol)`, angularmixin.py 110-119, one row -/
def inViewF (cf va tol : ℝ) (d v : V3) : Prop := A.sub (angleF A acos d v) tol < rimF A cf va

end Verif.Fp
