import Verif.Model.RoundedView
import Verif.Model.Angles

/-! The rotation of a mapper in rounded arithmetic, from the view direction to the matrices. `acos` is `np.arccos` on
[-1, 1], rounded. The comparisons of `np.isclose` are made with exact numbers. -/

namespace Verif.Fp
open Verif.Geo

variable (A : Arith) (acos : ℝ → ℝ)

/-- `np.mod(a, b)` of floats for `b > 0`: the remainder is exact -/
noncomputable def modF (a b : ℝ) : ℝ := a - b * ⌊a / b⌋

open Classical in
/-- `phi` of `xyz2tp`, translate.py 257-259, one row -/
noncomputable def phiF (p : V3) : ℝ :=
  if isclose (acos p.z) 0 1e-10 then A.pi else if isclose (acos p.z) A.pi 1e-10 then A.pi else A.atan2 p.y p.x

/-- the first angle of `xyz2tp(vs)`, translate.py 256 and 260 with `tpnorm` 235, one row -/
noncomputable def polF (p : V3) : ℝ := modF (A.add (acos p.z) A.pi) A.pi

/-- the second angle of `xyz2tp(vs)`, translate.py 260 with `tpnorm` 236, one row -/
noncomputable def aziF (p : V3) : ℝ := modF (A.add (phiF A acos p) (A.mul 2 A.pi)) (A.mul 2 A.pi)

open Classical in
/-- `rmtx_yp(v)`, translate.py 612-640, one row, from the normalised vector `p` (line 612): the tests of 617-618 and the
angles of 624 and 632 -/
noncomputable def rotF (p : V3) : M3 × M3 :=
  rmtxYp A (decide (allClose p ⟨0, 0, 1⟩)) (decide (allClose p ⟨0, 0, -1⟩))
    (A.sub (A.div (A.mul 3 A.pi) 2) (aziF A acos p)) (-polF A acos p)

/-- `view2world((0, 0, 1))` (mapper.py 73-77) of the mapper with the rotation of `p`: the direction it shows in the
centre of its image -/
noncomputable def axisF (p : V3) : V3 := (FView.mk 0 0 (rotF A acos p).1 (rotF A acos p).2).v2w A ⟨0, 0, 1⟩

end Verif.Fp
