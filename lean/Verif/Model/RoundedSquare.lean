import Verif.Model.RoundedCells
import Verif.Model.Square

/-! The Shirley-Chiu square in rounded arithmetic, translate.py 56-114 and 176-208, one row, operation by operation in the
order of the code. Simplifications: default `axes`, `normalize=False`, `tol=0`; comparisons and products of the integers
`xsign` and `n` are exact; the branches of `np.where` that are thrown away are not evaluated. -/

namespace Verif.Fp
open Verif.Geo Verif.Map Real

/-- Further properties of the operations: rounding keeps the order, and 1 and 2 are floats. -/
structure Arith.Whole (A : Arith) : Prop where
  double_le : ∀ a, |a| ≤ 1 → |A.mul 2 a| ≤ 2
  sub_le : ∀ a b, |a - b| ≤ 1 → |A.sub a b| ≤ 1

variable (A : Arith)

/-- `u = np.where(u > 1.0, u - 1.0, u)`, translate.py 69 -/
noncomputable def foldU (u : ℝ) : ℝ := if u > 1 then A.sub u 1 else u

/-- `2. * u - 1`, translate.py 70-71 -/
noncomputable def twice (u : ℝ) : ℝ := A.sub (A.mul 2 u) 1

/-- `r`, translate.py 72-73 -/
noncomputable def sqR (a b : ℝ) : ℝ := if A.mul a a > A.mul b b then a else if b = 0 then 0 else b

/-- `phi`, translate.py 74 -/
noncomputable def sqPhi (a b : ℝ) : ℝ :=
  A.div (A.mul (if A.mul a a > A.mul b b then A.div b (A.mul 2 a) else if b = 0 then 0 else A.sub 1 (A.div a (A.mul 2 b)))
    A.pi) 2

/-- `sphterm`, translate.py 75 -/
noncomputable def sphterm (r : ℝ) : ℝ := A.mul r (A.sqrt (A.sub 2 (A.mul r r)))

/-- translate.py 75-80 for the centred coordinates `a`, `b` and the signs `s = xsign * n` and `n` -/
noncomputable def sq2xyz (s n a b : ℝ) : V3 :=
  ⟨A.mul (A.mul s (A.cos (sqPhi A a b))) (sphterm A (sqR A a b)), A.mul (A.sin (sqPhi A a b)) (sphterm A (sqR A a b)),
    A.mul n (A.sub 1 (A.mul (sqR A a b) (sqR A a b)))⟩

/-- `translate.uv2xyz(uv, xsign=xsign)`, translate.py 56-81 -/
noncomputable def uv2xyz (xsign : ℝ) (uv : ℝ × ℝ) : V3 :=
  sq2xyz A (xsign * hemi uv.1) (hemi uv.1) (twice A (foldU A uv.1)) (twice A uv.2)

/-- `phi`, translate.py 100-102 -/
noncomputable def wrapPhi (x y : ℝ) : ℝ :=
  A.add (A.atan2 y x) (if A.atan2 y x < -A.div A.pi 4 then A.mul 2 A.pi else 0)

/-- translate.py 103-106 -/
noncomputable def wedge (r phi : ℝ) : ℝ × ℝ :=
  if phi < A.div A.pi 4 then (r, A.div (A.mul phi r) (A.div A.pi 4))
  else if phi < A.mul 3 (A.div A.pi 4) then (A.div (A.mul (-A.sub phi (A.div A.pi 2)) r) (A.div A.pi 4), r)
  else if phi < A.mul 5 (A.div A.pi 4) then (-r, A.div (A.mul (-A.sub phi A.pi) r) (A.div A.pi 4))
  else (A.div (A.mul (A.sub phi (A.div (A.mul 3 A.pi) 2)) r) (A.div A.pi 4), -r)

/-- translate.py 99-106 -/
noncomputable def disk2sq (x y : ℝ) : ℝ × ℝ := wedge A (hyp A x y) (wrapPhi A x y)

/-- `np.sqrt(2 - r2)`, translate.py 95-98 -/
noncomputable def unlift (z : ℝ) : ℝ := A.sqrt (A.sub 2 (A.sub 1 (A.mul (zsign z) z)))

/-- translate.py 107-113 -/
noncomputable def sq2uv (flipu : Bool) (n : ℝ) (a : ℝ × ℝ) : ℝ × ℝ :=
  (if flipu then A.div (A.sub (if n < 0 then 3 else 1) (A.mul a.1 n)) 2 else A.div (A.sub (A.add a.1 2) n) 2,
    A.div (A.add a.2 1) 2)

/-- `translate.xyz2uv(xyz, flipu=flipu)`, translate.py 84-114 -/
noncomputable def xyz2uv (flipu : Bool) (p : V3) : ℝ × ℝ :=
  sq2uv A flipu (zsign p.z) (disk2sq A (A.div p.x (unlift A p.z)) (A.div p.y (unlift A p.z)))

/-- `translate.skybin2xyz`, translate.py 190-208, one entry -/
noncomputable def skybin2xyz (bn side : ℤ) : V3 :=
  if (uv2xyz A 1 (bin2uv A bn side (1 / 2))).z < 0 then ⟨0, 0, -1⟩ else uv2xyz A 1 (bin2uv A bn side (1 / 2))

/-- `translate.xyz2skybin`, translate.py 176-178, 186-187, one row -/
noncomputable def xyz2skybin (side : ℤ) (p : V3) : ℤ := uv2bin A side (xyz2uv A false p)

end Verif.Fp
