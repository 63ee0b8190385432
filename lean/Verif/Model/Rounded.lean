import Verif.Model.ViewMapper

/-! The angular mapper in rounded arithmetic.

The other modules compute with exact reals. Here `pixel2ray` and `ray2pixel` are written with every operation of the
code as a separate rounded operation, in the order of the code. The operations are parameters under the contract
`Arith.Ok`: a relative error of at most one unit in the last place of a double for the arithmetic, four for the
trigonometric functions. Simplifications: the contract has no overflow and no underflow (all values of the code are
zero or between 1e-33 and 200), and one hemisphere only (`aspect == 1`). -/

namespace Verif.Fp
open Verif.Geo Real

/-- The operations of numpy on float64. `dot3` is one entry of a product of a 3 x 3 matrix and a vector, whose order
of additions depends on the library. -/
structure Arith where
  u : ℝ
  add : ℝ → ℝ → ℝ
  sub : ℝ → ℝ → ℝ
  mul : ℝ → ℝ → ℝ
  div : ℝ → ℝ → ℝ
  sqrt : ℝ → ℝ
  sin : ℝ → ℝ
  cos : ℝ → ℝ
  atan2 : ℝ → ℝ → ℝ
  dot3 : V3 → V3 → ℝ
  pi : ℝ

/-- contract of the operations -/
structure Arith.Ok (A : Arith) : Prop where
  u0 : 0 ≤ A.u
  u1 : A.u ≤ 2⁻¹ ^ 52
  add : ∀ a b, |A.add a b - (a + b)| ≤ A.u * |a + b|
  sub : ∀ a b, |A.sub a b - (a - b)| ≤ A.u * |a - b|
  mul : ∀ a b, |A.mul a b - a * b| ≤ A.u * |a * b|
  div : ∀ a b, b ≠ 0 → |A.div a b - a / b| ≤ A.u * |a / b|
  sqrt : ∀ a, 0 ≤ a → |A.sqrt a - √a| ≤ A.u * √a
  sin : ∀ a, |A.sin a - Real.sin a| ≤ 4 * A.u
  cos : ∀ a, |A.cos a - Real.cos a| ≤ 4 * A.u
  atan2 : ∀ a b, |A.atan2 a b - arctan2 a b| ≤ 4 * A.u * |arctan2 a b|
  dot3 : ∀ a b, |A.dot3 a b - a.dot b| ≤ 4 * A.u * (|a.x * b.x| + |a.y * b.y| + |a.z * b.z|)
  pi : |A.pi - π| ≤ A.u * π
  /-- rounding keeps the order and 1 is a float -/
  cos_le : ∀ a, |A.cos a| ≤ 1
  mul_le : ∀ a b, |a| ≤ 1 → |b| ≤ 1 → |A.mul a b| ≤ 1

/-- What `vxy2xyz` and `xyz2vxy` use of a mapper: `viewangle`, `_chordfactor` and `_rmtx` as stored. -/
structure FView where
  va : ℝ
  cf : ℝ
  ry : M3
  rp : M3

variable (A : Arith)

/-- `np.array([self._xsign, 1]) * (self.viewangle * self._chordfactor) / 180`, angularmixin.py 73-74 -/
noncomputable def FView.scale (m : FView) (s : ℝ) : ℝ := A.div (A.mul s (A.mul m.va m.cf)) 180

/-- `pxy` after lines 72-74 of angularmixin.py -/
noncomputable def FView.centred (m : FView) (xy : ℝ × ℝ) : ℝ × ℝ :=
  (A.mul (A.sub xy.1 (1 / 2)) (m.scale A (-1)), A.mul (A.sub xy.2 (1 / 2)) (m.scale A 1))

/-- `np.sqrt(np.sum(np.square(pxy), -1))`, angularmixin.py 75, translate.py 218 -/
noncomputable def hyp (x y : ℝ) : ℝ := A.sqrt (A.add (A.mul x x) (A.mul y y))

/-- `z`, angularmixin.py 76 -/
noncomputable def zOf (d : ℝ) : ℝ := A.cos (A.mul A.pi d)

/-- the second `d`, angularmixin.py 78 -/
noncomputable def polFactor (d : ℝ) : ℝ :=
  if d ≤ 0 then A.pi else A.div (A.sqrt (A.sub 1 (A.mul (zOf A d) (zOf A d)))) d

/-- angularmixin.py 75-81 -/
noncomputable def polar2view (p : ℝ × ℝ) : V3 :=
  ⟨A.mul p.1 (polFactor A (hyp A p.1 p.2)), A.mul p.2 (polFactor A (hyp A p.1 p.2)), zOf A (hyp A p.1 p.2)⟩

/-- `M @ v` -/
noncomputable def app (M : M3) (v : V3) : V3 :=
  ⟨A.dot3 ⟨M 0 0, M 0 1, M 0 2⟩ v, A.dot3 ⟨M 1 0, M 1 1, M 1 2⟩ v, A.dot3 ⟨M 2 0, M 2 1, M 2 2⟩ v⟩

/-- `view2world`, mapper.py 73-77 -/
noncomputable def FView.v2w (m : FView) (v : V3) : V3 := app A m.ry.transpose (app A m.rp.transpose v)

/-- `world2view`, mapper.py 79-83 -/
noncomputable def FView.w2v (m : FView) (v : V3) : V3 := app A m.rp (app A m.ry v)

/-- `pixel2ray(pxy, res)`, mapper.py 174-180 with `vxy2xyz`, angularmixin.py 69-86 -/
noncomputable def FView.pixel2ray (m : FView) (res : ℕ) (pxy : ℝ × ℝ) : V3 :=
  m.v2w A (polar2view A (m.centred A (A.div pxy.1 res, A.div pxy.2 res)))

/-- `translate.xyz2xy(xyz, flip=True)`, translate.py 215-225 -/
noncomputable def xyz2xy (p : V3) : ℝ × ℝ :=
  (-(A.mul (A.div (A.atan2 (hyp A p.x p.y) p.z) (A.div A.pi 2)) (A.sin (A.atan2 p.x p.y))),
   A.mul (A.div (A.atan2 (hyp A p.x p.y) p.z) (A.div A.pi 2)) (A.cos (A.atan2 p.x p.y)))

/-- `(… * 180 / (self.viewangle * self._chordfactor)) / 2 + .5`, angularmixin.py 65-66 -/
noncomputable def FView.unscale (m : FView) (x : ℝ) : ℝ :=
  A.add (A.div (A.div (A.mul x 180) (A.mul m.va m.cf)) 2) (1 / 2)

/-- `xyz2vxy`, angularmixin.py 53-67 -/
noncomputable def FView.xyz2vxy (m : FView) (p : V3) : ℝ × ℝ :=
  (m.unscale A (xyz2xy A (m.w2v A p)).1, m.unscale A (xyz2xy A (m.w2v A p)).2)

/-- `ray2pixel(xyz, res)`, mapper.py 163-172 -/
noncomputable def FView.ray2pixel (m : FView) (res : ℕ) (p : V3) : ℤ × ℤ :=
  (⌊A.mul (m.xyz2vxy A p).1 res⌋, ⌊A.mul (m.xyz2vxy A p).2 res⌋)

/-- `translate.rmtx_yp`, translate.py 612-640, one row: the matrices as stored by the setter of `dxyz` (viewmapper.py
66). `e`, `ne` are the results of `np.isclose` (617-618), `y` and `p` the computed angles (624, 632). -/
noncomputable def rmtxYp (e ne : Bool) (y p : ℝ) : M3 × M3 :=
  (if ne then !![-1, 0, 0; 0, -1, 0; 0, 0, 1] else if e then 1
    else !![A.cos y, -A.sin y, 0; A.sin y, A.cos y, 0; 0, 0, 1],
   if ne then !![1, 0, 0; 0, -1, 0; 0, 0, -1] else if e then 1
    else !![1, 0, 0; 0, A.cos p, -A.sin p; 0, A.sin p, A.cos p])

end Verif.Fp
