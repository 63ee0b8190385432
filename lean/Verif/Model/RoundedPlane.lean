import Verif.Model.Rounded

/-! The planar mapper in rounded arithmetic: every operation of the code is a separate rounded operation, in the order of
the code. -/

namespace Verif.Fp
open Verif.Geo

/-- What the transforms of a planar `Mapper` use: `_sf`, the first row of `_bbox`, `_uvz` and `_rmtx` (mapper.py 30-41,
62-66: the rotations are identities whatever the direction) -/
structure FPlane where
  sf : ℝ × ℝ
  lo : ℝ × ℝ
  uvz : ℝ
  ry : M3 := 1
  rp : M3 := 1

variable (A : Arith)

/-- `Mapper.uv2xyz`, mapper.py 92-98, one row -/
noncomputable def FPlane.uv2xyz (m : FPlane) (uv : ℝ × ℝ) : V3 :=
  app A m.ry.transpose (app A m.rp.transpose
    ⟨A.add m.lo.1 (A.mul uv.1 m.sf.1), A.add m.lo.2 (A.mul uv.2 m.sf.2), m.uvz⟩)

/-- `Mapper.xyz2uv`, mapper.py 85-90, one row -/
noncomputable def FPlane.xyz2uv (m : FPlane) (p : V3) : ℝ × ℝ :=
  (A.div (A.sub (app A m.rp (app A m.ry p)).x m.lo.1) m.sf.1, A.div (A.sub (app A m.rp (app A m.ry p)).y m.lo.2) m.sf.2)

/-- `Mapper.pixel2ray`, mapper.py 174-180 with `vxy2xyz`, mapper.py 133-136, one row -/
noncomputable def FPlane.pixel2ray (m : FPlane) (res : ℕ × ℕ) (pxy : ℝ × ℝ) : V3 :=
  m.uv2xyz A (A.sub 1 (A.div pxy.1 res.1), A.div pxy.2 res.2)

/-- `Mapper.ray2pixel`, mapper.py 163-172 with `xyz2vxy`, mapper.py 129-131, one row -/
noncomputable def FPlane.ray2pixel (m : FPlane) (res : ℕ × ℕ) (p : V3) : ℤ × ℤ :=
  (⌊A.mul (m.xyz2uv A p).1 res.1⌋, ⌊A.mul (m.xyz2uv A p).2 res.2⌋)

end Verif.Fp
