import Verif.Model.Rounded
import Verif.Model.Bins
import Verif.Model.Mapper

/-! Cell indices and cell coordinates in rounded arithmetic, operation by operation as in the code. Simplification: whole
numbers are converted to floats without error (they are below 2 ^ 53). -/

namespace Verif.Fp
open Verif.Geo Verif.Map Real

variable (A : Arith)

/-- one column of `np.mod(np.floor(side*uv), side)`, translate.py 334 -/
noncomputable def axisBin (side : ℤ) (x : ℝ) : ℤ := ⌊A.mul side x⌋ % side

/-- `translate.uv2ij`, translate.py 332-337, one row; `two` is `aspect == 2` -/
noncomputable def uv2ij (two : Bool) (side : ℤ) (uv : ℝ × ℝ) : ℤ × ℤ :=
  (axisBin A side uv.1 + (if two then (if uv.1 ≥ 1 then side else 0) else 0), axisBin A side uv.2)

/-- `translate.uv2bin`, translate.py 340-342, one row -/
noncomputable def uv2bin (side : ℤ) (uv : ℝ × ℝ) : ℤ := (uv2ij A true side uv).1 * side + (uv2ij A true side uv).2

/-- `translate.bin2uv`, translate.py 345-348, one entry -/
noncomputable def bin2uv (bn side : ℤ) (offset : ℝ) : ℝ × ℝ :=
  (A.div (A.add (A.div ((bn - bn % side : ℤ) : ℝ) side) offset) side, A.div (A.add ((bn % side : ℤ) : ℝ) offset) side)

/-- `(si.T + offset) / divisor`, mapper.py 121, viewmapper.py 93 -/
noncomputable def offsetCell (si : ℕ × ℕ) (o d : ℝ × ℝ) : ℝ × ℝ :=
  (A.div (A.add si.1 o.1) d.1, A.div (A.add si.2 o.2) d.2)

/-- `Mapper.idx2uv`, mapper.py 100-122, one index; `o` is the pair of offsets drawn -/
noncomputable def idx2uv (shape : ℕ × ℕ) (o : ℝ × ℝ) (idx : ℕ) : Except Py.PyErr (ℝ × ℝ) :=
  (unravel shape idx).map fun si => offsetCell A si o (shape.1, shape.2)

/-- `Mapper.uv2idx`, mapper.py 124-127, one row -/
noncomputable def uv2idx (shape : ℕ × ℕ) (uv : ℝ × ℝ) : ℤ :=
  trunc (A.mul uv.1 shape.1) * shape.2 + trunc (A.mul uv.2 shape.2)

end Verif.Fp
