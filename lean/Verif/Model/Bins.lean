import Verif.Model.Square
import Mathlib.Data.Finset.Sort
import Mathlib.Algebra.Order.Floor.Ring
import Mathlib.Algebra.Order.Round

/-! Grid bins and sky patches, raytools/translate.py 121-208 and 332-348, per row, over the reals. -/

namespace Verif.Geo
open Real

/-- one column of `np.mod(np.floor(side*uv), side)`, translate.py 334 (`side` is a positive int; `np.mod` is
floored, hence `%` on integers). -/
noncomputable def axisBin (side : ℤ) (x : ℝ) : ℤ := ⌊(side : ℝ) * x⌋ % side

/-- `translate.uv2ij`, raytools/translate.py 332-337, one row; `two` is `aspect == 2`. -/
noncomputable def uv2ij (two : Bool) (side : ℤ) (uv : ℝ × ℝ) : ℤ × ℤ :=
  (axisBin side uv.1 + (if two then (if uv.1 ≥ 1 then side else 0) else 0), axisBin side uv.2)

/-- `translate.uv2bin`, raytools/translate.py 340-342, one row (default aspect 2). -/
noncomputable def uv2bin (side : ℤ) (uv : ℝ × ℝ) : ℤ :=
  (uv2ij true side uv).1 * side + (uv2ij true side uv).2

/-- `translate.bin2uv`, raytools/translate.py 345-348, one entry. -/
noncomputable def bin2uv (bn side : ℤ) (offset : ℝ) : ℝ × ℝ :=
  ((((bn - bn % side : ℤ) : ℝ) / side + offset) / side, (((bn % side : ℤ) : ℝ) + offset) / side)

/-- `translate.skybin2xyz`, raytools/translate.py 190-208, one entry. -/
noncomputable def skybin2xyz (bn side : ℤ) : V3 :=
  if (uv2xyz 1 (bin2uv bn side 0.5)).z < 0 then ⟨0, 0, -1⟩ else uv2xyz 1 (bin2uv bn side 0.5)

/-- `translate.xyz2skybin` with `tol = 0`, raytools/translate.py 176-178, 186-187, one row. -/
noncomputable def xyz2skybin (normalize : Bool) (side : ℤ) (p : V3) : ℤ :=
  uv2bin side (xyz2uvA normalize Axes.std false p)

/-- `np.linspace(-tol, tol, 3)`, translate.py 181. -/
def offs (t : ℝ) : List ℝ := [-t, 0, t]

/-- the nine shifted points, translate.py 180-182 (the order of `meshgrid` is irrelevant after `np.unique`). -/
noncomputable def tolPts (side : ℤ) (tol : ℝ) (uv : ℝ × ℝ) : List (ℝ × ℝ) :=
  (offs (tol / side)).flatMap fun dy => (offs (tol / side)).map fun dx => (dx + uv.1, dy + uv.2)

/-- `np.unique` on integers: the sorted distinct values. -/
noncomputable def npUnique (l : List ℤ) : List ℤ := l.toFinset.sort (· ≤ ·)

/-- `translate.xyz2skybin` with `tol > 0`, raytools/translate.py 176-187, for a single direction (several rows
do not broadcast against the nine offsets). -/
noncomputable def xyz2skybinTol (normalize : Bool) (side : ℤ) (tol : ℝ) (p : V3) : List ℤ :=
  (npUnique ((tolPts side tol (xyz2uvA normalize Axes.std false p)).map (uv2bin side))).filter
    (fun b => decide (b < side ^ 2))

/-! The Radiance `.cal` texts exported by translate.py. In the cal language `if(c, t, e)` is `t` when `c > 0`
and `e` otherwise. -/

/-- cal `if(c, t, e)` -/
noncomputable def calIf (c t e : ℝ) : ℝ := if c > 0 then t else e

/-- `n`, translate.py 131 -/
noncomputable def calN (d : V3) : ℝ := calIf d.z 1 (-1)
/-- `r2`, `x`, translate.py 132-133 -/
noncomputable def calX (d : V3) : ℝ := d.x / √(2 - (1 - calN d * d.z))
/-- `y`, translate.py 134 -/
noncomputable def calY (d : V3) : ℝ := -d.y / √(2 - (1 - calN d * d.z))
/-- `r`, translate.py 135 -/
noncomputable def calR (d : V3) : ℝ := √(calX d ^ 2 + calY d ^ 2)
/-- `ph = atan2(x, y)`, translate.py 136 -/
noncomputable def calPh (d : V3) : ℝ := arctan2 (calX d) (calY d)
/-- `phi`, translate.py 137; the cal constant PI (line 129) is taken as π -/
noncomputable def calPhi (d : V3) : ℝ := calPh d + calIf (-(π / 4) - calPh d) (2 * π) 0
/-- `a`, translate.py 138-139 -/
noncomputable def calA (d : V3) : ℝ :=
  calIf (π / 4 - calPhi d) (calR d) (calIf (3 * (π / 4) - calPhi d) (-(calPhi d - π / 2) * calR d / (π / 4))
    (calIf (5 * (π / 4) - calPhi d) (-calR d) ((calPhi d - 3 * π / 2) * calR d / (π / 4))))
/-- `b`, translate.py 140-141 -/
noncomputable def calB (d : V3) : ℝ :=
  calIf (π / 4 - calPhi d) (calPhi d * calR d / (π / 4)) (calIf (3 * (π / 4) - calPhi d) (calR d)
    (calIf (5 * (π / 4) - calPhi d) (-(calPhi d - π) * calR d / (π / 4)) (-calR d)))
/-- `U`, translate.py 144 -/
noncomputable def calU (d : V3) : ℝ := (calIf (calN d) 1 3 - calA d * calN d) / 2
/-- `V`, translate.py 145 -/
noncomputable def calV (d : V3) : ℝ := (calB d + 1) / 2
/-- `bin`, translate.py 123-126, 147: `binl(V, U)` above the horizon, `nrbins` otherwise -/
noncomputable def calBin (side : ℤ) (d : V3) : ℤ :=
  if calN d > 0 then axisBin side (calV d) * side + axisBin side (calU d) else side * side

/-- `U`, `V` of `scxyzcal`, translate.py 155-159 -/
noncomputable def cal2U (bin side : ℤ) : ℝ := (((bin - bin % side : ℤ) : ℝ) / side + 0.5) / side
noncomputable def cal2V (bin side : ℤ) : ℝ := (((bin % side : ℤ) : ℝ) + 0.5) / side
/-- `a`, `b`, translate.py 162-164 -/
noncomputable def cal2a (bin side : ℤ) : ℝ := 2 * calIf (cal2U bin side - 1) (cal2U bin side - 1) (cal2U bin side) - 1
noncomputable def cal2b (bin side : ℤ) : ℝ := 2 * cal2V bin side - 1
/-- `r`, `phi`, translate.py 165-168; `ft` is Radiance's FTINY -/
noncomputable def cal2r (ft : ℝ) (a b : ℝ) : ℝ := calIf (a ^ 2 - b ^ 2) a (calIf (|b| - ft) b 0)
noncomputable def cal2phi (ft : ℝ) (a b : ℝ) : ℝ :=
  calIf (a ^ 2 - b ^ 2) (b / (2 * a)) (calIf (|b| - ft) (1 - a / (2 * b)) 0) * π / 2
/-- `Dx`, `Dy`, `Dz`, translate.py 161, 169-172 -/
noncomputable def cal2xyz (ft : ℝ) (bin side : ℤ) : V3 :=
  ⟨calIf (cal2U bin side - 1) (-1) 1 * cos (cal2phi ft (cal2a bin side) (cal2b bin side))
      * (cal2r ft (cal2a bin side) (cal2b bin side) * √(2 - cal2r ft (cal2a bin side) (cal2b bin side) ^ 2)),
   sin (cal2phi ft (cal2a bin side) (cal2b bin side))
      * (cal2r ft (cal2a bin side) (cal2b bin side) * √(2 - cal2r ft (cal2a bin side) (cal2b bin side) ^ 2)),
   calIf (cal2U bin side - 1) (-1) 1 * (1 - cal2r ft (cal2a bin side) (cal2b bin side) ^ 2)⟩

end Verif.Geo
