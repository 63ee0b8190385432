import Verif.Model.ViewMapper

/-! Moving images between projections: raytools/imagetools.py 21-60 and raytools/mapper/viewmapper.py 96-140, for
two-dimensional arrays (with three dimensions every channel is treated alike). -/

namespace Verif.Map
open Verif.Geo Real

/-- numpy's integer indexing of an axis of length `n`: negative indices count from the end -/
def npIdx (n : ℕ) (k : ℤ) : Except Py.PyErr ℕ :=
  if 0 ≤ k ∧ k < n then .ok k.toNat else if -(n : ℤ) ≤ k ∧ k < 0 then .ok (k + n).toNat else .error .IndexError

/-- `imarray[p0, p1]` -/
def Img.get {α : Type} (im : Img α) (p : ℤ × ℤ) : Except Py.PyErr α :=
  match npIdx im.n p.1, npIdx im.m p.2 with
  | .ok a, .ok b => .ok (im.at_ a b)
  | _, _ => .error .IndexError

/-- the pixel read for cell `(i, j)` of the result, imagetools.py 53-55 -/
noncomputable def ang2uvPixel (m : View) (res i j : ℕ) : ℤ × ℤ :=
  m.ray2pixel res (m.uv2xyz (bin2uv ((i * res + j : ℕ) : ℤ) res 0.5))

/-- `array_ang2uv`, imagetools.py 49-60: entry `(i, j)` of the `res × res` result, `res = imarray.shape[-1]` -/
noncomputable def arrayAng2uv {α : Type} (m : View) (im : Img α) (i j : ℕ) : Except Py.PyErr α :=
  im.get (ang2uvPixel m im.m i j)

/-- the default mapper `ViewMapper(viewangle=...)`, viewmapper.py 30 -/
noncomputable def dfltView (va : ℝ) : View := View.new ⟨0, 1, 0⟩ va

/-- the mapper of `array_uv2ang`, imagetools.py 24-27 -/
noncomputable def uv2angView {α : Type} (im : Img α) : View := if im.n > im.m then dfltView 360 else dfltView 180

/-- row `i * res + j` of the rays of `init_img`, angularmixin.py 178-181 -/
noncomputable def initRay (m : View) (res i j : ℕ) : V3 :=
  if i < res then m.pixel2ray res (pixelCentre i j) else m.ivm.pixel2ray res (pixelCentre (i - res) j)

/-- row `i * res + j` of the mask of `init_img(indices=False)`, angularmixin.py 180-190 -/
def initMask (m : View) (res i j : ℕ) : Prop :=
  if i < res then m.inView 0 (initRay m res i j) else m.ivm.inView 0 (initRay m res i j)

/-- number of rows of the mask -/
def initLen (m : View) (res : ℕ) : ℕ := if m.two then 2 * res * res else res * res

open Classical in
/-- `array_uv2ang`, imagetools.py 21-38: entry `(i, j)` of the result, which has the shape of the input. A boolean
mask must have as many entries as the array it selects from. -/
noncomputable def arrayUv2ang {α : Type} [Zero α] (im : Img α) (i j : ℕ) : Except Py.PyErr α :=
  if initLen (uv2angView im) im.m = im.n * im.m then
    if initMask (uv2angView im) im.m i j then
      im.get (uv2ij true im.m ((uv2angView im).xyz2uv (initRay (uv2angView im) im.m i j)))
    else .ok 0
  else .error .IndexError

/-- `ray2pixel(xyz, res, integer=False)`, mapper.py 163-172 -/
noncomputable def View.ray2pixelF (m : View) (res : ℕ) (p : V3) : ℝ × ℝ :=
  ((m.xyz2vxy p).1 * res, (m.xyz2vxy p).2 * res)

open Classical in
/-- `ViewMapper.transform_to`, viewmapper.py 96-140: entry `(i, j)` of the result; `interp` stands for
`RegularGridInterpolator` on the pixel centres with extrapolation, which raises when the array does not have the
shape of the grid -/
noncomputable def View.transformTo {α : Type} [Zero α] (m other : View) (interp : Img α → ℝ × ℝ → α) (im : Img α)
    (i j : ℕ) : Except Py.PyErr α :=
  if im.n ≠ im.m ∨ m.two then .error .ValueError
  else if other.inView 0 (m.pixel2ray im.m (pixelCentre i j)) then
    .ok (interp im (other.ray2pixelF im.m (m.pixel2ray im.m (pixelCentre i j))))
  else .ok 0

end Verif.Map
