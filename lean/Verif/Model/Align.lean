import Verif.Model.Project

/-! Turning, centring and reprojecting fisheye images: raytools/imagetools.py 77-154 (`array_rotate`,
`array_solid2ang`), for two-dimensional arrays (with three dimensions every channel is treated alike). -/

namespace Verif.Map
open Verif.Geo Real

/-! ### `RegularGridInterpolator((x, x), values)` with `x = np.arange(n)`, scipy, written out -/

/-- the grid cell used for coordinate `x`: the interval that holds it, or the first or last one outside the grid
(at a node both neighbours give the same value) -/
noncomputable def cellOf (n : ℕ) (x : ℝ) : ℕ := min ⌊x⌋.toNat (n - 2)

/-- linear interpolation, and extrapolation of the border cells, along one axis -/
noncomputable def lin (n : ℕ) (f : ℕ → ℝ) (x : ℝ) : ℝ :=
  f (cellOf n x) * (1 - (x - cellOf n x)) + f (cellOf n x + 1) * (x - cellOf n x)

/-- `method="linear"` -/
noncomputable def bilin (im : Img ℝ) (p : ℝ × ℝ) : ℝ := lin im.n (fun a => lin im.m (im.at_ a) p.2) p.1

/-- `method="nearest"` along one axis: `np.where(yi <= .5, i, i + 1)` -/
noncomputable def nearIdx (n : ℕ) (x : ℝ) : ℕ := if x - cellOf n x ≤ 1 / 2 then cellOf n x else cellOf n x + 1

/-- outside the hull of the grid -/
def offGrid (n : ℕ) (x : ℝ) : Prop := x < 0 ∨ (n : ℝ) - 1 < x

open Classical in
/-- the interpolator of `array_rotate`, imagetools.py 123-137: `bounds_error=False`; `fill_value=None` extrapolates -/
noncomputable def gridInterp (nearest : Bool) (fill : Option ℝ) (im : Img ℝ) (p : ℝ × ℝ) : ℝ :=
  if fill.isSome ∧ (offGrid im.n p.1 ∨ offGrid im.m p.2) then fill.getD 0
  else if nearest then im.at_ (nearIdx im.n p.1) (nearIdx im.m p.2) else bilin im p

/-! ### `array_rotate` -/

/-- the rays turned about the view axis, imagetools.py 107-109 -/
noncomputable def turnRay (ang : ℝ) (p : V3) : V3 := if ang ≠ 0 then rotateElem true 1 ang p else p

/-- the rays aimed at the new centre, imagetools.py 110-120: four numbers take the second point to the first one, with
any other number the first two are the new centre (fewer than two cannot be broadcast) -/
noncomputable def aimRay (res : ℕ) (center : Option (List ℝ)) (p : V3) : Except Py.PyErr V3 :=
  match center with
  | none => .ok p
  | some [sx, sy, ex, ey] =>
    .ok (bwd ((dfltView 180).pixel2ray res (sx, sy)) (fwd ((dfltView 180).pixel2ray res (ex, ey)) p))
  | some (cx :: cy :: _) =>
    .ok ((View.new ((dfltView 180).pixel2ray res (cx, cy)) 180).v2w ((dfltView 180).w2v p))
  | some _ => .error .ValueError

/-- the ray looked up for the ray `p` of a result pixel in one pass, imagetools.py 107-120 -/
noncomputable def lookRay (res : ℕ) (ang : ℝ) (center : Option (List ℝ)) (first : Bool) (p : V3) :
    Except Py.PyErr V3 :=
  aimRay res center (if first then turnRay ang p else p)

/-- where the image is read for result pixel `(i, j)` in one pass, imagetools.py 104-122 -/
noncomputable def lookAt (res : ℕ) (ang : ℝ) (center : Option (List ℝ)) (first : Bool) (q : ℝ × ℝ) :
    Except Py.PyErr (ℝ × ℝ) :=
  (lookRay res ang center first ((dfltView 180).pixel2ray res q)).map fun p => (dfltView 180).ray2pixelF res p

/-- what one pass returns for the position read -/
noncomputable def entry (nearest : Bool) (fill : Option ℝ) (im : Img ℝ) : Except Py.PyErr (ℝ × ℝ) → ℝ
  | .ok p => gridInterp nearest fill im p
  | .error _ => 0

/-- one pass of `array_rotate`, imagetools.py 99-137. The error of a bad centre does not depend on the pixel; the
interpolator raises when the array does not have the shape of the grid. -/
noncomputable def rotatePass (nearest : Bool) (fill : Option ℝ) (im : Img ℝ) (ang : ℝ) (center : Option (List ℝ))
    (first : Bool) : Except Py.PyErr (Img ℝ) :=
  if im.n ≠ im.m then .error .ValueError
  else (aimRay im.m center ⟨0, 1, 0⟩).map fun _ =>
    ⟨im.m, im.m, fun i j => entry nearest fill im (lookAt im.m ang center first (pixelCentre i j))⟩

/-- `array_rotate`, imagetools.py 77-141: with `rotate_first=False` a second pass turns the centred image -/
noncomputable def arrayRotate (nearest : Bool) (fill : Option ℝ) (im : Img ℝ) (ang : ℝ) (center : Option (List ℝ))
    (first : Bool) : Except Py.PyErr (Img ℝ) :=
  (rotatePass nearest fill im ang center first).bind fun out =>
    if !first ∧ ang ≠ 0 then rotatePass nearest fill out ang none true else .ok out

/-! ### `array_solid2ang` -/

/-- `pixel2ray` and `ray2pixel(integer=False)` of a `SolidViewMapper` (mapper.py 163-180 with solidviewmapper.py) -/
noncomputable def View.solidPixel2ray (m : View) (res : ℕ) (pxy : ℝ × ℝ) : V3 := m.solidVxy2xyz (pxy.1 / res, pxy.2 / res)
noncomputable def View.solidRay2pixelF (m : View) (res : ℕ) (p : V3) : ℝ × ℝ :=
  ((m.solidXyz2vxy p).1 * res, (m.solidXyz2vxy p).2 * res)

/-- the ray of result pixel `(i, j)`, imagetools.py 146-151 and viewmapper.py 119: `vmi.pixelrays` -/
noncomputable def solidRay (reverse : Bool) (va : ℝ) (res : ℕ) (q : ℝ × ℝ) : V3 :=
  if reverse then (dfltView va).pixel2ray res q else (dfltView va).solidPixel2ray res q

/-- the position read for that ray, viewmapper.py 123: `vmo.ray2pixel(..., False)` -/
noncomputable def solidPos (reverse : Bool) (va : ℝ) (res : ℕ) (p : V3) : ℝ × ℝ :=
  if reverse then (dfltView va).solidRay2pixelF res p else (dfltView va).ray2pixelF res p

open Classical in
/-- `array_solid2ang`, imagetools.py 144-154, through `transform_to` (viewmapper.py 97-140): entry `(i, j)`; `interp`
is the interpolator on the pixel centres. The `SolidViewMapper` refuses angles above 180. -/
noncomputable def arraySolid2ang (reverse : Bool) (va : ℝ) (interp : Img ℝ → ℝ × ℝ → ℝ) (im : Img ℝ) (i j : ℕ) :
    Except Py.PyErr ℝ :=
  (solidNew ⟨0, 1, 0⟩ va).bind fun m =>
    if im.n ≠ im.m then .error .ValueError
    else if m.inView 0 (solidRay reverse va im.m (pixelCentre i j)) then
      .ok (interp im (solidPos reverse va im.m (solidRay reverse va im.m (pixelCentre i j))))
    else .ok 0

end Verif.Map
