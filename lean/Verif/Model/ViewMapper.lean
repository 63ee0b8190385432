import Verif.Model.Mapper
import Verif.Model.Square
import Verif.Model.Bins

/-! Angular mappers: raytools/mapper/angularmixin.py, viewmapper.py, solidviewmapper.py and
perspectiveviewmapper.py, per row, over the reals. -/

namespace Verif.Map
open Verif.Geo Real

/-- `self._chordfactor`, viewmapper.py 53-56, as a function of `self.viewangle` -/
noncomputable def chordFactor (va : ℝ) : ℝ :=
  (theta2chord (π / 2) / (π / 2)) / (theta2chord (va * π / 360) / (va * π / 360))

/-- State of a `ViewMapper`: `two` is `self.aspect == 2`, `lo` is `self._bbox[0]` -/
structure View where
  dxyz : V3
  va : ℝ
  cf : ℝ
  two : Bool
  sf : ℝ × ℝ
  lo : ℝ × ℝ
  area : ℝ
  ry : M3
  rp : M3

/-- `self._viewangle`, viewmapper.py 32-35 -/
noncomputable def vangle (viewangle : ℝ) : ℝ := if viewangle = 360 then 180 else viewangle

/-- the scale factor, viewmapper.py 36, 40 -/
noncomputable def vscale (viewangle : ℝ) : ℝ := if viewangle = 360 then 1 else viewangle / 180

/-- the lower corner of the bounding box, viewmapper.py 37, 41 -/
noncomputable def vlow (viewangle : ℝ) : ℝ := if viewangle = 360 then 0 else 1 / 2 - vscale viewangle / 2

/-- the aspect ratio as a number, viewmapper.py 34, 39 -/
noncomputable def vaspect (viewangle : ℝ) : ℝ := if viewangle = 360 then 2 else 1

open Classical in
/-- `ViewMapper.__init__`, viewmapper.py 30-43, with the setters of `aspect` (49-56) and `dxyz` (63-71) -/
noncomputable def View.new (dxyz : V3) (viewangle : ℝ) : View where
  dxyz := norm1 dxyz
  va := vangle viewangle
  cf := chordFactor (vangle viewangle)
  two := decide (viewangle = 360)
  sf := (vscale viewangle, vscale viewangle)
  lo := (vlow viewangle, vlow viewangle)
  area := 2 * π * (1 - cos (vangle viewangle * π * vaspect viewangle / 360))
  ry := ymtx (norm1 dxyz)
  rp := pmtx (norm1 dxyz)

/-- `self.ivm` when `self.aspect == 2`, viewmapper.py 68-69 -/
noncomputable def View.ivm (m : View) : View := View.new m.dxyz.neg 180

/-- `world2view`, `view2world` (mapper.py 73-83) -/
def View.w2v (m : View) (p : V3) : V3 := Map.w2v m.ry m.rp p
def View.v2w (m : View) (p : V3) : V3 := Map.v2w m.ry m.rp p

/-- `AngularMixin.xyz2uv`, angularmixin.py 31-39, one row -/
noncomputable def View.xyz2uv (m : View) (p : V3) : ℝ × ℝ :=
  (((Geo.xyz2uv true (m.w2v p)).1 - m.lo.1) / m.sf.1, ((Geo.xyz2uv true (m.w2v p)).2 - m.lo.2) / m.sf.2)

/-- `AngularMixin.uv2xyz`, angularmixin.py 41-51, one row -/
noncomputable def View.uv2xyz (m : View) (uv : ℝ × ℝ) : V3 :=
  m.v2w (Geo.uv2xyz (-1) (m.lo.1 + uv.1 * m.sf.1, m.lo.2 + uv.2 * m.sf.2))

/-- `AngularMixin.radians`, angularmixin.py 254-267, one row -/
noncomputable def View.radians (m : View) (p : V3) : ℝ := Geo.radians m.dxyz p

/-- `AngularMixin.degrees`, angularmixin.py 269-271 -/
noncomputable def View.degrees (m : View) (p : V3) : ℝ := m.radians p * 180 / π

/-- `AngularMixin.in_view`, angularmixin.py 110-119: the mask entry of one row -/
def View.inView (m : View) (tol : ℝ) (p : V3) : Prop := m.radians p - tol < m.cf * m.va * π / 360

/-- `AngularMixin.xyz2vxy` when `aspect != 2`, angularmixin.py 64-66, one row -/
noncomputable def View.xyz2vxy1 (m : View) (p : V3) : ℝ × ℝ :=
  ((Geo.xyz2xy Axes.std true (m.w2v p)).1 * 180 / (m.va * m.cf) / 2 + 1 / 2,
   (Geo.xyz2xy Axes.std true (m.w2v p)).2 * 180 / (m.va * m.cf) / 2 + 1 / 2)

/-- the primary half of `xyz2vxy` when `aspect == 2`, angularmixin.py 61-62 -/
noncomputable def View.xyz2vxyA (m : View) (p : V3) : ℝ × ℝ :=
  ((Geo.xyz2xy Axes.std true (m.w2v p)).1 / m.cf / 2 + 1 / 2,
   (Geo.xyz2xy Axes.std true (m.w2v p)).2 / m.cf / 2 + 1 / 2)

open Classical in
/-- `AngularMixin.xyz2vxy`, angularmixin.py 53-67, one row.  The opposite view is a 180 degree view, its
`xyz2vxy` takes the second branch. -/
noncomputable def View.xyz2vxy (m : View) (p : V3) : ℝ × ℝ :=
  if m.two then
    if m.inView 0 p then m.xyz2vxyA p else ((m.ivm.xyz2vxy1 p).1 + 1, (m.ivm.xyz2vxy1 p).2)
  else m.xyz2vxy1 p

/-- `pxy` after lines 72-74 of angularmixin.py -/
noncomputable def View.centred (m : View) (xy : ℝ × ℝ) : ℝ × ℝ :=
  ((xy.1 - 1 / 2) * (-1 * (m.va * m.cf) / 180), (xy.2 - 1 / 2) * (1 * (m.va * m.cf) / 180))

/-- `d = np.sqrt(np.sum(np.square(pxy), -1))` -/
noncomputable def rad2 (p : ℝ × ℝ) : ℝ := √(p.1 ^ 2 + p.2 ^ 2)

/-- `np.where(d <= 0, np.pi, np.sqrt(1 - z*z)/d)`, angularmixin.py 78 -/
noncomputable def polFactor (d : ℝ) : ℝ := if d ≤ 0 then π else √(1 - cos (π * d) * cos (π * d)) / d

/-- `np.concatenate((pxy, z))` in view space, angularmixin.py 75-81 -/
noncomputable def polar2view (p : ℝ × ℝ) : V3 :=
  ⟨p.1 * polFactor (rad2 p), p.2 * polFactor (rad2 p), cos (π * rad2 p)⟩

/-- `AngularMixin.vxy2xyz`, angularmixin.py 69-86, one row of a float `ndarray`: the result and the contents the
caller's row is left with.  `np.atleast_2d` returns a view of an `ndarray`, and lines 72, 73, 80 assign in
place. -/
noncomputable def View.vxy2xyzM (m : View) (xy : ℝ × ℝ) : V3 × (ℝ × ℝ) :=
  (m.v2w (polar2view (m.centred xy)),
   ((m.centred xy).1 * polFactor (rad2 (m.centred xy)), (m.centred xy).2 * polFactor (rad2 (m.centred xy))))

/-- the value of `AngularMixin.vxy2xyz` -/
noncomputable def View.vxy2xyz (m : View) (xy : ℝ × ℝ) : V3 := (m.vxy2xyzM xy).1

/-- `ray2pixel(xyz, res)`, mapper.py 163-172 with `framesize = (res, res)` (angularmixin.py 88-89) -/
noncomputable def View.ray2pixel (m : View) (res : ℕ) (p : V3) : ℤ × ℤ :=
  (⌊(m.xyz2vxy p).1 * res⌋, ⌊(m.xyz2vxy p).2 * res⌋)

/-- `pixel2ray(pxy, res)`, mapper.py 174-180 -/
noncomputable def View.pixel2ray (m : View) (res : ℕ) (pxy : ℝ × ℝ) : V3 := m.vxy2xyz (pxy.1 / res, pxy.2 / res)

/-- centre of pixel `(i, j)`: one entry of `Mapper.pixels(res)`, mapper.py 148-156 -/
noncomputable def pixelCentre (i j : ℕ) : ℝ × ℝ := ((i : ℝ) + 1 / 2, (j : ℝ) + 1 / 2)

/-- `Mapper.pixelrays(res)`, mapper.py 158-161: rows then columns -/
noncomputable def View.pixelrays1 (m : View) (res : ℕ) : List (List V3) :=
  (List.range res).map fun i => (List.range res).map fun j => m.pixel2ray res (pixelCentre i j)

/-- `AngularMixin.pixelrays`, angularmixin.py 91-98 -/
noncomputable def View.pixelrays (m : View) (res : ℕ) : List (List V3) :=
  if m.two then m.pixelrays1 res ++ m.ivm.pixelrays1 res else m.pixelrays1 res

/-- `ViewMapper.idx2uv`, viewmapper.py 73-94, one index: both coordinates are divided by `shape[1]` -/
noncomputable def View.idx2uv (shape : ℕ × ℕ) (o : ℝ × ℝ) (idx : ℕ) : Except Py.PyErr (ℝ × ℝ) :=
  (unravel shape idx).map fun si => offsetCell si o (shape.2, shape.2)

/-- `np.cross` -/
def cross (a b : V3) : V3 := ⟨a.y * b.z - a.z * b.y, a.z * b.x - a.x * b.z, a.x * b.y - a.y * b.x⟩

/-- `AngularMixin.pixel2omega`, angularmixin.py 100-108, one row -/
noncomputable def View.pixel2omega (m : View) (res : ℕ) (p : ℝ × ℝ) : ℝ :=
  (cross ((m.vxy2xyz ((p.1 + 1 / 2) / res, p.2 / res)).sub (m.vxy2xyz ((p.1 - 1 / 2) / res, p.2 / res)))
    ((m.vxy2xyz (p.1 / res, (p.2 + 1 / 2) / res)).sub (m.vxy2xyz (p.1 / res, (p.2 - 1 / 2) / res)))).len

open Classical in
/-- the fisheye pixels of `add_vecs_to_img`, angularmixin.py 207-219: with aspect 2 the reversed rays first,
shifted by `res`, then the others -/
noncomputable def View.drawPixels (m : View) (res : ℕ) (vs : List V3) : List (ℤ × ℤ) :=
  if m.two then
    ((vs.filter fun v => decide (m.degrees v > 90)).map fun v =>
        ((m.ivm.ray2pixel res v).1 + res, (m.ivm.ray2pixel res v).2))
      ++ (vs.filter fun v => !decide (m.degrees v > 90)).map (m.ray2pixel res)
  else vs.map (m.ray2pixel res)

/-- the selection of `add_vecs_to_img`, angularmixin.py 220-229: in bounds, or listed in the given mask -/
def drawMask {α : Type} (im : Img α) (mask : Option (List (ℤ × ℤ))) (p : ℤ × ℤ) : Bool :=
  match mask with
  | none => inBounds im p
  | some l => decide (p ∈ l)

/-- `AngularMixin.add_vecs_to_img`, angularmixin.py 203-242, two-dimensional image, `fisheye=True`, `grow=0`, for a mask that lists
pixels of the image (any mask and `grow`: `View.draw` in Model/Draw.lean);
`res = img.shape[-1]` -/
noncomputable def View.addVecs {α : Type} (m : View) (im : Img α) (vs : List V3) (mask : Option (List (ℤ × ℤ)))
    (c : α) : Img α :=
  im.putAll ((m.drawPixels im.m vs).filter (drawMask im mask)) c

open Classical in
/-- `add_vecs_to_img` with `fisheye=False`, angularmixin.py 230-236: the cells written (an index outside the
image raises `IndexError`, a negative one counts from the end; `uv2ij` wraps both axes into range) -/
noncomputable def View.uvPixels (m : View) (res : ℕ) (vs : List V3) : List (ℤ × ℤ) :=
  ((if m.two then vs else vs.filter fun v => decide (m.inView 0 v)).map m.xyz2uv).map (uv2ij true res)

/-! ### equisolid and "perspective" mappers -/

/-- `SolidViewMapper.xyz2vxy` after the equiangular transform, solidviewmapper.py 41-54 (the same code is in
perspectiveviewmapper.py 39-52), one row -/
noncomputable def toSolid (va : ℝ) (pxy : ℝ × ℝ) : ℝ × ℝ :=
  ((pxy.1 - 1 / 2) * (va * π / 180)
      * (2 * arcsin (rad2 ((pxy.1 - 1 / 2) * (va * π / 180), (pxy.2 - 1 / 2) * (va * π / 180)) * √2 / π))
      / (rad2 ((pxy.1 - 1 / 2) * (va * π / 180), (pxy.2 - 1 / 2) * (va * π / 180)) + 1e-9)
      / (va * π / 180) + 1 / 2,
   (pxy.2 - 1 / 2) * (va * π / 180)
      * (2 * arcsin (rad2 ((pxy.1 - 1 / 2) * (va * π / 180), (pxy.2 - 1 / 2) * (va * π / 180)) * √2 / π))
      / (rad2 ((pxy.1 - 1 / 2) * (va * π / 180), (pxy.2 - 1 / 2) * (va * π / 180)) + 1e-9)
      / (va * π / 180) + 1 / 2)

/-- `so_xy`, solidviewmapper.py 59-61 -/
noncomputable def soXY (va : ℝ) (xy : ℝ × ℝ) : ℝ × ℝ :=
  ((xy.1 - 1 / 2) * (va * π / 180), (xy.2 - 1 / 2) * (va * π / 180))

/-- `pxy = a_xy / vs`, solidviewmapper.py 62-69 -/
noncomputable def fromSolid (va : ℝ) (xy : ℝ × ℝ) : ℝ × ℝ :=
  ((soXY va xy).1 * (sin (rad2 (soXY va xy) / 2) * π / √2) / (rad2 (soXY va xy) + 1e-9) / (va * π / 180),
   (soXY va xy).2 * (sin (rad2 (soXY va xy) / 2) * π / √2) / (rad2 (soXY va xy) + 1e-9) / (va * π / 180))

/-- `SolidViewMapper.vxy2xyz`, solidviewmapper.py 56-83, one row (line 71-72 scales by `xsign`, the view angle
and the chord factor; the rest is the equiangular code). `np.atleast_2d(xy) - .5` is a new array here. -/
noncomputable def View.solidVxy2xyz (m : View) (xy : ℝ × ℝ) : V3 :=
  m.v2w (polar2view ((fromSolid m.va xy).1 * (-1 * (m.va * m.cf) / 180),
    (fromSolid m.va xy).2 * (1 * (m.va * m.cf) / 180)))

/-- `SolidViewMapper.xyz2vxy`, solidviewmapper.py 38-54, one row -/
noncomputable def View.solidXyz2vxy (m : View) (p : V3) : ℝ × ℝ := toSolid m.va (m.xyz2vxy p)

/-- `SolidViewMapper.__init__`, solidviewmapper.py 31-36 -/
noncomputable def solidNew (dxyz : V3) (viewangle : ℝ) : Except Py.PyErr View :=
  if viewangle > 180 then .error .ValueError else .ok (View.new dxyz viewangle)

/-- `PerspectiveViewMapper.__init__`, perspectiveviewmapper.py 28-34.  Its `xyz2vxy` and `vxy2xyz` (36-81) are
line by line those of `SolidViewMapper`. -/
noncomputable def perspNew (dxyz : V3) (vv vh : ℝ) : Except Py.PyErr View :=
  if max vh vv ≥ 180 then .error .ValueError else .ok (View.new dxyz (max vh vv))

/-- `PerspectiveViewMapper.vxy2xyz`, perspectiveviewmapper.py 54-81 -/
noncomputable def View.perspVxy2xyz (m : View) (xy : ℝ × ℝ) : V3 :=
  m.v2w (polar2view ((fromSolid m.va xy).1 * (-1 * (m.va * m.cf) / 180),
    (fromSolid m.va xy).2 * (1 * (m.va * m.cf) / 180)))

end Verif.Map
