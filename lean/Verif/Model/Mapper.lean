import Verif.Model.Angles
import Verif.Model.Py

/-! The planar `Mapper`, raytools/mapper/mapper.py, per row, over the reals. -/

namespace Verif.Map
open Verif.Geo

/-- State of a `Mapper` object (mapper.py 30-41): `sf = self._sf`, `lo`/`hi` = `self._bbox` rows,
`ry, rp = self._rmtx`. -/
structure Planar where
  sf : ℝ × ℝ
  lo : ℝ × ℝ
  hi : ℝ × ℝ
  aspect : ℝ
  area : ℝ
  dxyz : V3
  ry : M3
  rp : M3
  jitterrate : ℝ
  uvz : ℝ

/-- `Mapper.aspect` setter, mapper.py 47-55: the stored aspect -/
noncomputable def aspectOf (lo hi : ℝ × ℝ) (a : Option ℝ) : ℝ :=
  match a with
  | none => (hi.1 - lo.1) / (hi.2 - lo.2)
  | some a => a

/-- `Mapper.__init__`, mapper.py 30-41, with the setters of `aspect` (47-55) and `dxyz` (63-66).  The view
direction does not enter the rotation: it is the identity. -/
noncomputable def Planar.new (dxyz : V3) (sf lo hi : ℝ × ℝ) (aspect : Option ℝ) (jitterrate uvz : ℝ) : Planar where
  sf := sf
  lo := lo
  hi := hi
  aspect := aspectOf lo hi aspect
  area := (hi.1 - lo.1) * (hi.2 - lo.2)
  dxyz := norm1 dxyz
  ry := 1
  rp := 1
  jitterrate := jitterrate
  uvz := uvz

/-- `Mapper.world2view`, mapper.py 79-83, one row: `pmtx @ (ymtx @ v)` -/
def w2v (ry rp : M3) (v : V3) : V3 := M3.app rp (M3.app ry v)

/-- `Mapper.view2world`, mapper.py 73-77, one row: `ymtx.T @ (pmtx.T @ v)` -/
def v2w (ry rp : M3) (v : V3) : V3 := M3.app ry.transpose (M3.app rp.transpose v)

/-- `Mapper.xyz2uv`, mapper.py 85-90, one row -/
noncomputable def Planar.xyz2uv (m : Planar) (p : V3) : ℝ × ℝ :=
  (((w2v m.ry m.rp p).x - m.lo.1) / m.sf.1, ((w2v m.ry m.rp p).y - m.lo.2) / m.sf.2)

/-- `Mapper.uv2xyz`, mapper.py 92-98, one row, `stackorigin=False` -/
noncomputable def Planar.uv2xyz (m : Planar) (uv : ℝ × ℝ) : V3 :=
  v2w m.ry m.rp ⟨m.lo.1 + uv.1 * m.sf.1, m.lo.2 + uv.2 * m.sf.2, m.uvz⟩

/-- `np.unravel_index(idx, (n, m))`, mapper.py 115 (`ValueError` outside the shape) -/
def unravel (shape : ℕ × ℕ) (idx : ℕ) : Except Py.PyErr (ℕ × ℕ) :=
  if idx < shape.1 * shape.2 then .ok (idx / shape.2, idx % shape.2) else .error .ValueError

/-- the values `offset` can take for one coordinate, mapper.py 116-120, viewmapper.py 88-92: a uniform draw
from the half-open interval, or one half -/
def OffsetOk (jitter : Bool) (rate o : ℝ) : Prop :=
  if jitter = true ∧ 0 < rate then (1 - rate) / 2 ≤ o ∧ o < (1 + rate) / 2 else o = 1 / 2

/-- `(si.T + offset) / divisor`, mapper.py 121 / viewmapper.py 93 -/
noncomputable def offsetCell (si : ℕ × ℕ) (o d : ℝ × ℝ) : ℝ × ℝ := ((si.1 + o.1) / d.1, (si.2 + o.2) / d.2)

/-- `Mapper.idx2uv`, mapper.py 100-122, one index; `o` is the pair of offsets drawn -/
noncomputable def idx2uv (shape : ℕ × ℕ) (o : ℝ × ℝ) (idx : ℕ) : Except Py.PyErr (ℝ × ℝ) :=
  (unravel shape idx).map fun si => offsetCell si o (shape.1, shape.2)

/-- `.astype(int)`: truncation towards zero -/
noncomputable def trunc (x : ℝ) : ℤ := if 0 ≤ x then ⌊x⌋ else ⌈x⌉

/-- `Mapper.uv2idx`, mapper.py 124-127, one row -/
noncomputable def uv2idx (shape : ℕ × ℕ) (uv : ℝ × ℝ) : ℤ :=
  trunc (uv.1 * shape.1) * shape.2 + trunc (uv.2 * shape.2)

/-- `Mapper.xyz2vxy`, mapper.py 129-131 -/
noncomputable def Planar.xyz2vxy (m : Planar) (p : V3) : ℝ × ℝ := m.xyz2uv p

/-- `Mapper.vxy2xyz`, mapper.py 133-136, one row: the result and the contents the caller's row is left with
(line 135 assigns into the argument) -/
noncomputable def Planar.vxy2xyzM (m : Planar) (xy : ℝ × ℝ) : V3 × (ℝ × ℝ) :=
  (m.uv2xyz (1 - xy.1, xy.2), (1 - xy.1, xy.2))

/-- the value of `Mapper.vxy2xyz` -/
noncomputable def Planar.vxy2xyz (m : Planar) (xy : ℝ × ℝ) : V3 := (m.vxy2xyzM xy).1

/-- Python's `round` of a float to an integer: nearest, ties to even -/
noncomputable def pyRound (x : ℝ) : ℤ :=
  if x - ⌊x⌋ < 1 / 2 then ⌊x⌋
  else if 1 / 2 < x - ⌊x⌋ then ⌊x⌋ + 1
  else if ⌊x⌋ % 2 = 0 then ⌊x⌋ else ⌊x⌋ + 1

/-- `Mapper.framesize`, mapper.py 138-146 (without the cache, which is the subject of C05) -/
noncomputable def Planar.framesize (m : Planar) (res : ℕ) : ℤ × ℤ :=
  if m.aspect < 1 then (pyRound (res * m.aspect), res) else (res, pyRound (res / m.aspect))

/-- `Mapper.ray2pixel`, mapper.py 163-172, one row, with the resolution pair already resolved -/
noncomputable def Planar.ray2pixel (m : Planar) (res : ℕ × ℕ) (p : V3) : ℤ × ℤ :=
  (⌊(m.xyz2vxy p).1 * res.1⌋, ⌊(m.xyz2vxy p).2 * res.2⌋)

/-- `Mapper.pixel2ray`, mapper.py 174-180, one row -/
noncomputable def Planar.pixel2ray (m : Planar) (res : ℕ × ℕ) (pxy : ℝ × ℝ) : V3 :=
  m.vxy2xyz (pxy.1 / res.1, pxy.2 / res.2)

/-- `Mapper.pixel2omega`, mapper.py 182-185 -/
noncomputable def Planar.pixel2omega (m : Planar) (res : ℕ × ℕ) : ℝ := m.area / (res.1 * res.2)

/-- `Mapper.in_view`, mapper.py 187-197: the mask entry of one row -/
def Planar.inView (m : Planar) (p : V3) : Prop :=
  (0 ≤ (m.xyz2uv p).1 ∧ (m.xyz2uv p).1 ≤ 1) ∧ (0 ≤ (m.xyz2uv p).2 ∧ (m.xyz2uv p).2 ≤ 1)

/-- one axis of numpy broadcasting -/
def bdim (a b : ℕ) : Option ℕ := if a = b then some a else if a = 1 then some b else if b = 1 then some a else none

/-- numpy broadcasting of reversed shapes -/
def bcastRev : List ℕ → List ℕ → Option (List ℕ)
  | [], bs => some bs
  | as, [] => some as
  | a :: as, b :: bs => (bdim a b).bind fun d => (bcastRev as bs).map (d :: ·)

/-- numpy broadcasting of two shapes (`ValueError` when incompatible) -/
def bcast (s t : List ℕ) : Except Py.PyErr (List ℕ) :=
  match bcastRev s.reverse t.reverse with
  | none => .error .ValueError
  | some l => .ok l.reverse

/-- shape of `Mapper.pixels(res, jitter)`, mapper.py 148-156: the grid has shape `(xres, yres, 2)`, the drawn
offset has shape `(yres, xres)` after the transposition, the constant offset is a scalar -/
def pixelsShape (xres yres : ℕ) (jittered : Bool) : Except Py.PyErr (List ℕ) :=
  bcast [xres, yres, 2] (if jittered then [yres, xres] else [])

/-- an image as numpy sees it: shape `(n, m)` and its entries -/
structure Img (α : Type) where
  n : ℕ
  m : ℕ
  at_ : ℕ → ℕ → α

/-- `img[xp, yp] = c` for one in-range index pair -/
def Img.put {α : Type} (im : Img α) (p : ℤ × ℤ) (c : α) : Img α :=
  { im with at_ := fun i j => if (i : ℤ) = p.1 ∧ (j : ℤ) = p.2 then c else im.at_ i j }

/-- `img[xp, yp] = c` for index arrays whose entries are in range -/
def Img.putAll {α : Type} (im : Img α) (ps : List (ℤ × ℤ)) (c : α) : Img α :=
  ps.foldl (fun im p => im.put p c) im

/-- the bounds mask of `add_vecs_to_img`, mapper.py 240-241 -/
def inBounds {α : Type} (im : Img α) (p : ℤ × ℤ) : Bool :=
  decide (0 ≤ p.1) && decide (p.1 < im.n) && (decide (0 ≤ p.2) && decide (p.2 < im.m))

/-- `Mapper.add_vecs_to_img`, mapper.py 236-263, two-dimensional image, `grow=0`, on the pixels that
`ray2pixel` returns (`np.sum(mask) == 0` returns the image itself) -/
def addPixels {α : Type} (im : Img α) (ps : List (ℤ × ℤ)) (c : α) : Img α :=
  if (ps.filter (inBounds im)).length = 0 then im else im.putAll (ps.filter (inBounds im)) c

/-- `Mapper.add_vecs_to_img` with the ray transform of the mapper -/
noncomputable def Planar.addVecs {α : Type} (m : Planar) (im : Img α) (vs : List V3) (c : α) : Img α :=
  addPixels im (vs.map (m.ray2pixel (im.n, im.m))) c

end Verif.Map
