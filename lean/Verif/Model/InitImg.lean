import Verif.Model.ViewHeader
import Verif.Model.Project
import Verif.Model.Pool

/-! Blank images with the direction of every pixel: `init_img` and the equisolid methods of `ViewMapper`,
raytools/mapper/viewmapper.py 142-270, angularmixin.py 121-201, mapper.py 198-233. Per row, over the reals. -/

namespace Verif.Init
open Verif.Py Verif.Geo Verif.Map Real

/-! ### equisolid methods of `ViewMapper` -/

/-- the argument of `np.arcsin` in `solid_xyz2vxy`, viewmapper.py 149-153 -/
noncomputable def solidArg (va : ℝ) (pxy : ℝ × ℝ) : ℝ :=
  rad2 ((pxy.1 - 1 / 2) * (va * π / 180), (pxy.2 - 1 / 2) * (va * π / 180)) * √2 / π

/-- `ViewMapper.solid_xyz2vxy`, viewmapper.py 142-158, one row; `none`: `np.arcsin` of a number above 1, the row is nan.
`toSolid` is the arithmetic of lines 149-157. -/
noncomputable def solidXyz2vxy (m : View) (p : V3) : Option (ℝ × ℝ) :=
  if solidArg (min m.va 180) (m.xyz2vxy p) ≤ 1 then some (toSolid (min m.va 180) (m.xyz2vxy p)) else none

/-- `ViewMapper.solid_vxy2xyz`, viewmapper.py 160-187, one row; `fromSolid` is the arithmetic of lines 165-173. -/
noncomputable def solidVxy2xyz (m : View) (xy : ℝ × ℝ) : V3 :=
  m.v2w (polar2view ((fromSolid (min m.va 180) xy).1 * (-1 * (min m.va 180 * m.cf) / 180),
    (fromSolid (min m.va 180) xy).2 * (1 * (min m.va 180 * m.cf) / 180)))

/-- `ViewMapper.solid_ray2pixel(xyz, res)`, viewmapper.py 194-199, one row (`none`: nan, whose conversion to an integer
means nothing) -/
noncomputable def solidRay2pixel (m : View) (res : ℕ) (p : V3) : Option (ℤ × ℤ) :=
  (solidXyz2vxy m p).map fun q : ℝ × ℝ => (⌊q.1 * (res : ℝ)⌋, ⌊q.2 * (res : ℝ)⌋)

/-- `ViewMapper.solid_pixel2ray(pxy, res)`, viewmapper.py 201-203, one row -/
noncomputable def solidPixel2ray (m : View) (res : ℕ) (pxy : ℝ × ℝ) : V3 := solidVxy2xyz m (pxy.1 / res, pxy.2 / res)

/-- `ViewMapper.solid_pixelrays(res)` without jitter, viewmapper.py 189-192; `pixels` (mapper.py 148-156) uses
`framesize(res) = (res, res)`, angularmixin.py 87-89 -/
noncomputable def solidPixelrays (m : View) (res : ℕ) : Img V3 :=
  ⟨res, res, fun i j => solidPixel2ray m res (pixelCentre i j)⟩

/-! ### names of projections -/

inductive Proj | vta | vte | vuv
  deriving DecidableEq

/-- the names the code passes on -/
def Proj.text : Proj → Str
  | .vta => "vta".toList
  | .vte => "vte".toList
  | .vuv => "vuv".toList

/-- the letter the choice depends on: `a.lower()`, the last letter when it begins with `vt`, else the first
(viewmapper.py 207-210, angularmixin.py 132-135). ASCII lower casing: no other letter has a lower case of which the first
or last character is one of those compared. -/
def letter (a : Str) : Except PyErr Char :=
  if (Pool.lower a).take 2 = "vt".toList then
    match (Pool.lower a).getLast? with
    | none => .error .IndexError
    | some c => .ok c
  else
    match (Pool.lower a).head? with
    | none => .error .IndexError
    | some c => .ok c

/-- `AngularMixin._process_viewproj`, angularmixin.py 130-139 -/
def processBase (a : Str) : Except PyErr Proj := (letter a).map fun c => if c = 'a' ∨ c = 'f' then .vta else .vuv

/-- `ViewMapper._process_viewproj`, viewmapper.py 205-216 -/
def process (a : Str) : Except PyErr Proj :=
  (letter a).map fun c => if c = 'a' ∨ c = 'f' then .vta else if c = 'e' then .vte else .vuv

/-! ### `init_img` -/

/-- `ViewMapper`, or one of its two subclasses with the equisolid `vxy2xyz` -/
inductive Kind | angular | solid
  deriving DecidableEq

/-- `self.vxy2xyz`, angularmixin.py 69-85, solidviewmapper.py 56-83, perspectiveviewmapper.py 54-81 -/
noncomputable def vray (k : Kind) (m : View) (xy : ℝ × ℝ) : V3 :=
  match k with
  | .angular => m.vxy2xyz xy
  | .solid => m.solidVxy2xyz xy

/-- `Mapper.pixelrays(res)`, mapper.py 158-161 -/
noncomputable def rays1 (k : Kind) (m : View) (res : ℕ) : Img V3 :=
  ⟨res, res, fun i j => vray k m ((pixelCentre i j).1 / res, (pixelCentre i j).2 / res)⟩

/-- `np.concatenate((a, b), 0)` -/
def below {α : Type} (a b : Img α) : Img α := ⟨a.n + b.n, a.m, fun i j => if i < a.n then a.at_ i j else b.at_ (i - a.n) j⟩

/-- `AngularMixin.pixelrays(res)`, angularmixin.py 91-98; `ivm` is a plain `ViewMapper` -/
noncomputable def rays (k : Kind) (m : View) (res : ℕ) : Img V3 :=
  if m.two then below (rays1 k m res) (rays1 .angular m.ivm res) else rays1 k m res

/-- `np.unravel_index(np.arange(n*m), (n, m))` -/
def cells (n m : ℕ) : List (ℕ × ℕ) := (List.range (n * m)).map fun k => (k / m, k % m)

open Classical in
/-- `in_view(vec, indices=True)`, angularmixin.py 114-117 -/
noncomputable def inViewIdx (m : View) (v : Img V3) : List (ℕ × ℕ) :=
  (cells v.n v.m).filter fun c => decide (m.inView 0 (v.at_ c.1 c.2))

open Classical in
/-- `in_view(vec, indices=False)`, angularmixin.py 114-115, 119 -/
noncomputable def inViewBits (m : View) (v : Img V3) : List Bool :=
  (cells v.n v.m).map fun c => decide (m.inView 0 (v.at_ c.1 c.2))

/-- the two forms of a mask -/
inductive Mask
  | idx (l : List (ℕ × ℕ))
  | bits (l : List Bool)
  deriving DecidableEq

/-- `self.in_view(vecs, indices=indices)` -/
noncomputable def inViewMask (m : View) (v : Img V3) (indices : Bool) : Mask :=
  if indices then .idx (inViewIdx m v) else .bits (inViewBits m v)

/-- rows `a` to `b` of an array -/
def rowsOf {α : Type} (im : Img α) (a b : ℕ) : Img α := ⟨min b im.n - a, im.m, fun i j => im.at_ (a + i) j⟩

/-- the mask of the angular projection, angularmixin.py 182-191 -/
noncomputable def angMask (m : View) (v : Img V3) (res : ℕ) (indices : Bool) : Mask :=
  if m.two then
    if indices then
      .idx (inViewIdx m (rowsOf v 0 res) ++ (inViewIdx m.ivm (rowsOf v res v.n)).map fun c => (c.1 + res, c.2))
    else .bits (inViewBits m (rowsOf v 0 res) ++ inViewBits m.ivm (rowsOf v res v.n))
  else inViewMask m v indices

/-- `np.tile(l, n)` -/
def tile {α : Type} (l : List α) (n : ℕ) : List α := (List.replicate n l).flatten

/-- `np.repeat(l, n)` -/
def repeat_ {α : Type} (l : List α) (n : ℕ) : List α := l.flatMap fun x => List.replicate n x

/-- `mask2`: the mask itself or an index for every channel -/
inductive Mask2
  | same (m : Mask)
  | chan (l : List (ℕ × ℕ × ℕ))
  deriving DecidableEq

/-- angularmixin.py 193-197, viewmapper.py 264-269 -/
def mask2Of (features : ℕ) (mk : Mask) : Mask2 :=
  match mk with
  | .idx l =>
    if 1 < features then
      .chan ((tile (List.range features) l.length).zip ((repeat_ (l.map Prod.fst) features).zip (repeat_ (l.map Prod.snd) features)))
    else .same (.idx l)
  | .bits l => .same (.bits l)

/-- what `init_img` returns: the image (all zero) by its shape, the vectors, the masks, the header line -/
structure Out where
  shape : List ℕ
  vecs : Img V3
  mask : Option Mask
  mask2 : Option Mask2
  header : Str

/-- `self.aspect` -/
def aspect (m : View) : ℕ := if m.two then 2 else 1

/-- angularmixin.py 173-176, viewmapper.py 253-256 -/
def imgShape (m : View) (res features : ℕ) : List ℕ :=
  if 1 < features then [features, res * aspect m, res] else [res * aspect m, res]

/-- the vectors of the square projection, angularmixin.py 199-200 -/
noncomputable def uvRays (m : View) (res : ℕ) : Img V3 :=
  ⟨aspect m * res, res, fun i j => m.uv2xyz (bin2uv ((i * res + j : ℕ) : ℤ) res 0.5)⟩

/-- `AngularMixin.init_img` after line 172, angularmixin.py 173-201; `hdr` is `self.header(pt, viewproj=·)` -/
noncomputable def initBase (k : Kind) (m : View) (res features : ℕ) (indices : Bool) (hdr : Str → Str) (p : Proj) : Out :=
  if p = .vta then
    ⟨imgShape m res features, rays k m res, some (angMask m (rays k m res) res indices),
      some (mask2Of features (angMask m (rays k m res) res indices)), hdr p.text⟩
  else ⟨imgShape m res features, uvRays m res, none, none, hdr p.text⟩

/-- `ViewMapper.init_img`, viewmapper.py 218-270 -/
noncomputable def initImg (k : Kind) (m : View) (res features : ℕ) (indices : Bool) (hdr : Str → Str) (viewproj : Str) :
    Except PyErr Out :=
  (process viewproj).bind fun p =>
    if p = .vta ∨ p = .vuv then (processBase p.text).map (initBase k m res features indices hdr)
    else .ok ⟨imgShape m res features, solidPixelrays m res, some (inViewMask m (solidPixelrays m res) indices),
      some (mask2Of features (inViewMask m (solidPixelrays m res) indices)), hdr p.text⟩

/-- `img[mask2] = values` for an image of three dimensions (channels first): one value per entry of the mask, in order -/
def putChan {α : Type} (im : ℕ → ℕ → ℕ → α) (l : List (ℕ × ℕ × ℕ)) (vals : List α) : ℕ → ℕ → ℕ → α :=
  (l.zip vals).foldl (fun im e => fun c i j => if (c, i, j) = e.1 then e.2 else im c i j) im

/-! ### planar mappers -/

open Classical in
/-- `Mapper.init_img` without jitter, mapper.py 201-233: the shape of the image, the vectors — `uv2xyz` (mapper.py 94)
flattens them to one row per pixel — and the mask, positions in that list -/
noncomputable def initPlanar (m : Planar) (res : ℕ) : (ℤ × ℤ) × List V3 × List ℕ :=
  (m.framesize res,
   (cells (m.framesize res).1.toNat (m.framesize res).2.toNat).map fun c =>
      m.pixel2ray ((m.framesize res).1.toNat, (m.framesize res).2.toNat) (pixelCentre c.1 c.2),
   (List.range ((m.framesize res).1.toNat * (m.framesize res).2.toNat)).filter fun k =>
      decide (m.inView (m.pixel2ray ((m.framesize res).1.toNat, (m.framesize res).2.toNat)
        (pixelCentre (k / (m.framesize res).2.toNat) (k % (m.framesize res).2.toNat)))))

/-- `img[mask]` where `mask` is a tuple with one list of positions and `img` has `n` rows: the rows chosen -/
def takeRows (n : ℕ) (mask : List ℕ) : Except PyErr (List ℕ) :=
  if mask.all (· < n) then .ok mask else .error .IndexError

end Verif.Init
