import Verif.Model.ViewMapper
import Verif.Model.Resample

/-! `add_vecs_to_img` with all of its options and `plot`: raytools/mapper/mapper.py 235-264, angularmixin.py 203-252. Images
of floats; `None` as a channel only where the code asks for it (numpy writes nan elsewhere). -/

namespace Verif.Map
open Verif.Geo Verif.Py

/-- a numpy index along an axis of `n` entries: negative ones count from the end, the rest is an `IndexError` -/
def wrapIdx (n : ℕ) (i : ℤ) : Option ℕ :=
  if 0 ≤ i ∧ i < n then some i.toNat else if -(n : ℤ) ≤ i ∧ i < 0 then some (i + n).toNat else none

/-- the pixel that `img[x, y]` addresses -/
def cellAt {α : Type} (im : Img α) (p : ℤ × ℤ) : Except PyErr (ℕ × ℕ) :=
  match wrapIdx im.n p.1, wrapIdx im.m p.2 with
  | some i, some j => .ok (i, j)
  | _, _ => .error .IndexError

/-- `img[xp, yp] = c` -/
def paint {α : Type} (im : Img α) (qs : List (ℕ × ℕ)) (c : α) : Img α :=
  { im with at_ := fun i j => if (i, j) ∈ qs then c else im.at_ i j }

/-- `uniform_filter1d(line, s)` with mode 'reflect' at position `p`; `uniform_filter` skips windows of one entry -/
noncomputable def box (n s : ℕ) (f : ℕ → ℝ) (p : ℕ) : ℝ :=
  if s ≤ 1 then f p else (∑ t ∈ Finset.range s, f (Resamp.refl n ((p : ℤ) - (s / 2 : ℕ) + t))) / s

/-- `r = int(grow*2 + 1)`, mapper.py 246, angularmixin.py 236 -/
noncomputable def window (g : ℝ) : ℕ := ⌊g * 2 + 1⌋₊

/-- `uniform_filter(img*r**2, r)`, mapper.py 254, angularmixin.py 244; for an image with channels (258, 250) the window has
one entry along the first axis, so that each channel is filtered like this -/
noncomputable def grown (g : ℝ) (im : Img ℝ) : Img ℝ :=
  if 0 < g then
    { im with at_ := fun i j => box im.m (window g) (fun q => box im.n (window g)
        (fun p => im.at_ p q * (window g : ℝ) ^ 2) i) j }
  else im

/-- `Mapper.add_vecs_to_img`, mapper.py 235-254: two dimensional image; without a ray in bounds the image itself -/
noncomputable def Planar.draw (m : Planar) (im : Img ℝ) (vs : List V3) (c g : ℝ) : Except PyErr (Img ℝ) :=
  if ((vs.map (m.ray2pixel (im.n, im.m))).filter (inBounds im)).length = 0 then .ok im
  else (((vs.map (m.ray2pixel (im.n, im.m))).filter (inBounds im)).mapM (cellAt im)).map fun qs => grown g (paint im qs c)

/-- the pixels that `AngularMixin.add_vecs_to_img` writes to, angularmixin.py 205-235 -/
noncomputable def View.drawn {α : Type} (m : View) (im : Img α) (vs : List V3) (mask : Option (List (ℤ × ℤ))) (fisheye : Bool) :
    List (ℤ × ℤ) :=
  if fisheye then (m.drawPixels im.m vs).filter (drawMask im mask) else m.uvPixels im.m vs

/-- `AngularMixin.add_vecs_to_img`, angularmixin.py 203-244: two dimensional image -/
noncomputable def View.draw (m : View) (im : Img ℝ) (vs : List V3) (mask : Option (List (ℤ × ℤ))) (fisheye : Bool) (c g : ℝ) :
    Except PyErr (Img ℝ) :=
  ((m.drawn im vs mask fisheye).mapM (cellAt im)).map fun qs => grown g (paint im qs c)

/-- the planes of an image with channels, all of the size of the first (`img.shape[-2:]`) -/
def frame : List (Img ℝ) → Img ℝ
  | [] => ⟨0, 0, fun _ _ => 0⟩
  | im :: _ => im

/-- angularmixin.py 246-250: channel by channel, `None` is left alone but grows with the others -/
noncomputable def paintPlanes (qs : List (ℕ × ℕ)) (g : ℝ) : List (Img ℝ) → List (Option ℝ) → Except PyErr (List (Img ℝ))
  | [], _ => .ok []
  | _ :: _, [] => .error .IndexError
  | im :: ims, c :: cs => (paintPlanes qs g ims cs).map fun rest =>
      grown g (match c with | some c => paint im qs c | none => im) :: rest

/-- `AngularMixin.add_vecs_to_img` on an image with channels. Pixels outside of the image are found by the first assignment:
without one (all channels `None`) they do no harm. -/
noncomputable def View.drawPlanes (m : View) (ims : List (Img ℝ)) (vs : List V3) (mask : Option (List (ℤ × ℤ))) (fisheye : Bool)
    (cs : List (Option ℝ)) (g : ℝ) : Except PyErr (List (Img ℝ)) :=
  if (cs.take ims.length).all Option.isNone then paintPlanes [] g ims cs
  else ((m.drawn (frame ims) vs mask fisheye).mapM (cellAt (frame ims))).bind fun qs => paintPlanes qs g ims cs

/-- `Mapper.add_vecs_to_img` on an image with channels, mapper.py 255-259: the channels are broadcast, one for all or one for each -/
noncomputable def Planar.drawPlanes (m : Planar) (ims : List (Img ℝ)) (vs : List V3) (cs : List ℝ) (g : ℝ) :
    Except PyErr (List (Img ℝ)) :=
  if ((vs.map (m.ray2pixel ((frame ims).n, (frame ims).m))).filter (inBounds (frame ims))).length = 0 then .ok ims
  else if cs.length = ims.length ∨ cs.length = 1 then
    (((vs.map (m.ray2pixel ((frame ims).n, (frame ims).m))).filter (inBounds (frame ims))).mapM (cellAt (frame ims))).bind fun qs =>
      paintPlanes qs g ims ((if cs.length = 1 then List.replicate ims.length (cs.headD 0) else cs).map some)
  else .error .ValueError

/-- `np.zeros((n, m))` -/
def dark (n m : ℕ) : Img ℝ := ⟨n, m, fun _ _ => 0⟩

/-- the image of `plot`, mapper.py 261-263; `framesize` of an angular mapper is `(res, res)`, angularmixin.py 86-88 -/
noncomputable def View.plotImg (m : View) (vs : List V3) (res : ℕ) (c g : ℝ) : Except PyErr (Img ℝ) :=
  m.draw (dark res res) vs none true c g

noncomputable def Planar.plotImg (m : Planar) (vs : List V3) (res : ℕ) (c g : ℝ) : Except PyErr (Img ℝ) :=
  m.draw (dark (m.framesize res).1.toNat (m.framesize res).2.toNat) vs c g

end Verif.Map
