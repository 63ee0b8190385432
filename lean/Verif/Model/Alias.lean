import Verif.Model.ViewMapper

/-! Which arrays the coordinate transforms write to: a heap of numpy arrays. Two-column arrays carry their dtype
(integer or float), because an assignment into an integer array truncates and an in-place arithmetic operation with
a float raises. Three-column arrays are never written in place by the functions below. Views that share part of
their memory with another array are not modelled. -/

namespace Verif.Alias
open Verif.Geo Verif.Map Real

/-- a two-column array -/
structure Arr where
  isInt : Bool
  rows : List (ℝ × ℝ)

/-- arrays by address; addresses below `next` are in use -/
structure Heap where
  next : ℕ
  c2 : ℕ → Arr
  c3 : ℕ → List V3

/-- a new two-column array -/
def Heap.new2 (h : Heap) (a : Arr) : ℕ × Heap :=
  (h.next, { h with next := h.next + 1, c2 := fun l => if l = h.next then a else h.c2 l })

/-- a new three-column array -/
def Heap.new3 (h : Heap) (r : List V3) : ℕ × Heap :=
  (h.next, { h with next := h.next + 1, c3 := fun l => if l = h.next then r else h.c3 l })

/-- what numpy stores when the float `x` is assigned into an array -/
noncomputable def cast1 (isInt : Bool) (x : ℝ) : ℝ := if isInt then (trunc x : ℝ) else x

/-- the same for a row -/
noncomputable def castRow (isInt : Bool) (r : ℝ × ℝ) : ℝ × ℝ := (cast1 isInt r.1, cast1 isInt r.2)

/-- assign every row of the array at `l` in place -/
noncomputable def Heap.assign (h : Heap) (l : ℕ) (f : ℝ × ℝ → ℝ × ℝ) : Heap :=
  { h with c2 := fun k => if k = l then
      { isInt := (h.c2 l).isInt, rows := (h.c2 l).rows.map fun r => castRow (h.c2 l).isInt (f r) } else h.c2 k }

/-- an argument: an array of the caller, or a list / tuple literal (from which `np.atleast_2d` makes a new array) -/
inductive Arg where
  | ref (l : ℕ)
  | lit (a : Arr)

/-- `np.atleast_2d(arg)`: no copy for an array -/
def atleast2d (arg : Arg) (h : Heap) : ℕ × Heap :=
  match arg with
  | .ref l => (l, h)
  | .lit a => h.new2 a

/-- `translate.tpnorm`, translate.py 232-237: two column assignments into the array, which is returned -/
noncomputable def tpnormH (arg : Arg) (h : Heap) : ℕ × Heap :=
  ((atleast2d arg h).1, (atleast2d arg h).2.assign (atleast2d arg h).1 tpnorm)

/-- `translate.tp2xyz`, translate.py 240-250 -/
noncomputable def tp2xyzH (normalize : Bool) (arg : Arg) (h : Heap) : ℕ × Heap :=
  if normalize then
    (tpnormH arg h).2.new3 (((tpnormH arg h).2.c2 (tpnormH arg h).1).rows.map fun r => Geo.norm (sph r))
  else (atleast2d arg h).2.new3 (((atleast2d arg h).2.c2 (atleast2d arg h).1).rows.map fun r => Geo.norm (sph r))

/-- `translate.xyz2tp`, translate.py 253-260: `tpnorm` works on the fresh result of `np.column_stack` -/
noncomputable def xyz2tpH (l : ℕ) (h : Heap) : ℕ × Heap :=
  tpnormH (.ref (h.new2 ⟨false, (h.c3 l).map fun p => (arccos p.z, tpPhi (arccos p.z) p.x p.y)⟩).1)
    (h.new2 ⟨false, (h.c3 l).map fun p => (arccos p.z, tpPhi (arccos p.z) p.x p.y)⟩).2

/-- `translate.aa2xyz`, translate.py 263-268: `np.pi/2 - ...` is a new float array -/
noncomputable def aa2xyzH (l : ℕ) (h : Heap) : ℕ × Heap :=
  tp2xyzH true
    (.ref (h.new2 ⟨false, (h.c2 l).rows.map fun aa => (π / 2 - aa.1 * π / 180, π / 2 - aa.2 * π / 180 + π)⟩).1)
    (h.new2 ⟨false, (h.c2 l).rows.map fun aa => (π / 2 - aa.1 * π / 180, π / 2 - aa.2 * π / 180 + π)⟩).2

/-- `translate.uv2xyz`, translate.py 56-81: writes only into `np.empty` -/
noncomputable def uv2xyzH (xsign : ℝ) (l : ℕ) (h : Heap) : ℕ × Heap :=
  h.new3 ((h.c2 l).rows.map (Geo.uv2xyz xsign))

/-- `translate.xyz2uv`, translate.py 84-114 (without normalization): writes only into `np.empty` -/
noncomputable def xyz2uvH (flipu : Bool) (l : ℕ) (h : Heap) : ℕ × Heap :=
  h.new2 ⟨false, (h.c3 l).map (Geo.xyz2uv flipu)⟩

/-- `Mapper.vxy2xyz`, mapper.py 133-136: line 135 assigns the first column of the caller's array (a list has no
`[..., 0]`: `TypeError`) -/
noncomputable def planarVxy2xyzH (m : Planar) (arg : Arg) (h : Heap) : Except Py.PyErr ℕ × Heap :=
  match arg with
  | .lit _ => (.error .TypeError, h)
  | .ref l =>
    (.ok ((h.assign l fun r => (1 - r.1, r.2)).new3 (((h.assign l fun r => (1 - r.1, r.2)).c2 l).rows.map m.uv2xyz)).1,
      ((h.assign l fun r => (1 - r.1, r.2)).new3 (((h.assign l fun r => (1 - r.1, r.2)).c2 l).rows.map m.uv2xyz)).2)

/-- the row contents after lines 72, 73 and 80 of angularmixin.py -/
noncomputable def spoiled (m : View) (r : ℝ × ℝ) : ℝ × ℝ := (m.vxy2xyzM r).2

/-- `AngularMixin.vxy2xyz`, angularmixin.py 69-86, two-dimensional argument: `pxy -= .5` raises for an integer
array, otherwise the array is overwritten and the result is read from it -/
noncomputable def viewVxy2xyzH (m : View) (arg : Arg) (h : Heap) : Except Py.PyErr ℕ × Heap :=
  if ((atleast2d arg h).2.c2 (atleast2d arg h).1).isInt then (.error .TypeError, (atleast2d arg h).2)
  else
    (.ok (((atleast2d arg h).2.assign (atleast2d arg h).1 (spoiled m)).new3
        (((atleast2d arg h).2.c2 (atleast2d arg h).1).rows.map m.vxy2xyz)).1,
      (((atleast2d arg h).2.assign (atleast2d arg h).1 (spoiled m)).new3
        (((atleast2d arg h).2.c2 (atleast2d arg h).1).rows.map m.vxy2xyz)).2)

/-- the temporary `pxy/np.broadcast_to(...)`, mapper.py 180: always a float array -/
noncomputable def scaled (res : ℕ × ℕ) (l : ℕ) (h : Heap) : ℕ × Heap :=
  h.new2 ⟨false, (h.c2 l).rows.map fun r => (r.1 / res.1, r.2 / res.2)⟩

/-- `Mapper.pixel2ray`, mapper.py 174-180, for an angular mapper -/
noncomputable def viewPixel2rayH (m : View) (res : ℕ × ℕ) (l : ℕ) (h : Heap) : Except Py.PyErr ℕ × Heap :=
  viewVxy2xyzH m (.ref (scaled res l h).1) (scaled res l h).2

/-- `Mapper.pixel2ray`, mapper.py 174-180, for a planar mapper -/
noncomputable def planarPixel2rayH (m : Planar) (res : ℕ × ℕ) (l : ℕ) (h : Heap) : Except Py.PyErr ℕ × Heap :=
  planarVxy2xyzH m (.ref (scaled res l h).1) (scaled res l h).2

end Verif.Alias
