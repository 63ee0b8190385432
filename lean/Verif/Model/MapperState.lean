import Verif.Model.ViewMapper
import Verif.Model.Py

/-! The attributes of an angular mapper that can be assigned, and what the methods do with the state that assignments
leave behind: raytools/mapper/viewmapper.py 30-71, mapper.py 31-71, angularmixin.py 53-67, 91-98, 253-261.

The direction and the aspect have setters that update other attributes; `viewangle`, `ivm`, `bbox` and `area` are what
they update. `Model/ViewMapper.lean` derives the opposite view from the direction; here it is stored, as in the code. -/

namespace Verif.Map
open Verif.Geo Real

/-- A `ViewMapper` object: the attributes of `View`, `self._aspect`, `self._ivm` and `self._bbox[1]`. -/
structure VSt where
  v : View
  asp : ℝ
  ivm : Option View
  hi : ℝ × ℝ

open Classical in
/-- `vm.dxyz = d`, viewmapper.py 63-71 -/
noncomputable def VSt.setDxyz (s : VSt) (d : V3) : VSt :=
  { s with v := { s.v with dxyz := norm1 d, ry := ymtx (norm1 d), rp := pmtx (norm1 d) }
           ivm := if s.asp = 2 then some (View.new (norm1 d).neg 180) else none }

open Classical in
/-- `vm.aspect = a`, viewmapper.py 49-56 -/
noncomputable def VSt.setAspect (s : VSt) (a : ℝ) : VSt :=
  { s with v := { s.v with area := 2 * π * (1 - cos (s.v.va * π * a / 360)), two := decide (a = 2), cf := chordFactor s.v.va }
           asp := a }

/-- the attributes before the setters are called, viewmapper.py 32-41, mapper.py 34-35; what the setters assign is
still unset, here arbitrary -/
noncomputable def VSt.blank (viewangle : ℝ) : VSt where
  v := { dxyz := V3.zero, va := vangle viewangle, cf := 0, two := false, sf := (vscale viewangle, vscale viewangle),
         lo := (vlow viewangle, vlow viewangle), area := 0, ry := ymtx V3.zero, rp := pmtx V3.zero }
  asp := 0
  ivm := none
  hi := if viewangle = 360 then (2, 1) else (1 / 2 + vscale viewangle / 2, 1 / 2 + vscale viewangle / 2)

/-- `ViewMapper(dxyz, viewangle)`: first the aspect, then the direction (viewmapper.py 42, mapper.py 37-38) -/
noncomputable def VSt.create (d : V3) (viewangle : ℝ) : VSt :=
  ((VSt.blank viewangle).setAspect (vaspect viewangle)).setDxyz d

/-- an assignment -/
inductive VOp
  | dxyz (d : V3)
  | aspect (a : ℝ)

noncomputable def VSt.step (s : VSt) : VOp → VSt
  | .dxyz d => s.setDxyz d
  | .aspect a => s.setAspect a

/-- a history of assignments -/
noncomputable def VSt.run (s : VSt) (h : List VOp) : VSt := h.foldl VSt.step s

/-- an attribute of `self.ivm`: `None` has none -/
def VSt.opposite (s : VSt) : Except Py.PyErr View :=
  match s.ivm with
  | some w => .ok w
  | none => .error .AttributeError

open Classical in
/-- `vm.xyz2vxy(xyz)`, angularmixin.py 53-67, one row; `self.ivm.xyz2vxy` is looked up whatever the masks are -/
noncomputable def VSt.xyz2vxy (s : VSt) (p : V3) : Except Py.PyErr (ℝ × ℝ) :=
  if s.asp = 2 then
    s.opposite.map fun w => if s.v.inView 0 p then s.v.xyz2vxyA p else ((w.xyz2vxy1 p).1 + 1, (w.xyz2vxy1 p).2)
  else .ok (s.v.xyz2vxy1 p)

open Classical in
/-- `vm.pixelrays(res)`, angularmixin.py 91-98 -/
noncomputable def VSt.pixelrays (s : VSt) (res : ℕ) : Except Py.PyErr (List (List V3)) :=
  if s.asp = 2 then s.opposite.map fun w => s.v.pixelrays1 res ++ w.pixelrays1 res
  else .ok (s.v.pixelrays1 res)

end Verif.Map
