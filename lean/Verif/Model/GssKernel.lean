import Verif.Model.Gss
import Verif.Model.InitImg
import Mathlib.Data.List.MinMax
import Mathlib.Data.List.ProdSigma

/-! The kernel of `apply_psf`: `prep_kernel` and the peak, raytools/evaluate/hvsgsm.py 359, 455-465, 523-532. -/

namespace Verif.Gss
open Verif.Geo Verif.Map Verif.Init Verif.Py Real

/-- `self._pparcmin`: pixels per minute of arc, hvsgsm.py 359 -/
noncomputable def pparcmin (res : ℕ) (va : ℝ) : ℝ := res / (60 * va)

/-- `window`, hvsgsm.py 459 -/
noncomputable def window (fwidth pp : ℝ) : ℕ := ⌈fwidth * 60 * pp⌉₊

/-- `vm` of `prep_kernel`, hvsgsm.py 460, with the default direction of `ViewMapper` (`fwidth` other than 360) -/
noncomputable def kview (fwidth : ℝ) : View := View.new ⟨0, 1, 0⟩ fwidth

/-- `img[mask] = vals` for an image of two dimensions and a mask of positions: one value per entry, in order -/
def putMask (im : ℕ → ℕ → ℝ) (l : List (ℕ × ℕ)) (vals : List ℝ) : ℕ → ℕ → ℝ :=
  (l.zip vals).foldl (fun im e => fun i j => if (i, j) = e.1 then e.2 else im i j) im

/-- `mask` of `prep_kernel`, hvsgsm.py 461: the positions in the answer of `init_img(window)`; its defaults are the angular
projection, one feature and a mask of positions -/
noncomputable def kmask (fwidth : ℝ) (w : ℕ) : List (ℕ × ℕ) :=
  match initImg .angular (kview fwidth) w 1 true id "vta".toList with
  | .ok ⟨_, _, some (.idx l), _, _⟩ => l
  | _ => []

/-- `vecs` of `prep_kernel`, hvsgsm.py 461 -/
noncomputable def kvecs (fwidth : ℝ) (w : ℕ) : Img V3 :=
  match initImg .angular (kview fwidth) w 1 true id "vta".toList with
  | .ok r => r.vecs
  | _ => ⟨0, 0, fun _ _ => V3.zero⟩

/-- `phi`, hvsgsm.py 462 -/
noncomputable def kphi (fwidth : ℝ) (w : ℕ) : List ℝ :=
  (kmask fwidth w).map fun c => (kview fwidth).radians ((kvecs fwidth w).at_ c.1 c.2)

/-- `oga`, hvsgsm.py 463; `pixels` does not depend on the view -/
noncomputable def koga (fwidth : ℝ) (w i j : ℕ) : ℝ := (kview fwidth).pixel2omega w (pixelCentre i j)

/-- `psfk` before its peak is set, hvsgsm.py 524-527 -/
noncomputable def rawKernel (fwidth : ℝ) (w : ℕ) (bcs : List (ℝ × ℝ)) (k : Fin w × Fin w) : ℝ :=
  putMask (fun _ _ => 0) (kmask fwidth w) ((kphi fwidth w).map (mix fb bcs)) k.1 k.2 * koga fwidth w k.1 k.2

open Classical in
/-- `np.unravel_index(psfk.argmax(), psfk.shape)`, hvsgsm.py 530: the first largest entry in row order (`none`: ValueError
for an empty array) -/
noncomputable def peak {w : ℕ} (ker : Fin w × Fin w → ℝ) : Option (Fin w × Fin w) :=
  (List.finRange w ×ˢ List.finRange w).argmax ker

/-- `psfk`, hvsgsm.py 523-532 -/
noncomputable def kernel (fwidth : ℝ) (w : ℕ) (bcs : List (ℝ × ℝ)) : Option (Fin w × Fin w → ℝ) :=
  (peak (rawKernel fwidth w bcs)).map fun pk => fixPeak (rawKernel fwidth w bcs) pk (capEg fwidth bcs)

end Verif.Gss
