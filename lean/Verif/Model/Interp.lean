import Verif.Model.Align

/-! The interpolator of `ViewMapper.transform_to`, raytools/mapper/viewmapper.py 124-137. -/

namespace Verif.Map

/-- `RegularGridInterpolator((x, x), img, bounds_error=False, method=..., fill_value=None)` with `x = np.arange(res) + .5`,
viewmapper.py 124-137: the grid of `array_rotate` (`gridInterp`) moved to the pixel centres, and extrapolated -/
noncomputable def centreInterp (nearest : Bool) (im : Img ℝ) (p : ℝ × ℝ) : ℝ :=
  gridInterp nearest none im (p.1 - 1 / 2, p.2 - 1 / 2)

/-- `transform_to` of an array of whole numbers: the interpolator works with floats, but its values are stored in
`np.zeros_like(imarray)`, viewmapper.py 121, 137, an array of whole numbers -/
noncomputable def View.transformToInt (m other : View) (nearest : Bool) (im : Img ℤ) (i j : ℕ) : Except Py.PyErr ℤ :=
  (m.transformTo other (centreInterp nearest) ⟨im.n, im.m, fun a b => (im.at_ a b : ℝ)⟩ i j).map trunc

end Verif.Map
