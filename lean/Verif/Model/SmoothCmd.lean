import Verif.Model.Smooth
import Verif.Model.Mapper
import Mathlib.Analysis.SpecialFunctions.Pow.Real
import Mathlib.Analysis.SpecialFunctions.Gaussian.GaussianIntegral

/-! The `smooth` command, raytools/cli.py 244-282: columns of a table, a width, then either a density (`scipy.stats.gaussian_kde`)
or `non_uniform_gaussian_filter` without bandwidth. Simplifications: exact reals (weights do not underflow); a width that is not
positive, for which `scipy.stats.norm(...).pdf` is nan and the test `np.sum(weights) > 0` fails, gives weights 0; the
`LinAlgError` of `gaussian_kde` counts as `ValueError` (its base class in numpy). -/

namespace Verif.SmoothCmd
open Verif.Py Verif.Smooth

/-- a table of numbers with its number of columns -/
structure Mat where
  width : ℕ
  rows : List (List ℝ)

/-- `np.loadtxt(dataf)` and lines 264-265: tables of one row or one column are squeezed to one dimension, which becomes a column;
a single number has no dimension left and cannot be indexed; rows of different lengths are refused. -/
def load : List (List ℝ) → Except PyErr Mat
  | [] => .ok ⟨1, []⟩
  | [[_]] => .error .IndexError
  | [r] => .ok ⟨1, r.map fun v => [v]⟩
  | r :: rs => if rs.all fun q => q.length = r.length then .ok ⟨r.length, r :: rs⟩ else .error .ValueError

/-- `data[:, c]` for a column number `c` -/
def colIdx (w : ℕ) (c : ℤ) : Except PyErr ℕ :=
  if -(w : ℤ) ≤ c ∧ c < w then .ok (if c < 0 then (w + c).toNat else c.toNat) else .error .IndexError

/-- lines 266-267: the chosen columns -/
def choose (x : ℤ) (y : List ℤ) (m : Mat) : Except PyErr Samples :=
  (colIdx m.width x).bind fun i => (y.mapM (colIdx m.width)).map fun js =>
    m.rows.map fun r => (r.getD i 0, js.map fun j => r.getD j 0)

/-- `np.linspace(a, b, n)` -/
noncomputable def linspace (a b : ℝ) (n : ℕ) : List ℝ := (List.range n).map fun i : ℕ => a + (b - a) * ((i : ℝ) / ((n : ℝ) - 1))

/-- smallest and largest entry -/
noncomputable def least (l : List ℝ) : ℝ := l.foldr min (l.headD 0)
noncomputable def largest (l : List ℝ) : ℝ := l.foldr max (l.headD 0)

/-- lines 268-269: the output points -/
noncomputable def outPoints (xout dx : List ℝ) : Except PyErr (List ℝ) :=
  match xout with
  | [n] =>
    if dx = [] then .error .ValueError
    else if Map.trunc n < 0 then .error .ValueError
    else .ok (linspace (least dx) (largest dx) (Map.trunc n).toNat)
  | _ => .ok xout

noncomputable def mean (l : List ℝ) : ℝ := l.sum / l.length

/-- `np.cov(l)` (for one value 0 instead of nan: both give no positive width) -/
noncomputable def cov (l : List ℝ) : ℝ := (l.map fun x => (x - mean l) ^ 2).sum / ((l.length : ℝ) - 1)

/-- lines 270-272; `0 ** (-.4)` raises -/
noncomputable def widthOf (sigma : Option ℝ) (sf : ℝ) (dx : List ℝ) : Except PyErr ℝ :=
  match sigma with
  | some s => .ok (s * sf)
  | none => if dx = [] then .error .ZeroDivisionError else .ok (Real.sqrt (cov dx * (dx.length : ℝ) ^ (-(0.4 : ℝ))) * sf)

/-- the normal density with width `h` at distance `d` -/
noncomputable def gauss (h d : ℝ) : ℝ := Real.exp (-(d / h) ^ 2 / 2) / (h * Real.sqrt (2 * Real.pi))

/-- `scipy.stats.norm(loc=x0, scale=sp).pdf(x)` as the code uses it -/
noncomputable def pdf (x0 sp x : ℝ) : ℝ := if 0 < sp then gauss sp (x - x0) else 0

/-- `stats.gaussian_kde(dx, bw_method=f)(x)`: a number as `bw_method` is a factor of the standard deviation of the data
(`covariance = _data_covariance * factor**2`) -/
noncomputable def kde (dx : List ℝ) (f x : ℝ) : ℝ := (dx.map fun xi => gauss (Real.sqrt (cov dx * f ^ 2)) (x - xi)).sum / dx.length

/-- lines 274-276: `gaussian_kde` wants more than one value, not all of them equal, and a factor that is not 0 -/
noncomputable def density (dx : List ℝ) (f : ℝ) (xs : List ℝ) : Except PyErr (List (List ℝ)) :=
  if dx.length ≤ 1 ∨ cov dx = 0 ∨ f = 0 then .error .ValueError else .ok (xs.map fun x => [kde dx f x])

/-- lines 277-280: `np.apply_along_axis` refuses an empty axis -/
noncomputable def filtered (M : ℕ) (sp : ℝ) (xs : List ℝ) (s : Samples) : Except PyErr (List (List ℝ)) :=
  if xs = [] then .error .ValueError else smooth pdf M sp none (some xs) s

/-- lines 268-282, for samples of `M` features: the printed rows -/
noncomputable def smoothData (xout : List ℝ) (M : ℕ) (sigma : Option ℝ) (sf : ℝ) (s : Samples) : Except PyErr (List (ℝ × List ℝ)) :=
  (outPoints xout (s.map Prod.fst)).bind fun xs => (widthOf sigma sf (s.map Prod.fst)).bind fun w =>
    (if M = 0 ∨ s = [] then density (s.map Prod.fst) w xs else filtered M w xs s).map (xs.zip ·)

/-- raytools/cli.py 257-282 -/
noncomputable def smoothCmd (x : ℤ) (xout : List ℝ) (y : List ℤ) (sigma : Option ℝ) (sf : ℝ) (rows : List (List ℝ)) :
    Except PyErr (List (ℝ × List ℝ)) :=
  (load rows).bind fun m => (choose x y m).bind fun s => smoothData xout y.length sigma sf s

end Verif.SmoothCmd
