import Verif.Model.Py
import Mathlib.Data.Real.Basic
import Mathlib.Data.List.GetD

/-! `translate.non_uniform_gaussian_filter` with `amethod='mean'`, raytools/translate.py 451-563.
The data are a list of samples (x, feature values); `pdf x0 sp x` stands for `scipy.stats.norm(loc=x0, scale=sp).pdf(x)`,
of which only non-negativity is used (it may underflow to 0). Simplification: exact reals; quantile averaging methods
and argument validation (lines 478-496) are not modelled here. -/

namespace Verif.Smooth
open Verif.Py

abbrev Samples := List (ℝ × List ℝ)

/-- `weights = n.pdf(xp)`, line 501 -/
def weights (pdf : ℝ → ℝ → ℝ → ℝ) (x0 sp : ℝ) (win : Samples) : List ℝ := win.map fun p => pdf x0 sp p.1

/-- `np.average(yp, weights=weights, axis=1)` for feature `f`, line 503 -/
noncomputable def colAvg (ws : List ℝ) (win : Samples) (f : ℕ) : ℝ :=
  (List.zipWith (fun w p => w * p.2.getD f 0) ws win).sum / ws.sum

/-- `np.searchsorted(xp, x0)` of sorted samples, line 506 -/
noncomputable def searchLeft (x0 : ℝ) (win : Samples) : ℕ := win.countP (fun p => decide (p.1 < x0))

/-- lines 512-513: `np.average((yp[:, mui], yp[:, mui-1]), axis=0, weights=(x0-xp[mui-1], xp[mui]-x0))`, one feature -/
noncomputable def lerp (x0 : ℝ) (a b : ℝ × List ℝ) : ℝ :=
  ((x0 - a.1) * b.2.getD 0 0 + (b.1 - x0) * a.2.getD 0 0) / ((x0 - a.1) + (b.1 - x0))

/-- the fall back, lines 504-513. The weights have shape (2, 1), which `np.average` accepts only when there is one
feature. -/
noncomputable def fallback (M : ℕ) (x0 : ℝ) (win : Samples) : Except PyErr (List ℝ) :=
  if searchLeft x0 win = win.length then
    (match win.getLast? with
      | none => .error .IndexError
      | some p => .ok p.2)
  else if searchLeft x0 win = 0 then .ok (win.headD (0, [])).2
  else if M = 1 then .ok [lerp x0 (win.getD (searchLeft x0 win - 1) (0, [])) (win.getD (searchLeft x0 win) (0, []))]
  else .error .TypeError

/-- `_nugf_x`, lines 498-516. `arr` tells whether `x0` is an array of one element: for a scalar `x0` the `[0]` after
`searchsorted` (line 506) raises `IndexError`. -/
noncomputable def smoothAt (pdf : ℝ → ℝ → ℝ → ℝ) (M : ℕ) (sp : ℝ) (arr : Bool) (x0 : ℝ) (win : Samples) :
    Except PyErr (List ℝ) :=
  if (weights pdf x0 sp win).sum > 0 then .ok ((List.range M).map (colAvg (weights pdf x0 sp win) win))
  else if arr then fallback M x0 win else .error .IndexError

/-- `np.clip((i - bw, i + bw), 0, len(xp))` and the slices, lines 526-527, 532-533 -/
def window (s : Samples) (i bw : ℕ) : Samples := (s.take (i + bw)).drop (i - bw)

/-- lines 536-543: sort (stably) unless already sorted -/
noncomputable def sortX (s : Samples) : Samples :=
  open Classical in
  if s.Pairwise (fun a b => a.1 ≤ b.1) then s else s.mergeSort (fun a b => decide (a.1 ≤ b.1))

/-- `_nugf_i` / `_nugf_i_bw`, lines 518-520 and 529-533 -/
noncomputable def selfAt (pdf : ℝ → ℝ → ℝ → ℝ) (M : ℕ) (sp : ℝ) (bw : Option ℕ) (s : Samples) (i : ℕ) :
    Except PyErr (List ℝ) :=
  match bw with
  | none => smoothAt pdf M sp false (s.getD i (0, [])).1 s
  | some b => smoothAt pdf M sp true (s.getD i (0, [])).1 (window s i b)

/-- `_nugf_x` / `_nugf_x_bw`, lines 498-516 and 522-527 -/
noncomputable def resampAt (pdf : ℝ → ℝ → ℝ → ℝ) (M : ℕ) (sp : ℝ) (bw : Option ℕ) (s : Samples) (x0 : ℝ) :
    Except PyErr (List ℝ) :=
  match bw with
  | none => smoothAt pdf M sp true x0 s
  | some b => smoothAt pdf M sp true x0 (window s (searchLeft x0 s) b)

/-- `non_uniform_gaussian_filter(x, y, xr, sigma, bw=bw, amethod='mean')`, raytools/translate.py 535-563, for a given
(already scaled) `sigma`; one list of feature values per output point.
The final test `resample is None` (line 561) refers to the module's function `resample`, never to `xr`, so the result is
never put back into the input order. -/
noncomputable def smooth (pdf : ℝ → ℝ → ℝ → ℝ) (M : ℕ) (sp : ℝ) (bw : Option ℕ) (xr : Option (List ℝ)) (s : Samples) :
    Except PyErr (List (List ℝ)) :=
  match xr with
  | none => (List.range (sortX s).length).mapM (selfAt pdf M sp bw (sortX s))
  | some xs => xs.mapM (resampAt pdf M sp bw (sortX s))

end Verif.Smooth
