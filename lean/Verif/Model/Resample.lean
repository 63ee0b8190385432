import Verif.Model.Take
import Mathlib.Data.Rat.Floor
import Mathlib.Data.Int.Log
import Mathlib.Data.Real.Basic
import Mathlib.Algebra.BigOperators.Group.Finset.Basic

/-! `translate.resample`, raytools/translate.py 355-396, with the parts of NumPy and scipy.ndimage it uses.
Entries are exact reals; the scale factors go through a rounding function `fl` (the identity for exact
arithmetic, `fl64` for IEEE doubles), because they are truncated to integers. -/

namespace Verif.Resamp
open Verif.Py Verif.Take

/-- round to nearest with a 53 bit significand (positive numbers in the normal range; the exponent range is not
limited and ties go upwards) -/
def fl64 (x : ℚ) : ℚ := round (x / 2 ^ (Int.log 2 x - 52)) * 2 ^ (Int.log 2 x - 52)

/-- `rs = np.array(ts)/np.array(samps.shape)`, line 377 -/
def ratios (fl : ℚ → ℚ) (ts shape : List ℕ) : List ℚ := List.zipWith (fun (t s : ℕ) => fl ((t : ℚ) / s)) ts shape

/-- `float -> int` conversion (truncation; the values are not negative here) -/
def trunc (x : ℚ) : ℕ := ⌊x⌋₊

/-- `np.repeat(samps, r, i)`, line 380 -/
def repeatAx (a : Arr ℝ) (r i : ℕ) : Arr ℝ :=
  ⟨a.shape.set i (a.shape.getD i 0 * r), fun idx => a.entry (idx.set i (idx.getD i 0 / r))⟩

/-- `for i in range(len(rs)): samps = np.repeat(samps, rs[i], i)`, lines 379-380; NumPy truncates the float count -/
def upLoop : Arr ℝ → ℕ → List ℚ → Arr ℝ
  | a, _, [] => a
  | a, i, r :: rs => upLoop (repeatAx a (trunc r) i) (i + 1) rs

/-- the 'reflect' extension of an axis of length `n`: `d c b a | a b c d | d c b a` -/
def refl (n : ℕ) (j : ℤ) : ℕ :=
  if j % (2 * n) < n then (j % (2 * n)).toNat else (2 * n - 1 - j % (2 * n)).toNat

/-- `scipy.ndimage.uniform_filter1d(a, s, axis=i, origin=o)`: the mean of `s` entries starting
`s//2 + o` before the position; axes of size ≤ 1 are skipped by `uniform_filter` -/
noncomputable def uniAx (a : Arr ℝ) (s : ℕ) (o : ℤ) (i : ℕ) : Arr ℝ :=
  if s ≤ 1 then a else
  ⟨a.shape, fun idx => (∑ t ∈ Finset.range s,
    a.entry (idx.set i (refl (a.shape.getD i 0) ((idx.getD i 0 : ℤ) - s / 2 - o + t)))) / s⟩

/-- `uniform_filter(samps, rs, origin=og)`, line 388: axis by axis; `og = (-rs/2).astype(int)`, line 387 -/
noncomputable def uniLoop : Arr ℝ → ℕ → List ℕ → Arr ℝ
  | a, _, [] => a
  | a, i, s :: rs => uniLoop (uniAx a s (-((s / 2 : ℕ) : ℤ)) i) (i + 1) rs

/-- `np.take(samps, np.arange(0, samps.shape[i], j), i)`, line 390 -/
def strideAx (a : Arr ℝ) (j i : ℕ) : Arr ℝ :=
  ⟨a.shape.set i ((a.shape.getD i 0 + j - 1) / j), fun idx => a.entry (idx.set i (idx.getD i 0 * j))⟩

/-- lines 389-390; `np.arange` with step 0 raises `ZeroDivisionError` -/
def strideLoop : Arr ℝ → ℕ → List ℕ → Except PyErr (Arr ℝ)
  | a, _, [] => .ok a
  | a, i, j :: rs => if j = 0 then .error .ZeroDivisionError else strideLoop (strideAx a j i) (i + 1) rs

/-- `(1/rs).astype(int)`, line 386 -/
def invs (fl : ℚ → ℚ) (rs : List ℚ) : List ℕ := rs.map fun r => trunc (fl (1 / r))

/-- centred `uniform_filter(samps, int(radius))`, line 395, the same size on every axis -/
noncomputable def boxLoop : Arr ℝ → ℕ → ℕ → Arr ℝ
  | a, _, 0 => a
  | a, s, n + 1 => uniAx (boxLoop a s n) s 0 n

/-- smoothing after repeating, lines 381-384; `gf` stands for `scipy.ndimage.gaussian_filter` (`Model/Gauss`) -/
def smoothUp (gf : List ℚ → Arr ℝ → Arr ℝ) (gauss : Bool) (radius : Option (List ℚ)) (rs : List ℚ) (a : Arr ℝ) : Arr ℝ :=
  if gauss then gf (radius.getD (rs.map (· - 1))) a else a

/-- lines 391-395, equal shapes -/
noncomputable def smoothSame (gf : List ℚ → Arr ℝ → Arr ℝ) (gauss : Bool) (radius : Option (List ℚ)) (a : Arr ℝ) : Arr ℝ :=
  match radius with
  | none => a
  | some r => if gauss then gf r a else boxLoop a (trunc (r.headD 0)) a.shape.length

/-- `translate.resample`, raytools/translate.py 355-396. `radius` is given as a list (a number is a one-entry list).
Simplification: the product of the ratios is compared with 1 exactly. -/
noncomputable def resample (fl : ℚ → ℚ) (gf : List ℚ → Arr ℝ → Arr ℝ) (a : Arr ℝ) (ts : Option (List ℕ)) (gauss : Bool)
    (radius : Option (List ℚ)) : Except PyErr (Arr ℝ) :=
  if (ratios fl (ts.getD a.shape) a.shape).prod > 1 then
    .ok (smoothUp gf gauss radius (ratios fl (ts.getD a.shape) a.shape)
      (upLoop a 0 (ratios fl (ts.getD a.shape) a.shape)))
  else if (ratios fl (ts.getD a.shape) a.shape).prod < 1 then
    strideLoop (uniLoop a 0 (invs fl (ratios fl (ts.getD a.shape) a.shape))) 0
      (invs fl (ratios fl (ts.getD a.shape) a.shape))
  else .ok (smoothSame gf gauss radius a)

end Verif.Resamp
