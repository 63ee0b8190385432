import Verif.Model.Resample
import Verif.Model.Gss
import Mathlib.Analysis.SpecialFunctions.Exp

/-! `scipy.ndimage.gaussian_filter` with the options the code uses (mode 'reflect', order 0), as called in
raytools/translate.py 384, 393 and raytools/evaluate/hvsgsm.py 573-574, 606-607, 705-706. Exact reals. -/

namespace Verif.Gauss
open Verif.Take Verif.Resamp

/-- `lw = int(truncate * sd + 0.5)` -/
noncomputable def radius (trunc σ : ℝ) : ℕ := ⌊trunc * σ + 1 / 2⌋₊

/-- `phi_x = exp(-0.5 / sigma2 * x ** 2)` -/
noncomputable def phi (σ : ℝ) (x : ℤ) : ℝ := Real.exp (-(1 / 2) / σ ^ 2 * (x : ℝ) ^ 2)

/-- `_gaussian_kernel1d(sigma, 0, lw)`: `phi_x / phi_x.sum()` at offset `x` -/
noncomputable def kernel (σ : ℝ) (r : ℕ) (x : ℤ) : ℝ := phi σ x / ∑ y ∈ Finset.Icc (-(r : ℤ)) r, phi σ y

/-- `correlate1d(input, weights[::-1], mode='reflect')` on a line of `n` entries at position `p`; widths up to 1e-15 are
skipped by `gaussian_filter` -/
noncomputable def blurLine (n : ℕ) (σ trunc : ℝ) (f : ℕ → ℝ) (p : ℕ) : ℝ :=
  if σ ≤ 1e-15 then f p
  else ∑ k ∈ Finset.Icc (-(radius trunc σ : ℤ)) (radius trunc σ), kernel σ (radius trunc σ) (-k) * f (refl n ((p : ℤ) + k))

/-- `gaussian_filter1d(a, sigma, axis=i)` -/
noncomputable def blurAx (trunc : ℝ) (a : Arr ℝ) (σ : ℝ) (i : ℕ) : Arr ℝ :=
  ⟨a.shape, fun idx => blurLine (a.shape.getD i 0) σ trunc (fun p => a.entry (idx.set i p)) (idx.getD i 0)⟩

/-- one axis after the other -/
noncomputable def blurLoop (trunc : ℝ) : Arr ℝ → ℕ → List ℝ → Arr ℝ
  | a, _, [] => a
  | a, i, σ :: σs => blurLoop trunc (blurAx trunc a σ i) (i + 1) σs

/-- `normalize_sequence`: a number (a list of one entry, see `Resamp.resample`) is used for every axis. A list whose length
is not the number of axes is refused by scipy; not modelled, theorems assume one entry or one per axis. -/
noncomputable def sigmas (rank : ℕ) (rs : List ℚ) : List ℝ :=
  if rs.length = 1 then List.replicate rank ((rs.headD 0 : ℚ) : ℝ) else rs.map fun r => ((r : ℚ) : ℝ)

/-- `gaussian_filter(samps, radius)`, translate.py 384 and 393, default `truncate=4` -/
noncomputable def gaussianFilter (rs : List ℚ) (a : Arr ℝ) : Arr ℝ := blurLoop 4 a 0 (sigmas a.shape.length rs)

/-- an image of `n` by `m` pixels as a function of two numbers -/
def ext {n m : ℕ} (v : Fin n × Fin m → ℝ) (p q : ℕ) : ℝ :=
  if h : p < n ∧ q < m then v (⟨p, h.1⟩, ⟨q, h.2⟩) else 0

/-- `gaussian_filter(img, sigma, truncate=...)` of an image, hvsgsm.py 573-574, 606-607, 705-706: first axis, then second -/
noncomputable def blur2 (n m : ℕ) : Gss.Filter (Fin n × Fin m) := fun σ trunc v i =>
  blurLine m σ trunc (fun q => blurLine n σ trunc (fun p => ext v p q) i.1) i.2

/-- `scipy.ndimage.convolve(img, ker)` with mode 'reflect', hvsgsm.py 535: entry `(a, b)` of a kernel of `w` by `w'`
entries is at offset `(w // 2 - a, w' // 2 - b)` (scipy moves the origin by one for an even number of entries); the pixel it
meets when the kernel is at `(i, j)`. The remainder does nothing, `refl` is a position. -/
def src {n m w w' : ℕ} (i : Fin n × Fin m) (k : Fin w × Fin w') : Fin n × Fin m :=
  (⟨refl n ((i.1 : ℤ) + (w / 2 : ℕ) - k.1) % n, Nat.mod_lt _ i.1.pos⟩,
   ⟨refl m ((i.2 : ℤ) + (w' / 2 : ℕ) - k.2) % m, Nat.mod_lt _ i.2.pos⟩)

end Verif.Gauss
