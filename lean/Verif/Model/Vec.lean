import Mathlib.Analysis.SpecialFunctions.Complex.Arg
import Mathlib.Analysis.SpecialFunctions.Trigonometric.Inverse
import Mathlib.Tactic.Common
import Mathlib.Tactic.Ring
import Mathlib.Tactic.Linarith
import Mathlib.Tactic.FieldSimp
import Mathlib.Tactic.Positivity
import Mathlib.Tactic.FinCases

/-! Real three-vectors, the rows of the `(N, 3)` numpy arrays of `raytools/translate.py`.

Simplification (whole file): float64 is replaced by exact real numbers; a vectorised row-wise function is
modelled by its action on one row. -/

namespace Verif.Geo

/-- One row of an `(N, 3)` array. -/
@[ext] structure V3 where
  x : ℝ
  y : ℝ
  z : ℝ

namespace V3

/-- `row[i]` -/
def get (v : V3) (i : Fin 3) : ℝ :=
  match i with
  | 0 => v.x
  | 1 => v.y
  | 2 => v.z

/-- `row[i] = a` -/
def set (v : V3) (i : Fin 3) (a : ℝ) : V3 :=
  match i with
  | 0 => ⟨a, v.y, v.z⟩
  | 1 => ⟨v.x, a, v.z⟩
  | 2 => ⟨v.x, v.y, a⟩

/-- `np.einsum("i,i", a, b)` / `np.sum(a*b)` -/
def dot (a b : V3) : ℝ := a.x * b.x + a.y * b.y + a.z * b.z

/-- `np.sum(np.square(v))` -/
def normSq (v : V3) : ℝ := v.x ^ 2 + v.y ^ 2 + v.z ^ 2

/-- `np.linalg.norm(v)` -/
noncomputable def len (v : V3) : ℝ := Real.sqrt v.normSq

/-- `s * v` -/
def smul (s : ℝ) (v : V3) : V3 := ⟨s * v.x, s * v.y, s * v.z⟩
def add (a b : V3) : V3 := ⟨a.x + b.x, a.y + b.y, a.z + b.z⟩
def sub (a b : V3) : V3 := ⟨a.x - b.x, a.y - b.y, a.z - b.z⟩
def neg (a : V3) : V3 := ⟨-a.x, -a.y, -a.z⟩
def zero : V3 := ⟨0, 0, 0⟩

/-- `v / s` -/
noncomputable def divS (v : V3) (s : ℝ) : V3 := ⟨v.x / s, v.y / s, v.z / s⟩

end V3

/-- The `axes` tuple of `uv2xyz`, `xyz2uv`, `xyz2xy` (translate.py 56, 84, 215). -/
structure Axes where
  a0 : Fin 3
  a1 : Fin 3
  a2 : Fin 3

/-- default `axes=(0, 1, 2)` -/
def Axes.std : Axes := ⟨0, 1, 2⟩

/-- `translate.norm`, raytools/translate.py 17-19, one row: `v / np.linalg.norm(v)`.
On a zero row numpy yields NaN; the real model yields 0 there (theorems assume a nonzero row). -/
noncomputable def norm (v : V3) : V3 := v.divS v.len

/-- `translate.norm1`, raytools/translate.py 22-27. -/
noncomputable def norm1 (v : V3) : V3 :=
  v.divS (if Real.sqrt v.normSq = 0 then 1 else Real.sqrt v.normSq)

/-- `np.arctan2(y, x)`: the argument of `x + iy`, in `(-π, π]`, `0` at the origin. -/
noncomputable def arctan2 (y x : ℝ) : ℝ := Complex.arg ⟨x, y⟩

/-- `np.mod(x, m)` for `m > 0`. -/
noncomputable def fmod (x m : ℝ) : ℝ := x - m * ⌊x / m⌋

/-- `np.isclose(a, b, rtol=1e-5, atol)` on finite numbers. -/
def isclose (a b atol : ℝ) : Prop := |a - b| ≤ atol + 1e-5 * |b|

end Verif.Geo
