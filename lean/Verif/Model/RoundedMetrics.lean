import Verif.Model.Rounded
import Verif.Model.Metric

/-! The sums of a metric set in rounded arithmetic: every product, sum and quotient of the code is a rounded operation.
The order in which a library adds the entries of an array is left open. Simplifications: the directions, solid angles and
the selection of rays are those of the constructed set, the products of `einsum` are taken from left to right, and no
products and sums are fused. -/

namespace Verif.Fp
open Verif.Geo Verif.Map Verif.Metric Real

variable (A : Arith)

/-- `s` is a rounded sum of the list, in some order and grouping with at most `k` additions behind each other:
`np.sum`, and the summation of `np.einsum` -/
inductive SumTree : ℕ → List ℝ → ℝ → Prop
  | nil : SumTree 0 [] 0
  | one (x : ℝ) : SumTree 0 [x] x
  | add {k l : ℕ} {xs ys : List ℝ} {a b : ℝ} : SumTree k xs a → SumTree l ys b →
      SumTree (max k l + 1) (xs ++ ys) (A.add a b)
  | perm {k : ℕ} {xs ys : List ℝ} {a : ℝ} : xs.Perm ys → SumTree k xs a → SumTree k ys a

/-- `ctheta`, angularmixin.py 263-267, basemetricset.py 204-208, one ray -/
noncomputable def ctF (s : MS) (r : Ray) : ℝ := clip1 (A.dot3 s.m.dxyz r.v)

/-- `np.einsum('i,i,i->', ctheta, lum, omega) * scale` of some rays, basemetricset.py 238-239, metricset.py 138-139 -/
def IllumF (k : ℕ) (s : MS) (rays : List Ray) (x : ℝ) : Prop :=
  ∃ t, SumTree A k (rays.map fun r => A.mul (A.mul (ctF A s r) r.lum) r.om) t ∧ x = A.mul t s.o.scale

/-- `np.sum(og)`, basemetricset.py 200 -/
def AreaF (k : ℕ) (s : MS) (x : ℝ) : Prop := SumTree A k (s.rays.map Ray.om) x

/-- `avglum`, basemetricset.py 245-246; `a` is `self.view_area` -/
def AvgF (k : ℕ) (s : MS) (a x : ℝ) : Prop :=
  ∃ t, SumTree A k (s.rays.map fun r => A.mul r.lum r.om) t ∧ x = A.div (A.mul t s.o.scale) a

/-- `a2lum` of `gcr`, basemetricset.py 272-273 -/
def Avg2F (k : ℕ) (s : MS) (a x : ℝ) : Prop :=
  ∃ t, SumTree A k (s.rays.map fun r => A.mul (A.mul r.lum r.lum) r.om) t ∧
    x = A.div (A.mul t (A.mul s.o.scale s.o.scale)) a

open Classical in
/-- `gcr`, basemetricset.py 272-277 -/
def GcrF (k : ℕ) (s : MS) (a x : ℝ) : Prop :=
  ∃ l av a2, l ≤ k ∧ AvgF A l s a av ∧ Avg2F A k s a a2 ∧ x = if av > 0 then A.div a2 (A.mul av av) else 1

/-- `backlum`, metricset.py 157-161 -/
def BackF (k : ℕ) (s : MS) (x : ℝ) : Prop :=
  ∃ l e es, l ≤ k ∧ IllumF A k s s.rays e ∧ IllumF A l s s.sources es ∧ x = A.div (A.sub e es) A.pi

end Verif.Fp
