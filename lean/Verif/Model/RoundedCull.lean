import Verif.Model.Binary64
import Verif.Model.Cull

/-! `translate.cull_vectors` (raytools/translate.py 645-676) in double precision. scipy compares squared distances with the
squared tolerance (`query_ball_tree` with `p=2`, line 666), each operation rounded. Simplifications: the exponent is
unbounded (Model/Binary64); skipping whole branches of the tree does not change which pairs are found. -/

namespace Verif.Fp
open Verif.Geo Verif.Cull

variable (A : Arith)

/-- the squared distance of two vectors, added up coordinate by coordinate -/
noncomputable def dist2F (u v : V3) : ℝ :=
  A.add (A.add (A.mul (A.sub u.x v.x) (A.sub u.x v.x)) (A.mul (A.sub u.y v.y) (A.sub u.y v.y)))
    (A.mul (A.sub u.z v.z) (A.sub u.z v.z))

/-- two vectors are found to be within the tolerance -/
def NearF (tol : ℝ) (u v : V3) : Prop := dist2F A u v ≤ A.mul tol tol

open Classical in
/-- one entry of `pkd.query_ball_tree(pkd, tol, 2)`, line 666 -/
noncomputable def ballF (vecs : List V3) (tol : ℝ) (j : ℕ) : List ℕ :=
  (List.range vecs.length).filter fun i => decide (NearF A tol (vecs.getD j ⟨0, 0, 0⟩) (vecs.getD i ⟨0, 0, 0⟩))

/-- `translate.cull_vectors`, raytools/translate.py 645-676 -/
noncomputable def cullF (vecs : List V3) (tol : ℝ) : List Bool :=
  cullPairs vecs.length ((List.range vecs.length).map (ballF A vecs tol))

end Verif.Fp
