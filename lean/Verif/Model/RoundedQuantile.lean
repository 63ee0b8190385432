import Verif.Model.Binary64
import Verif.Model.Quantile

/-! `translate.weighted_quantile` (raytools/translate.py 403-443) in rounded arithmetic, after sorting and the selection
`w > t`: every operation of the code is a rounded operation, in the order of the code. `np.quantile`, the fallback of
line 441, is a parameter; `np.isclose(q, 1)` is exact. -/

namespace Verif.Fp
open Verif.Py Verif.Quant

variable (A : Arith)

/-- `np.cumsum` after the first entry -/
noncomputable def cumF (acc : ℝ) : List ℝ → List ℝ
  | [] => []
  | w :: ws => A.add acc w :: cumF (A.add acc w) ws

/-- `cw = np.cumsum(w); cw = cw - cw[0]`, lines 432-433 -/
noncomputable def cwF : List ℝ → List ℝ
  | [] => []
  | w :: ws => (w :: cumF A w ws).map fun c => A.sub c w

/-- `midp = np.asarray(q) * cw[-1]`, line 434 -/
noncomputable def midF (ws : List ℝ) (q : ℝ) : ℝ := A.mul q ((cwF A ws).getLastD 0)

open Classical in
/-- `np.searchsorted(cw, midp, side='right') - 1`, line 435 -/
noncomputable def leftF (ws : List ℝ) (q : ℝ) : ℕ := (cwF A ws).countP (fun c => decide (c ≤ midF A ws q)) - 1

/-- line 443 -/
noncomputable def interpF (ds ws : List ℝ) (q : ℝ) (l r : ℕ) (dn : ℝ) : ℝ :=
  A.add (ds.getD l 0) (A.div (A.mul (A.sub (ds.getD r 0) (ds.getD l 0)) (A.sub (midF A ws q) ((cwF A ws).getD l 0))) dn)

open Classical in
/-- lines 432-443 -/
noncomputable def quantF (np : List ℝ → ℝ → ℝ) (ds ws : List ℝ) (q : ℝ) : Except PyErr ℝ :=
  if ws = [] then .error .IndexError
  else if close1 q then .ok (interpF A ds ws q (leftF A ws q) (leftF A ws q) 1)
  else if leftF A ws q + 1 < ws.length then
    .ok (interpF A ds ws q (leftF A ws q) (leftF A ws q + 1)
      (A.sub ((cwF A ws).getD (leftF A ws q + 1) 0) ((cwF A ws).getD (leftF A ws q) 0)))
  else .ok (np ds q)

end Verif.Fp
