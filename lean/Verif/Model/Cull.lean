import Mathlib.Topology.MetricSpace.Pseudo.Defs
import Mathlib.Data.List.Basic
import Mathlib.Tactic.Common

/-! `translate.cull_vectors`, raytools/translate.py 645-676. -/

namespace Verif.Cull

/-- One entry of `pkd.query_ball_tree(pkd, tol, 2)` (line 666): the indices of the points within `tol`.
scipy returns each list sorted; that ordering is part of the trusted reading (see `C38_order_matters`).
Simplification: float distances are exact (any pseudo-metric; rounded ones are in Model/RoundedCull). Meant for `tol ≥ 0`:
scipy squares the tolerance. -/
noncomputable def ball {α : Type} [PseudoMetricSpace α] [Inhabited α] (vecs : List α) (tol : ℝ) (j : ℕ) : List ℕ :=
  open Classical in
  (List.range vecs.length).filter fun i => decide (dist (vecs.getD j default) (vecs.getD i default) ≤ tol)

noncomputable def balls {α : Type} [PseudoMetricSpace α] [Inhabited α] (vecs : List α) (tol : ℝ) : List (List ℕ) :=
  (List.range vecs.length).map (ball vecs tol)

/-- loop state: `flt` and `flagged`, lines 667-669 -/
structure St where
  flt : List Bool
  flagged : List ℕ

/-- `q = [i for i in p[1:] if i != j]`, line 673 -/
def purge (j : ℕ) (p : List ℕ) : List ℕ := p.tail.filter (fun i => decide (i ≠ j))

/-- `flt[q] = False`, line 674 -/
def clear (flt : List Bool) (q : List ℕ) : List Bool := q.foldl (fun f i => f.set i false) flt

/-- one pass of the loop body, lines 670-675 -/
def step (s : St) (j : ℕ) (p : List ℕ) : St :=
  if j ∉ s.flagged ∧ p.length > 1 then ⟨clear s.flt (purge j p), s.flagged ++ purge j p⟩ else s

/-- `for j, p in enumerate(pairs)`, starting at index `j` -/
def loop : St → ℕ → List (List ℕ) → St
  | s, _, [] => s
  | s, j, p :: ps => loop (step s j p) (j + 1) ps

/-- the function on given neighbour lists -/
def cullPairs (n : ℕ) (pairs : List (List ℕ)) : List Bool := (loop ⟨List.replicate n true, []⟩ 0 pairs).flt

/-- `translate.cull_vectors`, raytools/translate.py 645-676 -/
noncomputable def cullVectors {α : Type} [PseudoMetricSpace α] [Inhabited α] (vecs : List α) (tol : ℝ) : List Bool :=
  cullPairs vecs.length (balls vecs tol)

end Verif.Cull
