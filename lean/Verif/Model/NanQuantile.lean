import Verif.Model.Quantile

/-! `translate.weighted_quantile` (raytools/translate.py 403-443) on data and weights with missing entries: `none` is NaN.
Every operation with NaN gives NaN and every comparison with it is false. `np.argsort` puts NaN last. -/

namespace Verif.Quant
open Verif.Py

variable {K : Type} [Field K] [LinearOrder K] [FloorRing K]

/-- the order after `np.argsort(d)`, lines 427-429: numbers first -/
def SortedN (s : List (Option K × Option K)) : Prop :=
  s.Pairwise fun a b => ∀ y, b.1 = some y → ∃ x, a.1 = some x ∧ x ≤ y

/-- `d[w > t]`, `w[w > t]`, lines 430-431 -/
def includedN (t : K) (s : List (Option K × Option K)) : List (Option K × K) :=
  s.filterMap fun p => match p.2 with
    | some w => if w > t then some (p.1, w) else none
    | none => none

/-- line 442 -/
def interpN (ds : List (Option K)) (ws : List K) (m : K) (l r : ℕ) (dn : K) : Option K := do
  let a ← ds.getD l none
  let b ← ds.getD r none
  return a + (b - a) * (m - (cweights ws).getD l 0) / dn

/-- `np.quantile(d, q)` (line 440): NaN when an entry is NaN -/
def npQuantileN (ds : List (Option K)) (q : K) : Option K :=
  if ∀ d ∈ ds, d.isSome then some (npQuantile (ds.map fun d => d.getD 0) q) else none

/-- lines 432-443 -/
def coreN (ds : List (Option K)) (ws : List K) (q : K) : Except PyErr (Option K) :=
  if ws = [] then .error .IndexError
  else if close1 q then .ok (interpN ds ws (midPoint ws q) (leftIdx ws q) (leftIdx ws q) 1)
  else if leftIdx ws q + 1 < ws.length then
    .ok (interpN ds ws (midPoint ws q) (leftIdx ws q) (leftIdx ws q + 1)
      ((cweights ws).getD (leftIdx ws q + 1) 0 - (cweights ws).getD (leftIdx ws q) 0))
  else .ok (npQuantileN ds q)

/-- the computation after sorting, lines 430-443 -/
def onSortedN (s : List (Option K × Option K)) (q t : K) : Except PyErr (Option K) :=
  coreN ((includedN t s).map Prod.fst) ((includedN t s).map Prod.snd) q

end Verif.Quant
