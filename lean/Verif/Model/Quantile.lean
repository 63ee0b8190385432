import Verif.Model.Py
import Mathlib.Algebra.Order.Floor.Ring
import Mathlib.Algebra.Order.Field.Basic
import Mathlib.Data.List.GetD

/-! `translate.weighted_quantile` and `weighted_median`, raytools/translate.py 403-448. Floats are exact elements of
an ordered field; one quantile `q ≥ 0` at a time, and `coreV` for an array of them. -/

namespace Verif.Quant
open Verif.Py

variable {K : Type} [Field K] [LinearOrder K] [IsStrictOrderedRing K] [FloorRing K]

/-- `np.isclose(q, 1)`, lines 436 and 438: `|q - 1| <= 1e-8 + 1e-5 * |1|` -/
def close1 (q : K) : Prop := |q - 1| ≤ 1 / 10 ^ 8 + 1 / 10 ^ 5

instance (q : K) : Decidable (close1 q) := inferInstanceAs (Decidable (_ ≤ _))

/-- `np.cumsum` -/
def cumsumFrom (acc : K) : List K → List K
  | [] => []
  | w :: ws => (acc + w) :: cumsumFrom (acc + w) ws

/-- `cw = np.cumsum(w); cw = cw - cw[0]`, lines 432-433 -/
def cweights (ws : List K) : List K := (cumsumFrom 0 ws).map (· - (cumsumFrom 0 ws).headD 0)

/-- `midp = q * cw[-1]`, line 434 -/
def midPoint (ws : List K) (q : K) : K := q * (cweights ws).getLastD 0

/-- `np.searchsorted(cw, midp, side='right') - 1`, line 435, for nondecreasing `cw` and `cw[0] ≤ midp` -/
def leftIdx (ws : List K) (q : K) : ℕ := (cweights ws).countP (fun c => decide (c ≤ midPoint ws q)) - 1

/-- `np.quantile(d, q)` (method 'linear') of sorted data -/
def npQuantile (ds : List K) (q : K) : K :=
  ds.getD ⌊q * (ds.length - 1 : ℕ)⌋₊ 0 +
    (ds.getD (min (⌊q * (ds.length - 1 : ℕ)⌋₊ + 1) (ds.length - 1)) 0 - ds.getD ⌊q * (ds.length - 1 : ℕ)⌋₊ 0) *
      (q * (ds.length - 1 : ℕ) - ⌊q * (ds.length - 1 : ℕ)⌋₊)

/-- line 442 -/
def interp (ds ws : List K) (m : K) (l r : ℕ) (dn : K) : K :=
  ds.getD l 0 + (ds.getD r 0 - ds.getD l 0) * (m - (cweights ws).getD l 0) / dn

/-- lines 432-443 on the included sorted data: `cw[0]` of an empty array raises, the inner `IndexError` falls back to
the unweighted quantile -/
def core (ds ws : List K) (q : K) : Except PyErr K :=
  if ws = [] then .error .IndexError
  else if close1 q then .ok (interp ds ws (midPoint ws q) (leftIdx ws q) (leftIdx ws q) 1)
  else if leftIdx ws q + 1 < ws.length then
    .ok (interp ds ws (midPoint ws q) (leftIdx ws q) (leftIdx ws q + 1)
      ((cweights ws).getD (leftIdx ws q + 1) 0 - (cweights ws).getD (leftIdx ws q) 0))
  else .ok (npQuantile ds q)

/-- `d[w > t]`, `w[w > t]`, lines 430-431 -/
def included (t : K) (s : List (K × K)) : List (K × K) := s.filter (fun p => decide (p.2 > t))

/-- the computation after sorting, lines 430-443, on (value, weight) pairs -/
def onSorted (s : List (K × K)) (q t : K) : Except PyErr K :=
  core ((included t s).map Prod.fst) ((included t s).map Prod.snd) q

/-- `si = np.argsort(d)`, lines 427-429: NumPy's default sort is not stable, so any ordering of the pairs by value may
be used -/
def SortOf (l s : List (K × K)) : Prop := s.Perm l ∧ s.Pairwise (fun a b => a.1 ≤ b.1)

/-- `translate.weighted_quantile(d, weights, q, t)`, raytools/translate.py 403-443: `r` is a possible outcome for the
(value, weight) pairs `l` -/
def Outcome (l : List (K × K)) (q t : K) (r : Except PyErr K) : Prop := ∃ s, SortOf l s ∧ onSorted s q t = r

/-- `translate.weighted_median`, raytools/translate.py 446-448 -/
def MedianOutcome (l : List (K × K)) (t : K) (r : Except PyErr K) : Prop := Outcome l (1 / 2) t r

/-- lines 432-443 for an array of quantiles: the lookup `cw[ri]` is made for all of them at once, so one index out of
range sends every quantile to the unweighted formula -/
def coreV (ds ws : List K) (qs : List K) : Except PyErr (List K) :=
  if ws = [] then .error .IndexError
  else if qs.any (fun q => decide (¬ close1 q ∧ ¬ leftIdx ws q + 1 < ws.length)) then .ok (qs.map (npQuantile ds))
  else .ok (qs.map fun q =>
    if close1 q then interp ds ws (midPoint ws q) (leftIdx ws q) (leftIdx ws q) 1
    else interp ds ws (midPoint ws q) (leftIdx ws q) (leftIdx ws q + 1)
      ((cweights ws).getD (leftIdx ws q + 1) 0 - (cweights ws).getD (leftIdx ws q) 0))

/-- `translate.weighted_quantile(d, weights, qs, t)`, raytools/translate.py 403-443, after sorting -/
def onSortedV (s : List (K × K)) (qs : List K) (t : K) : Except PyErr (List K) :=
  coreV ((included t s).map Prod.fst) ((included t s).map Prod.snd) qs

end Verif.Quant
