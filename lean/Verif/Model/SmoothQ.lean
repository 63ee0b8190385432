import Verif.Model.Smooth
import Verif.Model.Quantile
import Mathlib.Data.Real.Archimedean

/-! `translate.non_uniform_gaussian_filter` with `amethod='median'` or quantiles, raytools/translate.py 451-563, and
`translate.weighted_quantile` for several quantiles at once (lines 403-443). Exact reals; `pdf` as in `Model/Smooth`. -/

namespace Verif.Quant
open Verif.Py

variable {K : Type} [Field K] [LinearOrder K] [IsStrictOrderedRing K] [FloorRing K]

/-- `cw[ri]` is past the end for this quantile, lines 436-438 -/
def past (ws : List K) (q : K) : Prop := ¬ close1 q ∧ ¬ leftIdx ws q + 1 < ws.length

instance (ws : List K) (q : K) : Decidable (past ws q) := inferInstanceAs (Decidable (_ ∧ _))

/-- line 442 for one of the quantiles; `dn` is 1 next to `q = 1` (line 438) -/
def interpAt (ds ws : List K) (q : K) : K :=
  if close1 q then interp ds ws (midPoint ws q) (leftIdx ws q) (leftIdx ws q) 1
  else interp ds ws (midPoint ws q) (leftIdx ws q) (leftIdx ws q + 1)
    ((cweights ws).getD (leftIdx ws q + 1) 0 - (cweights ws).getD (leftIdx ws q) 0)

/-- lines 432-443 for an array of quantiles: one index past the end sends *all* of them to `np.quantile` (lines 439-440) -/
def vecCore (ds ws : List K) (qs : List K) : Except PyErr (List K) :=
  if ws = [] then .error .IndexError
  else if qs.any (fun q => decide (past ws q)) then .ok (qs.map (npQuantile ds))
  else .ok (qs.map (interpAt ds ws))

/-- lines 430-443 after sorting -/
def vecOnSorted (s : List (K × K)) (qs : List K) (t : K) : Except PyErr (List K) :=
  vecCore ((included t s).map Prod.fst) ((included t s).map Prod.snd) qs

/-- `translate.weighted_quantile(d, weights, q=[...], t)`, raytools/translate.py 403-443: `r` is a possible outcome -/
def VecOutcome (l : List (K × K)) (qs : List K) (t : K) (r : Except PyErr (List K)) : Prop :=
  ∃ s, SortOf l s ∧ vecOnSorted s qs t = r

end Verif.Quant

namespace Verif.Smooth
open Verif.Py

/-- the argument `amethod`: 'mean', 'median', or quantiles (`none` when `astype(float)` fails), lines 478-488 -/
inductive Amethod
  | mean
  | median
  | quantiles (q : Option (List ℝ))

/-- the averaging function that results -/
inductive Method
  | mean
  | median
  | quants (qs : List ℝ)

/-- `y.size > max(y.shape)` for `M` features of `N` samples, line 492 -/
def wide (M N : ℕ) : Prop := max M N < M * N

open Classical in
/-- lines 478-496 -/
noncomputable def validate (M N : ℕ) : Amethod → Except PyErr Method
  | .mean => .ok .mean
  | .median => .ok .median
  | .quantiles none => .error .ValueError
  | .quantiles (some qs) =>
    if ¬ (∀ q ∈ qs, 0 ≤ q ∧ q ≤ 1) then .error .ValueError
    else if wide M N ∧ 1 < qs.length then .error .ValueError
    else .ok (.quants qs)

/-- the quantiles asked for (`weighted_median` is `q=.5`, lines 446-448) -/
noncomputable def Method.qs : Method → List ℝ
  | .mean => []
  | .median => [1 / 2]
  | .quants qs => qs

/-- (value, weight) pairs of a window with one feature, line 503 -/
def pairsAt (pdf : ℝ → ℝ → ℝ → ℝ) (x0 sp : ℝ) (win : Samples) : List (ℝ × ℝ) :=
  win.map fun p => (p.2.getD 0 0, pdf x0 sp p.1)

/-- `np.full(len(q), mu)`, line 515: `mu` has one entry per feature and is broadcast -/
def spread (k : ℕ) (mu : List ℝ) : Except PyErr (List ℝ) :=
  if mu.length = 1 then .ok (List.replicate k (mu.headD 0))
  else if mu.length = k then .ok mu else .error .ValueError

/-- lines 514-515: only with quantiles in the keyword arguments -/
def respread (m : Method) (mu : List ℝ) : Except PyErr (List ℝ) :=
  match m with
  | .quants qs => spread qs.length mu
  | _ => .ok mu

/-- `_nugf_x`, lines 498-516, for a median or quantiles; `r` is a possible outcome. The values of all features are
flattened but the weights are not repeated (lines 426-429), so that a second feature raises `IndexError`. -/
def QuantAt (pdf : ℝ → ℝ → ℝ → ℝ) (m : Method) (M : ℕ) (sp : ℝ) (arr : Bool) (x0 : ℝ) (win : Samples)
    (r : Except PyErr (List ℝ)) : Prop :=
  if 0 < (weights pdf x0 sp win).sum then
    (if 1 < M then r = .error .IndexError else Quant.VecOutcome (pairsAt pdf x0 sp win) m.qs 0 r)
  else r = if arr then fallback M x0 win >>= respread m else .error .IndexError

/-- `_nugf_i` / `_nugf_i_bw`, lines 518-520 and 529-533 -/
def SelfQ (pdf : ℝ → ℝ → ℝ → ℝ) (m : Method) (M : ℕ) (sp : ℝ) (bw : Option ℕ) (s : Samples) (i : ℕ)
    (r : Except PyErr (List ℝ)) : Prop :=
  match bw with
  | none => QuantAt pdf m M sp false (s.getD i (0, [])).1 s r
  | some b => QuantAt pdf m M sp true (s.getD i (0, [])).1 (window s i b) r

/-- `_nugf_x` / `_nugf_x_bw`, lines 498-516 and 522-527 -/
def ResampQ (pdf : ℝ → ℝ → ℝ → ℝ) (m : Method) (M : ℕ) (sp : ℝ) (bw : Option ℕ) (s : Samples) (x0 : ℝ)
    (r : Except PyErr (List ℝ)) : Prop :=
  match bw with
  | none => QuantAt pdf m M sp true x0 s r
  | some b => QuantAt pdf m M sp true x0 (window s (searchLeft x0 s) b) r

/-- `np.apply_along_axis`, line 558: one call after the other, the first exception ends it -/
inductive Each {β γ : Type} (R : β → Except PyErr γ → Prop) : List β → Except PyErr (List γ) → Prop
  | nil : Each R [] (.ok [])
  | fail {a l e} : R a (.error e) → Each R (a :: l) (.error e)
  | ok {a l b bs} : R a (.ok b) → Each R l (.ok bs) → Each R (a :: l) (.ok (b :: bs))
  | later {a l b e} : R a (.ok b) → Each R l (.error e) → Each R (a :: l) (.error e)

/-- the calls for all output points, lines 545-558, after sorting -/
def RunQ (pdf : ℝ → ℝ → ℝ → ℝ) (m : Method) (M : ℕ) (sp : ℝ) (bw : Option ℕ) (xr : Option (List ℝ)) (s : Samples)
    (r : Except PyErr (List (List ℝ))) : Prop :=
  match xr with
  | none => Each (SelfQ pdf m M sp bw s) (List.range s.length) r
  | some xs => Each (ResampQ pdf m M sp bw s) xs r

/-- `non_uniform_gaussian_filter(x, y, xr, sigma, bw=bw, amethod=a)`, raytools/translate.py 451-563, for a given
(already scaled) `sigma` and at least one feature: `r` is a possible outcome; one list of values per output point (the
number of dimensions of the result is not modelled). As for the mean, the results are in increasing order of `x`. -/
def SmoothQ (pdf : ℝ → ℝ → ℝ → ℝ) (a : Amethod) (M : ℕ) (sp : ℝ) (bw : Option ℕ) (xr : Option (List ℝ)) (s : Samples)
    (r : Except PyErr (List (List ℝ))) : Prop :=
  match validate M s.length a with
  | .error e => r = .error e
  | .ok .mean => r = smooth pdf M sp bw xr s
  | .ok m => RunQ pdf m M sp bw xr (sortX s) r

end Verif.Smooth
