import Verif.Model.Vec
import Verif.Model.Retina
import Verif.Model.Py
import Mathlib.Data.List.FinRange
import Mathlib.Algebra.BigOperators.Group.Finset.Basic

/-! Consolidation of bright pixels: `gather_strays`, `find_peak`, `normalize_peak`, raytools/imagetools.py 274-448, over
the reals.

The caller's arrays `v`, `o`, `l` are functions on `Fin n`; index arrays are lists of `Fin n`. A luminance array of
shape `(N,)` is the case of one channel of weight 1. `np.argsort` is a parameter (contract `SortOk`: nothing is
assumed about ties). The shapes of the returned arrays are in `Model/PeakOut.lean`. -/

namespace Verif.Peak
open Verif.Geo Verif.Py Real

/-- one pixel: direction, solid angle, channels -/
structure Px (k : ℕ) where
  v : V3
  o : ℝ
  c : Fin k → ℝ

/-- keyword arguments, imagetools.py 290-292; `w` is `vlambda` -/
structure Par (k : ℕ) where
  scale : ℝ
  peaka : ℝ
  peakt : ℝ
  peakr : ℝ
  blurtol : ℝ
  peakc : ℝ
  peakrad : ℝ
  blursun : Bool
  w : Fin k → ℝ

variable {k n : ℕ}

/-- column 0 of `l`, imagetools.py 293-296: `io.rgb2rad`, or the luminance itself -/
noncomputable def lum (w : Fin k → ℝ) (p : Px k) : ℝ := ∑ j, p.c j * w j

/-- `np.argsort` of the negated luminances, applied to an index array -/
abbrev Sorter (n : ℕ) := (Fin n → ℝ) → List (Fin n) → List (Fin n)

/-- contract of `np.argsort`: a permutation in descending order of luminance -/
def SortOk (S : Sorter n) : Prop :=
  ∀ key l, (S key l).Perm l ∧ (S key l).Pairwise fun i j => key j ≤ key i

open Classical in
/-- `np.nonzero(l[:, 0] > t)[0]`, imagetools.py 275, 297 -/
noncomputable def above (key : Fin n → ℝ) (t : ℝ) (l : List (Fin n)) : List (Fin n) := l.filter fun i => t < key i

open Classical in
/-- `pd > cosrad`, imagetools.py 282-283, 307-308 -/
noncomputable def inCone (x : Fin n → Px k) (top : Fin n) (cr : ℝ) (l : List (Fin n)) : List (Fin n) :=
  l.filter fun i => cr < (x top).v.dot (x i).v

open Classical in
/-- `pvols[np.logical_not(dm)]`, imagetools.py 285 -/
noncomputable def outCone (x : Fin n → Px k) (top : Fin n) (cr : ℝ) (l : List (Fin n)) : List (Fin n) :=
  l.filter fun i => ¬ cr < (x top).v.dot (x i).v

/-- `np.cos((peaka / np.pi) ** .5 * peakrad)`, imagetools.py 305 -/
noncomputable def cosrad (p : Par k) : ℝ := cos (√(p.peaka / π) * p.peakrad)

/-- sum of luminance times solid angle: the last entry of column 0 of `cume` over `l`, imagetools.py 325 -/
noncomputable def energy (w : Fin k → ℝ) (x : Fin n → Px k) (l : List (Fin n)) : ℝ :=
  (l.map fun i => (x i).o * lum w (x i)).sum

/-- the other columns of `cume` -/
noncomputable def energyC (x : Fin n → Px k) (l : List (Fin n)) (j : Fin k) : ℝ := (l.map fun i => (x i).o * (x i).c j).sum

/-- `np.average(a, weights=w)` of directions, given pairs of weight and direction -/
noncomputable def wmean (l : List (ℝ × V3)) : V3 :=
  V3.divS ⟨(l.map fun p => p.1 * p.2.x).sum, (l.map fun p => p.1 * p.2.y).sum, (l.map fun p => p.1 * p.2.z).sum⟩
    (l.map Prod.fst).sum

/-- `np.argmax` of a boolean array of length `m`: the first `True`, 0 when there is none -/
def argmaxB (m : ℕ) (f : ℕ → Bool) : ℕ := ((List.range m).find? f).getD 0

/-- `if stop == 0: stop = len(cume)`, imagetools.py 329-330, 335-336 -/
def fixStop (m s : ℕ) : ℕ := if s = 0 then m else s

open Classical in
/-- `nearpeak`, imagetools.py 321 -/
noncomputable def nearPeak (p : Par k) (x : Fin n → Px k) (top : Fin n) (l : List (Fin n)) : List (Fin n) :=
  l.filter fun i => lum p.w (x top) * p.blurtol ≤ lum p.w (x i)

/-- `esun`, imagetools.py 323 -/
noncomputable def esun (p : Par k) (x : Fin n → Px k) (top : Fin n) (l : List (Fin n)) : ℝ :=
  ((nearPeak p x top l).map fun i => lum p.w (x i)).sum / (nearPeak p x top l).length * p.peaka * p.peakc

open Classical in
/-- imagetools.py 327: treat as full sun -/
noncomputable def isFull (p : Par k) (x : Fin n → Px k) (top : Fin n) (l : List (Fin n)) : Bool :=
  decide (energy p.w x l > esun p x top l)

open Classical in
/-- `stop`, imagetools.py 328-330, 334-336 -/
noncomputable def stop (p : Par k) (x : Fin n → Px k) (top : Fin n) (l : List (Fin n)) : ℕ :=
  if isFull p x top l then
    fixStop l.length (argmaxB l.length fun j => energy p.w x (l.take (j + 1)) > esun p x top l)
  else
    fixStop l.length (argmaxB l.length fun j => lum p.w (x (l.getD j top)) < lum p.w (x top) / p.peakr)

/-- the consolidated source: direction, solid angle, channels -/
abbrev Src (k : ℕ) := Px k

/-- the rays that are consolidated, imagetools.py 342-343 -/
noncomputable def taken (p : Par k) (x : Fin n → Px k) (top : Fin n) (l : List (Fin n)) : List (Fin n) :=
  l.take (stop p x top l)

open Classical in
/-- `peaka` after imagetools.py 331-341 -/
noncomputable def area (p : Par k) (x : Fin n → Px k) (top : Fin n) (l : List (Fin n)) : ℝ :=
  if isFull p x top l ∨ p.peakc > 1 then p.peaka else energy p.w x (taken p x top l) / lum p.w (x top)

open Classical in
/-- column 0 of `peakl`, imagetools.py 331-341 -/
noncomputable def peakLum (p : Par k) (x : Fin n → Px k) (top : Fin n) (l : List (Fin n)) : ℝ :=
  if isFull p x top l ∨ p.peakc > 1 then energy p.w x (taken p x top l) / p.peaka else lum p.w (x top)

open Classical in
/-- the other columns of `peakl` -/
noncomputable def peakC (p : Par k) (x : Fin n → Px k) (top : Fin n) (l : List (Fin n)) (j : Fin k) : ℝ :=
  if isFull p x top l ∨ p.peakc > 1 then energyC x (taken p x top l) j / p.peaka else (x top).c j

/-- `pv`, imagetools.py 345-346, before `translate.norm` -/
noncomputable def meanDir (p : Par k) (x : Fin n → Px k) (top : Fin n) (l : List (Fin n)) : V3 :=
  wmean ((taken p x top l).map fun i => ((x i).o * lum p.w (x i), (x i).v))

/-- `cf`, imagetools.py 347-350 -/
noncomputable def blurCf (p : Par k) (a pl : ℝ) : ℝ :=
  if p.blursun then Retina.blurSun a pl 279.33 Retina.fwhm0 else 1

/-- the returned source, imagetools.py 351-354 -/
noncomputable def source (p : Par k) (x : Fin n → Px k) (top : Fin n) (l : List (Fin n)) : Src k :=
  ⟨Geo.norm (meanDir p x top l), area p x top l * blurCf p (area p x top l) (peakLum p x top l),
    fun j => peakC p x top l j / blurCf p (area p x top l) (peakLum p x top l)⟩

/-- `find_peak` without secondary sources, imagetools.py 290-355: the source and the indices of the rays it replaces.
`pvol[0]` is an IndexError when no ray is in the cone, `np.average` a ZeroDivisionError when the weights sum to 0. -/
noncomputable def findPeak (S : Sorter n) (p : Par k) (x : Fin n → Px k) : Except PyErr (Option (Src k) × List (Fin n)) :=
  match S (fun i => lum p.w (x i)) (above (fun i => lum p.w (x i)) (p.peakt / p.scale) (List.finRange n)) with
  | [] => .ok (none, [])
  | top :: rest =>
    match inCone x top (cosrad p) (top :: rest) with
    | [] => .error .IndexError
    | t :: l =>
      if energy p.w x (taken p x t (t :: l)) = 0 then .error .ZeroDivisionError
      else .ok (some (source p x t (t :: l)), taken p x t (t :: l))

/-- the rays of `normalize_peak(..., returnall=True)`, imagetools.py 409-446 -/
noncomputable def normalizePeak (S : Sorter n) (p : Par k) (keepzeros : Bool) (x : Fin n → Px k) :
    Except PyErr (List (Px k)) :=
  match findPeak S p x with
  | .error e => .error e
  | .ok (none, _) => .ok ((List.finRange n).map x)
  | .ok (some s, pc) =>
    if keepzeros then
      .ok (((List.finRange n).map fun i => if i ∈ pc then ⟨(x i).v, 0, fun _ => 0⟩ else x i) ++ [s])
    else .ok (((List.finRange n).filter fun i => i ∉ pc).map x ++ [s])

/-! Secondary sources -/

/-- one secondary source with the rays it was made of: unweighted mean direction, solid angle, mean of the channels
weighted by solid angle, imagetools.py 284 -/
structure Group (k n : ℕ) where
  mem : List (Fin n)
  dir : V3
  o : ℝ
  c : Fin k → ℝ

/-- imagetools.py 284 -/
noncomputable def group (x : Fin n → Px k) (l : List (Fin n)) : Group k n :=
  ⟨l, wmean (l.map fun i => (1, (x i).v)), (l.map fun i => (x i).o).sum,
    fun j => energyC x l j / (l.map fun i => (x i).o).sum⟩

/-- `gather_strays`, imagetools.py 274-287, on the rows `l`; `fuel` bounds the depth of the recursion, `none` means that
more is needed. Groups without solid angle are divided by zero here; `gatherPy` has the exception. -/
noncomputable def gather (S : Sorter n) (w : Fin k → ℝ) (x : Fin n → Px k) (t cr : ℝ) :
    ℕ → List (Fin n) → Option (List (Group k n))
  | 0, _ => none
  | f + 1, l =>
    if (above (fun i => lum w (x i)) t l).length > 3 then
      match S (fun i => lum w (x i)) (above (fun i => lum w (x i)) t l) with
      | [] => some []
      | top :: rest =>
        (gather S w x t cr f (outCone x top cr (top :: rest))).map fun gs =>
          group x (inCone x top cr (top :: rest)) :: gs
    else some []

/-- the same with the exception of `np.average`, which is raised for weights that sum to 0 before the remaining rows are looked at,
imagetools.py 284 -/
noncomputable def gatherPy (S : Sorter n) (w : Fin k → ℝ) (x : Fin n → Px k) (t cr : ℝ) :
    ℕ → List (Fin n) → Option (Except PyErr (List (Group k n)))
  | 0, _ => none
  | f + 1, l =>
    if (above (fun i => lum w (x i)) t l).length > 3 then
      match S (fun i => lum w (x i)) (above (fun i => lum w (x i)) t l) with
      | [] => some (.ok [])
      | top :: rest =>
        if (group x (inCone x top cr (top :: rest))).o = 0 then some (.error .ZeroDivisionError)
        else (gatherPy S w x t cr f (outCone x top cr (top :: rest))).map fun r =>
          r.map (group x (inCone x top cr (top :: rest)) :: ·)
    else some (.ok [])

/-- `tol2`, imagetools.py 312 -/
noncomputable def tol2 (p : Par k) : ℝ := cos (√(p.peaka / π) * p.peakrad * 8)

open Classical in
/-- `strays` of `find_peak(..., findsecondary=True)`, imagetools.py 311-315, when some ray is above the threshold; the
luminance column is dropped from the channels afterwards (315) -/
noncomputable def secondary (S : Sorter n) (p : Par k) (x : Fin n → Px k) (fuel : ℕ) : Option (List (Group k n)) :=
  match S (fun i => lum p.w (x i)) (above (fun i => lum p.w (x i)) (p.peakt / p.scale) (List.finRange n)) with
  | [] => none
  | top :: rest =>
    gather S p.w x (p.peakt * 4 / p.scale) (tol2 p) fuel
      ((top :: rest).filter fun i => (x top).v.dot (x i).v < tol2 p)

end Verif.Peak
