import Verif.Model.Peak

/-! What `normalize_peak` returns, raytools/imagetools.py 409-448: the four forms of the result and the shapes of the
arrays. -/

namespace Verif.Peak
open Verif.Geo Verif.Py Real
variable {k n : ℕ}

/-- `np.squeeze` on a shape -/
def squeeze (shape : List ℕ) : List ℕ := shape.filter (· ≠ 1)

/-- the peak returned: the tuple of `find_peak` (imagetools.py 351-354), or `np.zeros(m)` (436, 438) -/
inductive PeakVal (k : ℕ)
  | source (s : Src k)
  | zeros (m : ℕ)

/-- arrays `v`, `omega`, `lum`: rows of each, and the shape of `lum` -/
structure Arrays (k : ℕ) where
  v : List V3
  o : List ℝ
  lum : List (Fin k → ℝ)
  shape : List ℕ

/-- rows of the three arrays with a given shape of the last -/
def arrays (rows : List (Px k)) (shape : List ℕ) : Arrays k := ⟨rows.map Px.v, rows.map Px.o, rows.map Px.c, shape⟩

/-- `vol` before the consolidated ray is added, imagetools.py 415-424 -/
def rest (keepzeros : Bool) (x : Fin n → Px k) (pc : List (Fin n)) : List (Px k) :=
  if keepzeros then (List.finRange n).map fun i => if i ∈ pc then ⟨(x i).v, 0, fun _ => 0⟩ else x i
  else ((List.finRange n).filter fun i => i ∉ pc).map x

/-- the arrays returned with the result of `find_peak`, imagetools.py 414-440; `flat` is an `l` of one dimension -/
def outArrays (keepzeros flat returnparts : Bool) (x : Fin n → Px k) : Option (Src k) × List (Fin n) → Arrays k
  | (none, _) => arrays ((List.finRange n).map x) (if flat then [n] else [n, k])
  | (some s, pc) =>
    if returnparts then arrays (rest keepzeros x pc) (squeeze [(rest keepzeros x pc).length, k])
    else arrays (rest keepzeros x pc ++ [s]) (squeeze [(rest keepzeros x pc).length + 1, k])

/-- the peak, imagetools.py 409, 435-438 -/
def outPeak (flat : Bool) : Option (Src k) × List (Fin n) → PeakVal k
  | (none, _) => .zeros (if flat then 5 else 4 + k)
  | (some s, _) => .source s

/-- `strays` as `find_peak(findsecondary=True)` returns it, imagetools.py 300, 311-315: `None` without bright pixels; the
outer `none` when the recursion is deeper than `fuel` -/
noncomputable def straysOf (S : Sorter n) (p : Par k) (x : Fin n → Px k) (fuel : ℕ) : Option (Option (List (Group k n))) :=
  match S (fun i => lum p.w (x i)) (above (fun i => lum p.w (x i)) (p.peakt / p.scale) (List.finRange n)) with
  | [] => some none
  | _ :: _ => (secondary S p x fuel).map some

/-- the returned value, imagetools.py 441-448 -/
inductive Ret (k n : ℕ)
  | secondary (p : PeakVal k) (strays : Option (List (Group k n)))
  | parts (p : PeakVal k) (a : Arrays k)
  | all (a : Arrays k)
  | peak (p : PeakVal k)

/-- `normalize_peak` with its switches, imagetools.py 358-448 -/
noncomputable def normalizeRet (S : Sorter n) (p : Par k) (keepzeros flat findsecondary returnparts returnall : Bool)
    (x : Fin n → Px k) (fuel : ℕ) : Option (Except PyErr (Ret k n)) :=
  if findsecondary then
    (straysOf S p x fuel).map fun st => (findPeak S p x).map fun r => .secondary (outPeak flat r) st
  else if returnparts then some ((findPeak S p x).map fun r => .parts (outPeak flat r) (outArrays keepzeros flat true x r))
  else if returnall then some ((findPeak S p x).map fun r => .all (outArrays keepzeros flat false x r))
  else some ((findPeak S p x).map fun r => .peak (outPeak flat r))

end Verif.Peak
