import Verif.Model.Py
import Mathlib.Data.List.Basic
import Mathlib.Data.List.GetD
import Mathlib.Tactic.Common
import Mathlib.Data.Int.Basic
import Mathlib.Algebra.Order.Ring.Int

/-! `translate.simple_take`, raytools/translate.py 692-723, with the parts of NumPy it uses. -/

namespace Verif.Take
open Verif.Py

/-- an n-dimensional array: its shape and its entry at each (full) index -/
structure Arr (α : Type) where
  shape : List ℕ
  entry : List ℕ → α

/-- a nested sequence of integers (list, tuple or integer array), or a bare integer -/
inductive Nd
  | num (i : ℤ)
  | seq (l : List Nd)

/-- `np.ravel`: the integers in order -/
def Nd.ravel : Nd → List ℤ
  | .num i => [i]
  | .seq l => go l
where
  go : List Nd → List ℤ
    | [] => []
    | x :: xs => x.ravel ++ go xs

/-- one positional argument of `simple_take`: `None`, a `slice`, an index (sequence).
`typed = false` is a Python sequence, `typed = true` an integer array: they differ only when there are no
indices, because `np.ravel([])` is a float array that `np.take` refuses. -/
inductive Spec
  | all
  | sl (start stop step : Option ℤ)
  | idx (k : Nd) (typed : Bool)

/-- CPython `PySlice_AdjustIndices` for one bound -/
def adjust (n x step : ℤ) : ℤ :=
  if x < 0 then (if x + n < 0 then (if step < 0 then -1 else 0) else x + n)
  else if x ≥ n then (if step < 0 then n - 1 else n) else x

def sliceStart (n step : ℤ) : Option ℤ → ℤ
  | none => if step < 0 then n - 1 else 0
  | some x => adjust n x step

def sliceStop (n step : ℤ) : Option ℤ → ℤ
  | none => if step < 0 then -1 else n
  | some x => adjust n x step

def sliceLen (start stop step : ℤ) : ℕ :=
  if step < 0 then (if stop < start then ((start - stop - 1) / (-step) + 1).toNat else 0)
  else (if start < stop then ((stop - start - 1) / step + 1).toNat else 0)

def sliceRun (start step : ℤ) (len : ℕ) : List ℕ := (List.range len).map fun (i : ℕ) => (start + (i : ℤ) * step).toNat

def slicePositions (n step : ℤ) (start stop : Option ℤ) : List ℕ :=
  sliceRun (sliceStart n step start) step (sliceLen (sliceStart n step start) (sliceStop n step stop) step)

/-- `np.arange(n)[slice]` (line 719): the selected positions, `ValueError` for a zero step -/
def sliceIdx (n : ℕ) (start stop step : Option ℤ) : Except PyErr (List ℕ) :=
  if step.getD 1 = 0 then .error .ValueError else .ok (slicePositions n (step.getD 1) start stop)

/-- bounds check and adjustment of one index in `np.take` (mode 'raise').
Simplification: NumPy skips the check when an earlier dimension has length zero; not modelled. -/
def fixIdx (n : ℕ) (i : ℤ) : Except PyErr ℕ :=
  if 0 ≤ i ∧ i < n then .ok i.toNat
  else if i < 0 ∧ 0 ≤ i + n then .ok (i + n).toNat
  else .error .IndexError

/-- axis normalisation of NumPy (and of tuple indexing, `ar.shape[j]`); `AxisError` is an `IndexError` -/
def fixAxis (nd : ℕ) (j : ℤ) : Except PyErr ℕ := fixIdx nd j

/-- `np.take(ar, k, a)` for valid one-dimensional `k` -/
def takeAt {α : Type} (ar : Arr α) (k : List ℕ) (a : ℕ) : Arr α :=
  ⟨ar.shape.set a k.length, fun idx => ar.entry (idx.set a (k.getD (idx.getD a 0) 0))⟩

/-- `np.take(ar, np.ravel(i), j)`, line 722, the index conversion and check -/
def pickIdx (n : ℕ) (k : Nd) (typed : Bool) : Except PyErr (List ℕ) :=
  if k.ravel = [] ∧ typed = false then .error .TypeError else k.ravel.mapM (fixIdx n)

/-- the positions a specification selects on an axis of length `n` -/
def positions (n : ℕ) : Spec → Except PyErr (List ℕ)
  | .all => .ok (List.range n)
  | .sl a b c => sliceIdx n a b c
  | .idx k t => pickIdx n k t

/-- the loop body, lines 716-722 -/
def takeStep {α : Type} (ar : Arr α) (s : Spec) (j : ℤ) : Except PyErr (Arr α) :=
  match s with
  | .all => .ok ar
  | s => do
    let a ← fixAxis ar.shape.length j
    let k ← positions (ar.shape.getD a 0) s
    pure (takeAt ar k a)

def takeAll {α : Type} (ar : Arr α) : List (Spec × ℤ) → Except PyErr (Arr α)
  | [] => .ok ar
  | p :: ps => do
    let ar' ← takeStep ar p.1 p.2
    takeAll ar' ps

/-- `axes = np.arange(len(slices))` when not given, lines 711-714 -/
def axesOf (n : ℕ) : Option (List ℤ) → List ℤ
  | none => (List.range n).map Int.ofNat
  | some l => l

/-- `translate.simple_take`, raytools/translate.py 692-723 -/
def simpleTake {α : Type} (ar : Arr α) (slices : List Spec) (axes : Option (List ℤ)) : Except PyErr (Arr α) :=
  takeAll ar (slices.zip (axesOf slices.length axes))

end Verif.Take
