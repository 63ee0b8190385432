import Verif.Props.Cache
/-!
# Model: metric sets, the arrays and the mapper they were made from, and later assignments

raytools/evaluate/basemetricset.py 60-119, 167-200, metricset.py 62-72, colormetricset.py 68-78. Arrays and mappers are
objects in memory: `heap r` is what the object with reference `r`
(a number) contains at the moment. A metric set holds references:

* `self.vm = vm` (line 66): the caller's mapper itself;
* `self._vec`: a new array (`translate.norm` divides, lines 70, 72; `v[mask]`, line 110);
* for a 360 degree view (`vm.aspect == 2`, lines 71-75) `self._lum = lum` and, unless the solid angles are corrected,
  `self._omega = og`: the caller's arrays themselves;
* otherwise (lines 76-116) `lum[mask]`, `omega[mask]`: new arrays, but line 100 may write into the caller's `omega`;
* a colour set (colormetricset.py 72-78) makes a new `lum` and keeps `rgb[self.view_mask]`: for a 360 degree view
  `rgb[slice(None)]`, a view of the caller's array (contiguous arrays; `reshape` of others copies).

Everything else a metric reads (`scale`, `tradius`, `guth`, `view_area`, `_threshold`, ...) is an attribute holding a value;
all of them together are the settings `S`.

Simplifications: the formulas of the metrics are a parameter (`formula`, arbitrary functions of the data of the object
and of the metrics it reads; which metrics those are is `Cache.deps`). The constructor reads `self.radians` while it
corrects solid angles (line 184), before the solid angles are stored; here it reads it at the end.
-/
namespace Verif.Live
open Verif.Cache

/-- The class of a metric set. -/
inductive Kind
  | base | metric | colour
  deriving DecidableEq

/-- A metric set: references to what it keeps, and its settings. -/
structure Obj (S : Type) where
  cls : Kind
  vec : Nat
  lum : Nat
  om : Nat
  rgb : Nat
  vm : Nat
  set : S

/-- What a metric set sees when it follows its references. -/
structure Data (Cont S : Type) where
  cls : Kind
  vec : Cont
  lum : Cont
  om : Cont
  rgb : Cont
  vm : Cont
  set : S

/-- The arguments of a constructor, with the contents of the arrays at the time of the call. -/
structure In (Cont S : Type) where
  cls : Kind
  vec : Cont
  om : Cont
  lum : Cont
  vm : Cont
  set : S

/-- The numerical code, as functions of contents. -/
structure Code (Cont S Slot Val : Type) where
  /-- the function that a class finds under a name -/
  slot : Kind → Name → Slot
  /-- the name of a function -/
  name : Slot → Name
  /-- a metric from the data and the metrics it reads -/
  formula : Slot → Data Cont S → List Val → Val
  /-- `vm.aspect == 2` -/
  full : Cont → Bool
  /-- `self._correct_omega and len(self.vec) > 100` -/
  corrects : In Cont S → Bool
  /-- contents of the new arrays -/
  keepVec : In Cont S → Cont
  keepLum : In Cont S → Cont
  keepOm : In Cont S → Cont
  keepRgb : In Cont S → Cont
  /-- what line 100 leaves in the caller's `omega` -/
  clipOm : In Cont S → Cont
  /-- the settings when the constructor returns -/
  settle : In Cont S → S

variable {Cont S Slot Val : Type} [DecidableEq Slot]

/-- Memory, the metric sets made so far (`objs o` for `o < count`) and the caches of the metrics. -/
structure St (Cont S Slot Val : Type) where
  heap : Nat → Cont
  next : Nat
  objs : Nat → Obj S
  count : Nat
  caches : Caches Nat Slot Val

/-- What metric set `o` sees. -/
def dataOf (st : St Cont S Slot Val) (o : Nat) : Data Cont S :=
  { cls := (st.objs o).cls
    vec := st.heap (st.objs o).vec
    lum := st.heap (st.objs o).lum
    om := st.heap (st.objs o).om
    rgb := st.heap (st.objs o).rgb
    vm := st.heap (st.objs o).vm
    set := (st.objs o).set }

/-- The metrics as Python finds them now (basemetricset.py 204-308, metricset.py 76-213, colormetricset.py 117-177). -/
def classes (C : Code Cont S Slot Val) (st : St Cont S Slot Val) : Classes Nat Name Slot Val where
  slot o m := C.slot (st.objs o).cls m
  body s o := bodyOf (C.formula s (dataOf st o)) (deps (C.name s)) []

/-- `getattr(ms, m)`. -/
def read (C : Code Cont S Slot Val) (st : St Cont S Slot Val) (o : Nat) (m : Name) :
    St Cont S Slot Val × Option Val :=
  match readC (classes C st) o 9 m st.caches with
  | some (v, c) => ({ st with caches := c }, some v)
  | none => (st, none)

/-- What a program does. -/
inductive Op (Cont S : Type)
  /-- make an array or a mapper -/
  | new (c : Cont)
  /-- change an array in place, or assign an attribute of a mapper -/
  | write (r : Nat) (c : Cont)
  /-- `BaseMetricSet(vec, omega, lum, vm, ...)`, `MetricSet(...)`, `ColorMetricSet(...)` -/
  | make (k : Kind) (vec om lum vm : Nat) (s : S)
  /-- `ms.scale = ...`, `ms.tradius = ...` -/
  | assign (o : Nat) (s : S)
  /-- read a metric -/
  | read (o : Nat) (m : Name)

/-- The arguments as the constructor sees them. -/
def argsOf (st : St Cont S Slot Val) (k : Kind) (vec om lum vm : Nat) (s : S) : In Cont S :=
  ⟨k, st.heap vec, st.heap om, st.heap lum, st.heap vm, s⟩

/-- basemetricset.py 66-116, colormetricset.py 72-78: the references of the new object. -/
def newObj (C : Code Cont S Slot Val) (st : St Cont S Slot Val) (k : Kind) (vec om lum vm : Nat) (s : S) : Obj S :=
  { cls := k
    vec := st.next
    lum := if C.full (st.heap vm) ∧ k ≠ .colour then lum else st.next + 1
    om := if C.full (st.heap vm) ∧ C.corrects (argsOf st k vec om lum vm s) = false then om else st.next + 2
    rgb := if C.full (st.heap vm) ∧ k = .colour then lum else st.next + 3
    vm := vm
    set := C.settle (argsOf st k vec om lum vm s) }

/-- basemetricset.py 66-116, colormetricset.py 72-78: memory after the constructor. -/
def newHeap (C : Code Cont S Slot Val) (st : St Cont S Slot Val) (k : Kind) (vec om lum vm : Nat) (s : S) (r : Nat) :
    Cont :=
  if r = st.next then C.keepVec (argsOf st k vec om lum vm s)
  else if r = st.next + 1 then C.keepLum (argsOf st k vec om lum vm s)
  else if r = st.next + 2 then C.keepOm (argsOf st k vec om lum vm s)
  else if r = st.next + 3 then C.keepRgb (argsOf st k vec om lum vm s)
  else if r = om ∧ C.full (st.heap vm) = false then C.clipOm (argsOf st k vec om lum vm s)
  else st.heap r

/-- The state after the attributes are assigned. -/
def placed (C : Code Cont S Slot Val) (st : St Cont S Slot Val) (k : Kind) (vec om lum vm : Nat) (s : S) :
    St Cont S Slot Val :=
  { st with heap := newHeap C st k vec om lum vm s
            next := st.next + 4
            objs := Function.update st.objs st.count (newObj C st k vec om lum vm s)
            count := st.count + 1 }

/-- The whole constructor; `self.radians` is read when solid angles are corrected (line 184). -/
def construct (C : Code Cont S Slot Val) (st : St Cont S Slot Val) (k : Kind) (vec om lum vm : Nat) (s : S) :
    St Cont S Slot Val :=
  if C.corrects (argsOf st k vec om lum vm s) then (read C (placed C st k vec om lum vm s) st.count .radians).1
  else placed C st k vec om lum vm s

/-- One step; a read gives its value (there is nothing to read of an object that was not made). -/
def step (C : Code Cont S Slot Val) (st : St Cont S Slot Val) : Op Cont S → St Cont S Slot Val × Option Val
  | .new c => ({ st with heap := Function.update st.heap st.next c, next := st.next + 1 }, none)
  | .write r c => ({ st with heap := Function.update st.heap r c }, none)
  | .make k vec om lum vm s => (construct C st k vec om lum vm s, none)
  | .assign o s => ({ st with objs := Function.update st.objs o { st.objs o with set := s } }, none)
  | .read o m => if o < st.count then read C st o m else (st, none)

/-- The state after a history. -/
def run (C : Code Cont S Slot Val) (st : St Cont S Slot Val) : List (Op Cont S) → St Cont S Slot Val
  | [] => st
  | op :: ops => run C (step C st op).1 ops

end Verif.Live
