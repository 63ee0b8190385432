import Verif.Model.Live
/-!
# Specification: the value of a metric for given data, and what may happen to the things a metric set holds
-/
namespace Verif.Live.Spec
open Verif.Cache
variable {Cont S Slot Val : Type} [DecidableEq Slot]

/-- The metric `m` of data `d` by the formulas alone (nesting depth at most `n`). -/
def metric (C : Code Cont S Slot Val) (d : Data Cont S) : Nat → Name → Option Val
  | 0, _ => none
  | n + 1, m => ((deps m).mapM (metric C d n)).map (C.formula (C.slot d.cls m) d)

/-- `v` is metric `m` of data `d`. -/
def Means (C : Code Cont S Slot Val) (d : Data Cont S) (m : Name) (v : Val) : Prop := ∃ n, metric C d n m = some v

/-- The objects in memory a metric set refers to. -/
def refs (ob : Obj S) : List Nat := [ob.vec, ob.lum, ob.om, ob.rgb, ob.vm]

/-- A step that concerns neither the settings of metric set `o` nor anything it refers to. Making another metric set
may write into the solid angles given to it, unless its view is 360 degrees. -/
def Quiet (C : Code Cont S Slot Val) (st : St Cont S Slot Val) (o : Nat) (op : Op Cont S) : Prop :=
  match op with
  | .new _ => True
  | .write r _ => r ∉ refs (st.objs o)
  | .make _ _ om _ vm _ => C.full (st.heap vm) = true ∨ om ∉ refs (st.objs o)
  | .assign o' _ => o' ≠ o
  | .read _ _ => True

/-- A history of quiet steps. -/
def QuietAll (C : Code Cont S Slot Val) (st : St Cont S Slot Val) (o : Nat) : List (Op Cont S) → Prop
  | [] => True
  | op :: ops => Quiet C st o op ∧ QuietAll C (step C st op).1 o ops

/-- Metric set `o` exists and what it refers to is in memory. -/
def Exists (st : St Cont S Slot Val) (o : Nat) : Prop := o < st.count ∧ ∀ r ∈ refs (st.objs o), r < st.next

/-- What is remembered about `o` is what the formulas give for what it sees now. -/
def Fresh (C : Code Cont S Slot Val) (st : St Cont S Slot Val) (o : Nat) : Prop :=
  ∀ s v, st.caches s = some (o, v) → ∀ m, C.slot (st.objs o).cls m = s → Means C (dataOf st o) m v

/-- The data of a metric set at the moment it is made, from the contents of the arguments: copies, except for what a 360
degree view takes over as it is. -/
def snapshot (C : Code Cont S Slot Val) (i : In Cont S) : Data Cont S :=
  { cls := i.cls
    vec := C.keepVec i
    lum := if C.full i.vm ∧ i.cls ≠ .colour then i.lum else C.keepLum i
    om := if C.full i.vm ∧ C.corrects i = false then i.om else C.keepOm i
    rgb := if C.full i.vm ∧ i.cls = .colour then i.lum else C.keepRgb i
    vm := i.vm
    set := C.settle i }

/-- A program starts with some objects in memory, no metric sets and empty caches. -/
def Start (st : St Cont S Slot Val) : Prop := st.count = 0 ∧ ∀ s, st.caches s = none

/-- A later step of the caller that neither assigns to metric set `o` nor changes one of the objects `keep`. -/
def Apart (o : Nat) (keep : Nat → Prop) (op : Op Cont S) : Prop :=
  match op with
  | .write r _ => ¬ keep r
  | .make _ _ om _ _ _ => ¬ keep om
  | .assign o' _ => o' ≠ o
  | _ => True

end Verif.Live.Spec
