import Verif.Model.Cache
/-!
# Specification: what a metric's formula gives, with no caches at all
-/
namespace Verif.Cache.Spec
variable {Obj Metric Slot Val : Type}

/-- Evaluate a body where reading metric `m` gives `rd m`. -/
def evalBody (rd : Metric → Option Val) : Prog Metric Val → Option Val
  | .ret v => some v
  | .read m k => (rd m).bind fun v => evalBody rd (k v)

/-- Value of `o.m` by its formula, with nesting depth at most `n`. -/
def value (C : Classes Obj Metric Slot Val) (o : Obj) : Nat → Metric → Option Val
  | 0, _ => none
  | n + 1, m => evalBody (value C o n) (C.body (C.slot o m) o)

/-- `v` is the value of `o.m` by its formula. -/
def IsValue (C : Classes Obj Metric Slot Val) (o : Obj) (m : Metric) (v : Val) : Prop := ∃ n, value C o n m = some v

/-- Every metric a body reads (whatever the values read before) satisfies `p`. -/
def ReadsOnly (p : Metric → Prop) : Prog Metric Val → Prop
  | .ret _ => True
  | .read m k => p m ∧ ∀ v, ReadsOnly p (k v)

/-- The metrics of every object refer to each other without cycles: `rank` decreases along every read. -/
def Acyclic (C : Classes Obj Metric Slot Val) (rank : Metric → Nat) : Prop :=
  ∀ o m, ReadsOnly (fun m' => rank m' < rank m) (C.body (C.slot o m) o)

end Verif.Cache.Spec
