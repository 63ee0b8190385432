import Verif.Model.Nproc
/-!
# Specification of the process cap: a single optional number

Only the calls (`Op`) and the public functions are shared with the model.
-/
namespace Verif.Nproc.Spec

/-- What a call does to the cap: `none` — nothing, `some none` — clears it, `some (some n)` — sets it to `n`. -/
def effect : Op → Option (Option Int)
  | .set .none => none
  | .set .other => none
  | .set (.int n) => if 1 ≤ n then some (some n) else some none
  | .unset => some none

/-- The cap in force after a history: decided by the most recent call that has an effect (scan from the end),
`init` when there is none. -/
def capAfter (init : Option Int) (h : List Op) : Option Int :=
  match h.reverse.findSome? effect with
  | some c => c
  | none => init

end Verif.Nproc.Spec
