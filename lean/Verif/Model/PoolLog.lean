import Verif.Model.Pool

/-! The calls that `pool_call` makes. For a pool they are read off the schedule (`start i` is the beginning and
`finish i` the end of the call for argument `i`). The executor is not shut down by `pool_call` (tqdm's `__exit__` only
closes the bar, utility.py 116-131): submitted calls stay in its queue when the main thread leaves with an exception. -/

namespace Verif.Pool
open Verif.Py
variable {V E R : Type}

/-- utility.py 108-115, the loop without workers with the list of calls made so far: (calls, result) -/
def seqLog (s : Setup V E R) (log : List (List V)) (acc : List R) : List V → List (List V) × Except E (List R)
  | [] => (log, .ok acc)
  | a :: as =>
    match s.callArgs a with
    | .error e => (log, .error e)
    | .ok xs => match s.func xs with
      | .error e => (log ++ [xs], .error e)
      | .ok r => seqLog s (log ++ [xs]) (acc ++ [r]) as

end Verif.Pool
