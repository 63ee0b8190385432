import Verif.Model.Pool

/-! `pool_call` (raytools/utility.py 64-131) with a process pool whose worker processes can be killed at any moment (out of
memory, a signal, a crash of compiled code). The rules of `ProcessPoolExecutor` are those of CPython's
`concurrent/futures/process.py`: the manager thread notices a dead worker, sets `_broken`, gives every future that is not done
the exception `BrokenProcessPool` and ends; `submit` first looks at `_broken` and then enters the new future. Before 3.12 closing
does not take the lock that `submit` holds (`locked = false`: `submit` can look before and enter after), later it does
(`locked = true`).

Simplified: a call whose worker has died may still end before the manager notices (more schedules than the real ones); the loop
that marks the futures is one step; deaths while the executor starts its processes are not modelled. -/
namespace Verif.Pool
open Verif.Py
variable {V E R : Type}

/-- what `pool_call` can raise: an exception of the function (or of `*arg`), or `BrokenProcessPool` -/
inductive Err (E : Type)
  | own (e : E)
  | broken

/-- an exception of the function keeps its place -/
def own : Except E R → Except (Err E) R
  | .ok r => .ok r
  | .error e => .error (.own e)

/-- State of the pool path, utility.py 116-131: futures, arguments not yet submitted, the arguments of a submission that has
looked at `_broken` but not yet entered its future, results so far, outcome; a worker has died; `_broken` is set; the manager has
marked the futures and ended. -/
structure CSt (V E R : Type) where
  futures : List (Task V (Err E) R)
  todo : List V
  passed : Option (List V)
  results : List R
  outcome : Option (Except (Err E) (List R))
  died : Bool
  closing : Bool
  closed : Bool

inductive CEv
  /-- the main thread builds the arguments of the next call and looks at `_broken`, utility.py 121-125 -/
  | look
  /-- the new future is entered, utility.py 126 -/
  | enter
  /-- a worker picks up future `i` -/
  | start (i : Nat)
  /-- the result or exception of future `i` arrives -/
  | finish (i : Nat)
  /-- the main thread takes the result of the next future or leaves the loop, utility.py 128-131 -/
  | gather
  /-- a worker process is killed -/
  | die
  /-- the manager thread notices -/
  | notice
  /-- the manager thread marks the futures and ends -/
  | mark

/-- `work_item.future.set_exception(bpe)` for the futures that are not done -/
def fail : Task V (Err E) R → Task V (Err E) R
  | .done o => .done o
  | _ => .done (.error .broken)

/-- One event; `none` when it cannot happen in this state. -/
def cstep (locked : Bool) (s : Setup V E R) (workers : Nat) (st : CSt V E R) : CEv → Option (CSt V E R)
  | .look =>
    match st.outcome, st.passed, st.todo with
    | none, none, a :: _ =>
      match s.callArgs a with
      | .error e => some { st with outcome := some (.error (.own e)) }
      | .ok xs => if st.closing then some { st with outcome := some (.error .broken) } else some { st with passed := some xs }
    | _, _, _ => none
  | .enter =>
    match st.passed, st.todo with
    | some xs, _ :: rest => some { st with futures := st.futures ++ [.pending xs], todo := rest, passed := none }
    | _, _ => none
  | .start i =>
    match st.futures[i]? with
    | some (.pending xs) =>
      if st.closing = false ∧ st.futures.countP Task.isRunning < workers then
        some { st with futures := st.futures.set i (.running xs) }
      else none
    | _ => none
  | .finish i =>
    match st.futures[i]? with
    | some (.running xs) => if st.closing then none else some { st with futures := st.futures.set i (.done (own (s.func xs))) }
    | _ => none
  | .gather =>
    match st.outcome, st.passed, st.todo with
    | none, none, [] =>
      match st.futures[st.results.length]? with
      | none => some { st with outcome := some (.ok st.results) }
      | some (.done (.ok r)) => some { st with results := st.results ++ [r] }
      | some (.done (.error e)) => some { st with outcome := some (.error e) }
      | some _ => none
    | _, _, _ => none
  | .die => if st.futures = [] ∨ st.died then none else some { st with died := true }
  | .notice =>
    if st.died ∧ st.closing = false ∧ (locked = true → st.passed = none) then
      if locked then some { st with closing := true, closed := true, futures := st.futures.map fail }
      else some { st with closing := true }
    else none
  | .mark => if st.closing ∧ st.closed = false then some { st with closed := true, futures := st.futures.map fail } else none

def cinit (args : List V) : CSt V E R := ⟨[], args, none, [], none, false, false, false⟩

/-- State after a schedule; `none` when the schedule contains an impossible event. -/
def crun (locked : Bool) (s : Setup V E R) (workers : Nat) : CSt V E R → List CEv → Option (CSt V E R)
  | st, [] => some st
  | st, e :: es => match cstep locked s workers st e with
    | none => none
    | some st' => crun locked s workers st' es

end Verif.Pool
