import Verif.Model.Py
import Verif.Model.Nproc
/-!
# Model of `pool_call` (raytools/utility.py 21-131)

The executor is modelled by its nondeterminism: any pending task may be started while fewer than `workers` tasks run,
any running task may finish. The main thread submits, then gathers futures in submission order, blocking on a future
that is not done. A schedule is the list of events that happened.

Worker processes that are killed: `Model/PoolCrash.lean`. Functions with side effects: `Model/PoolShared.lean`.
Not modelled: progress bar drawing, pickling failures, keyword arguments (fixed for all calls, so part of `func`).
Here the called function is a function of its arguments.
-/
namespace Verif.Pool
open Verif.Py

variable {V E R : Type}

/-- Everything `pool_call` is given apart from the argument list. `func` returns or raises; `unpack` is Python's `*arg`
(an exception when `arg` is not iterable); `fixed` is `*fixed_args`. -/
structure Setup (V E R : Type) where
  func : List V → Except E R
  unpack : V → Except E (List V)
  expandarg : Bool
  fixed : List V

/-- The positional arguments built for one item (utility.py 111-114 and 122-125). -/
def Setup.callArgs (s : Setup V E R) (a : V) : Except E (List V) :=
  if s.expandarg then
    match s.unpack a with
    | .ok xs => .ok (xs ++ s.fixed)
    | .error e => .error e
  else .ok (a :: s.fixed)

/-- utility.py 108-115: the loop used without workers, `acc` is the result list so far. -/
def sequential (s : Setup V E R) (acc : List R) : List V → Except E (List R)
  | [] => .ok acc
  | a :: as =>
    match s.callArgs a with
    | .error e => .error e
    | .ok xs => match s.func xs with
      | .error e => .error e
      | .ok r => sequential s (acc ++ [r]) as

/-- A future. -/
inductive Task (V E R : Type)
  | pending (xs : List V)
  | running (xs : List V)
  | done (o : Except E R)

/-- State of the pool path: futures in submission order, arguments not yet submitted, results gathered so far, and the
outcome of the call once the main thread has left it. -/
structure St (V E R : Type) where
  futures : List (Task V E R)
  todo : List V
  results : List R
  outcome : Option (Except E (List R))

/-- Is the future being executed. -/
def Task.isRunning : Task V E R → Bool
  | .running _ => true
  | _ => false

/-- What can happen next. -/
inductive Ev
  /-- the main thread submits the next argument, utility.py 121-126 -/
  | submit
  /-- a worker picks up future `i` -/
  | start (i : Nat)
  /-- the worker executing future `i` returns or raises -/
  | finish (i : Nat)
  /-- the main thread takes the result of the next future or leaves the loop, utility.py 128-131 -/
  | gather

/-- One event; `none` when it cannot happen in this state. -/
def step (s : Setup V E R) (workers : Nat) (st : St V E R) : Ev → Option (St V E R)
  | .submit =>
    match st.outcome, st.todo with
    | none, a :: rest =>
      match s.callArgs a with
      | .error e => some { st with outcome := some (.error e) }
      | .ok xs => some { st with futures := st.futures ++ [.pending xs], todo := rest }
    | _, _ => none
  | .start i =>
    match st.futures[i]? with
    | some (.pending xs) =>
      if st.futures.countP Task.isRunning < workers then
        some { st with futures := st.futures.set i (.running xs) }
      else none
    | _ => none
  | .finish i =>
    match st.futures[i]? with
    | some (.running xs) => some { st with futures := st.futures.set i (.done (s.func xs)) }
    | _ => none
  | .gather =>
    match st.outcome, st.todo with
    | none, [] =>
      match st.futures[st.results.length]? with
      | none => some { st with outcome := some (.ok st.results) }
      | some (.done (.ok r)) => some { st with results := st.results ++ [r] }
      | some (.done (.error e)) => some { st with outcome := some (.error e) }
      | some _ => none
    | _, _ => none

/-- Start of the pool path: nothing submitted. -/
def init (args : List V) : St V E R := ⟨[], args, [], none⟩

/-- State after a schedule; `none` when the schedule contains an impossible event. -/
def runEvs (s : Setup V E R) (workers : Nat) : St V E R → List Ev → Option (St V E R)
  | st, [] => some st
  | st, e :: es => match step s workers st e with
    | none => none
    | some st' => runEvs s workers st' es

/-- The `workers` argument: a string, or another object known only by its truth value. -/
inductive Workers
  | str (s : Str)
  | obj (truthy : Bool)
  deriving DecidableEq

/-- ASCII lower casing (Python `str.lower` on the strings compared here). -/
def lower (s : Str) : Str := s.map Char.toLower

/-- Python truth value. -/
def Workers.truthy : Workers → Bool
  | .str s => !s.isEmpty
  | .obj b => b

/-- utility.py 26: `str(workers).lower() in ('thread', 't', 'threads')`. The `str` of the other objects callers pass
(booleans, numbers, `None`) is never one of the three words. -/
def Workers.isThread : Workers → Bool
  | .str s => lower s ∈ [ "thread".toList, "t".toList, "threads".toList ]
  | .obj _ => false

/-- utility.py 66-131: the outcomes `pool_call` can have. `outcome` relates the call to `o` when some schedule makes it
return/raise `o`. For a process pool the number of workers is `get_nproc(cap)` (`nproc`), and `ProcessPoolExecutor`
rejects a number below one with ValueError (`valueError`); for threads it is some number >= 1. -/
def Outcome (s : Setup V E R) (w : Workers) (nproc : Int) (valueError : E) (args : List V) (o : Except E (List R)) :
    Prop :=
  if w.truthy = false then o = sequential s [] args
  else if w.isThread then
    ∃ n ≥ 1, ∃ es st, runEvs s n (init args) es = some st ∧ st.outcome = some o
  else if nproc < 1 then o = .error valueError
  else ∃ es st, runEvs s nproc.toNat (init args) es = some st ∧ st.outcome = some o

end Verif.Pool
