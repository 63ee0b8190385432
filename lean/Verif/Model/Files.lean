import Verif.Model.Py
import Mathlib.Logic.Function.Basic
import Mathlib.Data.Nat.Notation
/-!
# Conversions as programs on files (raytools/imagetools.py 41-47, 63-74, 157-193, raytools/io.py 122-161, raytools/utility.py 66-131)

A conversion starts several Radiance processes that read its input one after the other (`getinfo`, `pvalue`), computes,
opens the output (`open(imgf, 'wb')` empties it), prepares the header and lets `getinfo` write the result. A batch runs such
conversions in worker processes; a schedule lists whose turn it is. Every interleaving is allowed, which covers any number
of workers. Outputs can be opened (missing directories and rights are not modelled).
-/
namespace Verif.Files
open Verif.Py

/-- what is stored under each path (`none`: no such file) -/
abbrev Store (C : Type) := Str → Option C

/-- what a conversion does once it has read its input: raise before the output is opened (io.py 142), raise after it was
opened (io.py 143-148), or write a result -/
inductive Plan (C : Type)
  | refuse (e : PyErr)
  | spoil (e : PyErr)
  | write (c : C)

/-- a conversion: its input, its output (`none`: standard output), the number of processes that read the input, and what
it does with what they saw -/
structure Job (C : Type) where
  inp : Str
  out : Option Str
  reads : ℕ
  plan : List (Option C) → Plan C

/-- where a conversion is -/
inductive Phase (C : Type)
  | reading (seen : List (Option C))
  | opened (r : Except PyErr C)
  | done
  | failed (e : PyErr)

/-- the files and the conversions under way -/
structure World (C : Type) where
  store : Store C
  phase : ℕ → Phase C

/-- `i` makes its next step, or the process writing its output gets as far as `c` -/
inductive Ev (C : Type)
  | step (i : ℕ)
  | part (i : ℕ) (c : C)

variable {C : Type}

/-- the store with new content under the output path -/
def put (s : Store C) (out : Option Str) (c : C) : Store C := fun q => if out = some q then some c else s q

/-- the phase after a step of one conversion -/
def nextPhase (j : Job C) (s : Store C) : Phase C → Phase C
  | .reading seen =>
    if seen.length < j.reads then .reading (seen ++ [s j.inp])
    else match j.plan seen with
      | .refuse e => .failed e
      | .spoil e => .opened (.error e)
      | .write c => .opened (.ok c)
  | .opened (.ok _) => .done
  | .opened (.error e) => .failed e
  | .done => .done
  | .failed e => .failed e

/-- the store after a step of one conversion; `blank` is the empty file -/
def nextStore (blank : C) (j : Job C) (s : Store C) : Phase C → Store C
  | .reading seen =>
    if seen.length < j.reads then s
    else match j.plan seen with
      | .refuse _ => s
      | .spoil _ => put s j.out blank
      | .write _ => put s j.out blank
  | .opened (.ok c) => put s j.out c
  | .opened (.error _) => s
  | .done => s
  | .failed _ => s

/-- the store when the writing process got as far as `c` -/
def partStore (j : Job C) (s : Store C) (c : C) : Phase C → Store C
  | .opened (.ok _) => put s j.out c
  | _ => s

/-- one event of a batch -/
def exec (blank : C) (jobs : List (Job C)) (w : World C) : Ev C → World C
  | .step i => match jobs[i]? with
    | none => w
    | some j => ⟨nextStore blank j w.store (w.phase i), Function.update w.phase i (nextPhase j w.store (w.phase i))⟩
  | .part i c => match jobs[i]? with
    | none => w
    | some j => ⟨partStore j w.store c (w.phase i), w.phase⟩

/-- a batch before anything happened -/
def start (s : Store C) : World C := ⟨s, fun _ => .reading []⟩

/-- a batch after a schedule -/
def runAll (blank : C) (jobs : List (Job C)) (s : Store C) (es : List (Ev C)) : World C :=
  es.foldl (exec blank jobs) (start s)

/-- has the conversion ended -/
def Phase.ended : Phase C → Prop
  | .done => True
  | .failed _ => True
  | _ => False

/-- what the batch command sees: `pool_call` waits for every conversion, then gathers the results in order and raises the
first exception (utility.py 118-131, cli.py 171-173, 200-204, 228-231) -/
def gather (phase : ℕ → Phase C) : ℕ → List (Job C) → Except PyErr (List (Option Str))
  | _, [] => .ok []
  | i, j :: js => match phase i with
    | .failed e => .error e
    | _ => (gather phase (i + 1) js).map (j.out :: ·)

end Verif.Files
