import Mathlib.Data.Nat.Digits.Defs
import Verif.Model.Py
/-!
# Model of the process cap (raytools/io.py 21-46)

State: the environment variable `RAYTOOLS_PROC_CAP`, `none` when unset.
-/
namespace Verif.Nproc
open Verif.Py

/-- The environment variable `RAYTOOLS_PROC_CAP`. -/
abbrev Env := Option Str

/-- Arguments a caller may pass: `None`, a value whose `type` is exactly `int`, or anything else
(floats, strings, and also booleans, since `type(True) != int`). -/
inductive Arg
  | none
  | int (n : Int)
  | other
  deriving DecidableEq, Repr

/-- Decimal digits of a natural number, most significant first (Python `str(n)` for `n >= 0`). -/
def natStr (n : Nat) : Str :=
  if n = 0 then ['0'] else ((Nat.digits 10 n).map (fun d => Char.ofNat (48 + d))).reverse

/-- Python `str(n)` for an `int`. -/
def intStr : Int → Str
  | Int.ofNat n => natStr n
  | Int.negSucc n => '-' :: natStr (n + 1)

/-- Is the character an ASCII digit. -/
def isDig (c : Char) : Bool := 48 ≤ c.toNat && c.toNat ≤ 57

/-- Digits with single underscores between them, accumulated left to right. `prev` tells whether the previous
character was a digit. -/
def parseDigits (prev : Bool) (acc : Nat) : Str → Option Nat
  | [] => if prev then some acc else none
  | c :: cs =>
    if isDig c then parseDigits true (10 * acc + (c.toNat - 48)) cs
    else if c = '_' ∧ prev then parseDigits false acc cs
    else none

/-- Python `int(s)` for a string; `none` is `ValueError`.
Simplification: only ASCII digits (Python also accepts other Unicode decimal digits). -/
def pyInt (s : Str) : Option Int :=
  match strip s with
  | '-' :: r => (parseDigits false 0 r).map (fun n => -(n : Int))
  | '+' :: r => (parseDigits false 0 r).map (fun n => (n : Int))
  | r => (parseDigits false 0 r).map (fun n => (n : Int))

/-- raytools/io.py 42-46 `unset_nproc`: pop the variable, ignoring its absence. -/
def unsetNproc (_ : Env) : Env := none

/-- raytools/io.py 31-39 `set_nproc`. -/
def setNproc (env : Env) : Arg → Except PyErr Env
  | .none => .ok env
  | .other => .error .ValueError
  | .int n => if n < 1 then .ok (unsetNproc env) else .ok (some (intStr n))

/-- raytools/io.py 21-28 `get_nproc`: `arg` is the explicit argument (`none` when omitted or `None`),
`cpu` is `os.cpu_count()`. `int(None)` raises `TypeError`, `int` of unparsable text raises `ValueError`; both are
caught. -/
def getNproc (cpu : Int) (env : Env) : Option Int → Int
  | some k => k
  | none =>
    match env with
    | none => cpu
    | some s => match pyInt s with
      | some n => n
      | none => cpu

/-- A call made by the user. -/
inductive Op
  | set (a : Arg)
  | unset
  deriving DecidableEq, Repr

/-- Effect of one call on the environment; a call that raises leaves it unchanged. -/
def step (env : Env) : Op → Env
  | .set a => match setNproc env a with
    | .ok e => e
    | .error _ => env
  | .unset => unsetNproc env

/-- Environment after a history of calls. -/
def run (env : Env) (h : List Op) : Env := h.foldl step env

end Verif.Nproc
