import Mathlib.Data.Nat.Notation
import Mathlib.Logic.Function.Basic

/-! `pool_call` (raytools/utility.py 64-131) for functions that read and change memory: `G` is the memory of the interpreter
(module globals, caches, the function's own defaults), `A` the content of the objects passed as arguments. A call runs in steps,
so that calls in several threads can interleave.

* without workers (105-115) the calls follow one another on the caller's memory;
* with threads (26-27) several calls work on the caller's memory at the same time;
* with processes (28-31) every worker has its own interpreter memory, a copy of the caller's at the first submission with
  `context='fork'`, a fresh one with `'forkserver'`, and keeps it from one call to the next; the arguments of each call are
  pickled copies.

Simplified: calls are started in the order of submission, each by a free worker; arguments are already expanded (the difference
an argument that cannot be expanded makes is C03); results are values (a result that is itself changed by later calls is not
modelled). -/
namespace Verif.Shared
variable {V E R G A L : Type}

/-- the called function: its first local state and one step on the memory, ending with a result or an exception -/
structure Prog (V E R G A L : Type) where
  begin : List V → L
  step : L → G → A → (L ⊕ Except E R) × G × A

/-- the function run alone from one memory to another -/
inductive Eval (p : Prog V E R G A L) : L → G → A → Except E R → G → A → Prop
  | stop {l g a r g' a'} : p.step l g a = (.inr r, g', a') → Eval p l g a r g' a'
  | more {l g a l' g' a' r g'' a''} : p.step l g a = (.inl l', g', a') → Eval p l' g' a' r g'' a'' → Eval p l g a r g'' a''

/-- utility.py 105-115, the loop: outcome and memory afterwards; it stops at the first exception -/
inductive Loop (p : Prog V E R G A L) : List (List V) → G → A → Except E (List R) → G → A → Prop
  | nil {g a} : Loop p [] g a (.ok []) g a
  | fail {x xs g a e g' a'} : Eval p (p.begin x) g a (.error e) g' a' → Loop p (x :: xs) g a (.error e) g' a'
  | cons {x xs g a r g' a' o g'' a''} : Eval p (p.begin x) g a (.ok r) g' a' → Loop p xs g' a' o g'' a'' →
      Loop p (x :: xs) g a (o.map (r :: ·)) g'' a''

/-- utility.py 26-33 -/
inductive Mode
  | threads
  | processes

/-- caller's memory, the workers' own memory, what each worker is doing, the next call to start, the results that have come in -/
structure TSt (E R G A L : Type) where
  g : G
  a : A
  wg : ℕ → G
  wa : ℕ → A
  busy : ℕ → Option (ℕ × L)
  next : ℕ
  done : ℕ → Option (Except E R)

inductive TEv
  /-- worker `w` takes the next call -/
  | start (w : ℕ)
  /-- worker `w` executes one step of its call -/
  | tick (w : ℕ)

/-- one event with `n` workers; `none` when it cannot happen -/
def tstep (p : Prog V E R G A L) (m : Mode) (n : ℕ) (args : List (List V)) (st : TSt E R G A L) : TEv → Option (TSt E R G A L)
  | .start w =>
    if w < n then
      match st.busy w, args[st.next]? with
      | none, some x =>
        some { st with
          busy := Function.update st.busy w (some (st.next, p.begin x)), next := st.next + 1
          wa := match m with
            | .threads => st.wa
            | .processes => Function.update st.wa w st.a }
      | _, _ => none
    else none
  | .tick w =>
    match st.busy w with
    | none => none
    | some (i, l) =>
      match m with
      | .threads =>
        match p.step l st.g st.a with
        | (.inl l', g', a') => some { st with busy := Function.update st.busy w (some (i, l')), g := g', a := a' }
        | (.inr r, g', a') =>
          some { st with busy := Function.update st.busy w none, g := g', a := a', done := Function.update st.done i (some r) }
      | .processes =>
        match p.step l (st.wg w) (st.wa w) with
        | (.inl l', g', a') =>
          some { st with
            busy := Function.update st.busy w (some (i, l'))
            wg := Function.update st.wg w g', wa := Function.update st.wa w a' }
        | (.inr r, g', a') =>
          some { st with
            busy := Function.update st.busy w none, done := Function.update st.done i (some r)
            wg := Function.update st.wg w g', wa := Function.update st.wa w a' }

/-- `g0` is the memory a worker process starts with -/
def tinit (g : G) (a : A) (g0 : G) : TSt E R G A L := ⟨g, a, fun _ => g0, fun _ => a, fun _ => none, 0, fun _ => none⟩

def trun (p : Prog V E R G A L) (m : Mode) (n : ℕ) (args : List (List V)) : TSt E R G A L → List TEv → Option (TSt E R G A L)
  | st, [] => some st
  | st, e :: es => match tstep p m n args st e with
    | none => none
    | some st' => trun p m n args st' es

/-- utility.py 128-131 from the `i`-th future on, `k` futures to go: waiting, raising, or the results in order -/
def gather (done : ℕ → Option (Except E R)) (i : ℕ) : ℕ → Option (Except E (List R))
  | 0 => some (.ok [])
  | k + 1 => match done i with
    | none => none
    | some (.error e) => some (.error e)
    | some (.ok r) => (gather done (i + 1) k).map fun o => o.map (r :: ·)

/-- what `pool_call` has come to -/
def outcome (args : List (List V)) (st : TSt E R G A L) : Option (Except E (List R)) := gather st.done 0 args.length

end Verif.Shared
