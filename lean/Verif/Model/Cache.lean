import Mathlib.Logic.Function.Basic
/-!
# Model of the size-one metric caches

raytools/evaluate/basemetricset.py 204-308, metricset.py 76-213, colormetricset.py 117-177: every metric is
`@property @functools.lru_cache(1) def metric(self)`. The cache belongs to the *function*, so it is shared by all objects
(of all classes that inherit the function) and remembers one object's value. `lru_cache` keys on the argument `self`;
the metric set classes define neither `__eq__` nor `__hash__`, so the key is object identity, and since the cache holds a
reference the identity cannot be reused while the entry exists.

A metric's body is a program that may read other metrics of the same object (their reads go through the caches too) and
finally returns a value computed from the object's data. Which metrics it reads may depend on values read before.

raytools/mapper/mapper.py 138-146: `Mapper.framesize` is `lru_cache(1)` on `(self, res)`.
-/
namespace Verif.Cache

/-- A metric's body. -/
inductive Prog (Metric Val : Type)
  | ret (v : Val)
  | read (m : Metric) (k : Val → Prog Metric Val)

/-- Classes: `slot o m` is the function object found when reading `o.m` (with inheritance and overriding),
`body s o` the code of that function run on `o`. -/
structure Classes (Obj Metric Slot Val : Type) where
  slot : Obj → Metric → Slot
  body : Slot → Obj → Prog Metric Val

variable {Obj Metric Slot Val : Type} [DecidableEq Obj] [DecidableEq Slot]

/-- The caches: for every function at most one remembered `(object, value)`. -/
abbrev Caches (Obj Slot Val : Type) := Slot → Option (Obj × Val)

/-- Run a body; `rd` performs a metric read. -/
def Prog.exec {S : Type} (rd : Metric → S → Option (Val × S)) : Prog Metric Val → S → Option (Val × S)
  | .ret v, s => some (v, s)
  | .read m k, s => match rd m s with
    | none => none
    | some (v, s') => (k v).exec rd s'

/-- Reading `o.m`: cache hit, or run the body and remember the result (evicting whatever was there).
`fuel` bounds the nesting of reads; `none` means it was exceeded (Python: recursion error). -/
def readC (C : Classes Obj Metric Slot Val) (o : Obj) : Nat → Metric → Caches Obj Slot Val →
    Option (Val × Caches Obj Slot Val)
  | 0, _, _ => none
  | f + 1, m, c =>
    let miss := match (C.body (C.slot o m) o).exec (readC C o f) c with
      | none => none
      | some (v, c') => some (v, Function.update c' (C.slot o m) (some (o, v)))
    match c (C.slot o m) with
    | some (o', v) => if o' = o then some (v, c) else miss
    | none => miss

/-- A history of reads, starting with caches `c`; the values read, in order. -/
def readAll (C : Classes Obj Metric Slot Val) (fuel : Nat) : List (Obj × Metric) → Caches Obj Slot Val →
    Option (List Val)
  | [], _ => some []
  | (o, m) :: rest, c => match readC C o fuel m c with
    | none => none
    | some (v, c') => (readAll C fuel rest c').map (v :: ·)

/-! ## The metrics of the three classes -/

/-- The cached functions (basemetricset.py 204-308, metricset.py 76-213, colormetricset.py 117-177). -/
inductive Name
  | ctheta | radians | pos_idx | pweight | pweighted_area | illum | avglum | maxlum | pwavglum | avgraylum | gcr | pwgcr
  | logpwgcr | loggcr | density
  | src_mask | task_mask | sources | background | source_pos_idx | threshold | pwsl2 | srcillum | srcarea | backlum
  | backlum_true | tasklum | dgp | dgp_t1 | log_gc | dgp_t2 | ugr | ugp
  | irradiance
  deriving DecidableEq

/-- The other cached metrics each body reads (a superset over its branches). -/
def deps : Name → List Name
  | .radians => [.ctheta]
  | .pweight => [.pos_idx]
  | .pweighted_area => [.pweight]
  | .illum => [.ctheta]
  | .pwavglum => [.pweight, .pweighted_area]
  | .gcr => [.avglum]
  | .pwgcr => [.pweight, .pweighted_area, .pwavglum]
  | .logpwgcr => [.pwgcr]
  | .loggcr => [.gcr]
  | .src_mask => [.threshold]
  | .sources => [.src_mask]
  | .background => [.src_mask]
  | .source_pos_idx => [.pos_idx, .src_mask]
  | .threshold => [.tasklum]
  | .pwsl2 => [.sources, .source_pos_idx]
  | .srcillum => [.sources]
  | .srcarea => [.sources]
  | .backlum => [.illum, .srcillum]
  | .backlum_true => [.background]
  | .tasklum => [.task_mask]
  | .dgp => [.illum, .dgp_t1, .dgp_t2]
  | .dgp_t1 => [.illum]
  | .log_gc => [.pwsl2, .illum]
  | .dgp_t2 => [.log_gc]
  | .ugr => [.pwsl2, .backlum]
  | .ugp => [.ugr]
  | .irradiance => [.ctheta]
  | _ => []

/-! ## framesize -/

/-- raytools/mapper/mapper.py 139-146, the body of `framesize` for a mapper whose current aspect is `aspect`;
`roundMul`/`roundDiv` stand for `int(round(res*aspect))` and `int(round(res/aspect))`, `lt1` for `aspect < 1`. -/
def frameBody {A : Type} (lt1 : A → Bool) (roundMul roundDiv : Nat → A → Nat) (aspect : A) (res : Nat) : Nat × Nat :=
  if lt1 aspect then (roundMul res aspect, res) else (res, roundDiv res aspect)

/-- What a program does with mappers: assign an aspect or ask for a frame size. -/
inductive FOp (Obj A : Type)
  | setAspect (o : Obj) (a : A)
  | framesize (o : Obj) (res : Nat)

/-- Mapper state: current aspect of every mapper and the single cache entry. -/
structure FSt (Obj A : Type) where
  aspect : Obj → A
  cache : Option ((Obj × Nat) × (Nat × Nat))

/-- One operation; a frame size request returns its result. -/
def fstep {A : Type} (lt1 : A → Bool) (rm rd : Nat → A → Nat) (st : FSt Obj A) :
    FOp Obj A → FSt Obj A × Option (Nat × Nat)
  | .setAspect o a => ({ st with aspect := Function.update st.aspect o a }, none)
  | .framesize o res =>
    match st.cache with
    | some (k, v) =>
      if k = (o, res) then (st, some v)
      else ({ st with cache := some ((o, res), frameBody lt1 rm rd (st.aspect o) res) },
            some (frameBody lt1 rm rd (st.aspect o) res))
    | none => ({ st with cache := some ((o, res), frameBody lt1 rm rd (st.aspect o) res) },
            some (frameBody lt1 rm rd (st.aspect o) res))

/-- All results of a history. -/
def frun {A : Type} (lt1 : A → Bool) (rm rd : Nat → A → Nat) : FSt Obj A → List (FOp Obj A) → List (Option (Nat × Nat))
  | _, [] => []
  | st, op :: ops => (fstep lt1 rm rd st op).2 :: frun lt1 rm rd (fstep lt1 rm rd st op).1 ops

end Verif.Cache
