import Verif.Lemmas.Pool
/-!
# C02, C03: `pool_call` under every schedule

Specification vocabulary: the value of one item is `func(*arg, *fixed)` or `func(arg, *fixed)`.
-/
namespace Verif.Pool
open Verif.Py
variable {V E R : Type}

/-- What calling the function on one item gives, written out for both settings of `expandarg`. -/
def Spec.item (s : Setup V E R) (a : V) : Except E R :=
  if s.expandarg then
    match s.unpack a with
    | .ok xs => s.func (xs ++ s.fixed)
    | .error e => .error e
  else s.func (a :: s.fixed)

theorem item_eq_value (s : Setup V E R) (a : V) : Spec.item s a = s.value a := by
  simp only [Spec.item, Setup.value, Setup.callArgs]
  cases s.expandarg
  · simp
  · simp; cases s.unpack a <;> simp

/-- C02. If the call on every item succeeds (with result `g a`), then under every schedule, with any number of workers,
whatever `pool_call` returns is the list of results in argument order. -/
theorem C02_results_in_argument_order (s : Setup V E R) (n : Nat) (args : List V) (g : V → R)
    (hg : ∀ a ∈ args, Spec.item s a = .ok (g a)) (es : List Ev) (st : St V E R)
    (hrun : runEvs s n (init args) es = some st) (o : Except E (List R)) (ho : st.outcome = some o) :
    o = .ok (args.map g) := by
  have hI := inv_run s n args es _ st (inv_init s args) hrun
  have hv : ∀ i (h : i < args.length), s.value args[i] = .ok (g args[i]) := fun i h => by
    rw [← item_eq_value]; exact hg _ (List.getElem_mem h)
  rcases hI.fin o ho with ⟨-, -, hm⟩ | ⟨i, hi, e, rfl, he⟩
  · cases o with
    | ok rs =>
      obtain ⟨h1, h2⟩ := hm
      congr 1
      apply List.ext_getElem (by simpa using h2)
      intro i hi1 hi2
      have hia : i < args.length := by omega
      have := hI.res i (by rw [← h1]; exact hi1) hia
      rw [hv i hia] at this
      simp at this
      simp [h1, this]
    | error e =>
      obtain ⟨i, hi, he, -⟩ := hm
      rw [hv i hi] at he; simp at he
  · have := hv i hi
    simp [Setup.value, he] at this

/-- C02. The call always ends: from any reachable state something can happen until the call has an outcome, and no
schedule has more than `4 * len(args) + 1` events. -/
theorem C02_every_schedule_ends (s : Setup V E R) (n : Nat) (hn : 1 ≤ n) (args : List V) (es : List Ev) (st : St V E R)
    (hrun : runEvs s n (init args) es = some st) :
    es.length ≤ 4 * args.length + 1 ∧ (st.outcome = none → ∃ e st', step s n st e = some st') := by
  refine ⟨?_, progress s n hn st⟩
  have := cost_run s n args es _ st (inv_init s args) hrun
  simp [init, St.cost] at this
  omega

/-- C03. When every item can be unpacked, then under every schedule `pool_call` returns or raises exactly what the
sequential loop does. -/
theorem C03_pool_equals_sequential_loop (s : Setup V E R) (n : Nat) (args : List V)
    (hu : ∀ a ∈ args, ∃ xs, s.callArgs a = .ok xs) (es : List Ev) (st : St V E R)
    (hrun : runEvs s n (init args) es = some st) (o : Except E (List R)) (ho : st.outcome = some o) :
    o = sequential s [] args := by
  have hI := inv_run s n args es _ st (inv_init s args) hrun
  rcases hI.fin o ho with ⟨-, -, hm⟩ | ⟨i, hi, e, rfl, he⟩
  · cases o with
    | ok rs =>
      obtain ⟨h1, h2⟩ := hm
      rw [sequential_ok s args rs h2 (by subst h1; exact hI.res)]
    | error e =>
      obtain ⟨i, hi, he, hj⟩ := hm
      rw [sequential_err s args e i hi he hj]
  · obtain ⟨xs, hx⟩ := hu _ (List.getElem_mem hi)
    rw [hx] at he; simp at he

/-- C03. Stated without the loop: if `pool_call` raises `e`, then `e` is the exception of some item all of whose
predecessors in the list succeed — the first failing argument, not the first failure in time. -/
theorem C03_first_failing_argument (s : Setup V E R) (n : Nat) (args : List V)
    (hu : ∀ a ∈ args, ∃ xs, s.callArgs a = .ok xs) (es : List Ev) (st : St V E R)
    (hrun : runEvs s n (init args) es = some st) (e : E) (ho : st.outcome = some (.error e)) :
    ∃ i, ∃ h : i < args.length, Spec.item s args[i] = .error e ∧
      ∀ j (hj : j < i), ∃ r, Spec.item s (args[j]'(by omega)) = .ok r := by
  have hI := inv_run s n args es _ st (inv_init s args) hrun
  simp only [item_eq_value]
  rcases hI.fin _ ho with ⟨-, -, hm⟩ | ⟨i, hi, e', he', he⟩
  · exact hm
  · obtain ⟨xs, hx⟩ := hu _ (List.getElem_mem hi)
    rw [hx] at he; simp at he

/-- C02/C03 for the whole entry point: whichever of the three modes `workers` selects, a call with a valid worker count
has only one possible outcome, that of the sequential loop. -/
theorem C03_outcome_independent_of_mode (s : Setup V E R) (w : Workers) (nproc : Int) (ve : E) (args : List V)
    (hw : 1 ≤ nproc) (hu : ∀ a ∈ args, ∃ xs, s.callArgs a = .ok xs) (o : Except E (List R))
    (h : Outcome s w nproc ve args o) : o = sequential s [] args := by
  unfold Outcome at h
  split at h
  · exact h
  · split at h
    · obtain ⟨n, -, es, st, h1, h2⟩ := h
      exact C03_pool_equals_sequential_loop s n args hu es st h1 o h2
    · split at h
      · omega
      · obtain ⟨es, st, h1, h2⟩ := h
        exact C03_pool_equals_sequential_loop s _ args hu es st h1 o h2

/-! ## Concrete cases -/

/-- Example set-up: `func(a, k)` returns `a + k`, raising for 0. -/
def exS : Setup Int String Int where
  func xs := match xs with
    | [a, k] => if a = 0 then .error "zero" else if a < 0 then .error "neg" else .ok (a + k)
    | _ => .error "arity"
  unpack a := .ok [a]
  expandarg := true
  fixed := [10]

-- the second task finishes first; the hypotheses of C02 hold and the results come in argument order
example : (runEvs exS 2 (init [1, 2]) [.submit, .submit, .start 0, .start 1, .finish 1, .finish 0, .gather, .gather,
    .gather]).map (fun st => st.outcome.map (·.toOption)) = some (some (some [11, 12])) := by decide
example : ∀ a ∈ [1, 2], Spec.item exS a = .ok (a + 10) := by decide
-- a later argument fails first in time, the earlier argument's exception is raised
example : (runEvs exS 2 (init [1, 0, -1]) [.submit, .submit, .submit, .start 2, .finish 2, .start 1, .start 0, .finish 0,
    .finish 1, .gather, .gather]).map (fun st => match st.outcome with | some (.error e) => e | _ => "") = some "zero" := by
  decide

/-- Example of the difference that remains when an item cannot be unpacked: the loop raises the exception of the first
item's call, the pool raises the unpacking error of the second item while still submitting. -/
def exU : Setup Int String Int := { exS with unpack := fun a => if a = 7 then .error "not iterable" else .ok [a] }

/-- C03 (limit of the claim). With an item that cannot be unpacked the pool can raise a different exception than the
sequential loop: the hypothesis of `C03_pool_equals_sequential_loop` is needed. -/
theorem C03_unpack_failure_differs :
    ∃ es st e, runEvs exU 1 (init [0, 7]) es = some st ∧ st.outcome = some (.error e) ∧
      sequential exU [] [0, 7] ≠ .error e := by
  refine ⟨[.submit, .submit], ⟨[.pending [0, 10]], [7], [], some (.error "not iterable")⟩, "not iterable", rfl, rfl, ?_⟩
  decide

end Verif.Pool
