import Verif.Lemmas.Pool
import Verif.Model.PoolLog
import Mathlib.Data.List.NodupEquivFin
import Mathlib.Data.List.Perm.Basic
import Mathlib.Data.List.Range

/-! C168: the calls a batch makes, under every schedule. -/

namespace Verif.Pool
open Verif.Py
variable {V E R : Type}

/-- arguments whose call has begun, in order of time -/
def Spec.begun (es : List Ev) : List ℕ := es.filterMap fun | .start i => some i | _ => none

/-- arguments whose call has ended, in order of time -/
def Spec.ended (es : List Ev) : List ℕ := es.filterMap fun | .finish i => some i | _ => none

/-- 1 when the call of future `i` has begun -/
def begunAt (st : St V E R) (i : ℕ) : ℕ :=
  match st.futures[i]? with
  | some (.running _) => 1
  | some (.done _) => 1
  | _ => 0

/-- 1 when the call of future `i` has ended -/
def endedAt (st : St V E R) (i : ℕ) : ℕ :=
  match st.futures[i]? with
  | some (.done _) => 1
  | _ => 0

theorem begun_cons (e : Ev) (es : List Ev) (i : ℕ) :
    (Spec.begun (e :: es)).count i = (Spec.begun [e]).count i + (Spec.begun es).count i := by
  rw [← List.count_append]
  simp only [Spec.begun, ← List.filterMap_append, List.singleton_append]

theorem ended_cons (e : Ev) (es : List Ev) (i : ℕ) :
    (Spec.ended (e :: es)).count i = (Spec.ended [e]).count i + (Spec.ended es).count i := by
  rw [← List.count_append]
  simp only [Spec.ended, ← List.filterMap_append, List.singleton_append]

theorem step_counts {s : Setup V E R} {n : ℕ} {st st' : St V E R} {e : Ev} (h : step s n st e = some st') (i : ℕ) :
    begunAt st' i = begunAt st i + (Spec.begun [e]).count i ∧ endedAt st' i = endedAt st i + (Spec.ended [e]).count i := by
  cases e with
  | submit =>
    simp only [Spec.begun, Spec.ended, List.filterMap_cons, List.filterMap_nil, List.count_nil, add_zero]
    simp only [step] at h
    split at h
    · split at h
      · simp at h; subst h; exact ⟨rfl, rfl⟩
      · simp at h; subst h
        simp only [begunAt, endedAt]
        rcases lt_trichotomy i st.futures.length with hi | hi | hi
        · rw [List.getElem?_append_left hi]; exact ⟨rfl, rfl⟩
        · subst hi; simp
        · rw [List.getElem?_eq_none (by simp; omega), List.getElem?_eq_none (by omega)]; simp
    · simp at h
  | gather =>
    simp only [Spec.begun, Spec.ended, List.filterMap_cons, List.filterMap_nil, List.count_nil, add_zero]
    simp only [step] at h
    split at h
    · split at h <;> first | (simp at h; subst h; exact ⟨rfl, rfl⟩) | simp at h
    · simp at h
  | start j =>
    simp only [Spec.begun, Spec.ended, List.filterMap_cons, List.filterMap_nil, List.count_nil, add_zero]
    simp only [step] at h
    split at h
    · rename_i xs hx
      split at h
      · simp at h; subst h
        obtain ⟨hil, hie⟩ := List.getElem?_eq_some_iff.1 hx
        simp only [begunAt, endedAt]
        rcases eq_or_ne j i with rfl | hij
        · simp [hil, hie]
        · rw [List.getElem?_set_ne hij]
          simp [hij]
      · simp at h
    · simp at h
  | finish j =>
    simp only [Spec.begun, Spec.ended, List.filterMap_cons, List.filterMap_nil, List.count_nil, add_zero]
    simp only [step] at h
    split at h
    · rename_i xs hx
      simp at h; subst h
      obtain ⟨hil, hie⟩ := List.getElem?_eq_some_iff.1 hx
      simp only [begunAt, endedAt]
      rcases eq_or_ne j i with rfl | hij
      · simp [hil, hie]
      · rw [List.getElem?_set_ne hij]
        simp [hij]
    · simp at h

theorem run_counts {s : Setup V E R} {n : ℕ} (es : List Ev) (st st' : St V E R) (h : runEvs s n st es = some st') (i : ℕ) :
    begunAt st' i = begunAt st i + (Spec.begun es).count i ∧ endedAt st' i = endedAt st i + (Spec.ended es).count i := by
  induction es generalizing st with
  | nil => simp [runEvs] at h; subst h; simp [Spec.begun, Spec.ended]
  | cons e es ih =>
    simp only [runEvs] at h
    split at h
    · simp at h
    · rename_i st1 h1
      obtain ⟨a, b⟩ := ih st1 h
      obtain ⟨c, d⟩ := step_counts h1 i
      rw [begun_cons, ended_cons]
      omega

theorem counts_init {s : Setup V E R} {n : ℕ} {args : List V} {es : List Ev} {st : St V E R}
    (h : runEvs s n (init args) es = some st) (i : ℕ) :
    (Spec.begun es).count i = begunAt st i ∧ (Spec.ended es).count i = endedAt st i := by
  obtain ⟨a, b⟩ := run_counts es _ _ h i
  simp [begunAt, endedAt, init] at a b
  simp only [begunAt, endedAt]
  exact ⟨a.symm, b.symm⟩

theorem ended_le_begun (st : St V E R) (i : ℕ) : endedAt st i ≤ begunAt st i := by
  unfold endedAt begunAt; rcases st.futures[i]? with _ | (_ | _ | _) <;> simp

theorem begun_le_one (st : St V E R) (i : ℕ) : begunAt st i ≤ 1 := by
  unfold begunAt; rcases st.futures[i]? with _ | (_ | _ | _) <;> simp

theorem begunAt_pos {st : St V E R} {i : ℕ} (h : 0 < begunAt st i) : i < st.futures.length := by
  by_contra hn
  unfold begunAt at h
  rw [List.getElem?_eq_none (by omega)] at h
  simp at h

/-- **C168** under every schedule no argument is called twice, a call ends at most once, only after it has begun, and
only for an argument of the list -/
theorem C168_once_partial {s : Setup V E R} {n : ℕ} {args : List V} {es : List Ev} {st : St V E R}
    (h : runEvs s n (init args) es = some st) :
    (Spec.begun es).Nodup ∧ (Spec.ended es).Nodup ∧ Spec.ended es ⊆ Spec.begun es ∧
      ∀ i ∈ Spec.begun es, i < args.length := by
  have hI := inv_run s n args es _ st (inv_init s args) h
  refine ⟨List.nodup_iff_count_le_one.mpr fun i => ?_, List.nodup_iff_count_le_one.mpr fun i => ?_, fun i hi => ?_,
    fun i hi => ?_⟩
  · rw [(counts_init h i).1]; exact begun_le_one st i
  · rw [(counts_init h i).2]; exact (ended_le_begun st i).trans (begun_le_one st i)
  · have a := List.count_pos_iff.mpr hi
    rw [(counts_init h i).2] at a
    apply List.count_pos_iff.mp
    rw [(counts_init h i).1]
    exact lt_of_lt_of_le a (ended_le_begun st i)
  · have a := List.count_pos_iff.mpr hi
    rw [(counts_init h i).1] at a
    have := begunAt_pos a
    have := hI.len
    omega

/-- number of running futures, and how an event changes it -/
theorem countP_set {α : Type} (p : α → Bool) (l : List α) (i : ℕ) (x : α) (h : i < l.length) :
    (l.set i x).countP p + (if p l[i] then 1 else 0) = l.countP p + (if p x then 1 else 0) := by
  induction l generalizing i with
  | nil => simp at h
  | cons a l ih =>
    cases i with
    | zero => simp only [List.set_cons_zero, List.countP_cons, List.getElem_cons_zero]; omega
    | succ i =>
      simp only [List.set_cons_succ, List.countP_cons, List.getElem_cons_succ]
      have := ih i (by simpa using h)
      omega

theorem begun_len (e : Ev) (es : List Ev) : (Spec.begun (e :: es)).length = (Spec.begun [e]).length + (Spec.begun es).length := by
  rw [← List.length_append]
  simp only [Spec.begun, ← List.filterMap_append, List.singleton_append]

theorem ended_len (e : Ev) (es : List Ev) : (Spec.ended (e :: es)).length = (Spec.ended [e]).length + (Spec.ended es).length := by
  rw [← List.length_append]
  simp only [Spec.ended, ← List.filterMap_append, List.singleton_append]

theorem step_running {s : Setup V E R} {n : ℕ} {st st' : St V E R} {e : Ev} (h : step s n st e = some st')
    (hn : st.futures.countP Task.isRunning ≤ n) :
    st'.futures.countP Task.isRunning ≤ n ∧ st'.futures.countP Task.isRunning + (Spec.ended [e]).length =
      st.futures.countP Task.isRunning + (Spec.begun [e]).length := by
  cases e with
  | submit =>
    simp only [Spec.begun, Spec.ended, List.filterMap_cons, List.filterMap_nil, List.length_nil, add_zero]
    simp only [step] at h
    split at h
    · split at h
      · simp at h; subst h; exact ⟨hn, rfl⟩
      · simp at h; subst h
        simp only [List.countP_append, List.countP_singleton, Task.isRunning, Bool.false_eq_true, if_false, add_zero]
        exact ⟨hn, trivial⟩
    · simp at h
  | gather =>
    simp only [Spec.begun, Spec.ended, List.filterMap_cons, List.filterMap_nil, List.length_nil, add_zero]
    simp only [step] at h
    split at h
    · split at h <;> first | (simp at h; subst h; exact ⟨hn, rfl⟩) | simp at h
    · simp at h
  | start j =>
    simp only [Spec.begun, Spec.ended, List.filterMap_cons, List.filterMap_nil, List.length_nil, List.length_cons]
    simp only [step] at h
    split at h
    · rename_i xs hx
      split at h
      · rename_i hlt
        simp at h; subst h
        obtain ⟨hil, hie⟩ := List.getElem?_eq_some_iff.1 hx
        have := countP_set Task.isRunning st.futures j (.running xs) hil
        rw [hie] at this
        simp only [Task.isRunning, if_true, Bool.false_eq_true, if_false] at this
        simp only
        omega
      · simp at h
    · simp at h
  | finish j =>
    simp only [Spec.begun, Spec.ended, List.filterMap_cons, List.filterMap_nil, List.length_nil, List.length_cons]
    simp only [step] at h
    split at h
    · rename_i xs hx
      simp at h; subst h
      obtain ⟨hil, hie⟩ := List.getElem?_eq_some_iff.1 hx
      have := countP_set Task.isRunning st.futures j (.done (s.func xs)) hil
      rw [hie] at this
      simp only [Task.isRunning, if_true, Bool.false_eq_true, if_false] at this
      simp only
      omega
    · simp at h

theorem run_running {s : Setup V E R} {n : ℕ} (es : List Ev) (st st' : St V E R) (h : runEvs s n st es = some st')
    (hn : st.futures.countP Task.isRunning ≤ n) :
    st'.futures.countP Task.isRunning ≤ n ∧ st'.futures.countP Task.isRunning + (Spec.ended es).length =
      st.futures.countP Task.isRunning + (Spec.begun es).length := by
  induction es generalizing st with
  | nil => simp [runEvs] at h; subst h; simpa [Spec.begun, Spec.ended] using hn
  | cons e es ih =>
    simp only [runEvs] at h
    split at h
    · simp at h
    · rename_i st1 h1
      obtain ⟨a, b⟩ := step_running h1 hn
      obtain ⟨c, d⟩ := ih st1 h a
      rw [begun_len, ended_len]
      omega

/-- **C168** at no time are more calls under way than there are workers -/
theorem C168_cap {s : Setup V E R} {n : ℕ} {args : List V} {es : List Ev} {st : St V E R}
    (h : runEvs s n (init args) es = some st) : (Spec.begun es).length ≤ (Spec.ended es).length + n := by
  obtain ⟨a, b⟩ := run_running es _ _ h (by simp [init])
  simp [init] at b
  omega

/-- gathered futures are done -/
theorem results_done {s : Setup V E R} {n : ℕ} (es : List Ev) (st st' : St V E R) (h : runEvs s n st es = some st')
    (hd : ∀ i < st.results.length, endedAt st i = 1) : ∀ i < st'.results.length, endedAt st' i = 1 := by
  induction es generalizing st with
  | nil => simp [runEvs] at h; subst h; exact hd
  | cons e es ih =>
    simp only [runEvs] at h
    split at h
    · simp at h
    · rename_i st1 h1
      refine ih st1 h ?_
      intro i hi
      have hk := (step_counts h1 i).2
      have hle := (ended_le_begun st1 i).trans (begun_le_one st1 i)
      by_cases hlt : i < st.results.length
      · have := hd i hlt; omega
      · cases e with
        | gather =>
          simp only [step] at h1
          split at h1
          · split at h1
            · simp at h1; subst h1; simp at hi; omega
            · rename_i r hr
              simp at h1; subst h1
              simp at hi
              have : i = st.results.length := by omega
              subst this
              simp [endedAt, hr]
            · simp at h1; subst h1; simp at hi; omega
            · simp at h1
          · simp at h1
        | submit =>
          simp only [step] at h1
          split at h1
          · split at h1 <;> (simp at h1; subst h1; simp at hi; omega)
          · simp at h1
        | start j =>
          simp only [step] at h1
          split at h1
          · split at h1
            · simp at h1; subst h1; simp at hi; omega
            · simp at h1
          · simp at h1
        | finish j =>
          simp only [step] at h1
          split at h1
          · simp at h1; subst h1; simp at hi; omega
          · simp at h1

/-- **C168** when `pool_call` returns, every argument has been called exactly once, every call has ended, and nothing of
the batch runs any more -/
theorem C168_returned {s : Setup V E R} {n : ℕ} {args : List V} {es : List Ev} {st : St V E R}
    (h : runEvs s n (init args) es = some st) {rs : List R} (ho : st.outcome = some (.ok rs)) :
    (Spec.begun es).Perm (List.range args.length) ∧ (Spec.ended es).Perm (List.range args.length) ∧
      ∀ i, step s n st (.start i) = none ∧ step s n st (.finish i) = none := by
  have hI := inv_run s n args es _ st (inv_init s args) h
  have hd := results_done es _ _ h (by simp [init])
  have hl : st.results.length = args.length ∧ st.futures.length = args.length := by
    rcases hI.fin _ ho with ⟨-, h2, h3, h4⟩ | ⟨i, hi, e, he, -⟩
    · exact ⟨by rw [← h3]; exact h4, h2⟩
    · simp at he
  have hall : ∀ i < args.length, endedAt st i = 1 := fun i hi => hd i (by omega)
  obtain ⟨o1, o2, o3, o4⟩ := C168_once_partial h
  have e1 : ∀ i, i ∈ Spec.ended es ↔ i < args.length := fun i => by
    constructor
    · intro hi; exact o4 i (o3 hi)
    · intro hi
      apply List.count_pos_iff.mp
      rw [(counts_init h i).2, hall i hi]; norm_num
  refine ⟨(List.perm_ext_iff_of_nodup o1 List.nodup_range).mpr fun i => ?_,
    (List.perm_ext_iff_of_nodup o2 List.nodup_range).mpr fun i => ?_, fun i => ?_⟩
  · rw [List.mem_range]
    exact ⟨o4 i, fun hi => o3 ((e1 i).mpr hi)⟩
  · rw [List.mem_range]; exact e1 i
  · by_cases hi : i < args.length
    · have := hall i hi
      unfold endedAt at this
      simp only [step]
      split at this
      · rename_i o hx
        simp [hx]
      · simp at this
    · simp only [step]
      rw [List.getElem?_eq_none (by omega)]
      simp

/-- **C168** a failure does not stop the batch: once nothing more can happen, whether the call returned or raised, every
submitted argument has been called exactly once and its call has ended -/
theorem C168_all_run {s : Setup V E R} {n : ℕ} (hn : 1 ≤ n) {args : List V} {es : List Ev} {st : St V E R}
    (h : runEvs s n (init args) es = some st) (hmax : ∀ e, step s n st e = none) :
    (Spec.ended es).Perm (List.range st.futures.length) ∧
      ((∀ a ∈ args, ∃ xs, s.callArgs a = .ok xs) → st.futures.length = args.length) := by
  have hI := inv_run s n args es _ st (inv_init s args) h
  have hnr : st.futures.countP Task.isRunning = 0 := by
    rw [List.countP_eq_zero]
    intro t ht hr
    obtain ⟨i, hi, rfl⟩ := List.getElem_of_mem ht
    have := hmax (.finish i)
    simp only [step, List.getElem?_eq_getElem hi] at this
    split at this
    · simp at this
    · rename_i hx
      cases hc : st.futures[i] with
      | pending xs => rw [hc] at hr; simp [Task.isRunning] at hr
      | running xs => exact hx xs (by rw [hc])
      | done o => rw [hc] at hr; simp [Task.isRunning] at hr
  have hall : ∀ i < st.futures.length, endedAt st i = 1 := by
    intro i hi
    have h1 := hmax (.start i)
    have h2 := hmax (.finish i)
    simp only [step, List.getElem?_eq_getElem hi] at h1 h2
    unfold endedAt
    rw [List.getElem?_eq_getElem hi]
    cases hc : st.futures[i] with
    | pending xs => rw [hc] at h1; simp [hnr] at h1; omega
    | running xs => rw [hc] at h2; simp at h2
    | done o => rfl
  obtain ⟨o1, o2, o3, o4⟩ := C168_once_partial h
  refine ⟨(List.perm_ext_iff_of_nodup o2 List.nodup_range).mpr fun i => ?_, fun hu => ?_⟩
  · rw [List.mem_range]
    constructor
    · intro hi
      have a := List.count_pos_iff.mpr hi
      rw [(counts_init h i).2] at a
      exact begunAt_pos (lt_of_lt_of_le a (ended_le_begun st i))
    · intro hi
      apply List.count_pos_iff.mp
      rw [(counts_init h i).2, hall i hi]; norm_num
  · by_contra hne
    have hlen := hI.len
    have hto : st.todo ≠ [] := by intro hc; rw [hc] at hlen; simp at hlen; omega
    cases ho : st.outcome with
    | none =>
      have := hmax .submit
      cases ht : st.todo with
      | nil => exact hto ht
      | cons a rest =>
        simp only [step, ho, ht] at this
        split at this <;> simp at this
    | some o =>
      rcases hI.fin o ho with ⟨h1, -⟩ | ⟨i, hi, e, -, he⟩
      · exact hto h1
      · obtain ⟨xs, hx⟩ := hu _ (List.getElem_mem hi)
        rw [hx] at he; simp at he

/-- The claim a caller would expect from the loop in the docstring: after an exception nothing of the batch is running or
starts any more. -/
def C168_statement : Prop :=
  ∀ (s : Setup ℤ String ℤ) (n : ℕ) (args : List ℤ) (es : List Ev) (st : St ℤ String ℤ) (e : String),
    runEvs s n (init args) es = some st → st.outcome = some (.error e) →
      ∀ i, step s n st (.start i) = none ∧ step s n st (.finish i) = none

/-- `func(a)` raises for 0 -/
def exF : Setup ℤ String ℤ where
  func xs := match xs with
    | [a] => if a = 0 then .error "zero" else .ok a
    | _ => .error "arity"
  unpack a := .ok [a]
  expandarg := true
  fixed := []

/-- With one worker: the call for 0 fails and is raised, then the call for 1 begins. -/
theorem C168_refuted : ¬ C168_statement := by
  intro h
  have := (h exF 1 [0, 1] [.submit, .submit, .start 0, .finish 0, .gather]
    ⟨[.done (.error "zero"), .pending [1]], [], [], some (.error "zero")⟩ "zero" rfl rfl 1).1
  simp [step, Task.isRunning] at this

/-- the arguments up to and including the first whose call fails -/
def Spec.upToFailure (f : V → Except E R) : List V → List V
  | [] => []
  | a :: as => match f a with
    | .ok _ => a :: Spec.upToFailure f as
    | .error _ => [a]

/-- **C168** the loop without workers: the result is that of `sequential`, and it has called the arguments up to the
first failure, in order, and no others (`c a` are the positional arguments of the call for `a`) -/
theorem C168_loop (s : Setup V E R) (args : List V) (c : V → List V) (hu : ∀ a ∈ args, s.callArgs a = .ok (c a)) :
    (seqLog s [] [] args).2 = sequential s [] args ∧
      (seqLog s [] [] args).1 = (Spec.upToFailure (fun a => s.func (c a)) args).map c := by
  have key : ∀ (log : List (List V)) (acc : List R), (seqLog s log acc args).2 = sequential s acc args ∧
      (seqLog s log acc args).1 = log ++ (Spec.upToFailure (fun a => s.func (c a)) args).map c := by
    induction args with
    | nil => intro log acc; simp [seqLog, sequential, Spec.upToFailure]
    | cons a as ih =>
      intro log acc
      simp only [seqLog, sequential, hu a (by simp), Spec.upToFailure]
      cases h2 : s.func (c a) with
      | error e => simp
      | ok r =>
        obtain ⟨x, y⟩ := ih (fun b hb => hu b (by simp [hb])) (log ++ [c a]) (acc ++ [r])
        simp only [x, y, List.map_cons, List.append_assoc, List.singleton_append, true_and]
  simpa using key [] []

/-- **C168** which values of `workers` select what, seen from outside when the cap leaves no process: only the empty
string and objects that are false run the loop, the three words for threads (in any case) do not look at the cap, and
everything else, also the string "False", raises ValueError -/
theorem C168_modes (s : Setup V E R) (w : Workers) (nproc : ℤ) (hn : nproc < 1) (ve : E) (o : Except E (List R)) :
    (w = .str [] ∨ w = .obj false → ∀ args, Outcome s w nproc ve args o ↔ o = sequential s [] args) ∧
    ((∃ t : Str, w = .str t ∧ lower t ∈ ["thread".toList, "t".toList, "threads".toList]) → ∀ args,
      (∀ a ∈ args, ∃ xs, s.callArgs a = .ok xs) → Outcome s w nproc ve args o → o = sequential s [] args) ∧
    ((∃ t : Str, w = .str t ∧ t ≠ [] ∧ lower t ∉ ["thread".toList, "t".toList, "threads".toList]) ∨ w = .obj true → ∀ args,
      Outcome s w nproc ve args o ↔ o = .error ve) := by
  refine ⟨?_, ?_, ?_⟩
  · rintro (rfl | rfl) args <;> simp [Outcome, Workers.truthy]
  · rintro ⟨t, rfl, ht⟩ args hu h
    have ht' : (Workers.str t).truthy = true := by
      cases t with
      | nil => simp [lower] at ht
      | cons a b => rfl
    unfold Outcome at h
    rw [if_neg (by rw [ht']; simp), if_pos (by simpa [Workers.isThread] using ht)] at h
    obtain ⟨n, -, es, st, h1, h2⟩ := h
    have hI := inv_run s n args es _ st (inv_init s args) h1
    rcases hI.fin o h2 with ⟨-, -, hm⟩ | ⟨i, hi, e, rfl, he⟩
    · cases o with
      | ok rs =>
        obtain ⟨h3, h4⟩ := hm
        rw [sequential_ok s args rs h4 (by subst h3; exact hI.res)]
      | error e =>
        obtain ⟨i, hi, he, hj⟩ := hm
        rw [sequential_err s args e i hi he hj]
    · obtain ⟨xs, hx⟩ := hu _ (List.getElem_mem hi)
      rw [hx] at he; simp at he
  · rintro (⟨t, rfl, h0, ht⟩ | rfl) args
    · have ht' : (Workers.str t).truthy = true := by
        cases t with
        | nil => exact absurd rfl h0
        | cons a b => rfl
      unfold Outcome
      rw [if_neg (by rw [ht']; simp), if_neg (by simpa [Workers.isThread] using ht), if_pos hn]
    · unfold Outcome
      rw [if_neg (by simp [Workers.truthy]), if_neg (by simp [Workers.isThread]), if_pos hn]

/-- a schedule with two workers in which the second call ends first -/
example : ∃ st, runEvs exF 2 (init [5, 1, 0]) [.submit, .submit, .submit, .start 1, .start 0, .finish 1, .start 2, .finish 0,
    .finish 2, .gather, .gather, .gather] = some st ∧ Spec.begun [.submit, .submit, .submit, .start 1, .start 0, .finish 1,
    .start 2, .finish 0, .finish 2, .gather, .gather, .gather] = [1, 0, 2] := ⟨_, rfl, rfl⟩

/-- a state in which nothing more can happen, after an exception -/
example : ∀ e, step exF 1 ⟨[.done (.error "zero"), .done (.ok 1)], [], [], some (.error "zero")⟩ e = none := by
  rintro (_ | i | i | _)
  · rfl
  · rcases i with _ | _ | i <;> simp [step]
  · rcases i with _ | _ | i <;> simp [step]
  · rfl

/-- the loop stops at 0 -/
example : Spec.upToFailure (fun a => exF.func [a]) [5, 0, 1] = [5, 0] := by decide

/-- the words are compared without case, and "False" is not a false value -/
example : lower "Threads".toList ∈ ["thread".toList, "t".toList, "threads".toList] ∧
    lower "False".toList ∉ ["thread".toList, "t".toList, "threads".toList] := by decide

end Verif.Pool
