import Verif.Model.Files
import Verif.Model.Names
import Mathlib.Tactic.Common
/-! # Properties of conversions as programs on files: C123, C124 -/
namespace Verif.Files
open Verif.Py

variable {C : Type}

/-! ## specification: every conversion on its own, on the files as they were -/

/-- what the conversion decides when nobody touches its input -/
def alone (s : Store C) (j : Job C) : Plan C := j.plan (List.replicate j.reads (s j.inp))

/-- the content of its output afterwards, when it was `old` before -/
def Plan.left (blank : C) (old : Option C) : Plan C → Option C
  | .refuse _ => old
  | .spoil _ => some blank
  | .write c => some c

/-- how it ends -/
def Plan.ends : Plan C → Phase C
  | .refuse e => .failed e
  | .spoil e => .failed e
  | .write _ => .done

/-- outputs differ from each other and from all inputs -/
structure Apart (jobs : List (Job C)) : Prop where
  outs : ∀ (i k : ℕ) (j j' : Job C) (p : Str), jobs[i]? = some j → jobs[k]? = some j' → j.out = some p → j'.out = some p → i = k
  ins : ∀ j ∈ jobs, ∀ j' ∈ jobs, j.out ≠ some j'.inp

/-- the invariant of conversion `i` -/
def Good (blank : C) (s : Store C) (w : World C) (i : ℕ) (j : Job C) : Prop :=
  match w.phase i with
  | .reading seen => seen = List.replicate seen.length (s j.inp) ∧ seen.length ≤ j.reads ∧
      ∀ p, j.out = some p → w.store p = s p
  | .opened (.ok c) => alone s j = .write c
  | .opened (.error e) => alone s j = .spoil e ∧ ∀ p, j.out = some p → w.store p = some blank
  | .done => (alone s j).ends = .done ∧ ∀ p, j.out = some p → w.store p = (alone s j).left blank (s p)
  | .failed e => (alone s j).ends = .failed e ∧ ∀ p, j.out = some p → w.store p = (alone s j).left blank (s p)

/-- the invariant of a batch -/
structure Inv (blank : C) (jobs : List (Job C)) (s : Store C) (w : World C) : Prop where
  job : ∀ i j, jobs[i]? = some j → Good blank s w i j
  rest : ∀ p, (∀ j ∈ jobs, j.out ≠ some p) → w.store p = s p

theorem put_self (s : Store C) (p : Str) (c : C) : put s (some p) c p = some c := by simp [put]
theorem put_other (s : Store C) (o : Option Str) (c : C) (q : Str) (h : o ≠ some q) : put s o c q = s q := by
  simp [put, h]

/-- a conversion only touches its output -/
theorem next_other (blank : C) (j : Job C) (s : Store C) (ph : Phase C) (q : Str) (h : j.out ≠ some q) :
    nextStore blank j s ph q = s q := by
  match ph with
  | .reading seen =>
    by_cases hl : seen.length < j.reads
    · simp only [nextStore, hl, if_true]
    · simp only [nextStore, hl, if_false]
      match j.plan seen with
      | .refuse e => rfl
      | .spoil e => exact put_other _ _ _ _ h
      | .write c => exact put_other _ _ _ _ h
  | .opened (.ok c) => exact put_other _ _ _ _ h
  | .opened (.error e) => rfl
  | .done => rfl
  | .failed e => rfl

theorem exec_step (blank : C) (jobs : List (Job C)) (w : World C) (i : ℕ) (j : Job C) (h : jobs[i]? = some j) :
    exec blank jobs w (.step i) =
      ⟨nextStore blank j w.store (w.phase i), Function.update w.phase i (nextPhase j w.store (w.phase i))⟩ := by
  simp only [exec, h]

theorem exec_part (blank : C) (jobs : List (Job C)) (w : World C) (i : ℕ) (c : C) (j : Job C) (h : jobs[i]? = some j) :
    exec blank jobs w (.part i c) = ⟨partStore j w.store c (w.phase i), w.phase⟩ := by
  simp only [exec, h]

theorem exec_none (blank : C) (jobs : List (Job C)) (w : World C) (i : ℕ) (h : jobs[i]? = none) :
    exec blank jobs w (.step i) = w ∧ ∀ c, exec blank jobs w (.part i c) = w := by
  exact ⟨by simp only [exec, h], fun _ => by simp only [exec, h]⟩

theorem part_other (j : Job C) (s : Store C) (c : C) (ph : Phase C) (q : Str) (h : j.out ≠ some q) :
    partStore j s c ph q = s q := by
  unfold partStore
  split
  · exact put_other _ _ _ _ h
  · rfl

/-- an invariant only depends on the phase of the conversion and the content of its output -/
theorem good_congr {blank : C} {s : Store C} {w w' : World C} {i : ℕ} {j : Job C} (h : Good blank s w i j)
    (hp : w'.phase i = w.phase i) (hs : ∀ p, j.out = some p → w'.store p = w.store p) : Good blank s w' i j := by
  unfold Good at h ⊢
  rw [hp]
  match hph : w.phase i, h with
  | .reading seen, h => exact ⟨h.1, h.2.1, fun p hp => by rw [hs p hp]; exact h.2.2 p hp⟩
  | .opened (.ok c), h => exact h
  | .opened (.error e), h => exact ⟨h.1, fun p hp => by rw [hs p hp]; exact h.2 p hp⟩
  | .done, h => exact ⟨h.1, fun p hp => by rw [hs p hp]; exact h.2 p hp⟩
  | .failed e, h => exact ⟨h.1, fun p hp => by rw [hs p hp]; exact h.2 p hp⟩

/-- one step of a conversion keeps its invariant -/
theorem good_step {blank : C} {s : Store C} {w : World C} {i : ℕ} {j : Job C} (h : Good blank s w i j)
    (hin : w.store j.inp = s j.inp) (hself : j.out ≠ some j.inp) :
    Good blank s ⟨nextStore blank j w.store (w.phase i), Function.update w.phase i (nextPhase j w.store (w.phase i))⟩ i j := by
  unfold Good at h ⊢
  simp only [Function.update_self]
  match hph : w.phase i, h with
  | .reading seen, h =>
    obtain ⟨h1, h2, h3⟩ := h
    by_cases hl : seen.length < j.reads
    · simp only [nextPhase, nextStore, hl, if_true, hin]
      refine ⟨?_, ?_, h3⟩
      · rw [List.length_append, List.length_singleton, List.replicate_succ', ← h1]
      · simp; omega
    · have hfull : seen = List.replicate j.reads (s j.inp) := by
        have : seen.length = j.reads := by omega
        rw [← this]; exact h1
      have hpl : alone s j = j.plan seen := by unfold alone; rw [hfull]
      simp only [nextPhase, nextStore, hl, if_false]
      match hp : j.plan seen with
      | .refuse e =>
        simp only [hp] at hpl ⊢
        rw [hpl]
        exact ⟨rfl, fun p hp => h3 p hp⟩
      | .spoil e =>
        simp only [hp] at hpl ⊢
        exact ⟨hpl, fun p hp => by rw [hp, put_self]⟩
      | .write c =>
        simp only [hp] at hpl ⊢
        exact hpl
  | .opened (.ok c), h =>
    simp only [nextPhase, nextStore]
    rw [h]
    exact ⟨rfl, fun p hp => by rw [hp, put_self]; rfl⟩
  | .opened (.error e), h =>
    simp only [nextPhase, nextStore]
    obtain ⟨h1, h2⟩ := h
    rw [h1]
    exact ⟨rfl, fun p hp => by rw [h2 p hp]; rfl⟩
  | .done, h => exact h
  | .failed e, h => exact h

theorem good_part {blank : C} {s : Store C} {w : World C} {i : ℕ} {j : Job C} (c : C) (h : Good blank s w i j) :
    Good blank s ⟨partStore j w.store c (w.phase i), w.phase⟩ i j := by
  unfold Good at h ⊢
  match hph : w.phase i, h with
  | .reading seen, h => exact h
  | .opened (.ok c), h => exact h
  | .opened (.error e), h => exact h
  | .done, h => exact h
  | .failed e, h => exact h

theorem inv_exec {blank : C} {jobs : List (Job C)} {s : Store C} {w : World C} (ha : Apart jobs)
    (h : Inv blank jobs s w) (e : Ev C) : Inv blank jobs s (exec blank jobs w e) := by
  have inp : ∀ j ∈ jobs, w.store j.inp = s j.inp := fun j hj => h.rest _ fun j' hj' => ha.ins j' hj' j hj
  cases e with
  | step i =>
    match hji : jobs[i]? with
    | none => rw [(exec_none blank jobs w i hji).1]; exact h
    | some j =>
      have hmem : j ∈ jobs := List.mem_of_getElem? hji
      rw [exec_step blank jobs w i j hji]
      refine ⟨?_, ?_⟩
      · intro k j' hk
        by_cases hik : k = i
        · subst hik
          rw [hji] at hk
          injection hk with hk
          subst hk
          exact good_step (h.job _ _ hji) (inp _ hmem) (ha.ins _ hmem _ hmem)
        · refine good_congr (h.job k j' hk) (by simp [Function.update_of_ne hik]) ?_
          intro p hp
          exact next_other _ _ _ _ _ fun ho => hik (ha.outs k i j' j p hk hji hp ho)
      · intro p hp
        show nextStore blank j w.store (w.phase i) p = s p
        rw [next_other _ _ _ _ _ (hp j hmem)]
        exact h.rest p hp
  | part i c =>
    match hji : jobs[i]? with
    | none => rw [(exec_none blank jobs w i hji).2]; exact h
    | some j =>
      have hmem : j ∈ jobs := List.mem_of_getElem? hji
      rw [exec_part blank jobs w i c j hji]
      refine ⟨?_, ?_⟩
      · intro k j' hk
        by_cases hik : k = i
        · subst hik
          rw [hji] at hk
          injection hk with hk
          subst hk
          exact good_part c (h.job _ _ hji)
        · refine good_congr (h.job k j' hk) rfl ?_
          intro p hp
          exact part_other _ _ _ _ _ fun ho => hik (ha.outs k i j' j p hk hji hp ho)
      · intro p hp
        show partStore j w.store c (w.phase i) p = s p
        rw [part_other _ _ _ _ _ (hp j hmem)]
        exact h.rest p hp

theorem inv_start (blank : C) (jobs : List (Job C)) (s : Store C) : Inv blank jobs s (start s) :=
  ⟨fun i j _ => ⟨rfl, Nat.zero_le _, fun _ _ => rfl⟩, fun _ _ => rfl⟩

theorem inv_run {blank : C} {jobs : List (Job C)} (s : Store C) (ha : Apart jobs) (es : List (Ev C)) :
    Inv blank jobs s (runAll blank jobs s es) := by
  unfold runAll
  have : ∀ w, Inv blank jobs s w → Inv blank jobs s (es.foldl (exec blank jobs) w) := by
    induction es with
    | nil => intro w h; exact h
    | cons e es ih => intro w h; exact ih _ (inv_exec ha h e)
  exact this _ (inv_start _ _ _)

/-! ## C123: batches -/

/-- the store expected after a batch: every output holds what its conversion makes of the files as they were -/
def expected (blank : C) (jobs : List (Job C)) (s : Store C) : Store C := fun p =>
  match jobs.find? (fun j => decide (j.out = some p)) with
  | none => s p
  | some j => (alone s j).left blank (s p)

/-- the answer expected from a batch: the first failure in the order given, or the list of outputs -/
def answer (s : Store C) : List (Job C) → Except PyErr (List (Option Str))
  | [] => .ok []
  | j :: js => match (alone s j).ends with
    | .failed e => .error e
    | _ => (answer s js).map (j.out :: ·)

instance (ph : Phase C) : Decidable ph.ended := by unfold Phase.ended; cases ph <;> infer_instance

/-- all conversions have ended -/
def Over (jobs : List (Job C)) (w : World C) : Prop := ∀ i < jobs.length, (w.phase i).ended

/-- **C123**, the full claim: whatever the schedule, a batch ends with the files and the answer of independent
conversions. -/
def C123_statement : Prop :=
  ∀ (C : Type) (blank : C) (jobs : List (Job C)) (s : Store C) (es : List (Ev C)),
    Over jobs (runAll blank jobs s es) →
      (runAll blank jobs s es).store = expected blank jobs s ∧ gather (runAll blank jobs s es).phase 0 jobs = answer s jobs

theorem good_end {blank : C} {s : Store C} {w : World C} {i : ℕ} {j : Job C} (h : Good blank s w i j)
    (he : (w.phase i).ended) :
    w.phase i = (alone s j).ends ∧ ∀ p, j.out = some p → w.store p = (alone s j).left blank (s p) := by
  unfold Good at h
  match hph : w.phase i, h, he with
  | .done, h, _ => exact ⟨h.1.symm, h.2⟩
  | .failed e, h, _ => exact ⟨h.1.symm, h.2⟩
  | .reading seen, _, he => exact absurd he id
  | .opened r, _, he => exact absurd he id

theorem gather_answer (s : Store C) (phase : ℕ → Phase C) (jobs : List (Job C)) (k : ℕ)
    (h : ∀ i j, jobs[i]? = some j → phase (k + i) = (alone s j).ends) : gather phase k jobs = answer s jobs := by
  induction jobs generalizing k with
  | nil => rfl
  | cons j js ih =>
    have h0 := h 0 j rfl
    rw [Nat.add_zero] at h0
    rw [gather, answer, h0]
    have := ih (k + 1) (fun i j' hi => by
      have := h (i + 1) j' (by simpa using hi)
      rw [← this]; congr 1; omega)
    rw [this]
    cases (alone s j).ends <;> rfl

/-- **C123** holds when the outputs differ from each other and from all inputs. -/
theorem C123_partial (blank : C) (jobs : List (Job C)) (s : Store C) (es : List (Ev C)) (ha : Apart jobs)
    (hov : Over jobs (runAll blank jobs s es)) :
    (runAll blank jobs s es).store = expected blank jobs s ∧ gather (runAll blank jobs s es).phase 0 jobs = answer s jobs := by
  have hinv := inv_run (blank := blank) s ha es
  have fin : ∀ i j, jobs[i]? = some j → (runAll blank jobs s es).phase i = (alone s j).ends ∧
      ∀ p, j.out = some p → (runAll blank jobs s es).store p = (alone s j).left blank (s p) := by
    intro i j hij
    refine good_end (hinv.job i j hij) (hov i ?_)
    by_contra hc
    rw [List.getElem?_eq_none (by omega)] at hij
    cases hij
  refine ⟨?_, ?_⟩
  · funext p
    match hf : jobs.find? (fun j => decide (j.out = some p)) with
    | none =>
      simp only [expected, hf]
      refine hinv.rest p fun j hj ho => ?_
      have := List.find?_eq_none.mp hf j hj
      simp [ho] at this
    | some j =>
      have hm := List.mem_of_find?_eq_some hf
      have ho : j.out = some p := by simpa using List.find?_some hf
      obtain ⟨i, hi⟩ := List.mem_iff_getElem?.mp hm
      simp only [expected, hf]
      exact (fin i j hi).2 p ho
  · refine gather_answer s _ jobs 0 fun i j hij => ?_
    rw [Nat.zero_add]
    exact (fin i j hij).1

/-! ### every batch can end -/

theorem exec_step_self (blank : C) (jobs : List (Job C)) (w : World C) (i : ℕ) (j : Job C) (h : jobs[i]? = some j) :
    (exec blank jobs w (.step i)).phase i = nextPhase j w.store (w.phase i) := by
  rw [exec_step blank jobs w i j h]; simp

theorem exec_step_other (blank : C) (jobs : List (Job C)) (w : World C) (i k : ℕ) (h : k ≠ i) :
    (exec blank jobs w (.step i)).phase k = w.phase k := by
  match hji : jobs[i]? with
  | none => rw [(exec_none blank jobs w i hji).1]
  | some j => rw [exec_step blank jobs w i j hji]; exact Function.update_of_ne h _ _

/-- steps still to make -/
def toGo (j : Job C) : Phase C → ℕ
  | .reading seen => j.reads - seen.length + 2
  | .opened _ => 1
  | .done => 0
  | .failed _ => 0

theorem toGo_next (j : Job C) (s : Store C) (ph : Phase C) : toGo j (nextPhase j s ph) ≤ toGo j ph - 1 := by
  match ph with
  | .reading seen =>
    by_cases hl : seen.length < j.reads
    · simp only [nextPhase, hl, if_true, toGo, List.length_append, List.length_singleton]; omega
    · simp only [nextPhase, hl, if_false]
      match j.plan seen with
      | .refuse e => simp [toGo]
      | .spoil e => simp [toGo]
      | .write c => simp [toGo]
  | .opened (.ok c) => simp [nextPhase, toGo]
  | .opened (.error e) => simp [nextPhase, toGo]
  | .done => simp [nextPhase, toGo]
  | .failed e => simp [nextPhase, toGo]

theorem ended_iff (j : Job C) (ph : Phase C) : toGo j ph = 0 ↔ ph.ended := by
  cases ph <;> simp [toGo, Phase.ended]

theorem run_one (blank : C) (jobs : List (Job C)) (i : ℕ) (j : Job C) (h : jobs[i]? = some j) (n : ℕ) (w : World C)
    (hn : toGo j (w.phase i) ≤ n) :
    (((List.replicate n (Ev.step i)).foldl (exec blank jobs) w).phase i).ended ∧
      ∀ k ≠ i, ((List.replicate n (Ev.step i)).foldl (exec blank jobs) w).phase k = w.phase k := by
  induction n generalizing w with
  | zero => exact ⟨(ended_iff j _).mp (by simpa using hn), fun _ _ => rfl⟩
  | succ n ih =>
    rw [List.replicate_succ, List.foldl_cons]
    have := ih (exec blank jobs w (.step i)) (by
      rw [exec_step_self blank jobs w i j h]
      have := toGo_next j w.store (w.phase i)
      omega)
    exact ⟨this.1, fun k hk => by rw [this.2 k hk, exec_step_other blank jobs w i k hk]⟩

/-- **C123** from every point of every schedule the batch can be carried on to its end. -/
theorem C123_can_end (blank : C) (jobs : List (Job C)) (s : Store C) (es : List (Ev C)) :
    ∃ es', Over jobs (runAll blank jobs s (es ++ es')) := by
  have : ∀ n ≤ jobs.length, ∀ w : World C, ∃ es' : List (Ev C), ∀ i < n, ((es'.foldl (exec blank jobs) w).phase i).ended := by
    intro n
    induction n with
    | zero => intro _ w; exact ⟨[], fun i hi => absurd hi (by omega)⟩
    | succ n ih =>
      intro hn w
      obtain ⟨es', h⟩ := ih (by omega) w
      have hj : jobs[n]? = some jobs[n] := List.getElem?_eq_getElem (by omega)
      have h2 := run_one blank jobs n jobs[n] hj _ (es'.foldl (exec blank jobs) w) (le_refl _)
      refine ⟨es' ++ List.replicate (toGo jobs[n] ((es'.foldl (exec blank jobs) w).phase n)) (Ev.step n), fun i hi => ?_⟩
      rw [List.foldl_append]
      by_cases hin : i = n
      · subst hin; exact h2.1
      · rw [h2.2 i hin]; exact h i (by omega)
  obtain ⟨es', h⟩ := this jobs.length (le_refl _) (runAll blank jobs s es)
  exact ⟨es', fun i hi => by unfold runAll at h ⊢; rw [List.foldl_append]; exact h i hi⟩

/-! ### the witness: an image and its own conversion in one batch -/

/-- copies its input, as far as the files are concerned -/
def copyJob (inp out : Str) : Job ℕ :=
  ⟨inp, some out, 1, fun seen => match seen with
    | [some c] => .write (c + 1)
    | _ => .refuse .ValueError⟩

def raceJobs : List (Job ℕ) :=
  [copyJob "a.hdr".toList (Names.uvName "a.hdr".toList), copyJob "a_uv.hdr".toList (Names.uvName "a_uv.hdr".toList)]

def raceStore : Store ℕ := fun p => if p = "a.hdr".toList then some 1 else if p = "a_uv.hdr".toList then some 5 else none

def raceSchedule : List (Ev ℕ) := [.step 0, .step 0, .step 0, .step 1, .step 1, .step 1]

/-- **C123** is false: `a.hdr` and `a_uv.hdr` in one batch of `project`: the second conversion may read the output of the
first one. -/
theorem C123_refuted : ¬ C123_statement := by
  intro h
  have h1 := (h ℕ 0 raceJobs raceStore raceSchedule (by
    intro i hi
    have : i = 0 ∨ i = 1 := by simp [raceJobs] at hi; omega
    rcases this with rfl | rfl <;> decide +kernel)).1
  have h2 := congrFun h1 "a_uv_uv.hdr".toList
  revert h2
  decide +kernel

/-! ## C124: failures and interruptions -/

/-- **C124**, the full claim: a conversion that fails leaves all files as they were. -/
def C124_statement : Prop :=
  ∀ (C : Type) (blank : C) (j : Job C) (s : Store C) (es : List (Ev C)) (e : PyErr),
    (runAll blank [j] s es).phase 0 = .failed e → (runAll blank [j] s es).store = s

/-- **C124** at every point of every schedule only outputs have changed. -/
theorem C124_others_untouched (blank : C) (jobs : List (Job C)) (s : Store C) (es : List (Ev C)) (p : Str)
    (hp : ∀ j ∈ jobs, j.out ≠ some p) : (runAll blank jobs s es).store p = s p := by
  unfold runAll
  have : ∀ w : World C, (es.foldl (exec blank jobs) w).store p = w.store p := by
    induction es with
    | nil => intro w; rfl
    | cons e es ih =>
      intro w
      rw [List.foldl_cons, ih]
      cases e with
      | step i =>
        match hji : jobs[i]? with
        | none => rw [(exec_none blank jobs w i hji).1]
        | some j =>
          rw [exec_step blank jobs w i j hji]
          exact next_other _ _ _ _ _ (hp j (List.mem_of_getElem? hji))
      | part i c =>
        match hji : jobs[i]? with
        | none => rw [(exec_none blank jobs w i hji).2]
        | some j =>
          rw [exec_part blank jobs w i c j hji]
          exact part_other _ _ _ _ _ (hp j (List.mem_of_getElem? hji))
  exact this _

theorem apart_one (j : Job C) (h : j.out ≠ some j.inp) : Apart [j] where
  outs := by
    intro i k _ _ _ hi hk _ _
    have hi' : i < 1 := (List.getElem?_eq_some_iff.mp hi).1
    have hk' : k < 1 := (List.getElem?_eq_some_iff.mp hk).1
    omega
  ins := by
    intro a ha b hb
    rw [List.mem_singleton] at ha hb
    subst ha; subst hb; exact h

/-- **C124** a conversion that does not write over its input and fails has left the files as they were, or it failed after
opening the output, which is empty now; the latter exactly when its plan says so. -/
theorem C124_failure_partial (blank : C) (j : Job C) (s : Store C) (es : List (Ev C)) (e : PyErr)
    (hne : j.out ≠ some j.inp) (h : (runAll blank [j] s es).phase 0 = .failed e) :
    (alone s j = .refuse e ∧ (runAll blank [j] s es).store = s) ∨
      (alone s j = .spoil e ∧ (runAll blank [j] s es).store = put s j.out blank) := by
  have hinv := inv_run (blank := blank) s (apart_one j hne) es
  have hg := hinv.job 0 j rfl
  unfold Good at hg
  rw [h] at hg
  obtain ⟨h1, h2⟩ := hg
  have hrest : ∀ p, j.out ≠ some p → (runAll blank [j] s es).store p = s p :=
    fun p hp => hinv.rest p (fun j' hj' => by rw [List.mem_singleton] at hj'; rw [hj']; exact hp)
  match ha : alone s j with
  | .refuse e' =>
    rw [ha] at h1 h2
    simp only [Plan.ends, Phase.failed.injEq] at h1
    left
    refine ⟨by rw [h1], funext fun p => ?_⟩
    by_cases hp : j.out = some p
    · exact h2 p hp
    · exact hrest p hp
  | .spoil e' =>
    rw [ha] at h1 h2
    simp only [Plan.ends, Phase.failed.injEq] at h1
    right
    refine ⟨by rw [h1], funext fun p => ?_⟩
    by_cases hp : j.out = some p
    · rw [h2 p hp, hp, put_self]; rfl
    · rw [hrest p hp, put_other _ _ _ _ hp]
  | .write c => rw [ha] at h1; simp [Plan.ends] at h1

/-- **C124** an interrupted conversion has left its output as it was as long as it is still reading; writing to standard
output changes no file. -/
theorem C124_reading (blank : C) (j : Job C) (s : Store C) (es : List (Ev C)) (seen : List (Option C))
    (hne : j.out ≠ some j.inp) (h : (runAll blank [j] s es).phase 0 = .reading seen) : (runAll blank [j] s es).store = s := by
  have hinv := inv_run (blank := blank) s (apart_one j hne) es
  have hg := hinv.job 0 j rfl
  unfold Good at hg
  rw [h] at hg
  funext p
  by_cases hp : j.out = some p
  · exact hg.2.2 p hp
  · exact hinv.rest p (fun j' hj' => by rw [List.mem_singleton] at hj'; rw [hj']; exact hp)

theorem C124_stdout (blank : C) (j : Job C) (s : Store C) (es : List (Ev C)) (h : j.out = none) :
    (runAll blank [j] s es).store = s := by
  funext p
  refine C124_others_untouched blank [j] s es p fun j' hj' => ?_
  rw [List.mem_singleton] at hj'
  rw [hj', h]
  exact fun hh => by cases hh

/-- **C124** opening the output is the point of no return: a conversion onto its own input that is interrupted there has
lost the image. -/
theorem C124_own_input_lost (blank c : C) (j : Job C) (s : Store C) (hin : j.out = some j.inp)
    (hw : alone s j = .write c ∨ ∃ e, alone s j = .spoil e) :
    ∃ es, (runAll blank [j] s es).store j.inp = some blank := by
  have read : ∀ k ≤ j.reads, ((List.replicate k (Ev.step 0)).foldl (exec blank [j]) (start s)) =
      ⟨s, Function.update (fun _ => Phase.reading []) 0 (.reading (List.replicate k (s j.inp)))⟩ := by
    intro k
    induction k with
    | zero =>
      intro _
      have : (Function.update (fun _ : ℕ => (Phase.reading [] : Phase C)) 0 (.reading [])) = fun _ => .reading [] := by
        funext i; by_cases hi : i = 0 <;> simp [Function.update, hi]
      simp only [List.replicate_zero, List.foldl_nil, start, this]
    | succ k ih =>
      intro hk
      have hl : (List.replicate k (s j.inp)).length < j.reads := by simp; omega
      rw [List.replicate_succ', List.foldl_append, ih (by omega)]
      simp only [List.foldl_cons, List.foldl_nil, exec, List.getElem?_cons_zero, Function.update_self, nextStore,
        nextPhase, hl, if_true, Function.update_idem]
      rw [← List.replicate_succ']
  refine ⟨List.replicate j.reads (Ev.step 0) ++ [Ev.step 0], ?_⟩
  unfold runAll
  rw [List.foldl_append, read _ (le_refl _)]
  have hl : ¬ (List.replicate j.reads (s j.inp)).length < j.reads := by simp
  unfold alone at hw
  simp only [List.foldl_cons, List.foldl_nil, exec, List.getElem?_cons_zero, Function.update_self, nextStore, hl, if_false]
  rcases hw with hw | ⟨e, hw⟩
  · rw [hw]; simp [put, hin]
  · rw [hw]; simp [put, hin]

/-- a batch to which C123 applies -/
example : Apart ([copyJob "a.hdr".toList "a_uv.hdr".toList, copyJob "b.hdr".toList "b_uv.hdr".toList]) where
  outs := by
    intro i k a b p hi hk ha hb
    have hi' : i < 2 := (List.getElem?_eq_some_iff.mp hi).1
    have hk' : k < 2 := (List.getElem?_eq_some_iff.mp hk).1
    have : (i = 0 ∨ i = 1) ∧ (k = 0 ∨ k = 1) := by omega
    rcases this with ⟨rfl | rfl, rfl | rfl⟩
    · rfl
    · simp only [List.getElem?_cons_zero, List.getElem?_cons_succ, Option.some.injEq] at hi hk
      subst hi; subst hk
      simp only [copyJob] at ha hb
      rw [← hb] at ha
      exact absurd ha (by decide)
    · simp only [List.getElem?_cons_zero, List.getElem?_cons_succ, Option.some.injEq] at hi hk
      subst hi; subst hk
      simp only [copyJob] at ha hb
      rw [← hb] at ha
      exact absurd ha (by decide)
    · rfl
  ins := by decide

end Verif.Files
