import Verif.Props.Convert
/-! # C155: an output comes from one version of its input -/
namespace Verif.Files
open Verif.Py

variable {C : Type}

/-- what is known of a conversion whose input nobody writes -/
def Whole (s : Store C) (j : Job C) : Phase C → Prop
  | .reading seen => seen = List.replicate seen.length (s j.inp) ∧ seen.length ≤ j.reads
  | .opened (.ok c) => alone s j = .write c
  | .opened (.error e) => alone s j = .spoil e
  | .done => ∃ c, alone s j = .write c
  | .failed e => alone s j = .refuse e ∨ alone s j = .spoil e

theorem whole_next {s s' : Store C} {j : Job C} (hs : s' j.inp = s j.inp) {ph : Phase C} (h : Whole s j ph) :
    Whole s j (nextPhase j s' ph) := by
  match ph, h with
  | .reading seen, h =>
    by_cases hl : seen.length < j.reads
    · simp only [nextPhase, hl, if_true, Whole, hs, List.length_append, List.length_singleton]
      refine ⟨?_, by omega⟩
      rw [List.replicate_succ']
      conv_lhs => rw [h.1]
    · have hlen : seen.length = j.reads := le_antisymm h.2 (by omega)
      have hp : j.plan seen = alone s j := by unfold alone; rw [← hlen, ← h.1]
      simp only [nextPhase, hl, if_false, hp]
      cases ha : alone s j with
      | refuse e => exact Or.inl ha
      | spoil e => exact ha
      | write c => exact ha
  | .opened (.ok c), h => exact ⟨c, h⟩
  | .opened (.error e), h => exact Or.inr h
  | .done, h => exact h
  | .failed e, h => exact h

/-- **C155** when no conversion of the batch writes its input, a conversion works on one version of it, whatever the
schedule: what it writes is what it makes of the file as it was at the start, and it ends as it would alone. -/
theorem C155_partial (blank : C) (jobs : List (Job C)) (s : Store C) (es : List (Ev C)) (i : ℕ) (j : Job C)
    (hji : jobs[i]? = some j) (hin : ∀ j' ∈ jobs, j'.out ≠ some j.inp) :
    (∀ c, (runAll blank jobs s es).phase i = .opened (.ok c) → alone s j = .write c) ∧
    ((runAll blank jobs s es).phase i = .done → ∃ c, alone s j = .write c) ∧
    (∀ e, (runAll blank jobs s es).phase i = .failed e → alone s j = .refuse e ∨ alone s j = .spoil e) := by
  have key : ∀ (es : List (Ev C)) (w : World C), w.store j.inp = s j.inp → Whole s j (w.phase i) →
      Whole s j ((es.foldl (exec blank jobs) w).phase i) := by
    intro es
    induction es with
    | nil => intro w _ h; exact h
    | cons e es ih =>
      intro w hw h
      rw [List.foldl_cons]
      have hst : (exec blank jobs w e).store j.inp = s j.inp := by
        rw [← hw]
        have := C124_others_untouched blank jobs w.store [e] j.inp hin
        cases e with
        | step k =>
          match hjk : jobs[k]? with
          | none => rw [(exec_none blank jobs w k hjk).1]
          | some j' =>
            rw [exec_step blank jobs w k j' hjk]
            exact next_other _ _ _ _ _ (hin j' (List.mem_of_getElem? hjk))
        | part k c =>
          match hjk : jobs[k]? with
          | none => rw [(exec_none blank jobs w k hjk).2]
          | some j' =>
            rw [exec_part blank jobs w k c j' hjk]
            exact part_other _ _ _ _ _ (hin j' (List.mem_of_getElem? hjk))
      refine ih _ hst ?_
      cases e with
      | step k =>
        by_cases hk : i = k
        · subst hk
          rw [exec_step_self blank jobs w i j hji]
          exact whole_next hw h
        · rw [exec_step_other blank jobs w k i hk]; exact h
      | part k c =>
        match hjk : jobs[k]? with
        | none => rw [(exec_none blank jobs w k hjk).2]; exact h
        | some j' => rw [exec_part blank jobs w k c j' hjk]; exact h
  have := key es (start s) rfl ⟨rfl, Nat.zero_le _⟩
  unfold runAll
  refine ⟨fun c hc => ?_, fun hc => ?_, fun e hc => ?_⟩ <;> rw [hc] at this <;> exact this

end Verif.Files

namespace Verif.Conv
open Verif.Py Verif.Header Verif.ViewHdr Verif.Map Verif.Files

/-- **C155**, the full claim for `project` to angular images: the output of every finished conversion is what it makes of
one version of its input, a content the file had at some moment of the run. -/
def C155_statement : Prop :=
  ∀ (α P : Type) (env : Env α P) (conv : P → Except PyErr P) (imgs : List Str) (s : Store (File P))
    (es : List (Ev (File P))) (i : ℕ) (j : Job (File P)) (o : Str) (c : File P),
    imgs.Nodup → (imgs.map (uv2angJob env conv false))[i]? = some j → j.out = some o →
    (∀ k j', (imgs.map (uv2angJob env conv false))[k]? = some j' → j'.out = some o → k = i) →
    (runAll .blank (imgs.map (uv2angJob env conv false)) s es).phase i = .done →
    (runAll .blank (imgs.map (uv2angJob env conv false)) s es).store o = some c →
    ∃ es' ∈ es.inits, j.plan (List.replicate j.reads
      ((runAll .blank (imgs.map (uv2angJob env conv false)) s es').store j.inp)) = .write c

/-- the small world with pictures that are numbers -/
def numEnv : Env ℕ ℕ where
  wrap _ _ t := if t = [] then [] else [t]
  io := unary
  num _ := 0
  pint _ := some 2
  dims _ := "-Y 2 +X 2".toList
  pval _ := "pvalue -r".toList

/-- `project` of `a.hdr` and `a_ang.hdr`, which is the output of the former -/
def tornJobs : List (Job (File ℕ)) := ["a.hdr".toList, "a_ang.hdr".toList].map (uv2angJob numEnv (fun n => .ok (n + 10)) false)

def tornStore : Store (File ℕ) := fun p =>
  if p = "a.hdr".toList then some (.image ["#?RADIANCE".toList, "NEW=1".toList] 1)
  else if p = "a_ang.hdr".toList then some (.image ["#?RADIANCE".toList, "OLD=1".toList] 2) else none

/-- the second conversion reads the old pixels, the first one writes its output, the second one reads the new header -/
def tornRun : List (Ev (File ℕ)) :=
  [.step 1, .step 0, .step 0, .step 0, .step 0, .step 1, .step 1, .step 1]

/-- **C155** header and pixels of the output come from different versions of the file. -/
theorem C155_torn : (runAll .blank tornJobs tornStore tornRun).store "a_ang_ang.hdr".toList =
    some (.image ["#?RADIANCE".toList, "pvalue -r".toList, "FORMAT=32-bit_rle_rgbe".toList, "a.hdr:".toList,
      "\tNEW=1".toList] 12) := by
  decide +kernel

theorem torn_second : tornJobs[1]? = some (uv2angJob numEnv (fun n => .ok (n + 10)) false "a_ang.hdr".toList) := rfl

/-- pixels and length of the fourth line of what is written -/
def glance : Plan (File ℕ) → ℕ × ℕ
  | .write (.image l p) => (p, (l.getD 3 []).length)
  | _ => (0, 0)

def isDone : Phase (File ℕ) → Bool
  | .done => true
  | _ => false

theorem isDone_iff {p : Phase (File ℕ)} (h : isDone p = true) : p = .done := by
  cases p <;> first | rfl | cases h

theorem torn_done : (runAll .blank tornJobs tornStore tornRun).phase 1 = .done := isDone_iff (by decide +kernel)

theorem torn_inits : tornRun.inits = (List.range 9).map fun n => tornRun.take n := rfl

theorem torn_versions : ∀ n < 9, glance ((uv2angJob numEnv (fun n => .ok (n + 10)) false "a_ang.hdr".toList).plan
    (List.replicate 2 ((runAll .blank tornJobs tornStore (tornRun.take n)).store "a_ang.hdr".toList))) ≠ (12, 6) := by
  decide +kernel

theorem torn_out : (uv2angJob numEnv (fun n => .ok (n + 10)) false "a_ang.hdr".toList).out =
    some "a_ang_ang.hdr".toList := by decide +kernel

theorem torn_only (k : ℕ) (j' : Job (File ℕ)) (hk : tornJobs[k]? = some j')
    (ho : j'.out = some "a_ang_ang.hdr".toList) : k = 1 := by
  match k, hk with
  | 0, hk =>
    have : (uv2angJob numEnv (fun n => .ok (n + 10)) false "a.hdr".toList) = j' := Option.some.inj hk
    rw [← this] at ho
    exact absurd ho (by decide +kernel)
  | 1, _ => rfl
  | k + 2, hk => exact absurd hk (by simp [tornJobs])

/-- **C155** is false: no single version of `a_ang.hdr` gives that output. -/
theorem C155_refuted : ¬ C155_statement := by
  intro h
  obtain ⟨es', he, hp⟩ := h ℕ ℕ numEnv (fun n => .ok (n + 10)) ["a.hdr".toList, "a_ang.hdr".toList] tornStore tornRun 1 _
    "a_ang_ang.hdr".toList _ (by decide) torn_second torn_out torn_only torn_done C155_torn
  rw [torn_inits] at he
  obtain ⟨n, hn, rfl⟩ := List.mem_map.mp he
  exact torn_versions n (List.mem_range.mp hn) (congrArg glance hp)

/-- a batch to which `C155_partial` applies -/
example : ∀ j' ∈ [copyJob "a.hdr".toList "a_uv.hdr".toList, copyJob "b.hdr".toList "b_uv.hdr".toList],
    j'.out ≠ some "a.hdr".toList := by decide

end Verif.Conv
