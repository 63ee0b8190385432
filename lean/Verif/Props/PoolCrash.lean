import Verif.Model.PoolCrash
import Verif.Props.Pool

/-! C203: worker processes that are killed. -/

namespace Verif.Pool
open Verif.Py
variable {V E R : Type}

/-- every schedule and every moment of death leaves the call able to go on until it has an outcome -/
def C203_statement : Prop :=
  ∀ (V E R : Type) (locked : Bool) (s : Setup V E R) (n : Nat) (args : List V) (es : List CEv) (st : CSt V E R), 1 ≤ n →
    crun locked s n (cinit args) es = some st → st.outcome = none → ∃ e st', e ≠ .die ∧ cstep locked s n st e = some st'

/-! ### the invariant -/

/-- A future is correct for the item it was submitted for. -/
def CTaskOk (s : Setup V E R) (died : Bool) (a : V) : Task V (Err E) R → Prop
  | .pending xs => s.callArgs a = .ok xs
  | .running xs => s.callArgs a = .ok xs
  | .done o => (o = own (s.value a) ∨ (o = .error .broken ∧ died = true))

structure CInv (s : Setup V E R) (args : List V) (st : CSt V E R) : Prop where
  len : st.futures.length + st.todo.length = args.length
  todo : st.todo = args.drop st.futures.length
  pas : ∀ xs, st.passed = some xs → ∃ h : st.futures.length < args.length, s.callArgs args[st.futures.length] = .ok xs
  tasks : ∀ i (h : i < st.futures.length) (h' : i < args.length), CTaskOk s st.died args[i] st.futures[i]
  reslen : st.results.length ≤ st.futures.length
  res : ∀ i (h : i < st.results.length) (h' : i < args.length), s.value args[i] = .ok st.results[i]
  early : st.todo ≠ [] → st.results = []
  clo : st.closing = true → st.died = true
  fin : ∀ o, st.outcome = some o →
    (o = .error .broken ∧ st.died = true) ∨
    (match o with
      | .ok rs => rs.length = args.length ∧ ∀ i (h : i < rs.length) (h' : i < args.length), s.value args[i] = .ok rs[i]
      | .error .broken => False
      | .error (.own e) => ∃ i, ∃ h : i < args.length, s.value args[i] = .error e ∧
          ∀ j (hj : j < i), ∃ r, s.value (args[j]'(by omega)) = .ok r) ∨
    (∃ i, ∃ h : i < args.length, ∃ e, o = .error (.own e) ∧ s.callArgs args[i] = .error e)

theorem cinv_init (s : Setup V E R) (args : List V) : CInv s args (cinit args) := by
  constructor <;> simp [cinit]

theorem CTaskOk.died {s : Setup V E R} {d : Bool} {a : V} {t : Task V (Err E) R} (h : CTaskOk s d a t) : CTaskOk s true a t := by
  cases t with
  | pending xs => exact h
  | running xs => exact h
  | done o => rcases h with h | ⟨h, -⟩
              · exact Or.inl h
              · exact Or.inr ⟨h, rfl⟩

theorem fail_ok {s : Setup V E R} {d : Bool} {a : V} {t : Task V (Err E) R} (hd : d = true) (h : CTaskOk s d a t) :
    CTaskOk s d a (fail t) := by
  cases t with
  | pending xs => exact Or.inr ⟨rfl, hd⟩
  | running xs => exact Or.inr ⟨rfl, hd⟩
  | done o => exact h

theorem cinv_step (locked : Bool) (s : Setup V E R) (n : Nat) (args : List V) (st st' : CSt V E R) (e : CEv)
    (hi : CInv s args st) (h : cstep locked s n st e = some st') : CInv s args st' := by
  obtain ⟨hlen, htodo, hpas, htasks, hreslen, hres, hearly, hclo, hfin⟩ := hi
  cases e with
  | look =>
    simp only [cstep] at h
    split at h
    · rename_i a rest ho hp ht
      have hlt : st.futures.length < args.length := by rw [ht] at hlen; simp at hlen; omega
      have ha : args[st.futures.length] = a := by
        rw [htodo, List.drop_eq_getElem_cons hlt, List.cons.injEq] at ht; exact ht.1
      split at h
      · rename_i er hc
        simp at h; subst h
        refine ⟨hlen, htodo, hpas, htasks, hreslen, hres, hearly, hclo, ?_⟩
        intro o ho'
        simp at ho'
        exact Or.inr (Or.inr ⟨st.futures.length, hlt, er, ho'.symm, by rw [ha]; exact hc⟩)
      · rename_i xs hc
        split at h
        · rename_i hcl
          simp at h; subst h
          refine ⟨hlen, htodo, hpas, htasks, hreslen, hres, hearly, hclo, ?_⟩
          intro o ho'
          simp at ho'
          exact Or.inl ⟨ho'.symm, hclo hcl⟩
        · simp at h; subst h
          refine ⟨hlen, htodo, ?_, htasks, hreslen, hres, hearly, hclo, ?_⟩
          · intro ys hys
            simp at hys
            exact ⟨hlt, by rw [ha, hc, hys]⟩
          · intro o ho'; simp [ho] at ho'
    · simp at h
  | enter =>
    simp only [cstep] at h
    split at h
    · rename_i xs a rest hp ht
      simp at h; subst h
      obtain ⟨hlt, hc⟩ := hpas xs hp
      have hr : rest = args.drop (st.futures.length + 1) := by
        rw [htodo, List.drop_eq_getElem_cons hlt, List.cons.injEq] at ht; exact ht.2.symm
      have hres0 : st.results = [] := hearly (by simp [ht])
      refine ⟨?_, ?_, ?_, ?_, ?_, ?_, ?_, hclo, ?_⟩
      · simp; rw [ht] at hlen; simp at hlen; omega
      · simp [hr]
      · simp
      · intro i h1 h2
        simp only [List.length_append, List.length_singleton] at h1
        by_cases hi : i < st.futures.length
        · simp only [List.getElem_append_left hi]; exact htasks i hi h2
        · have : i = st.futures.length := by omega
          subst this
          simp only [List.getElem_concat_length]
          exact hc
      · simp [hres0]
      · simp [hres0]
      · intro _; exact hres0
      · simpa using hfin
    · simp at h
  | start i =>
    simp only [cstep] at h
    split at h
    · rename_i xs hx
      split at h
      · simp at h; subst h
        obtain ⟨hil, hie⟩ := List.getElem?_eq_some_iff.1 hx
        refine ⟨by simpa using hlen, by simpa using htodo, by simpa using hpas, ?_, by simpa using hreslen, hres, hearly, hclo, by simpa using hfin⟩
        intro j h1 h2
        rcases set_getElem_cases st.futures i j (.running xs) h1 with ⟨hij, hv⟩ | hv
        · subst hij
          have := htasks i hil h2
          rw [hie] at this
          simp only [hv]; exact this
        · simp only [hv]; exact htasks j (by simpa using h1) h2
      · simp at h
    · simp at h
  | finish i =>
    simp only [cstep] at h
    split at h
    · rename_i xs hx
      split at h
      · simp at h
      simp at h; subst h
      obtain ⟨hil, hie⟩ := List.getElem?_eq_some_iff.1 hx
      refine ⟨by simpa using hlen, by simpa using htodo, by simpa using hpas, ?_, by simpa using hreslen, hres, hearly, hclo, by simpa using hfin⟩
      intro j h1 h2
      rcases set_getElem_cases st.futures i j (.done (own (s.func xs))) h1 with ⟨hij, hv⟩ | hv
      · subst hij
        have := htasks i hil h2
        rw [hie] at this
        simp only [CTaskOk] at this
        simp only [hv, CTaskOk, Setup.value, this]
        simp
      · simp only [hv]; exact htasks j (by simpa using h1) h2
    · simp at h
  | gather =>
    simp only [cstep] at h
    split at h
    · rename_i ho hp ht
      have hfl : st.futures.length = args.length := by rw [ht] at hlen; simpa using hlen
      split at h
      · rename_i hn
        simp at h; subst h
        refine ⟨hlen, htodo, hpas, htasks, hreslen, hres, hearly, hclo, ?_⟩
        intro o ho'
        simp at ho'; subst ho'
        have : st.futures.length ≤ st.results.length := by simpa using hn
        exact Or.inr (Or.inl ⟨by omega, hres⟩)
      · rename_i r hd
        simp at h; subst h
        obtain ⟨hil, hie⟩ := List.getElem?_eq_some_iff.1 hd
        have hT := htasks st.results.length hil (by omega)
        rw [hie] at hT
        have hv : s.value (args[st.results.length]'(by omega)) = .ok r := by
          rcases hT with hT | ⟨hT, -⟩
          · unfold own at hT
            split at hT
            · injection hT with hT
              rename_i r' hr'
              rw [hr', hT]
            · cases hT
          · cases hT
        refine ⟨hlen, htodo, by simpa using hpas, htasks, ?_, ?_, ?_, hclo, ?_⟩
        · simp; omega
        · intro i h1 h2
          simp only [List.length_append, List.length_singleton] at h1
          by_cases hi : i < st.results.length
          · simp only [List.getElem_append_left hi]; exact hres i hi h2
          · have : i = st.results.length := by omega
            subst this
            simp only [List.getElem_concat_length]
            exact hv
        · intro hh; exact absurd ht hh
        · intro o ho'; simp [ho] at ho'
      · rename_i er hd
        simp at h; subst h
        obtain ⟨hil, hie⟩ := List.getElem?_eq_some_iff.1 hd
        have hT := htasks st.results.length hil (by omega)
        rw [hie] at hT
        refine ⟨hlen, htodo, hpas, htasks, hreslen, hres, hearly, hclo, ?_⟩
        intro o ho'
        simp at ho'; subst ho'
        rcases hT with hT | ⟨hT, hd'⟩
        · right; left
          unfold own at hT
          split at hT
          · cases hT
          · injection hT with hT
            rename_i e' he'
            subst hT
            exact ⟨st.results.length, by omega, he', fun j hj => ⟨_, hres j hj (by omega)⟩⟩
        · injection hT with hT
          exact Or.inl ⟨by rw [hT], hd'⟩
      · simp at h
    · simp at h
  | die =>
    simp only [cstep] at h
    split at h
    · simp at h
    · simp at h; subst h
      refine ⟨hlen, htodo, hpas, fun i h1 h2 => (htasks i h1 h2).died, hreslen, hres, hearly, fun _ => rfl, fun o ho => ?_⟩
      rcases hfin o ho with ⟨h1, -⟩ | h1
      · exact Or.inl ⟨h1, rfl⟩
      · exact Or.inr h1
  | notice =>
    simp only [cstep] at h
    split at h
    · rename_i hc
      split at h
      · simp at h; subst h
        refine ⟨by simpa using hlen, by simpa using htodo, by simpa using hpas, ?_, by simpa using hreslen, hres, hearly, fun _ => hc.1, by simpa using hfin⟩
        intro j h1 h2
        simp only [List.getElem_map]
        exact fail_ok hc.1 (htasks j (by simpa using h1) h2)
      · simp at h; subst h
        exact ⟨hlen, htodo, hpas, htasks, hreslen, hres, hearly, fun _ => hc.1, hfin⟩
    · simp at h
  | mark =>
    simp only [cstep] at h
    split at h
    · rename_i hc
      simp at h; subst h
      refine ⟨by simpa using hlen, by simpa using htodo, by simpa using hpas, ?_, by simpa using hreslen, hres, hearly, hclo, by simpa using hfin⟩
      intro j h1 h2
      simp only [List.getElem_map]
      exact fail_ok (hclo hc.1) (htasks j (by simpa using h1) h2)
    · simp at h

theorem cinv_run (locked : Bool) (s : Setup V E R) (n : Nat) (args : List V) (es : List CEv) (st st' : CSt V E R)
    (hi : CInv s args st) (h : crun locked s n st es = some st') : CInv s args st' := by
  induction es generalizing st with
  | nil => simp [crun] at h; subst h; exact hi
  | cons e es ih =>
    simp only [crun] at h
    split at h
    · simp at h
    · rename_i st1 h1
      exact ih st1 (cinv_step locked s n args st st1 e hi h1) h

/-! ### what the call returns -/

/-- **C203, outcomes.** Whenever worker processes are killed, however tasks are scheduled: what `pool_call` returns or raises is
what the sequential loop returns or raises, or `BrokenProcessPool`, and the latter only if a worker has died. No list of results
is ever incomplete or out of order. -/
theorem C203_outcome (locked : Bool) (s : Setup V E R) (n : Nat) (args : List V)
    (hu : ∀ a ∈ args, ∃ xs, s.callArgs a = .ok xs) (es : List CEv) (st : CSt V E R)
    (hrun : crun locked s n (cinit args) es = some st) (o : Except (Err E) (List R)) (ho : st.outcome = some o) :
    o = own (sequential s [] args) ∨ (o = .error .broken ∧ st.died = true) := by
  have hI := cinv_run locked s n args es _ st (cinv_init s args) hrun
  rcases hI.fin o ho with h | h | ⟨i, hi, e, -, he⟩
  · exact Or.inr h
  · left
    cases o with
    | ok rs =>
      obtain ⟨h1, h2⟩ := h
      rw [sequential_ok s args rs h1 h2]; rfl
    | error x =>
      cases x with
      | own e =>
        obtain ⟨i, hi, he, hj⟩ := h
        rw [sequential_err s args e i hi he hj]; rfl
      | broken => exact h.elim
  · obtain ⟨xs, hx⟩ := hu _ (List.getElem_mem hi)
    rw [hx] at he; simp at he

/-! ### the call ends -/

/-- futures that are not done exist in a closed pool only if one was entered after the marking -/
def Lost (st : CSt V E R) : Prop := st.closed = true ∧ ∃ t ∈ st.futures, ∀ o, t ≠ .done o

theorem closing_of_closed {locked : Bool} {s : Setup V E R} {n : Nat} (es : List CEv) (st st' : CSt V E R)
    (hc : st.closed = true → st.closing = true) (h : crun locked s n st es = some st') : st'.closed = true → st'.closing = true := by
  induction es generalizing st with
  | nil => simp [crun] at h; subst h; exact hc
  | cons e es ih =>
    simp only [crun] at h
    split at h
    · simp at h
    · rename_i st1 h1
      refine ih st1 ?_ h
      cases e <;> simp only [cstep] at h1 <;> (repeat' split at h1) <;> simp at h1 <;> subst h1 <;> simp_all

/-- something other than a further death can happen unless a future is lost -/
theorem cprogress {locked : Bool} {s : Setup V E R} {n : Nat} (hn : 1 ≤ n) {args : List V} {st : CSt V E R} (hI : CInv s args st)
    (hcc : st.closed = true → st.closing = true) (ho : st.outcome = none) (hl : ¬ Lost st) :
    ∃ e st', e ≠ .die ∧ cstep locked s n st e = some st' := by
  cases hp : st.passed with
  | some xs =>
    obtain ⟨hlt, -⟩ := hI.pas xs hp
    cases ht : st.todo with
    | nil => have := hI.len; rw [ht] at this; simp at this; omega
    | cons a rest => exact ⟨.enter, _, by simp, by simp only [cstep, hp, ht]; rfl⟩
  | none =>
    cases ht : st.todo with
    | cons a rest =>
      cases hc : s.callArgs a with
      | error e => exact ⟨.look, _, by simp, by simp only [cstep, ho, hp, ht, hc]; rfl⟩
      | ok xs =>
        cases hcl : st.closing with
        | true => exact ⟨.look, _, by simp, by simp only [cstep, ho, hp, ht, hc, hcl, if_true]; rfl⟩
        | false => exact ⟨.look, _, by simp, by simp only [cstep, ho, hp, ht, hc, hcl, Bool.false_eq_true, if_false]; rfl⟩
    | nil =>
      cases hg : st.futures[st.results.length]? with
      | none => exact ⟨.gather, _, by simp, by simp only [cstep, ho, hp, ht, hg]; rfl⟩
      | some t =>
        have hmem : t ∈ st.futures := List.mem_of_getElem? hg
        cases t with
        | done o =>
          cases o with
          | ok r => exact ⟨.gather, _, by simp, by simp only [cstep, ho, hp, ht, hg]; rfl⟩
          | error e => exact ⟨.gather, _, by simp, by simp only [cstep, ho, hp, ht, hg]; rfl⟩
        | running xs =>
          cases hcl : st.closing with
          | false => exact ⟨.finish st.results.length, _, by simp, by simp only [cstep, hg, hcl, Bool.false_eq_true, if_false]; rfl⟩
          | true =>
            cases hcd : st.closed with
            | true => exact absurd ⟨hcd, _, hmem, fun o => by simp⟩ hl
            | false => exact ⟨.mark, _, by simp, by simp only [cstep, hcl, hcd, and_self, if_true]; rfl⟩
        | pending xs =>
          cases hcl : st.closing with
          | true =>
            cases hcd : st.closed with
            | true => exact absurd ⟨hcd, _, hmem, fun o => by simp⟩ hl
            | false => exact ⟨.mark, _, by simp, by simp only [cstep, hcl, hcd, and_self, if_true]; rfl⟩
          | false =>
            by_cases hr : st.futures.countP Task.isRunning < n
            · exact ⟨.start st.results.length, _, by simp, by simp only [cstep, hg, hcl, hr, and_self, if_true]; rfl⟩
            · obtain ⟨t', ht', hrun⟩ := List.countP_pos_iff.mp (show 0 < st.futures.countP Task.isRunning by omega)
              obtain ⟨k, hk, hkt⟩ := List.mem_iff_getElem.mp ht'
              cases t' with
              | pending ys => simp [Task.isRunning] at hrun
              | done o => simp [Task.isRunning] at hrun
              | running ys =>
                have hk' : st.futures[k]? = some (.running ys) := by rw [List.getElem?_eq_getElem hk, hkt]
                exact ⟨.finish k, _, by simp, by simp only [cstep, hk', hcl, Bool.false_eq_true, if_false]; rfl⟩

/-- after a death the main thread and the manager alone bring the call on: no other worker is needed -/
theorem cprogress_dead {locked : Bool} {s : Setup V E R} {n : Nat} {args : List V} {st : CSt V E R} (hI : CInv s args st)
    (ho : st.outcome = none) (hd : st.died = true) (hl : ¬ Lost st) :
    ∃ e st', (e = .look ∨ e = .enter ∨ e = .gather ∨ e = .notice ∨ e = .mark) ∧ cstep locked s n st e = some st' := by
  cases hp : st.passed with
  | some xs =>
    obtain ⟨hlt, -⟩ := hI.pas xs hp
    cases ht : st.todo with
    | nil => have := hI.len; rw [ht] at this; simp at this; omega
    | cons a rest => exact ⟨.enter, _, by simp, by simp only [cstep, hp, ht]; rfl⟩
  | none =>
    cases hcl : st.closing with
    | false => exact ⟨.notice, (cstep locked s n st .notice).get (by simp [cstep, hd, hcl, hp]; split <;> simp), by simp, by simp⟩
    | true =>
      cases hcd : st.closed with
      | false => exact ⟨.mark, _, by simp, by simp only [cstep, hcl, hcd, and_self, if_true]; rfl⟩
      | true =>
        cases ht : st.todo with
        | cons a rest =>
          cases hc : s.callArgs a with
          | error e => exact ⟨.look, _, by simp, by simp only [cstep, ho, hp, ht, hc]; rfl⟩
          | ok xs => exact ⟨.look, _, by simp, by simp only [cstep, ho, hp, ht, hc, hcl, if_true]; rfl⟩
        | nil =>
          cases hg : st.futures[st.results.length]? with
          | none => exact ⟨.gather, _, by simp, by simp only [cstep, ho, hp, ht, hg]; rfl⟩
          | some t =>
            have hmem : t ∈ st.futures := List.mem_of_getElem? hg
            cases t with
            | done o =>
              cases o with
              | ok r => exact ⟨.gather, _, by simp, by simp only [cstep, ho, hp, ht, hg]; rfl⟩
              | error e => exact ⟨.gather, _, by simp, by simp only [cstep, ho, hp, ht, hg]; rfl⟩
            | running xs => exact absurd ⟨hcd, _, hmem, fun o => by simp⟩ hl
            | pending xs => exact absurd ⟨hcd, _, hmem, fun o => by simp⟩ hl

theorem fail_done (t : Task V (Err E) R) : ∃ o, fail t = .done o := by
  cases t <;> simp [fail]

/-- with the lock nothing is lost -/
def Kept (locked : Bool) (st : CSt V E R) : Prop :=
  (st.closed = true → (st.passed = none ∧ ∀ t ∈ st.futures, ∃ o, t = .done o)) ∧ (st.closed = true → st.closing = true) ∧
    (st.closing = true → (locked = true → st.closed = true))

theorem kept_step {locked : Bool} {s : Setup V E R} {n : Nat} {st st' : CSt V E R} {e : CEv} (hk : Kept locked st)
    (hsub : locked = true ∨ st.todo = [] ∧ st.passed = none) (h : cstep locked s n st e = some st') : Kept locked st' := by
  obtain ⟨k1, k2, k3⟩ := hk
  cases e with
  | look =>
    simp only [cstep] at h
    split at h
    · rename_i a rest ho hp ht
      split at h
      · simp at h; subst h; exact ⟨k1, k2, k3⟩
      · split at h
        · simp at h; subst h; exact ⟨k1, k2, k3⟩
        · rename_i hcl
          simp at h; subst h
          refine ⟨fun hc => absurd (k2 hc) hcl, k2, k3⟩
    · simp at h
  | enter =>
    simp only [cstep] at h
    split at h
    · rename_i xs a rest hp ht
      simp at h; subst h
      rcases hsub with hl | ⟨hl, -⟩
      · refine ⟨fun hc => ?_, k2, k3⟩
        have := (k1 hc).1
        rw [hp] at this
        simp at this
      · rw [ht] at hl; simp at hl
    · simp at h
  | start i =>
    simp only [cstep] at h
    split at h
    · split at h
      · rename_i hc
        simp at h; subst h
        refine ⟨fun hcd => ?_, k2, k3⟩
        have := k2 hcd
        rw [hc.1] at this; simp at this
      · simp at h
    · simp at h
  | finish i =>
    simp only [cstep] at h
    split at h
    · split at h
      · simp at h
      · rename_i hc
        simp at h; subst h
        exact ⟨fun hcd => absurd (k2 hcd) hc, k2, k3⟩
    · simp at h
  | gather =>
    simp only [cstep] at h
    split at h
    · split at h <;> simp at h <;> subst h <;> exact ⟨k1, k2, k3⟩
    · simp at h
  | die =>
    simp only [cstep] at h
    split at h
    · simp at h
    · simp at h; subst h; exact ⟨k1, k2, k3⟩
  | notice =>
    simp only [cstep] at h
    split at h
    · rename_i hc
      split at h
      · rename_i hl
        simp at h; subst h
        refine ⟨fun _ => ⟨hc.2.2 hl, fun t ht => ?_⟩, fun _ => rfl, fun _ _ => rfl⟩
        obtain ⟨t', -, rfl⟩ := List.mem_map.mp ht
        exact fail_done t'
      · rename_i hl
        simp at h; subst h
        refine ⟨fun hcd => ?_, fun _ => rfl, fun _ h => absurd h hl⟩
        have := k2 hcd
        rw [hc.2.1] at this; simp at this
    · simp at h
  | mark =>
    simp only [cstep] at h
    split at h
    · rename_i hc
      simp at h; subst h
      rcases hsub with hl | ⟨-, hl⟩
      · have := k3 hc.1 hl
        rw [hc.2] at this; simp at this
      · refine ⟨fun _ => ⟨hl, fun t ht => ?_⟩, fun _ => hc.1, fun _ _ => rfl⟩
        obtain ⟨t', -, rfl⟩ := List.mem_map.mp ht
        exact fail_done t'
    · simp at h

theorem sub_step {locked : Bool} {s : Setup V E R} {n : Nat} {st st' : CSt V E R} {e : CEv}
    (hsub : locked = true ∨ st.todo = [] ∧ st.passed = none) (h : cstep locked s n st e = some st') :
    locked = true ∨ st'.todo = [] ∧ st'.passed = none := by
  rcases hsub with hl | ⟨h1, h2⟩
  · exact Or.inl hl
  · right
    cases e <;> simp only [cstep, h1, h2] at h <;> (repeat' split at h) <;> simp at h <;> first | (subst h; simp [h1, h2]; done) | simp_all

theorem kept_run {locked : Bool} {s : Setup V E R} {n : Nat} (es : List CEv) (st st' : CSt V E R) (hk : Kept locked st)
    (hsub : locked = true ∨ st.todo = [] ∧ st.passed = none) (h : crun locked s n st es = some st') : Kept locked st' := by
  induction es generalizing st with
  | nil => simp [crun] at h; subst h; exact hk
  | cons e es ih =>
    simp only [crun] at h
    split at h
    · simp at h
    · rename_i st1 h1
      exact ih st1 (kept_step hk hsub h1) (sub_step hsub h1) h

theorem kept_not_lost {locked : Bool} {st : CSt V E R} (h : Kept locked st) : ¬ Lost st := by
  rintro ⟨hc, t, ht, hno⟩
  obtain ⟨o, ho⟩ := (h.1 hc).2 t ht
  exact hno o ho

theorem crun_append {locked : Bool} {s : Setup V E R} {n : Nat} (es es' : List CEv) (st : CSt V E R) :
    crun locked s n st (es ++ es') = (crun locked s n st es).bind fun st' => crun locked s n st' es' := by
  induction es generalizing st with
  | nil => simp [crun]
  | cons e es ih =>
    simp only [List.cons_append, crun]
    cases cstep locked s n st e with
    | none => simp
    | some st1 => simp [ih]

/-- **C203, it ends.** With an executor that closes under its lock, from every state that schedules and deaths can lead to the
call can go on until it has an outcome; after a death it does not need any worker for that. -/
theorem C203_ends_partial (s : Setup V E R) (n : Nat) (hn : 1 ≤ n) (args : List V) (es : List CEv) (st : CSt V E R)
    (hrun : crun true s n (cinit args) es = some st) (ho : st.outcome = none) :
    (∃ e st', e ≠ .die ∧ cstep true s n st e = some st') ∧
    (st.died = true → ∃ e st', (e = .look ∨ e = .enter ∨ e = .gather ∨ e = .notice ∨ e = .mark) ∧ cstep true s n st e = some st') := by
  have hI := cinv_run true s n args es _ st (cinv_init s args) hrun
  have hk : Kept true st := kept_run es _ st ⟨by simp [cinit], by simp [cinit], by simp [cinit]⟩ (Or.inl rfl) hrun
  exact ⟨cprogress hn hI hk.2.1 ho (kept_not_lost hk), fun hd => cprogress_dead hI ho hd (kept_not_lost hk)⟩

/-- **C203, it ends.** The same for the older executor if all arguments have been submitted before the pool is closed. -/
theorem C203_submitted_partial (s : Setup V E R) (n : Nat) (hn : 1 ≤ n) (args : List V) (es es' : List CEv) (st st' : CSt V E R)
    (hrun : crun false s n (cinit args) es = some st) (hall : st.todo = []) (hcl : st.closed = false)
    (hrun' : crun false s n st es' = some st') (ho : st'.outcome = none) :
    (∃ e st'', e ≠ .die ∧ cstep false s n st' e = some st'') ∧
    (st'.died = true → ∃ e st'', (e = .look ∨ e = .enter ∨ e = .gather ∨ e = .notice ∨ e = .mark) ∧ cstep false s n st' e = some st'') := by
  have hI := cinv_run false s n args es _ st (cinv_init s args) hrun
  have hI' := cinv_run false s n args es' _ st' hI hrun'
  have hp : st.passed = none := by
    cases hq : st.passed with
    | none => rfl
    | some xs =>
      obtain ⟨hlt, -⟩ := hI.pas xs hq
      have := hI.len
      rw [hall] at this
      simp at this
      omega
  have hk : Kept false st' := kept_run es' st st' ⟨by simp [hcl], by simp [hcl], by simp⟩ (Or.inr ⟨hall, hp⟩) hrun'
  exact ⟨cprogress hn hI' hk.2.1 ho (kept_not_lost hk), fun hd => cprogress_dead hI' ho hd (kept_not_lost hk)⟩

/-- **C203, without deaths** the call always goes on, with either executor. -/
theorem C203_alive_partial (locked : Bool) (s : Setup V E R) (n : Nat) (hn : 1 ≤ n) (args : List V) (es : List CEv) (st : CSt V E R)
    (hrun : crun locked s n (cinit args) es = some st) (ho : st.outcome = none) (hd : st.died = false) :
    ∃ e st', e ≠ .die ∧ cstep locked s n st e = some st' := by
  have hI := cinv_run locked s n args es _ st (cinv_init s args) hrun
  have hc := closing_of_closed es _ st (by simp [cinit]) hrun
  refine cprogress hn hI hc ho fun hl => ?_
  have := hI.clo (hc hl.1)
  rw [hd] at this
  simp at this

/-- left-over work -/
def CSt.cost (st : CSt V E R) : Nat :=
  5 * st.todo.length + (if st.passed.isNone then 1 else 0) + (st.futures.map Task.cost).sum + (st.futures.length - st.results.length) +
    (if st.outcome.isNone then 1 else 0) + (if st.died then 0 else 1) + (if st.closing then 0 else 1) + (if st.closed then 0 else 1)

theorem fail_cost (l : List (Task V (Err E) R)) : ((l.map fail).map Task.cost).sum ≤ (l.map Task.cost).sum := by
  induction l with
  | nil => simp
  | cons a l ih => cases a <;> simp [fail, Task.cost] at ih ⊢ <;> omega

theorem ccost_step (locked : Bool) (s : Setup V E R) (n : Nat) (args : List V) (st st' : CSt V E R) (e : CEv) (hi : CInv s args st)
    (hk : st.closed = true → st.closing = true) (h : cstep locked s n st e = some st') : st'.cost < st.cost := by
  obtain ⟨hlen, htodo, hpas, htasks, hreslen, hres, hearly, hclo, hfin⟩ := hi
  cases e with
  | look =>
    simp only [cstep] at h
    split at h
    · rename_i a rest ho hp ht
      split at h
      · simp at h; subst h; simp [CSt.cost, ho]
      · split at h
        · simp at h; subst h; simp [CSt.cost, ho]
        · simp at h; subst h; simp [CSt.cost, hp]
    · simp at h
  | enter =>
    simp only [cstep] at h
    split at h
    · rename_i xs a rest hp ht
      simp at h; subst h
      have := hearly (by simp [ht])
      simp [CSt.cost, hp, ht, Task.cost, this]; omega
    · simp at h
  | start i =>
    simp only [cstep] at h
    split at h
    · rename_i xs hx
      split at h
      · simp at h; subst h
        obtain ⟨hil, hie⟩ := List.getElem?_eq_some_iff.1 hx
        have := sum_set_lt st.futures i hil (.running xs) (by rw [hie]; simp [Task.cost])
        simp [CSt.cost, -List.map_set]; omega
      · simp at h
    · simp at h
  | finish i =>
    simp only [cstep] at h
    split at h
    · rename_i xs hx
      split at h
      · simp at h
      simp at h; subst h
      obtain ⟨hil, hie⟩ := List.getElem?_eq_some_iff.1 hx
      have := sum_set_lt st.futures i hil (.done (own (s.func xs))) (by rw [hie]; simp [Task.cost])
      simp [CSt.cost, -List.map_set]; omega
    · simp at h
  | gather =>
    simp only [cstep] at h
    split at h
    · rename_i ho hp ht
      split at h
      · simp at h; subst h; simp [CSt.cost, ho]
      · rename_i r hd
        simp at h; subst h
        obtain ⟨hil, -⟩ := List.getElem?_eq_some_iff.1 hd
        simp [CSt.cost, ho]; omega
      · simp at h; subst h; simp [CSt.cost, ho]
      · simp at h
    · simp at h
  | die =>
    simp only [cstep] at h
    split at h
    · simp at h
    · rename_i hd
      simp only [not_or, Bool.not_eq_true] at hd
      simp at h; subst h; simp [CSt.cost, hd.2]
  | notice =>
    simp only [cstep] at h
    split at h
    · rename_i hc
      have hcd : st.closed = false := by
        cases hcd : st.closed with
        | false => rfl
        | true => have := hk hcd; rw [hc.2.1] at this; simp at this
      split at h
      · simp at h; subst h
        have := fail_cost st.futures
        simp [CSt.cost, hc.2.1, hcd, -List.map_map]; omega
      · simp at h; subst h
        simp [CSt.cost, hc.2.1]
    · simp at h
  | mark =>
    simp only [cstep] at h
    split at h
    · rename_i hc
      simp at h; subst h
      have := fail_cost st.futures
      simp [CSt.cost, hc.2, -List.map_map]; omega
    · simp at h

theorem ccost_run (locked : Bool) (s : Setup V E R) (n : Nat) (args : List V) (es : List CEv) (st st' : CSt V E R) (hi : CInv s args st)
    (hk : st.closed = true → st.closing = true) (h : crun locked s n st es = some st') : st'.cost + es.length ≤ st.cost := by
  induction es generalizing st with
  | nil => simp [crun] at h; subst h; simp
  | cons e es ih =>
    simp only [crun] at h
    split at h
    · simp at h
    · rename_i st1 h1
      have hk1 : st1.closed = true → st1.closing = true := closing_of_closed (locked := locked) (s := s) (n := n) [e] st st1 hk (by simp [crun, h1])
      have := ih st1 (cinv_step locked s n args st st1 e hi h1) hk1 h
      have := ccost_step locked s n args st st1 e hi hk h1
      simp; omega

/-- **C203, no endless schedules.** No schedule has more than `5 * len(args) + 5` events, deaths included. -/
theorem C203_bounded (locked : Bool) (s : Setup V E R) (n : Nat) (args : List V) (es : List CEv) (st : CSt V E R)
    (hrun : crun locked s n (cinit args) es = some st) : es.length ≤ 5 * args.length + 5 := by
  have := ccost_run locked s n args es _ st (cinv_init s args) (by simp [cinit]) hrun
  simp [cinit, CSt.cost] at this
  omega

/-! ### the call that never ends -/

/-- two arguments; the worker dies after the first, while the second is being submitted: `submit` looks at `_broken`, the manager closes the pool,
`submit` enters the future into a pool without a manager -/
def lateEvs : List CEv := [.look, .enter, .start 0, .finish 0, .look, .die, .notice, .mark, .enter, .gather]

/-- the state they lead to: one result, and a future that nobody will ever complete -/
def lateSt : CSt Int String Int := ⟨[.done (.ok 11), .pending [2, 10]], [], none, [11], none, true, true, true⟩

theorem late_run : crun false exS 1 (cinit [1, 2]) lateEvs = some lateSt := rfl

/-- **C203 is false for the older executor**: nothing can happen any more and `pool_call` has not come back. -/
theorem C203_refuted : ¬ C203_statement := by
  intro h
  obtain ⟨e, st', -, he⟩ := h Int String Int false exS 1 [1, 2] lateEvs lateSt le_rfl late_run rfl
  cases e with
  | start i =>
    match i with
    | 0 => simp [cstep, lateSt] at he
    | 1 => simp [cstep, lateSt] at he
    | k + 2 => simp [cstep, lateSt] at he
  | finish i =>
    match i with
    | 0 => simp [cstep, lateSt] at he
    | 1 => simp [cstep, lateSt] at he
    | k + 2 => simp [cstep, lateSt] at he
  | _ => simp [cstep, lateSt] at he

/-- what blocks is not the death itself but the order of the two steps: had the future been entered before the marking, the call
would raise -/
example : (crun false exS 1 (cinit [1, 2]) [.look, .enter, .start 0, .finish 0, .look, .die, .notice, .enter, .mark, .gather,
    .gather]).bind
    (fun st => match st.outcome with | some (.error .broken) => some () | _ => none) = some () := rfl

/-- a worker dies and the pool still returns everything because its work was done -/
example : (crun true exS 2 (cinit [1, 2]) [.look, .enter, .look, .enter, .start 0, .start 1, .finish 1, .finish 0, .die, .notice,
    .gather, .gather, .gather]).bind (fun st => match st.outcome with | some (.ok r) => some r | _ => none) = some [11, 12] := rfl

example : ∀ a ∈ [1, 2], ∃ xs, exS.callArgs a = .ok xs := fun a _ => ⟨[a, 10], rfl⟩

end Verif.Pool
