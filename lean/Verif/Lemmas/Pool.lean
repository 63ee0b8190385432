import Mathlib.Data.List.Basic
import Mathlib.Tactic.Common
import Mathlib.Tactic.Linarith
import Verif.Model.Pool
namespace Verif.Pool
open Verif.Py
variable {V E R : Type}

/-- Result of the call for one item, `none` when `*arg` fails. -/
def Setup.value (s : Setup V E R) (a : V) : Except E R :=
  match s.callArgs a with
  | .error e => .error e
  | .ok xs => s.func xs

theorem sequential_acc (s : Setup V E R) (acc : List R) (args : List V) :
    sequential s acc args = match sequential s [] args with
      | .ok rs => .ok (acc ++ rs)
      | .error e => .error e := by
  induction args generalizing acc with
  | nil => simp [sequential]
  | cons a as ih =>
    simp only [sequential]
    cases h : s.callArgs a with
    | error e => simp
    | ok xs =>
      simp only
      cases h2 : s.func xs with
      | error e => simp
      | ok r =>
        simp only [List.nil_append]
        rw [ih (acc ++ [r]), ih [r]]
        cases sequential s [] as <;> simp

theorem sequential_cons (s : Setup V E R) (a : V) (as : List V) :
    sequential s [] (a :: as) = match s.value a with
      | .error e => .error e
      | .ok r => match sequential s [] as with
        | .ok rs => .ok (r :: rs)
        | .error e => .error e := by
  simp only [sequential, Setup.value]
  cases h : s.callArgs a with
  | error e => simp
  | ok xs =>
    simp only
    cases h2 : s.func xs with
    | error e => simp
    | ok r => simp only [List.nil_append]; rw [sequential_acc]; cases sequential s [] as <;> simp

/-- A future is correct for the item it was submitted for. -/
def TaskOk (s : Setup V E R) (a : V) : Task V E R → Prop
  | .pending xs => s.callArgs a = .ok xs
  | .running xs => s.callArgs a = .ok xs
  | .done o => o = s.value a ∧ ∃ xs, s.callArgs a = .ok xs

/-- The invariant kept by every schedule. -/
structure Inv (s : Setup V E R) (args : List V) (st : St V E R) : Prop where
  len : st.futures.length + st.todo.length = args.length
  todo : st.todo = args.drop st.futures.length
  tasks : ∀ i (h : i < st.futures.length) (h' : i < args.length), TaskOk s args[i] st.futures[i]
  reslen : st.results.length ≤ st.futures.length
  res : ∀ i (h : i < st.results.length) (h' : i < args.length), s.value args[i] = .ok st.results[i]
  early : st.todo ≠ [] → st.results = []
  fin : ∀ o, st.outcome = some o →
    (st.todo = [] ∧ st.futures.length = args.length ∧
      match o with
      | .ok rs => rs = st.results ∧ rs.length = args.length
      | .error e => ∃ i, ∃ h : i < args.length, s.value args[i] = .error e ∧
          ∀ j (hj : j < i), ∃ r, s.value (args[j]'(by omega)) = .ok r) ∨
    (∃ i, ∃ h : i < args.length, ∃ e, o = .error e ∧ s.callArgs args[i] = .error e)

theorem inv_init (s : Setup V E R) (args : List V) : Inv s args (init args) := by
  constructor <;> simp [init]

theorem set_getElem_cases {α : Type} (l : List α) (i j : Nat) (x : α) (h : j < (l.set i x).length) :
    (i = j ∧ (l.set i x)[j] = x) ∨ (l.set i x)[j] = l[j]'(by simpa using h) := by
  by_cases hij : i = j
  · left; subst hij; simp
  · right; simp [List.getElem_set, hij]

theorem inv_step (s : Setup V E R) (n : Nat) (args : List V) (st st' : St V E R) (e : Ev)
    (hi : Inv s args st) (h : step s n st e = some st') : Inv s args st' := by
  obtain ⟨hlen, htodo, htasks, hreslen, hres, hearly, hfin⟩ := hi
  cases e with
  | submit =>
    simp only [step] at h
    split at h
    · rename_i a rest ho ht
      have hlt : st.futures.length < args.length := by rw [ht] at hlen; simp at hlen; omega
      have ha : args[st.futures.length] = a := by
        rw [htodo, List.drop_eq_getElem_cons hlt, List.cons.injEq] at ht; exact ht.1
      have hr : rest = args.drop (st.futures.length + 1) := by
        rw [htodo, List.drop_eq_getElem_cons hlt, List.cons.injEq] at ht; exact ht.2.symm
      have hres0 : st.results = [] := hearly (by simp [ht])
      split at h
      · rename_i er hc
        simp at h; subst h
        refine ⟨hlen, htodo, htasks, hreslen, hres, hearly, ?_⟩
        intro o ho'
        simp at ho'
        right
        exact ⟨st.futures.length, hlt, er, ho'.symm, by rw [ha]; exact hc⟩
      · rename_i xs hc
        simp at h; subst h
        refine ⟨?_, ?_, ?_, ?_, ?_, ?_, ?_⟩
        · simp; rw [ht] at hlen; simp at hlen; omega
        · simp [hr]
        · intro i h1 h2
          simp only [List.length_append, List.length_singleton] at h1
          by_cases hi : i < st.futures.length
          · simp only [List.getElem_append_left hi]; exact htasks i hi h2
          · have : i = st.futures.length := by omega
            subst this
            simp only [List.getElem_concat_length]
            simp only [TaskOk]; rw [ha]; exact hc
        · simp [hres0]
        · simp [hres0]
        · intro _; exact hres0
        · intro o ho'; simp [ho] at ho'
    · simp at h
  | start i =>
    simp only [step] at h
    split at h
    · rename_i xs hx
      split at h
      · simp at h; subst h
        obtain ⟨hil, hie⟩ := List.getElem?_eq_some_iff.1 hx
        refine ⟨by simpa using hlen, by simpa using htodo, ?_, by simpa using hreslen, hres, hearly, by simpa using hfin⟩
        intro j h1 h2
        rcases set_getElem_cases st.futures i j (.running xs) h1 with ⟨hij, hv⟩ | hv
        · subst hij
          have := htasks i hil h2
          rw [hie] at this
          simp only [hv]; exact this
        · simp only [hv]; exact htasks j (by simpa using h1) h2
      · simp at h
    · simp at h
  | finish i =>
    simp only [step] at h
    split at h
    · rename_i xs hx
      simp at h; subst h
      obtain ⟨hil, hie⟩ := List.getElem?_eq_some_iff.1 hx
      refine ⟨by simpa using hlen, by simpa using htodo, ?_, by simpa using hreslen, hres, hearly, by simpa using hfin⟩
      intro j h1 h2
      rcases set_getElem_cases st.futures i j (.done (s.func xs)) h1 with ⟨hij, hv⟩ | hv
      · subst hij
        have := htasks i hil h2
        rw [hie] at this
        simp only [TaskOk] at this
        simp only [hv, TaskOk, Setup.value, this]
        simp
      · simp only [hv]; exact htasks j (by simpa using h1) h2
    · simp at h
  | gather =>
    simp only [step] at h
    split at h
    · rename_i ho ht
      have hfl : st.futures.length = args.length := by rw [ht] at hlen; simpa using hlen
      split at h
      · rename_i hn
        simp at h; subst h
        refine ⟨hlen, htodo, htasks, hreslen, hres, hearly, ?_⟩
        intro o ho'
        simp at ho'; subst ho'
        left
        have : st.futures.length ≤ st.results.length := by simpa using hn
        exact ⟨ht, hfl, rfl, by omega⟩
      · rename_i r hd
        simp at h; subst h
        obtain ⟨hil, hie⟩ := List.getElem?_eq_some_iff.1 hd
        have hT := htasks st.results.length hil (by omega)
        rw [hie] at hT
        refine ⟨hlen, htodo, htasks, ?_, ?_, ?_, ?_⟩
        · simp; omega
        · intro i h1 h2
          simp only [List.length_append, List.length_singleton] at h1
          by_cases hi : i < st.results.length
          · simp only [List.getElem_append_left hi]; exact hres i hi h2
          · have : i = st.results.length := by omega
            subst this
            simp only [List.getElem_concat_length]
            exact hT.1.symm
        · intro hh; exact absurd ht hh
        · intro o ho'; simp [ho] at ho'
      · rename_i er hd
        simp at h; subst h
        obtain ⟨hil, hie⟩ := List.getElem?_eq_some_iff.1 hd
        have hT := htasks st.results.length hil (by omega)
        rw [hie] at hT
        refine ⟨hlen, htodo, htasks, hreslen, hres, hearly, ?_⟩
        intro o ho'
        simp at ho'; subst ho'
        left
        refine ⟨ht, hfl, st.results.length, by omega, hT.1.symm, ?_⟩
        intro j hj
        exact ⟨_, hres j hj (by omega)⟩
      · simp at h
    · simp at h

theorem inv_run (s : Setup V E R) (n : Nat) (args : List V) (es : List Ev) (st st' : St V E R)
    (hi : Inv s args st) (h : runEvs s n st es = some st') : Inv s args st' := by
  induction es generalizing st with
  | nil => simp [runEvs] at h; subst h; exact hi
  | cons e es ih =>
    simp only [runEvs] at h
    split at h
    · simp at h
    · rename_i st1 h1
      exact ih st1 (inv_step s n args st st1 e hi h1) h

theorem sequential_ok (s : Setup V E R) (args : List V) (rs : List R) (hl : rs.length = args.length)
    (h : ∀ i (h : i < rs.length) (h' : i < args.length), s.value args[i] = .ok rs[i]) :
    sequential s [] args = .ok rs := by
  induction args generalizing rs with
  | nil => simp at hl; subst hl; rfl
  | cons a as ih =>
    cases rs with
    | nil => simp at hl
    | cons r rs =>
      rw [sequential_cons]
      have h0 := h 0 (by simp) (by simp)
      simp at h0
      rw [h0]
      have := ih rs (by simpa using hl) (fun i h1 h2 => by
        have := h (i+1) (by simpa using h1) (by simpa using h2); simpa using this)
      simp [this]

theorem sequential_err (s : Setup V E R) (args : List V) (e : E) (i : Nat) (hi : i < args.length)
    (he : s.value args[i] = .error e) (h : ∀ j (hj : j < i), ∃ r, s.value (args[j]'(by omega)) = .ok r) :
    sequential s [] args = .error e := by
  induction args generalizing i with
  | nil => simp at hi
  | cons a as ih =>
    rw [sequential_cons]
    cases i with
    | zero => simp at he; rw [he]
    | succ i =>
      obtain ⟨r, hr⟩ := h 0 (by omega)
      simp at hr
      rw [hr]
      have := ih i (by simpa using hi) (by simpa using he) (fun j hj => by
        have := h (j+1) (by omega); simpa using this)
      simp [this]

/-- Left-over work: bounds the length of every schedule. -/
def Task.cost : Task V E R → Nat
  | .pending _ => 2
  | .running _ => 1
  | .done _ => 0

def St.cost (st : St V E R) : Nat :=
  4 * st.todo.length + (st.futures.map Task.cost).sum + (st.futures.length - st.results.length) +
    (if st.outcome.isNone then 1 else 0)

theorem sum_set_lt (l : List (Task V E R)) (i : Nat) (h : i < l.length) (x : Task V E R) (hx : x.cost < l[i].cost) :
    ((l.set i x).map Task.cost).sum < (l.map Task.cost).sum := by
  induction l generalizing i with
  | nil => simp at h
  | cons a l ih =>
    cases i with
    | zero => simp [-List.map_set] at hx ⊢; omega
    | succ i => simp [-List.map_set] at hx ⊢; exact ih i (by simpa using h) hx

theorem cost_step (s : Setup V E R) (n : Nat) (args : List V) (st st' : St V E R) (e : Ev) (hi : Inv s args st)
    (h : step s n st e = some st') : st'.cost < st.cost := by
  obtain ⟨hlen, htodo, htasks, hreslen, hres, hearly, hfin⟩ := hi
  cases e with
  | submit =>
    simp only [step] at h
    split at h
    · rename_i a rest ho ht
      split at h
      · simp at h; subst h; simp [St.cost, ho, ht]
      · simp at h; subst h
        have := hearly (by simp [ht])
        simp [St.cost, ho, ht, Task.cost, this]; omega
    · simp at h
  | start i =>
    simp only [step] at h
    split at h
    · rename_i xs hx
      split at h
      · simp at h; subst h
        obtain ⟨hil, hie⟩ := List.getElem?_eq_some_iff.1 hx
        have := sum_set_lt st.futures i hil (.running xs) (by rw [hie]; simp [Task.cost])
        simp [St.cost, -List.map_set]; omega
      · simp at h
    · simp at h
  | finish i =>
    simp only [step] at h
    split at h
    · rename_i xs hx
      simp at h; subst h
      obtain ⟨hil, hie⟩ := List.getElem?_eq_some_iff.1 hx
      have := sum_set_lt st.futures i hil (.done (s.func xs)) (by rw [hie]; simp [Task.cost])
      simp [St.cost, -List.map_set]; omega
    · simp at h
  | gather =>
    simp only [step] at h
    split at h
    · rename_i ho ht
      split at h
      · simp at h; subst h; simp [St.cost, ho]
      · rename_i r hd
        simp at h; subst h
        obtain ⟨hil, -⟩ := List.getElem?_eq_some_iff.1 hd
        simp [St.cost, ho]; omega
      · simp at h; subst h; simp [St.cost, ho]
      · simp at h
    · simp at h

theorem cost_run (s : Setup V E R) (n : Nat) (args : List V) (es : List Ev) (st st' : St V E R) (hi : Inv s args st)
    (h : runEvs s n st es = some st') : st'.cost + es.length ≤ st.cost := by
  induction es generalizing st with
  | nil => simp [runEvs] at h; subst h; simp
  | cons e es ih =>
    simp only [runEvs] at h
    split at h
    · simp at h
    · rename_i st1 h1
      have := ih st1 (inv_step s n args st st1 e hi h1) h
      have := cost_step s n args st st1 e hi h1
      simp; omega

/-- As long as the call has not ended, something can happen. -/
theorem progress (s : Setup V E R) (n : Nat) (hn : 1 ≤ n) (st : St V E R)
    (ho : st.outcome = none) : ∃ e st', step s n st e = some st' := by
  cases ht : st.todo with
  | cons a rest =>
    cases hc : s.callArgs a with
    | error e => exact ⟨.submit, _, by simp [step, ho, ht, hc]; rfl⟩
    | ok xs => exact ⟨.submit, _, by simp [step, ho, ht, hc]; rfl⟩
  | nil =>
    cases hf : st.futures[st.results.length]? with
    | none => exact ⟨.gather, _, by simp [step, ho, ht, hf]; rfl⟩
    | some t =>
      cases t with
      | done o => cases o with
        | ok r => exact ⟨.gather, _, by simp [step, ho, ht, hf]; rfl⟩
        | error e => exact ⟨.gather, _, by simp [step, ho, ht, hf]; rfl⟩
      | running xs => exact ⟨.finish st.results.length, _, by simp [step, hf]; rfl⟩
      | pending xs =>
        by_cases hc : st.futures.countP Task.isRunning < n
        · exact ⟨.start st.results.length, _, by simp [step, hf, hc]; rfl⟩
        · have : 0 < st.futures.countP Task.isRunning := by omega
          obtain ⟨t, htm, htr⟩ := List.countP_pos_iff.1 this
          obtain ⟨i, hi, hie⟩ := List.getElem_of_mem htm
          cases t with
          | running ys =>
            have : st.futures[i]? = some (.running ys) := by rw [List.getElem?_eq_getElem hi, hie]
            exact ⟨.finish i, _, by simp [step, this]; rfl⟩
          | pending ys => simp [Task.isRunning] at htr
          | done o => simp [Task.isRunning] at htr

end Verif.Pool
