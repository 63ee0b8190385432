import Mathlib.Data.List.Basic
import Mathlib.Data.List.Infix
import Mathlib.Tactic.Common
import Verif.Model.Header
import Verif.Lemmas.PyStr
namespace Verif.Header
open Verif.Py
namespace Forest

/-- All texts stored in a forest, in order. -/
def strs : Forest → List Str
  | nil => []
  | str s r => s :: strs r
  | sec _ _ c r => strs c ++ strs r

/-- The last entry is a section. -/
def endsSec : Forest → Bool
  | nil => false
  | str _ r => endsSec r
  | sec _ _ _ nil => true
  | sec _ _ _ r => endsSec r

/-- Every text satisfies `P` and every section name `Q`. -/
def all (P Q : Str → Prop) : Forest → Prop
  | nil => True
  | str s r => P s ∧ all P Q r
  | sec n _ c r => Q n ∧ all P Q c ∧ all P Q r

/-- Replace the content of the last section. -/
def setLastSec (c' : Forest) : Forest → Forest
  | nil => nil
  | str s r => str s (setLastSec c' r)
  | sec n d c r => if hasSec r then sec n d c (setLastSec c' r) else sec n d c' r

/-- Replace the current content `k` levels deep. -/
def setAt (c' : Forest) : Nat → Forest → Forest
  | 0, _ => c'
  | k + 1, F => match lastSec F with
    | some dc => setLastSec (setAt c' k dc.2) F
    | none => F

/-- The chain of last sections has depths `ds` and ends in a content satisfying `P`. -/
def chain (P : Forest → Prop) : List Nat → Forest → Prop
  | [], F => P F
  | d :: ds, F => ∃ c, lastSec F = some (d, c) ∧ chain P ds c

theorem lastSec_none_iff (F : Forest) : lastSec F = none ↔ hasSec F = false := by
  induction F with
  | nil => simp [lastSec, hasSec]
  | str s r ih => simpa [lastSec, hasSec] using ih
  | sec n d c r ihc ihr =>
    simp only [lastSec, hasSec]
    cases lastSec r <;> simp

theorem modLastSec_eq (g : Forest → Except PyErr Forest) (F : Forest) (d : Nat) (c : Forest)
    (h : lastSec F = some (d, c)) : modLastSec g F = (g c).map (fun c' => setLastSec c' F) := by
  induction F with
  | nil => simp [lastSec] at h
  | str s r ih =>
    simp only [lastSec] at h
    simp only [modLastSec, ih h, setLastSec]
    cases g c <;> rfl
  | sec n d' c0 r _ ih =>
    simp only [lastSec] at h
    cases hr : lastSec r with
    | some x =>
      rw [hr] at h
      simp only [Option.some.injEq] at h
      subst h
      have hs : hasSec r = true := by
        by_contra hh
        rw [Bool.not_eq_true, ← lastSec_none_iff] at hh
        rw [hh] at hr; cases hr
      simp only [modLastSec, hs, if_true, ih hr, setLastSec]
      cases g c <;> rfl
    | none =>
      rw [hr] at h
      simp only [Option.some.injEq, Prod.mk.injEq] at h
      obtain ⟨rfl, rfl⟩ := h
      have hs := (lastSec_none_iff r).1 hr
      simp only [modLastSec, hs, setLastSec, Bool.false_eq_true, if_false]
      cases g c0 <;> rfl

theorem lastSec_setLastSec (c' F : Forest) (d : Nat) (c : Forest) (h : lastSec F = some (d, c)) :
    lastSec (setLastSec c' F) = some (d, c') := by
  induction F with
  | nil => simp [lastSec] at h
  | str s r ih => simp only [lastSec] at h; simpa [setLastSec, lastSec] using ih h
  | sec n d' c0 r _ ih =>
    simp only [lastSec] at h
    cases hr : lastSec r with
    | some x =>
      rw [hr] at h
      simp only [Option.some.injEq] at h
      subst h
      have hs : hasSec r = true := by
        by_contra hh
        rw [Bool.not_eq_true, ← lastSec_none_iff] at hh
        rw [hh] at hr; cases hr
      simp [setLastSec, hs, lastSec, ih hr]
    | none =>
      rw [hr] at h
      simp only [Option.some.injEq, Prod.mk.injEq] at h
      obtain ⟨rfl, rfl⟩ := h
      have hs := (lastSec_none_iff r).1 hr
      simp [setLastSec, hs, lastSec, hr]

/-- Texts outside the last section. -/
theorem strs_setLastSec (F : Forest) (d : Nat) (c : Forest) (h : lastSec F = some (d, c)) :
    ∃ outer : Str → Prop, (∀ s, s ∈ strs F ↔ s ∈ strs c ∨ outer s) ∧
      ∀ c' s, s ∈ strs (setLastSec c' F) ↔ s ∈ strs c' ∨ outer s := by
  induction F with
  | nil => simp [lastSec] at h
  | str s r ih =>
    simp only [lastSec] at h
    obtain ⟨o, h1, h2⟩ := ih h
    refine ⟨fun t => t = s ∨ o t, fun t => ?_, fun c' t => ?_⟩
    · simp only [strs, List.mem_cons, h1]; tauto
    · simp only [setLastSec, strs, List.mem_cons, h2]; tauto
  | sec n d' c0 r _ ih =>
    simp only [lastSec] at h
    cases hr : lastSec r with
    | some x =>
      rw [hr] at h
      simp only [Option.some.injEq] at h
      subst h
      have hs : hasSec r = true := by
        by_contra hh
        rw [Bool.not_eq_true, ← lastSec_none_iff] at hh
        rw [hh] at hr; cases hr
      obtain ⟨o, h1, h2⟩ := ih hr
      refine ⟨fun t => t ∈ strs c0 ∨ o t, fun t => ?_, fun c' t => ?_⟩
      · simp only [strs, List.mem_append, h1]; tauto
      · simp only [setLastSec, hs, if_true, strs, List.mem_append, h2]; tauto
    | none =>
      rw [hr] at h
      simp only [Option.some.injEq, Prod.mk.injEq] at h
      obtain ⟨rfl, rfl⟩ := h
      have hs := (lastSec_none_iff r).1 hr
      refine ⟨fun t => t ∈ strs r, fun t => ?_, fun c' t => ?_⟩
      · simp only [strs, List.mem_append]
      · simp only [setLastSec, hs, Bool.false_eq_true, if_false, strs, List.mem_append]

theorem all_setLastSec (P Q : Str → Prop) (c' F : Forest) (hF : all P Q F) (hc : all P Q c') : all P Q (setLastSec c' F) := by
  induction F with
  | nil => trivial
  | str s r ih => exact ⟨hF.1, ih hF.2⟩
  | sec n d c r _ ih =>
    simp only [setLastSec]
    split
    · exact ⟨hF.1, hF.2.1, ih hF.2.2⟩
    · exact ⟨hF.1, hc, hF.2.2⟩

theorem all_lastSec (P Q : Str → Prop) (F : Forest) (d : Nat) (c : Forest) (hF : all P Q F)
    (h : lastSec F = some (d, c)) : all P Q c := by
  induction F with
  | nil => simp [lastSec] at h
  | str s r ih => exact ih hF.2 h
  | sec n d' c0 r _ ih =>
    simp only [lastSec] at h
    cases hr : lastSec r with
    | some x => rw [hr] at h; simp only [Option.some.injEq] at h; subst h; exact ih hF.2.2 hr
    | none =>
      rw [hr] at h; simp only [Option.some.injEq, Prod.mk.injEq] at h
      obtain ⟨rfl, rfl⟩ := h; exact hF.2.1

theorem hasSec_setLastSec (c' F : Forest) (h : hasSec F = true) : hasSec (setLastSec c' F) = true := by
  induction F with
  | nil => simp [hasSec] at h
  | str s r ih => exact ih h
  | sec n d c r _ _ => simp only [setLastSec]; split <;> rfl

theorem chain_mono {P Q : Forest → Prop} (hPQ : ∀ F, P F → Q F) (ds : List Nat) (F : Forest) (h : chain P ds F) :
    chain Q ds F := by
  induction ds generalizing F with
  | nil => exact hPQ F h
  | cons d ds ih => obtain ⟨c, h1, h2⟩ := h; exact ⟨c, h1, ih c h2⟩

theorem chain_take {P : Forest → Prop} (ds : List Nat) (F : Forest) (h : chain P ds F) (k : Nat) (hk : k < ds.length) :
    chain (fun _ => True) (ds.take k) F := by
  induction ds generalizing F k with
  | nil => simp at hk
  | cons d ds ih =>
    cases k with
    | zero => trivial
    | succ k =>
      obtain ⟨c, h1, h2⟩ := h
      exact ⟨c, h1, ih c h2 k (by simpa using hk)⟩

theorem getAt_of_chain {P : Forest → Prop} (ds : List Nat) (F : Forest) (h : chain P ds F) :
    ∃ c, getAt ds.length F = some c ∧ P c := by
  induction ds generalizing F with
  | nil => exact ⟨F, rfl, h⟩
  | cons d ds ih =>
    obtain ⟨c, h1, h2⟩ := h
    obtain ⟨c', h3, h4⟩ := ih c h2
    exact ⟨c', by simp [getAt, h1, h3], h4⟩

/-- Everything about modifying the current content at the end of an existing chain. -/
theorem modAt_spec (ds : List Nat) (F : Forest) (h : chain (fun _ => True) ds F) (f : Forest → Except PyErr Forest) :
    ∃ c, getAt ds.length F = some c ∧
      modAt ds.length f F = (f c).map (fun c' => setAt c' ds.length F) ∧
      (∀ P : Forest → Prop, ∀ c', P c' → chain P ds (setAt c' ds.length F)) ∧
      (∃ outer : Str → Prop, (∀ s, s ∈ strs F ↔ s ∈ strs c ∨ outer s) ∧
        ∀ c' s, s ∈ strs (setAt c' ds.length F) ↔ s ∈ strs c' ∨ outer s) ∧
      (∀ P Q, all P Q F → all P Q c) ∧
      (∀ P Q c', all P Q F → all P Q c' → all P Q (setAt c' ds.length F)) ∧
      (ds ≠ [] → hasSec F = true ∧ ∀ c', hasSec (setAt c' ds.length F) = true) := by
  induction ds generalizing F with
  | nil =>
    refine ⟨F, rfl, ?_, fun P c' hc => hc, ⟨fun _ => False, by simp, by simp [setAt]⟩, fun _ _ h => h,
      fun _ _ _ _ h => h, fun hh => absurd rfl hh⟩
    simp only [List.length_nil, modAt, setAt]
    cases f F <;> rfl
  | cons d ds ih =>
    obtain ⟨c1, h1, h2⟩ := h
    obtain ⟨c, hg, hm, hc, ⟨o, ho1, ho2⟩, ha1, ha2, -⟩ := ih c1 h2
    obtain ⟨o', ho1', ho2'⟩ := strs_setLastSec F d c1 h1
    have hset : ∀ c', setAt c' (d :: ds).length F = setLastSec (setAt c' ds.length c1) F := by
      intro c'; simp [setAt, h1]
    refine ⟨c, by simp [getAt, h1, hg], ?_, ?_, ⟨fun s => o s ∨ o' s, ?_, ?_⟩, ?_, ?_, ?_⟩
    · simp only [List.length_cons, modAt]
      rw [modLastSec_eq _ F d c1 h1, hm]
      cases f c with
      | error e => rfl
      | ok c' => simp only [Except.map]; rw [← hset]; rfl
    · intro P c' hP
      rw [hset]
      exact ⟨setAt c' ds.length c1, lastSec_setLastSec _ F d c1 h1, hc P c' hP⟩
    · intro s; rw [ho1', ho1]; tauto
    · intro c' s; rw [hset, ho2', ho2]; tauto
    · intro P Q hF; exact ha1 P Q (all_lastSec P Q F d c1 hF h1)
    · intro P Q c' hF hc'
      rw [hset]
      exact all_setLastSec P Q _ F hF (ha2 P Q c' (all_lastSec P Q F d c1 hF h1) hc')
    · intro _
      have hs : hasSec F = true := by
        by_contra hh
        rw [Bool.not_eq_true, ← lastSec_none_iff] at hh
        rw [hh] at h1; cases h1
      exact ⟨hs, fun c' => by rw [hset]; exact hasSec_setLastSec _ F hs⟩

/-! ### pushing and extending -/

theorem strs_pushStr (t : Str) (F : Forest) (s : Str) : s ∈ strs (pushStr t F) ↔ s ∈ strs F ∨ s = t := by
  induction F with
  | nil => simp [pushStr, strs]
  | str u r ih => simp only [pushStr, strs, List.mem_cons, ih]; tauto
  | sec n d c r _ ih => simp only [pushStr, strs, List.mem_append, ih]; tauto

theorem strs_pushSec (n : Str) (d : Nat) (F : Forest) : strs (pushSec n d F) = strs F := by
  induction F with
  | nil => simp [pushSec, strs]
  | str u r ih => simp [pushSec, strs, ih]
  | sec n d c r _ ih => simp [pushSec, strs, ih]

theorem endsSec_cons (n : Str) (d : Nat) (c r : Forest) (h : r ≠ nil) : endsSec (sec n d c r) = endsSec r := by
  cases r with
  | nil => exact absurd rfl h
  | str => rfl
  | sec => rfl

theorem pushStr_ne_nil (t : Str) (F : Forest) : pushStr t F ≠ nil := by cases F <;> simp [pushStr]

theorem endsSec_pushStr (t : Str) (F : Forest) : endsSec (pushStr t F) = false := by
  induction F with
  | nil => rfl
  | str u r ih => simpa [pushStr, endsSec] using ih
  | sec n d c r _ ih => simp only [pushStr]; rw [endsSec_cons _ _ _ _ (pushStr_ne_nil t r)]; exact ih

theorem lastSec_pushSec (n : Str) (d : Nat) (F : Forest) : lastSec (pushSec n d F) = some (d, nil) := by
  induction F with
  | nil => simp [pushSec, lastSec]
  | str u r ih => simpa [pushSec, lastSec] using ih
  | sec m e c r _ ih => simp [pushSec, lastSec, ih]

theorem hasSec_pushSec (n : Str) (d : Nat) (F : Forest) : hasSec (pushSec n d F) = true := by
  induction F with
  | nil => rfl
  | str u r ih => simpa [pushSec, hasSec] using ih
  | sec m e c r _ ih => rfl

theorem all_pushStr (P Q : Str → Prop) (t : Str) (F : Forest) (hF : all P Q F) (ht : P t) : all P Q (pushStr t F) := by
  induction F with
  | nil => exact ⟨ht, trivial⟩
  | str u r ih => exact ⟨hF.1, ih hF.2⟩
  | sec n d c r _ ih => exact ⟨hF.1, hF.2.1, ih hF.2.2⟩

theorem all_pushSec (P Q : Str → Prop) (n : Str) (d : Nat) (F : Forest) (hF : all P Q F) (ht : Q n) :
    all P Q (pushSec n d F) := by
  induction F with
  | nil => exact ⟨ht, trivial, trivial⟩
  | str u r ih => exact ⟨hF.1, ih hF.2⟩
  | sec n d c r _ ih => exact ⟨hF.1, hF.2.1, ih hF.2.2⟩

/-- `l[-1] += t` succeeds exactly on a non-empty list that does not end in a section. -/
theorem extendLast_ok (t : Str) (F : Forest) (h1 : F ≠ nil) (h2 : endsSec F = false) :
    ∃ F', extendLast t F = .ok F' := by
  induction F with
  | nil => exact absurd rfl h1
  | str u r ih =>
    cases r with
    | nil => exact ⟨_, rfl⟩
    | str => obtain ⟨F', hF'⟩ := ih (by simp) h2; exact ⟨_, by rw [extendLast, hF']; rfl; simp⟩
    | sec => obtain ⟨F', hF'⟩ := ih (by simp) h2; exact ⟨_, by rw [extendLast, hF']; rfl; simp⟩
  | sec n d c r _ ih =>
    cases r with
    | nil => simp [endsSec] at h2
    | str => obtain ⟨F', hF'⟩ := ih (by simp) h2; exact ⟨_, by rw [extendLast, hF']; rfl; simp⟩
    | sec => obtain ⟨F', hF'⟩ := ih (by simp) h2; exact ⟨_, by rw [extendLast, hF']; rfl; simp⟩

theorem extendLast_nil (t : Str) : extendLast t nil = .error .IndexError := rfl

/-- Effect of `l[-1] += t`: all texts stay, one is extended. -/
theorem extendLast_spec (t : Str) (F F' : Forest) (h : extendLast t F = .ok F') :
    (∀ s ∈ strs F, s ∈ strs F' ∨ s ++ t ∈ strs F') ∧ (∃ s ∈ strs F, s ++ t ∈ strs F') ∧
    endsSec F' = false ∧ F' ≠ nil ∧ hasSec F' = hasSec F ∧ lastSec F' = lastSec F ∧
    (∀ P Q : Str → Prop, (∀ s, P s → P (s ++ t)) → all P Q F → all P Q F') ∧
    (hasSec F = false → ∃ l s, strs F = l ++ [s] ∧ strs F' = l ++ [s ++ t]) := by
  induction F generalizing F' with
  | nil => cases h
  | str u r ih =>
    by_cases hr : r = nil
    · subst hr
      simp only [extendLast, Except.ok.injEq] at h
      subst h
      refine ⟨by simp [strs], by simp [strs], rfl, by simp, rfl, rfl, ?_, ?_⟩
      · intro P Q hP ha; exact ⟨hP _ ha.1, trivial⟩
      · intro _; exact ⟨[], u, rfl, rfl⟩
    · have h' : (do return str u (← extendLast t r)) = Except.ok F' := by
        rw [← h]; rw [extendLast]; exact fun hh => absurd hh hr
      cases hx : extendLast t r with
      | error e => rw [hx] at h'; cases h'
      | ok r' =>
        rw [hx] at h'
        obtain ⟨a1, ⟨s0, b1, b2⟩, a3, a4, a5, a6, a7, a8⟩ := ih r' hx
        have : F' = str u r' := by injection h' with h'; exact h'.symm
        subst this
        refine ⟨?_, ⟨s0, by simp [strs, b1], by simp [strs, b2]⟩, a3, by simp, a5, a6, ?_, ?_⟩
        · intro s hs
          simp only [strs, List.mem_cons] at hs ⊢
          rcases hs with rfl | hs
          · simp
          · rcases a1 s hs with h | h <;> simp [h]
        · intro P Q hP ha; exact ⟨ha.1, a7 P Q hP ha.2⟩
        · intro hs; obtain ⟨l, s, e1, e2⟩ := a8 hs
          exact ⟨u :: l, s, by simp [strs, e1], by simp [strs, e2]⟩
  | sec n d c r _ ih =>
    by_cases hr : r = nil
    · subst hr; simp [extendLast] at h
    · have h' : (do return sec n d c (← extendLast t r)) = Except.ok F' := by
        rw [← h]; rw [extendLast]; exact fun hh => absurd hh hr
      cases hx : extendLast t r with
      | error e => rw [hx] at h'; cases h'
      | ok r' =>
        rw [hx] at h'
        obtain ⟨a1, ⟨s0, b1, b2⟩, a3, a4, a5, a6, a7, a8⟩ := ih r' hx
        have : F' = sec n d c r' := by injection h' with h'; exact h'.symm
        subst this
        refine ⟨?_, ⟨s0, by simp [strs, b1], by simp [strs, b2]⟩, ?_, by simp, rfl, ?_, ?_, ?_⟩
        · intro s hs
          simp only [strs, List.mem_append] at hs ⊢
          rcases hs with hs | hs
          · simp [hs]
          · rcases a1 s hs with h | h <;> simp [h]
        · rw [endsSec_cons _ _ _ _ a4]; exact a3
        · simp [lastSec, a6]
        · intro P Q hP ha; exact ⟨ha.1, ha.2.1, a7 P Q hP ha.2.2⟩
        · intro hs; simp [hasSec] at hs

/-! ### pop and promote -/

theorem chain_of_lastSec_eq {P : Forest → Prop} {F F' : Forest} (hP : P F → P F') (h : lastSec F' = lastSec F)
    (ds : List Nat) (hc : chain P ds F) : chain P ds F' := by
  cases ds with
  | nil => exact hP hc
  | cons d ds => obtain ⟨c, h1, h2⟩ := hc; exact ⟨c, by rw [h, h1], h2⟩

/-- `chain` with an end that does not end in a section survives `pop`. -/
theorem chain_pop (val : Str) (F : Forest) (idx : List Nat) (i : Nat) (ds : List Nat)
    (h : chain (fun c => endsSec c = false) ds F) :
    chain (fun c => endsSec c = false) ds (pop val idx i F).2 := by
  induction F generalizing idx i ds with
  | nil => exact h
  | str s r ih =>
    have hr : chain (fun c => endsSec c = false) ds r := by
      cases ds with
      | nil => exact h
      | cons d ds => exact h
    simp only [pop]
    split
    · split
      · exact h
      · exact hr
    · have := ih idx (i + 1) ds hr
      cases ds with
      | nil => exact this
      | cons d ds => exact this
  | sec n d c r ihc _ =>
    simp only [pop]
    cases ds with
    | nil =>
      cases r with
      | nil => exact h
      | str => exact h
      | sec => exact h
    | cons e ds =>
      obtain ⟨c1, h1, h2⟩ := h
      simp only [lastSec] at h1
      cases hr : lastSec r with
      | some x => rw [hr] at h1; exact ⟨c1, by simpa [lastSec, hr] using h1, h2⟩
      | none =>
        rw [hr] at h1
        simp only [Option.some.injEq, Prod.mk.injEq] at h1
        obtain ⟨rfl, rfl⟩ := h1
        exact ⟨_, by simp [lastSec, hr], ihc (idx ++ [i]) 0 ds h2⟩

theorem strs_pop (val : Str) (F : Forest) (idx : List Nat) (i : Nat) :
    (∀ s ∈ strs F, s = val ∨ s ∈ strs (pop val idx i F).2) ∧ hasSec (pop val idx i F).2 = hasSec F ∧
    (∀ P Q : Str → Prop, all P Q F → all P Q (pop val idx i F).2) := by
  induction F generalizing idx i with
  | nil => simp [pop, strs]
  | str s r ih =>
    simp only [pop]
    split
    · split
      · exact ⟨fun t ht => Or.inr ht, rfl, fun _ _ h => h⟩
      · rename_i hs _
        refine ⟨fun t ht => ?_, rfl, fun _ _ h => h.2⟩
        simp only [strs, List.mem_cons] at ht
        rcases ht with rfl | ht
        · exact Or.inl hs
        · exact Or.inr ht
    · obtain ⟨h1, h2, h3⟩ := ih idx (i + 1)
      refine ⟨fun t ht => ?_, h2, fun P Q h => ⟨h.1, h3 P Q h.2⟩⟩
      simp only [strs, List.mem_cons] at ht ⊢
      rcases ht with rfl | ht
      · simp
      · rcases h1 t ht with h | h <;> simp [h]
  | sec n d c r ihc _ =>
    obtain ⟨h1, h2, h3⟩ := ihc (idx ++ [i]) 0
    refine ⟨fun t ht => ?_, rfl, fun P Q h => ⟨h.1, h3 P Q h.2.1, h.2.2⟩⟩
    simp only [pop, strs, List.mem_append] at ht ⊢
    rcases ht with ht | ht
    · rcases h1 t ht with h | h <;> simp [h]
    · simp [ht]

theorem pop_none (val : Str) (F : Forest) (idx : List Nat) (i : Nat) (h : (pop val idx i F).1 = none) :
    idx = [] ∧ (pop val idx i F).2 = F ∧ val ∈ strs F := by
  induction F generalizing idx i with
  | nil => simp [pop] at h
  | str s r ih =>
    simp only [pop] at h ⊢
    split at h
    · rename_i hs
      split at h
      · rename_i hi
        have := List.isEmpty_iff.1 hi
        subst this
        simp [hs, strs]
      · cases h
    · rename_i hs
      obtain ⟨a, b, c⟩ := ih idx (i + 1) h
      simp only [hs, if_false]
      exact ⟨a, by rw [b], by simp [strs, c]⟩
  | sec n d c r ihc _ =>
    simp only [pop] at h ⊢
    obtain ⟨a, -, -⟩ := ihc (idx ++ [i]) 0 h
    simp at a

/-- Content of the `j`-th entry if it is a section. -/
def nthSec : Nat → Forest → Option Forest
  | _, nil => none
  | 0, str _ _ => none
  | 0, sec _ _ c _ => some c
  | j + 1, str _ r => nthSec j r
  | j + 1, sec _ _ _ r => nthSec j r

/-- A path of section indices, the first counted from `i`. -/
def validOff (i : Nat) : List Nat → Forest → Prop
  | [], _ => True
  | a :: p, F => ∃ j c, a = i + j ∧ nthSec j F = some c ∧ validOff 0 p c

theorem pop_path (val : Str) (F : Forest) (idx : List Nat) (i : Nat) (q : List Nat) (h : (pop val idx i F).1 = some q) :
    ∃ p, q = idx ++ p ∧ validOff i p.dropLast (pop val idx i F).2 ∧ (hasSec F = true → p ≠ []) := by
  induction F generalizing idx i q with
  | nil => simp only [pop, Option.some.injEq] at h; exact ⟨[], by simp [h], trivial, by simp [hasSec]⟩
  | str s r ih =>
    simp only [pop] at h ⊢
    split at h
    · split at h
      · cases h
      · rename_i hs hi
        simp only [Option.some.injEq] at h
        refine ⟨[i], h.symm, trivial, by simp⟩
    · rename_i hs
      obtain ⟨p, h1, h2, h3⟩ := ih idx (i + 1) q h
      refine ⟨p, h1, ?_, h3⟩
      simp only [hs, if_false]
      cases hp : p.dropLast with
      | nil => trivial
      | cons a p' =>
        rw [hp] at h2
        obtain ⟨j, c, e1, e2, e3⟩ := h2
        exact ⟨j + 1, c, by omega, by simpa [nthSec] using e2, e3⟩
  | sec n d c r ihc _ =>
    simp only [pop] at h ⊢
    obtain ⟨p, h1, h2, -⟩ := ihc (idx ++ [i]) 0 q h
    refine ⟨i :: p, by simp [h1], ?_, by simp⟩
    cases p with
    | nil => trivial
    | cons a p' =>
      simp only [List.dropLast_cons₂]
      exact ⟨0, _, rfl, rfl, h2⟩

theorem modNth_eq (g : Forest → Except PyErr Forest) (j : Nat) (F c c' : Forest) (h : nthSec j F = some c)
    (hg : g c = .ok c') :
    ∃ F', modNth g j F = .ok F' ∧
      (∀ s, s ∈ strs c' → s ∈ strs F') ∧ ((∀ s, s ∈ strs c → s ∈ strs c') → ∀ s, s ∈ strs F → s ∈ strs F') ∧
      hasSec F' = hasSec F ∧
      (∀ ds, chain (fun c => endsSec c = false) ds F →
        (∀ ds, chain (fun c => endsSec c = false) ds c → chain (fun c => endsSec c = false) ds c') →
        chain (fun c => endsSec c = false) ds F') ∧
      (∀ P Q : Str → Prop, (all P Q c → all P Q c') → all P Q F → all P Q F') := by
  induction F generalizing j with
  | nil => simp [nthSec] at h
  | str t r ih =>
    cases j with
    | zero => simp [nthSec] at h
    | succ j =>
      obtain ⟨F', a1, a2, a3, a4, a5, a6⟩ := ih j h
      refine ⟨str t F', by simp only [modNth, a1]; rfl, ?_, ?_, a4, ?_, ?_⟩
      · intro s hs; simp [strs, a2 s hs]
      · intro hh s hs
        simp only [strs, List.mem_cons] at hs ⊢
        rcases hs with rfl | hs
        · simp
        · simp [a3 hh s hs]
      · intro ds hc hh
        have : chain (fun c => endsSec c = false) ds r := by cases ds <;> exact hc
        have := a5 ds this hh
        cases ds <;> exact this
      · intro P Q hh ha; exact ⟨ha.1, a6 P Q hh ha.2⟩
  | sec n d c0 r _ ih =>
    cases j with
    | zero =>
      simp only [nthSec, Option.some.injEq] at h
      subst h
      refine ⟨sec n d c' r, by simp only [modNth, hg]; rfl, ?_, ?_, rfl, ?_, ?_⟩
      · intro s hs; simp [strs, hs]
      · intro hh s hs
        simp only [strs, List.mem_append] at hs ⊢
        rcases hs with hs | hs
        · simp [hh s hs]
        · simp [hs]
      · intro ds hc hh
        cases ds with
        | nil => cases r <;> exact hc
        | cons e ds =>
          obtain ⟨c1, h1, h2⟩ := hc
          simp only [lastSec] at h1
          cases hr : lastSec r with
          | some x => rw [hr] at h1; exact ⟨c1, by simpa [lastSec, hr] using h1, h2⟩
          | none =>
            rw [hr] at h1
            simp only [Option.some.injEq, Prod.mk.injEq] at h1
            obtain ⟨rfl, rfl⟩ := h1
            exact ⟨c', by simp [lastSec, hr], hh ds h2⟩
      · intro P Q hh ha; exact ⟨ha.1, hh ha.2.1, ha.2.2⟩
    | succ j =>
      obtain ⟨F', a1, a2, a3, a4, a5, a6⟩ := ih j h
      have hnil : r ≠ nil := by rintro rfl; simp [nthSec] at h
      have hnil' : F' ≠ nil := by
        rintro rfl
        cases r with
        | nil => simp [nthSec] at h
        | str t r' =>
          cases j with
          | zero => simp [nthSec] at h
          | succ j => simp only [modNth] at a1; cases hx : modNth g j r' <;> rw [hx] at a1 <;> cases a1
        | sec m e c1 r' =>
          cases j with
          | zero => simp only [modNth] at a1; cases hx : g c1 <;> rw [hx] at a1 <;> cases a1
          | succ j => simp only [modNth] at a1; cases hx : modNth g j r' <;> rw [hx] at a1 <;> cases a1
      refine ⟨sec n d c0 F', by simp only [modNth, a1]; rfl, ?_, ?_, rfl, ?_, ?_⟩
      · intro s hs; simp [strs, a2 s hs]
      · intro hh s hs
        simp only [strs, List.mem_append] at hs ⊢
        rcases hs with hs | hs
        · simp [hs]
        · simp [a3 hh s hs]
      · intro ds hc hh
        cases ds with
        | nil =>
          change endsSec _ = false
          have hc : endsSec (sec n d c0 r) = false := hc
          rw [endsSec_cons _ _ _ _ hnil] at hc
          rw [endsSec_cons _ _ _ _ hnil']
          exact a5 [] hc hh
        | cons e ds =>
          obtain ⟨c1, h1, h2⟩ := hc
          simp only [lastSec] at h1
          cases hr : lastSec r with
          | some x =>
            rw [hr] at h1
            simp only [Option.some.injEq] at h1
            subst h1
            obtain ⟨c2, k1, k2⟩ := a5 (e :: ds) ⟨c1, hr, h2⟩ hh
            exact ⟨c2, by simp [lastSec, k1], k2⟩
          | none =>
            have hs' : hasSec r = false := (lastSec_none_iff r).1 hr
            have : lastSec F' = none := (lastSec_none_iff F').2 (by rw [a4, hs'])
            rw [hr] at h1
            exact ⟨c1, by simpa [lastSec, this] using h1, h2⟩
      · intro P Q hh ha; exact ⟨ha.1, ha.2.1, a6 P Q hh ha.2.2⟩

theorem insertStr_spec (s : Str) (i : Nat) (F : Forest) :
    s ∈ strs (insertStr s i F) ∧ (∀ t ∈ strs F, t ∈ strs (insertStr s i F)) ∧ hasSec (insertStr s i F) = hasSec F ∧
    lastSec (insertStr s i F) = lastSec F ∧ insertStr s i F ≠ nil ∧ (endsSec F = false → endsSec (insertStr s i F) = false) ∧
    (∀ P Q : Str → Prop, P s → all P Q F → all P Q (insertStr s i F)) := by
  induction F generalizing i with
  | nil => cases i <;> simp [insertStr, strs, hasSec, lastSec, endsSec, all]
  | str t r ih =>
    cases i with
    | zero => refine ⟨by simp [insertStr, strs], fun t ht => by simp [insertStr, strs] at ht ⊢; tauto, rfl, rfl, by simp [insertStr], fun h => h, fun P Q hs h => ⟨hs, h⟩⟩
    | succ i =>
      obtain ⟨a1, a2, a3, a4, a5, a6, a7⟩ := ih i
      refine ⟨by simp [insertStr, strs, a1], ?_, a3, a4, by simp [insertStr], a6, fun P Q hs h => ⟨h.1, a7 P Q hs h.2⟩⟩
      intro u hu
      simp only [insertStr, strs, List.mem_cons] at hu ⊢
      rcases hu with rfl | hu
      · simp
      · simp [a2 u hu]
  | sec n d c r _ ih =>
    cases i with
    | zero => refine ⟨by simp [insertStr, strs], fun t ht => by simp [insertStr, strs] at ht ⊢; tauto, rfl, rfl, by simp [insertStr], fun h => h, fun P Q hs h => ⟨hs, h⟩⟩
    | succ i =>
      obtain ⟨a1, a2, a3, a4, a5, a6, a7⟩ := ih i
      refine ⟨by simp [insertStr, strs, a1], ?_, rfl, by simp [insertStr, lastSec, a4], by simp [insertStr], ?_, fun P Q hs h => ⟨h.1, h.2.1, a7 P Q hs h.2.2⟩⟩
      · intro u hu
        simp only [insertStr, strs, List.mem_append] at hu ⊢
        rcases hu with hu | hu
        · simp [hu]
        · simp [a2 u hu]
      · intro h
        simp only [insertStr]
        rw [endsSec_cons _ _ _ _ a5]
        by_cases hr : r = nil
        · subst hr; simp [endsSec] at h
        · rw [endsSec_cons _ _ _ _ hr] at h; exact a6 h

theorem insertPath_spec (s : Str) (i : Nat) (p : List Nat) (F : Forest) (h : validOff 0 p F) :
    ∃ F', insertPath s i p F = .ok F' ∧ s ∈ strs F' ∧ (∀ t ∈ strs F, t ∈ strs F') ∧ hasSec F' = hasSec F ∧
      (∀ ds, chain (fun c => endsSec c = false) ds F → chain (fun c => endsSec c = false) ds F') ∧
      (∀ P Q : Str → Prop, P s → all P Q F → all P Q F') := by
  induction p generalizing F with
  | nil =>
    obtain ⟨a1, a2, a3, a4, a5, a6, a7⟩ := insertStr_spec s i F
    exact ⟨_, rfl, a1, a2, a3, fun ds hc => chain_of_lastSec_eq a6 a4 ds hc, a7⟩
  | cons j p ih =>
    obtain ⟨j', c, e1, e2, e3⟩ := h
    obtain ⟨c', b1, b2, b3, b4, b5, b6⟩ := ih c e3
    have : j = j' := by omega
    subst this
    obtain ⟨F', a1, a2, a3, a4, a5, a6⟩ := modNth_eq (insertPath s i p) j F c c' e2 b1
    exact ⟨F', a1, a2 s b2, a3 b3, a4, fun ds hc => a5 ds hc b5, fun P Q hs ha => a6 P Q (b6 P Q hs) ha⟩

theorem validOff_take (i : Nat) (p : List Nat) (F : Forest) (k : Nat) (h : validOff i p F) : validOff i (p.take k) F := by
  induction p generalizing F i k with
  | nil => simpa using h
  | cons a p ih =>
    cases k with
    | zero => trivial
    | succ k =>
      obtain ⟨j, c, e1, e2, e3⟩ := h
      exact ⟨j, c, e1, e2, ih 0 c k e3⟩

theorem promote_spec (s : Str) (q : List Nat) (F : Forest) (hq : q ≠ []) (h : validOff 0 q.dropLast F) :
    ∃ F', promote s q F = .ok F' ∧ s ∈ strs F' ∧ (∀ t ∈ strs F, t ∈ strs F') ∧ hasSec F' = hasSec F ∧
      (∀ ds, chain (fun c => endsSec c = false) ds F → chain (fun c => endsSec c = false) ds F') ∧
      (∀ P Q : Str → Prop, P s → all P Q F → all P Q F') := by
  have hlen : 0 < q.length := List.length_pos_of_ne_nil hq
  have hk : (q.take (q.length - 2)).length < q.length := by rw [List.length_take]; omega
  have hv : validOff 0 (q.take (q.length - 2)) F := by
    have : q.take (q.length - 2) = q.dropLast.take (q.length - 2) := by
      rw [List.dropLast_eq_take, List.take_take]; congr 1; omega
    rw [this]; exact validOff_take 0 _ F _ h
  unfold promote
  simp only [List.getElem?_eq_getElem hk]
  exact insertPath_spec s _ _ F hv

theorem strs_flat (F : Forest) (h : hasSec F = false) (val : Str) (hv : val ∈ strs F) : pop val [] 0 F = (none, F) := by
  have : ∀ i, pop val [] i F = (none, F) := by
    induction F with
    | nil => simp [strs] at hv
    | str s r ih =>
      intro i
      simp only [pop]
      split
      · simp
      · rename_i hs
        have : val ∈ strs r := by
          simp only [strs, List.mem_cons] at hv
          exact hv.resolve_left (fun hh => hs hh.symm)
        rw [ih h this (i + 1)]
    | sec => simp [hasSec] at h
  exact this 0

theorem chain_take_any {P : Forest → Prop} (ds : List Nat) (F : Forest) (h : chain P ds F) (k : Nat) :
    chain (fun _ => True) (ds.take k) F := by
  by_cases hk : k < ds.length
  · exact chain_take ds F h k hk
  · rw [List.take_of_length_le (by omega)]; exact chain_mono (fun _ _ => trivial) ds F h

theorem chain_snoc {P : Forest → Prop} (d : Nat) (ds : List Nat) (F : Forest)
    (h : chain (fun c => ∃ c2, lastSec c = some (d, c2) ∧ P c2) ds F) : chain P (ds ++ [d]) F := by
  induction ds generalizing F with
  | nil => exact h
  | cons e ds ih => obtain ⟨c, h1, h2⟩ := h; exact ⟨c, h1, ih c h2⟩

theorem strs_nonempty (F : Forest) (h1 : F ≠ nil) (h2 : endsSec F = false) : strs F ≠ [] := by
  induction F with
  | nil => exact absurd rfl h1
  | str => simp [strs]
  | sec n d c r _ ih =>
    by_cases hr : r = nil
    · subst hr; simp [endsSec] at h2
    · rw [endsSec_cons _ _ _ _ hr] at h2
      have := ih hr h2
      simp [strs, this]

theorem strs_pushStr_flat (t : Str) (F : Forest) (h : hasSec F = false) : strs (pushStr t F) = strs F ++ [t] := by
  induction F with
  | nil => rfl
  | str s r ih => simp [pushStr, strs, ih h]
  | sec => simp [hasSec] at h

theorem hasSec_pushStr (t : Str) (F : Forest) : hasSec (pushStr t F) = hasSec F := by
  induction F with
  | nil => rfl
  | str s r ih => simpa [pushStr, hasSec] using ih
  | sec => rfl

end Forest

open Forest

theorem sliceTo_take (l : List Nat) (j : Int) : ∃ k, sliceTo l j = l.take k := by
  unfold sliceTo; split <;> exact ⟨_, rfl⟩

/-- The invariant of `_preprocess`. -/
structure Wf (st : St) : Prop where
  chain : Forest.chain (fun c => endsSec c = false) st.cs st.files
  flat : hasSec st.files = true ∨ strs st.files = st.vals.reverse
  novals : st.vals = [] → strs st.files = []

theorem wf_init : Wf St.init := ⟨rfl, Or.inr rfl, fun _ => rfl⟩

/-- Every text of `F` is still contained in a text of `F'`. -/
def Grow (F F' : Forest) : Prop := ∀ s ∈ strs F, ∃ s' ∈ strs F', s <:+: s'

theorem Grow.refl (F : Forest) : Grow F F := fun s hs => ⟨s, hs, List.infix_rfl⟩

theorem Grow.trans {F G H : Forest} (h1 : Grow F G) (h2 : Grow G H) : Grow F H := by
  intro s hs
  obtain ⟨t, ht, a⟩ := h1 s hs
  obtain ⟨u, hu, b⟩ := h2 t ht
  exact ⟨u, hu, a.trans b⟩

theorem sectionStep_spec (st : St) (hw : Wf st) (cl : Str) (d : Nat) :
    ∃ st', sectionStep st cl d = .ok st' ∧ Wf st' ∧ Grow st.files st'.files ∧ st'.lastkey = st.lastkey ∧
      st'.view = st.view ∧
      (∀ P Q : Str → Prop, Q (sectionName cl) → all P Q st.files → all P Q st'.files) := by
  unfold sectionStep
  generalize hcs : csSection st.cs d = cs
  unfold csSection at hcs
  have hchain : Forest.chain (fun _ => True) cs st.files := by
    cases hl : st.cs.getLast? with
    | none => rw [hl] at hcs; simp only at hcs; subst hcs; trivial
    | some top =>
      rw [hl] at hcs; simp only at hcs
      split at hcs
      · subst hcs; exact chain_mono (fun _ _ => trivial) _ _ hw.chain
      · obtain ⟨k, hk⟩ := sliceTo_take st.cs (-(((d : Int) - top) + 1))
        rw [← hcs, hk]; exact chain_take_any _ _ hw.chain k
  obtain ⟨c, h1, h2, h3, ⟨o, h4, h5⟩, h6, h7, h8⟩ := modAt_spec cs st.files hchain (fun c => .ok (c.pushSec (sectionName cl) d))
  simp only [h2, Except.map]
  refine ⟨_, rfl, ⟨?_, ?_, ?_⟩, ?_, rfl, rfl, ?_⟩
  · apply chain_snoc
    apply h3
    exact ⟨_, lastSec_pushSec _ _ _, rfl⟩
  · left
    by_cases hn : cs = []
    · subst hn
      exact hasSec_pushSec _ _ _
    · exact (h8 hn).2 _
  · intro hv
    have : strs st.files = [] := hw.novals hv
    rw [List.eq_nil_iff_forall_not_mem] at this ⊢
    intro s hs
    apply this s
    rw [h4]
    rw [h5, strs_pushSec] at hs
    exact hs
  · intro s hs
    refine ⟨s, ?_, List.infix_rfl⟩
    rw [h5, strs_pushSec]; exact (h4 s).1 hs
  · intro P Q hq ha
    exact h7 P Q _ ha (all_pushSec P Q _ _ _ (h6 P Q ha) hq)

theorem newStep_spec (st : St) (hw : Wf st) (text : Str) (d : Nat) :
    ∃ st', newStep st text d = .ok st' ∧ Wf st' ∧ Grow st.files st'.files ∧ st'.view = st.view ∧ text ∈ strs st'.files ∧
      (∀ P Q : Str → Prop, P text → all P Q st.files → all P Q st'.files) := by
  unfold newStep
  generalize hcs : csLine st.cs d = cs
  unfold csLine at hcs
  have hchain : Forest.chain (fun _ => True) cs st.files := by
    cases hl : st.cs.getLast? with
    | none => rw [hl] at hcs; simp only at hcs; subst hcs; exact chain_mono (fun _ _ => trivial) _ _ hw.chain
    | some top =>
      rw [hl] at hcs; simp only at hcs
      split at hcs
      · obtain ⟨k, hk⟩ := sliceTo_take st.cs (-(((top : Int) - d) + 1))
        rw [← hcs, hk]; exact chain_take_any _ _ hw.chain k
      · subst hcs; exact chain_mono (fun _ _ => trivial) _ _ hw.chain
  obtain ⟨c, h1, h2, h3, ⟨o, h4, h5⟩, h6, h7, h8⟩ := modAt_spec cs st.files hchain (fun c => .ok (c.pushStr text))
  simp only [h2, Except.map]
  refine ⟨_, rfl, ⟨?_, ?_, ?_⟩, ?_, rfl, ?_, ?_⟩
  · apply h3; exact endsSec_pushStr _ _
  · by_cases hn : cs = []
    · subst hn
      simp only [List.length_nil, getAt, Option.some.injEq] at h1
      subst h1
      simp only [List.length_nil, setAt, hasSec_pushStr]
      rcases hw.flat with hf | hf
      · exact Or.inl hf
      · cases hh : hasSec st.files with
        | true => simp
        | false => right; rw [strs_pushStr_flat _ _ hh, hf]; simp
    · exact Or.inl ((h8 hn).2 _)
  · intro hv; simp at hv
  · intro s hs
    refine ⟨s, ?_, List.infix_rfl⟩
    rw [h5, strs_pushStr]
    rcases (h4 s).1 hs with h | h <;> simp [h]
  · rw [h5, strs_pushStr]; simp
  · intro P Q hq ha
    exact h7 P Q _ ha (all_pushStr P Q _ _ (h6 P Q ha) hq)

theorem promoteStep_spec (st : St) (hw : Wf st) (cl : Str) (hcl : cl ∈ st.vals) :
    ∃ st', promoteStep st cl = .ok st' ∧ Wf st' ∧ Grow st.files st'.files ∧ st'.view = st.view ∧ cl ∈ strs st'.files ∧
      (∀ P Q : Str → Prop, P cl → all P Q st.files → all P Q st'.files) := by
  unfold promoteStep
  cases hp : (pop cl [] 0 st.files).1 with
  | none =>
    obtain ⟨-, h2, h3⟩ := pop_none cl st.files [] 0 hp
    refine ⟨_, rfl, ⟨?_, ?_, ?_⟩, ?_, rfl, ?_, ?_⟩
    · simp only [h2]; exact hw.chain
    · simp only [h2]; exact hw.flat
    · simp only [h2]; exact hw.novals
    · simp only [h2]; exact Grow.refl _
    · simp only [h2]; exact h3
    · simp only [h2]; exact fun _ _ _ h => h
  | some q =>
    obtain ⟨p, h1, h2, h3⟩ := pop_path cl st.files [] 0 q hp
    have hsec : hasSec st.files = true := by
      rcases hw.flat with hf | hf
      · exact hf
      · cases hh : hasSec st.files with
        | true => rfl
        | false =>
          have : cl ∈ strs st.files := by rw [hf]; simpa using hcl
          rw [strs_flat st.files hh cl this] at hp; cases hp
    simp only [List.nil_append] at h1
    subst h1
    obtain ⟨k1, k2, k3⟩ := strs_pop cl st.files [] 0
    obtain ⟨F', a1, a2, a3, a4, a5, a6⟩ := promote_spec cl q _ (h3 hsec) h2
    simp only [a1]
    refine ⟨_, rfl, ⟨?_, ?_, ?_⟩, ?_, rfl, a2, ?_⟩
    · exact a5 _ (chain_pop cl st.files [] 0 st.cs hw.chain)
    · left; change hasSec F' = true; rw [a4, k2]; exact hsec
    · intro hv; change st.vals = [] at hv; rw [hv] at hcl; simp at hcl
    · intro s hs
      refine ⟨s, ?_, List.infix_rfl⟩
      rcases k1 s hs with rfl | h
      · exact a2
      · exact a3 s h
    · intro P Q hq ha
      exact a6 P Q hq (k3 P Q ha)

theorem continueStep_spec (st : St) (hw : Wf st) (val : Str) :
    (getAt st.cs.length st.files = some .nil → continueStep st val = .error .IndexError) ∧
    (getAt st.cs.length st.files ≠ some .nil →
    ∃ st', continueStep st val = .ok st' ∧ Wf st' ∧ Grow st.files st'.files ∧ st'.view = st.view ∧
      (∃ s ∈ strs st'.files, lstrip val <:+: s) ∧
      (∀ P Q : Str → Prop, (∀ s, P s → P (s ++ ' ' :: lstrip val)) → all P Q st.files → all P Q st'.files)) := by
  have hchain := chain_mono (Q := fun _ => True) (fun _ _ => trivial) _ _ hw.chain
  obtain ⟨c, h1, h2, h3, ⟨o, h4, h5⟩, h6, h7, h8⟩ := modAt_spec st.cs st.files hchain (extendLast (' ' :: lstrip val))
  obtain ⟨c0, g1, g2⟩ := getAt_of_chain _ _ hw.chain
  rw [h1] at g1
  obtain rfl := Option.some.inj g1
  unfold continueStep
  constructor
  · intro hnil
    rw [h1] at hnil
    obtain rfl := Option.some.inj hnil
    rw [h2]; rfl
  · intro hnil
    have hc : c ≠ .nil := by rintro rfl; exact hnil h1
    obtain ⟨c', hc'⟩ := extendLast_ok (' ' :: lstrip val) c hc g2
    obtain ⟨a1, ⟨s0, b1, b2⟩, a3, a4, a5, a6, a7, a8⟩ := extendLast_spec _ c c' hc'
    simp only [h2, hc', Except.map]
    cases hv : st.vals with
    | nil =>
      exfalso
      have h := hw.novals hv
      have := strs_nonempty c hc g2
      obtain ⟨s, hs⟩ := List.exists_mem_of_ne_nil _ this
      have hs' := (h4 s).2 (Or.inl hs)
      rw [h] at hs'; simp at hs'
    | cons v vs =>
      refine ⟨_, rfl, ⟨?_, ?_, ?_⟩, ?_, rfl, ?_, ?_⟩
      · exact h3 _ c' a3
      · by_cases hn : st.cs = []
        · rw [hn] at h1 ⊢
          simp only [List.length_nil, getAt, Option.some.injEq] at h1
          subst h1
          simp only [List.length_nil, setAt, a5]
          rcases hw.flat with hf | hf
          · exact Or.inl hf
          · cases hh : hasSec st.files with
            | true => simp
            | false =>
              right
              obtain ⟨l, s, e1, e2⟩ := a8 hh
              rw [e2]
              rw [hf, hv] at e1
              simp only [List.reverse_cons] at e1 ⊢
              obtain ⟨e3, e4⟩ := List.append_inj' e1 rfl
              simp at e4
              rw [e3, e4]
        · exact Or.inl ((h8 hn).2 _)
      · intro h; simp at h
      · intro s hs
        rcases (h4 s).1 hs with h | h
        · rcases a1 s h with h' | h'
          · exact ⟨s, (h5 _ _).2 (Or.inl h'), List.infix_rfl⟩
          · exact ⟨_, (h5 _ _).2 (Or.inl h'), (List.prefix_append _ _).isInfix⟩
        · exact ⟨s, (h5 _ _).2 (Or.inr h), List.infix_rfl⟩
      · refine ⟨_, (h5 _ _).2 (Or.inl b2), ?_⟩
        exact ⟨s0 ++ [' '], [], by simp⟩
      · intro P Q hq ha
        exact h7 P Q _ ha (a7 P Q hq (h6 P Q ha))

end Verif.Header
