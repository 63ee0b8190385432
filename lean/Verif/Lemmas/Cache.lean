import Mathlib.Tactic.Common
import Verif.Spec.Cache
namespace Verif.Cache
variable {Obj Metric Slot Val : Type}

theorem Spec.evalBody_mono (rd rd' : Metric → Option Val) (h : ∀ m v, rd m = some v → rd' m = some v)
    (p : Prog Metric Val) (v : Val) (hp : Spec.evalBody rd p = some v) : Spec.evalBody rd' p = some v := by
  induction p with
  | ret w => simpa [Spec.evalBody] using hp
  | read m k ih =>
    simp only [Spec.evalBody, Option.bind_eq_some_iff] at hp ⊢
    obtain ⟨w, hw, hk⟩ := hp
    exact ⟨w, h m w hw, ih w hk⟩

theorem Spec.value_succ (C : Classes Obj Metric Slot Val) (o : Obj) (n : Nat) (m : Metric) (v : Val)
    (h : Spec.value C o n m = some v) : Spec.value C o (n + 1) m = some v := by
  induction n generalizing m v with
  | zero => simp [Spec.value] at h
  | succ n ih =>
    rw [Spec.value] at h ⊢
    exact Spec.evalBody_mono _ _ (fun m v => ih m v) _ _ h

theorem Spec.value_mono (C : Classes Obj Metric Slot Val) (o : Obj) {n n' : Nat} (hn : n ≤ n') (m : Metric) (v : Val)
    (h : Spec.value C o n m = some v) : Spec.value C o n' m = some v := by
  induction hn with
  | refl => exact h
  | step _ ih => exact Spec.value_succ C o _ m v ih

theorem Spec.isValue_unique (C : Classes Obj Metric Slot Val) (o : Obj) (m : Metric) (v w : Val)
    (hv : Spec.IsValue C o m v) (hw : Spec.IsValue C o m w) : v = w := by
  obtain ⟨n, hn⟩ := hv
  obtain ⟨n', hn'⟩ := hw
  have h1 := Spec.value_mono C o (Nat.le_max_left n n') m v hn
  have h2 := Spec.value_mono C o (Nat.le_max_right n n') m w hn'
  rw [h1] at h2; simpa using h2

/-- A body all of whose reads can be answered. -/
theorem exec_isValue (C : Classes Obj Metric Slot Val) (o : Obj) {S : Type} (rd : Metric → S → Option (Val × S))
    (I : S → Prop) (hrd : ∀ m s v s', I s → rd m s = some (v, s') → Spec.IsValue C o m v ∧ I s')
    (p : Prog Metric Val) (s s' : S) (v : Val) (hI : I s) (h : p.exec rd s = some (v, s')) :
    (∃ n, Spec.evalBody (Spec.value C o n) p = some v) ∧ I s' := by
  induction p generalizing s with
  | ret w => simp [Prog.exec] at h; exact ⟨⟨0, by simp [Spec.evalBody, h.1]⟩, h.2 ▸ hI⟩
  | read m k ih =>
    simp only [Prog.exec] at h
    split at h
    · simp at h
    · rename_i w s1 hw
      obtain ⟨⟨n, hn⟩, hI1⟩ := hrd m s w s1 hI hw
      obtain ⟨⟨n', hn'⟩, hI'⟩ := ih w s1 hI1 h
      refine ⟨⟨max n n', ?_⟩, hI'⟩
      simp only [Spec.evalBody]
      rw [Spec.value_mono C o (Nat.le_max_left n n') m w hn]
      simp only [Option.bind_some]
      exact Spec.evalBody_mono _ _ (fun m v => Spec.value_mono C o (Nat.le_max_right n n') m v) _ _ hn'

variable [DecidableEq Obj] [DecidableEq Slot]

/-- Every remembered value is the right one for the remembered object, whatever metric name reads that function. -/
def CInv (C : Classes Obj Metric Slot Val) (c : Caches Obj Slot Val) : Prop :=
  ∀ s o v, c s = some (o, v) → ∀ m, C.slot o m = s → Spec.IsValue C o m v

theorem isValue_slot (C : Classes Obj Metric Slot Val) (o : Obj) (m m' : Metric) (h : C.slot o m = C.slot o m') (v : Val)
    (hv : Spec.IsValue C o m v) : Spec.IsValue C o m' v := by
  obtain ⟨n, hn⟩ := hv
  cases n with
  | zero => simp [Spec.value] at hn
  | succ n => exact ⟨n+1, by rw [Spec.value] at hn ⊢; rw [← h]; exact hn⟩

theorem readC_sound (C : Classes Obj Metric Slot Val) (o : Obj) (f : Nat) (m : Metric) (c c' : Caches Obj Slot Val)
    (v : Val) (hI : CInv C c) (h : readC C o f m c = some (v, c')) : Spec.IsValue C o m v ∧ CInv C c' := by
  induction f generalizing m c c' v with
  | zero => simp [readC] at h
  | succ f ih =>
    have miss : ∀ {v c'}, (match (C.body (C.slot o m) o).exec (readC C o f) c with
        | none => none
        | some (v, c') => some (v, Function.update c' (C.slot o m) (some (o, v)))) = some (v, c') →
        Spec.IsValue C o m v ∧ CInv C c' := by
      intro v c' h
      split at h
      · simp at h
      · rename_i w c1 hw
        simp only [Option.some.injEq, Prod.mk.injEq] at h
        obtain ⟨rfl, rfl⟩ := h
        obtain ⟨⟨n, hn⟩, hI1⟩ := exec_isValue C o (readC C o f) (CInv C) (fun m s v s' hs hr => ih m s s' v hs hr) _ _ _ _ hI hw
        have hv : Spec.IsValue C o m w := ⟨n + 1, by rw [Spec.value]; exact hn⟩
        refine ⟨hv, ?_⟩
        intro s o' v' hs m' hm'
        by_cases hss : s = C.slot o m
        · subst hss
          simp at hs
          obtain ⟨rfl, rfl⟩ := hs
          exact isValue_slot C o m m' hm'.symm w hv
        · rw [Function.update_of_ne hss] at hs
          exact hI1 s o' v' hs m' hm'
    simp only [readC] at h
    split at h
    · rename_i o' w hc
      split at h
      · rename_i ho
        simp at h
        obtain ⟨rfl, rfl⟩ := h
        subst ho
        exact ⟨hI _ _ _ hc m rfl, hI⟩
      · exact miss h
    · exact miss h

theorem exec_total {S : Type} (rd : Metric → S → Option (Val × S)) (p : Prog Metric Val) (P : Metric → Prop)
    (hp : Spec.ReadsOnly P p) (h : ∀ m s, P m → (rd m s).isSome) (s : S) : (p.exec rd s).isSome := by
  induction p generalizing s with
  | ret v => simp [Prog.exec]
  | read m k ih =>
    simp only [Prog.exec]
    have := h m s hp.1
    split
    · rename_i hn; simp [hn] at this
    · rename_i v s' _; exact ih v (hp.2 v) s'

theorem readC_total (C : Classes Obj Metric Slot Val) (rank : Metric → Nat) (hC : Spec.Acyclic C rank) (o : Obj) (f : Nat)
    (m : Metric) (c : Caches Obj Slot Val) (hf : rank m < f) : (readC C o f m c).isSome := by
  induction f generalizing m c with
  | zero => omega
  | succ f ih =>
    have hm := exec_total (readC C o f) (C.body (C.slot o m) o) (fun m' => rank m' < rank m) (hC o m)
      (fun m' s hm' => ih m' s (by omega)) c
    simp only [readC]
    obtain ⟨⟨v, c'⟩, hv⟩ := Option.isSome_iff_exists.1 hm
    split
    · split
      · simp
      · simp [hv]
    · simp [hv]

end Verif.Cache
