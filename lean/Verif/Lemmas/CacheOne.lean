import Verif.Lemmas.Cache
/-! What a read does to the entries of one object. -/
namespace Verif.Cache
variable {Obj Metric Slot Val : Type} [DecidableEq Obj] [DecidableEq Slot]

/-- The remembered values of object `o` are right. -/
def RightFor (C : Classes Obj Metric Slot Val) (o : Obj) (c : Caches Obj Slot Val) : Prop :=
  ∀ s v, c s = some (o, v) → ∀ m, C.slot o m = s → Spec.IsValue C o m v

theorem readC_right (C : Classes Obj Metric Slot Val) (o : Obj) (f : Nat) (m : Metric) (c c' : Caches Obj Slot Val)
    (v : Val) (hI : RightFor C o c) (h : readC C o f m c = some (v, c')) :
    Spec.IsValue C o m v ∧ RightFor C o c' := by
  induction f generalizing m c c' v with
  | zero => simp [readC] at h
  | succ f ih =>
    have miss : ∀ {v c'}, (match (C.body (C.slot o m) o).exec (readC C o f) c with
        | none => none
        | some (v, c') => some (v, Function.update c' (C.slot o m) (some (o, v)))) = some (v, c') →
        Spec.IsValue C o m v ∧ RightFor C o c' := by
      intro v c' h
      split at h
      · simp at h
      · rename_i w c1 hw
        simp only [Option.some.injEq, Prod.mk.injEq] at h
        obtain ⟨rfl, rfl⟩ := h
        obtain ⟨⟨n, hn⟩, hI1⟩ := exec_isValue C o (readC C o f) (RightFor C o)
          (fun m s v s' hs hr => ih m s s' v hs hr) _ _ _ _ hI hw
        have hv : Spec.IsValue C o m w := ⟨n + 1, by rw [Spec.value]; exact hn⟩
        refine ⟨hv, ?_⟩
        intro s v' hs m' hm'
        by_cases hss : s = C.slot o m
        · subst hss
          simp at hs
          subst hs
          exact isValue_slot C o m m' hm'.symm w hv
        · rw [Function.update_of_ne hss] at hs
          exact hI1 s v' hs m' hm'
    simp only [readC] at h
    split at h
    · rename_i o' w hc
      split at h
      · rename_i ho
        simp at h
        obtain ⟨rfl, rfl⟩ := h
        subst ho
        exact ⟨hI _ _ hc m rfl, hI⟩
      · exact miss h
    · exact miss h

theorem exec_keeps {T : Type} (rd : Metric → T → Option (Val × T)) (R : T → T → Prop) (hr : ∀ s, R s s)
    (ht : ∀ a b c, R a b → R b c → R a c) (h : ∀ m s v s', rd m s = some (v, s') → R s s') (p : Prog Metric Val) (s s' : T)
    (v : Val) (hp : p.exec rd s = some (v, s')) : R s s' := by
  induction p generalizing s with
  | ret w => simp [Prog.exec] at hp; rw [hp.2]; exact hr _
  | read m k ih =>
    simp only [Prog.exec] at hp
    split at hp
    · simp at hp
    · rename_i w s1 hw
      exact ht _ _ _ (h m s w s1 hw) (ih w s1 hp)

/-- A read of one object only adds entries of that object. -/
theorem readC_others (C : Classes Obj Metric Slot Val) (o : Obj) (f : Nat) (m : Metric) (c c' : Caches Obj Slot Val)
    (v : Val) (h : readC C o f m c = some (v, c')) :
    ∀ s o' w, o' ≠ o → c' s = some (o', w) → c s = some (o', w) := by
  induction f generalizing m c c' v with
  | zero => simp [readC] at h
  | succ f ih =>
    have miss : ∀ {v c'}, (match (C.body (C.slot o m) o).exec (readC C o f) c with
        | none => none
        | some (v, c') => some (v, Function.update c' (C.slot o m) (some (o, v)))) = some (v, c') →
        ∀ s o' w, o' ≠ o → c' s = some (o', w) → c s = some (o', w) := by
      intro v c' h
      split at h
      · simp at h
      · rename_i w c1 hw
        simp only [Option.some.injEq, Prod.mk.injEq] at h
        obtain ⟨rfl, rfl⟩ := h
        have hk := exec_keeps (readC C o f)
          (fun a b => ∀ s o' w, o' ≠ o → b s = some (o', w) → a s = some (o', w))
          (fun _ _ _ _ _ h => h) (fun a b c h1 h2 s o' w ho hc => h1 s o' w ho (h2 s o' w ho hc))
          (fun m s v s' hr => ih m s s' v hr) _ _ _ _ hw
        intro s o' w' ho hs
        by_cases hss : s = C.slot o m
        · subst hss
          simp at hs
          exact absurd hs.1.symm ho
        · rw [Function.update_of_ne hss] at hs
          exact hk s o' w' ho hs
    simp only [readC] at h
    split at h
    · split at h
      · simp at h
        obtain ⟨_, rfl⟩ := h
        exact fun _ _ _ _ h => h
      · exact miss h
    · exact miss h

/-- An entry of the object that is read is returned as it is. -/
theorem readC_hit (C : Classes Obj Metric Slot Val) (o : Obj) (f : Nat) (m : Metric) (c : Caches Obj Slot Val) (v : Val)
    (h : c (C.slot o m) = some (o, v)) : readC C o (f + 1) m c = some (v, c) := by
  simp [readC, h]

/-- A value that was read is remembered. -/
theorem readC_stored (C : Classes Obj Metric Slot Val) (o : Obj) (f : Nat) (m : Metric) (c c' : Caches Obj Slot Val)
    (v : Val) (h : readC C o f m c = some (v, c')) : c' (C.slot o m) = some (o, v) := by
  cases f with
  | zero => simp [readC] at h
  | succ f =>
    have miss : ∀ {v c'}, (match (C.body (C.slot o m) o).exec (readC C o f) c with
        | none => none
        | some (v, c') => some (v, Function.update c' (C.slot o m) (some (o, v)))) = some (v, c') →
        c' (C.slot o m) = some (o, v) := by
      intro v c' h
      split at h
      · simp at h
      · simp only [Option.some.injEq, Prod.mk.injEq] at h
        obtain ⟨rfl, rfl⟩ := h
        simp
    simp only [readC] at h
    split at h
    · rename_i o' w hc
      split at h
      · rename_i ho
        simp at h
        obtain ⟨rfl, rfl⟩ := h
        rw [hc, ho]
      · exact miss h
    · exact miss h

end Verif.Cache
