import Verif.Lemmas.HeaderRun
/-! Depths of the sections in the tree built from a header, and how far the result is indented. -/
namespace Verif.Header
open Verif.Py
namespace Forest

/-- all sections have at most depth `D` -/
def deep (D : Nat) : Forest → Prop
  | nil => True
  | str _ r => deep D r
  | sec _ d c r => d ≤ D ∧ deep D c ∧ deep D r

variable {D : Nat}

theorem deep_pushStr (s : Str) (F : Forest) (h : deep D F) : deep D (pushStr s F) := by
  induction F with
  | nil => trivial
  | str t r ih => exact ih h
  | sec n d c r _ ih => exact ⟨h.1, h.2.1, ih h.2.2⟩

theorem deep_pushSec (n : Str) (d : Nat) (hd : d ≤ D) (F : Forest) (h : deep D F) : deep D (pushSec n d F) := by
  induction F with
  | nil => exact ⟨hd, trivial, trivial⟩
  | str t r ih => exact ih h
  | sec n d c r _ ih => exact ⟨h.1, h.2.1, ih h.2.2⟩

theorem deep_extendLast (t : Str) (F F' : Forest) (h : deep D F) (he : extendLast t F = .ok F') : deep D F' := by
  induction F generalizing F' with
  | nil => cases he
  | str s r ih =>
    cases r with
    | nil => injection he with he; subst he; trivial
    | str s' r' =>
      simp only [extendLast] at he
      cases hx : extendLast t (str s' r') with
      | error e => rw [hx] at he; cases he
      | ok G =>
        have := ih G h hx
        rw [hx] at he
        injection he with he
        subst he
        exact this
    | sec n' d' c' r' =>
      simp only [extendLast] at he
      cases hx : extendLast t (sec n' d' c' r') with
      | error e => rw [hx] at he; cases he
      | ok G =>
        have := ih G h hx
        rw [hx] at he
        injection he with he
        subst he
        exact this
  | sec n d c r _ ih =>
    cases r with
    | nil => cases he
    | str s' r' =>
      simp only [extendLast] at he
      cases hx : extendLast t (str s' r') with
      | error e => rw [hx] at he; cases he
      | ok G =>
        have := ih G h.2.2 hx
        rw [hx] at he
        injection he with he
        subst he
        exact ⟨h.1, h.2.1, this⟩
    | sec n' d' c' r' =>
      simp only [extendLast] at he
      cases hx : extendLast t (sec n' d' c' r') with
      | error e => rw [hx] at he; cases he
      | ok G =>
        have := ih G h.2.2 hx
        rw [hx] at he
        injection he with he
        subst he
        exact ⟨h.1, h.2.1, this⟩

theorem deep_modLastSec (g : Forest → Except PyErr Forest) (hg : ∀ c c', deep D c → g c = .ok c' → deep D c') (F F' : Forest)
    (h : deep D F) (he : modLastSec g F = .ok F') : deep D F' := by
  induction F generalizing F' with
  | nil => cases he
  | str s r ih =>
    simp only [modLastSec] at he
    cases hx : modLastSec g r with
    | error e => rw [hx] at he; cases he
    | ok G => rw [hx] at he; injection he with he; subst he; exact ih G h hx
  | sec n d c r _ ih =>
    simp only [modLastSec] at he
    split_ifs at he
    · cases hx : modLastSec g r with
      | error e => rw [hx] at he; cases he
      | ok G => rw [hx] at he; injection he with he; subst he; exact ⟨h.1, h.2.1, ih G h.2.2 hx⟩
    · cases hx : g c with
      | error e => rw [hx] at he; cases he
      | ok G => rw [hx] at he; injection he with he; subst he; exact ⟨h.1, hg c G h.2.1 hx, h.2.2⟩

theorem deep_modAt (k : Nat) (g : Forest → Except PyErr Forest) (hg : ∀ c c', deep D c → g c = .ok c' → deep D c')
    (F F' : Forest) (h : deep D F) (he : modAt k g F = .ok F') : deep D F' := by
  induction k generalizing F F' with
  | zero => exact hg F F' h he
  | succ k ih => exact deep_modLastSec _ (fun c c' hc hh => ih c c' hc hh) F F' h he

theorem deep_pop (val : Str) (F : Forest) (idx : List Nat) (i : Nat) (h : deep D F) : deep D (pop val idx i F).2 := by
  induction F generalizing idx i with
  | nil => trivial
  | str s r ih =>
    simp only [pop]
    split_ifs
    · exact h
    · exact h
    · exact ih _ _ h
  | sec n d c r ihc _ =>
    simp only [pop]
    exact ⟨h.1, ihc _ _ h.2.1, h.2.2⟩

theorem deep_insertStr (s : Str) (i : Nat) (F : Forest) (h : deep D F) : deep D (insertStr s i F) := by
  induction F generalizing i with
  | nil => cases i <;> trivial
  | str t r ih =>
    cases i with
    | zero => exact h
    | succ i => exact ih i h
  | sec n d c r _ ih =>
    cases i with
    | zero => exact h
    | succ i => exact ⟨h.1, h.2.1, ih i h.2.2⟩

theorem deep_modNth (g : Forest → Except PyErr Forest) (hg : ∀ c c', deep D c → g c = .ok c' → deep D c') (j : Nat)
    (F F' : Forest) (h : deep D F) (he : modNth g j F = .ok F') : deep D F' := by
  induction F generalizing j F' with
  | nil => cases j <;> cases he
  | str s r ih =>
    cases j with
    | zero => cases he
    | succ j =>
      simp only [modNth] at he
      cases hx : modNth g j r with
      | error e => rw [hx] at he; cases he
      | ok G => rw [hx] at he; injection he with he; subst he; exact ih j G h hx
  | sec n d c r _ ih =>
    cases j with
    | zero =>
      simp only [modNth] at he
      cases hx : g c with
      | error e => rw [hx] at he; cases he
      | ok G => rw [hx] at he; injection he with he; subst he; exact ⟨h.1, hg c G h.2.1 hx, h.2.2⟩
    | succ j =>
      simp only [modNth] at he
      cases hx : modNth g j r with
      | error e => rw [hx] at he; cases he
      | ok G => rw [hx] at he; injection he with he; subst he; exact ⟨h.1, h.2.1, ih j G h.2.2 hx⟩

theorem deep_insertPath (s : Str) (i : Nat) (p : List Nat) (F F' : Forest) (h : deep D F) (he : insertPath s i p F = .ok F') :
    deep D F' := by
  induction p generalizing F F' with
  | nil => injection he with he; subst he; exact deep_insertStr s i F h
  | cons j p ih => exact deep_modNth _ (fun c c' hc hh => ih c c' hc hh) j F F' h he

end Forest
open Forest

theorem deep_step (D : Nat) (st st' : St) (h : Str) (hd : lineDepth h ≤ D) (hf : deep D st.files) (he : step st h = .ok st') :
    deep D st'.files := by
  unfold step at he
  split_ifs at he with h1 h2 h3
  · unfold sectionStep at he
    cases hx : modAt (csSection st.cs (lineDepth h)).length
      (fun c => .ok (c.pushSec (sectionName (cleanLine h)) (lineDepth h))) st.files with
    | error e => rw [hx] at he; cases he
    | ok F =>
      rw [hx] at he
      injection he with he
      subst he
      exact deep_modAt _ _ (fun c c' hc hh => by injection hh with hh; subst hh; exact deep_pushSec _ _ hd c hc) _ _ hf hx
  · injection he with he; subst he; exact hf
  · injection he with he; subst he; exact hf
  · cases hx : keepStep st (cleanLine h) (lineDepth h) with
    | error e => rw [hx] at he; cases he
    | ok s =>
      rw [hx] at he
      injection he with he
      subst he
      show deep D s.files
      unfold keepStep at hx
      split_ifs at hx with h4 h5
      · unfold continueStep at hx
        cases hy : modAt st.cs.length (extendLast (' ' :: lstrip (keyVal (cleanLine h)).2)) st.files with
        | error e => rw [hy] at hx; cases hx
        | ok F =>
          rw [hy] at hx
          have hF := deep_modAt _ _ (fun c c' hc hh => deep_extendLast _ c c' hc hh) _ _ hf hy
          cases hv : st.vals with
          | nil => rw [hv] at hx; cases hx
          | cons v vs =>
            rw [hv] at hx
            injection hx with hx
            subst hx
            exact hF
      · unfold promoteStep at hx
        have hp := deep_pop (D := D) (cleanLine h) st.files [] 0 hf
        cases hy : (pop (cleanLine h) [] 0 st.files).1 with
        | none => rw [hy] at hx; injection hx with hx; subst hx; exact hp
        | some idx =>
          rw [hy] at hx
          simp only at hx
          cases hz : promote (cleanLine h) idx (pop (cleanLine h) [] 0 st.files).2 with
          | error e => rw [hz] at hx; cases hx
          | ok F =>
            rw [hz] at hx
            injection hx with hx
            subst hx
            unfold promote at hz
            simp only at hz
            cases hi : idx[(idx.take (idx.length - 2)).length]? with
            | none => rw [hi] at hz; cases hz
            | some i => rw [hi] at hz; exact deep_insertPath _ _ _ _ _ hp hz
      · unfold newStep at hx
        cases hy : modAt (csLine st.cs (lineDepth h)).length (fun c => .ok (c.pushStr (norm (cleanLine h)))) st.files with
        | error e => rw [hy] at hx; cases hx
        | ok F =>
          rw [hy] at hx
          injection hx with hx
          subst hx
          exact deep_modAt _ _ (fun c c' hc hh => by injection hh with hh; subst hh; exact deep_pushStr _ c hc) _ _ hf hy

theorem deep_run (D : Nat) (lines : List Str) (hl : ∀ l ∈ lines, lineDepth l ≤ D) (st st' : St) (hf : deep D st.files)
    (he : run st lines = .ok st') : deep D st'.files := by
  induction lines generalizing st with
  | nil => injection he with he; subst he; exact hf
  | cons l ls ih =>
    simp only [run] at he
    cases hx : step st l with
    | error e => rw [hx] at he; cases he
    | ok s =>
      rw [hx] at he
      exact ih (fun x hx => hl x (by simp [hx])) s (deep_step D st s l (hl l (by simp)) hf hx) he

/-- the entries of the result: texts and titles behind at most `D + 1` tabs -/
theorem cleanUp_tabs (D : Nat) (P Q : Str → Prop) (F : Forest) (depth da : Int) (hda : 0 ≤ da) (hdp : depth ≤ D)
    (h : all P Q F) (hd : deep D F) :
    ∀ i ∈ cleanUp depth da F, ∃ n t, n ≤ D + 1 ∧ i = List.replicate n '\t' ++ t ∧ (P t ∨ ∃ m, t = m ++ [':'] ∧ Q m) := by
  induction F generalizing depth da with
  | nil => simp [cleanUp]
  | str s r ih =>
    intro l hl
    simp only [cleanUp, List.mem_cons] at hl
    rcases hl with rfl | hl
    · exact ⟨_, s, by omega, rfl, Or.inl h.1⟩
    · exact ih _ _ hda hdp h.2 hd l hl
  | sec n d c r ihc ihr =>
    intro l hl
    have h1 : ((d : Nat) : Int) ≤ D := by exact_mod_cast hd.1
    simp only [cleanUp, List.mem_append] at hl
    rcases hl with hl | hl
    · split at hl
      · simp at hl
      · split at hl
        · exact ihc _ _ (by omega) h1 h.2.1 hd.2.1 l hl
        · rcases List.mem_cons.1 hl with rfl | hl
          · exact ⟨((d : Int) - da).toNat, n ++ [':'], by omega, by rw [List.append_assoc], Or.inr ⟨n, rfl, h.1⟩⟩
          · exact ihc _ _ hda h1 h.2.1 hd.2.1 l hl
    · exact ihr _ _ hda hdp h.2.2 hd.2.2 l hl

/-! ### the cleaned line starts with a visible character -/

theorem subRun_head (r : Str) (h : r ≠ []) (hr : ∀ c ∈ r, isSpace c = false) :
    ∃ c s, subRun r = c :: s ∧ isSpace c = false := by
  unfold subRun
  cases afterLast "clasp_tmp".toList r with
  | none =>
    cases r with
    | nil => exact absurd rfl h
    | cons c s => exact ⟨c, s, rfl, hr c (by simp)⟩
  | some t => exact ⟨'<', "stdin>".toList ++ t.dropWhile (· ≠ ':'), rfl, by decide⟩

theorem subClaspGo_head (cur s : Str) (h : cur ≠ []) (hc : ∀ c ∈ cur, isSpace c = false) :
    ∃ c t, subClaspGo cur s = c :: t ∧ isSpace c = false := by
  induction s generalizing cur with
  | nil => exact subRun_head _ (by simpa using h) (by simpa using hc)
  | cons a s ih =>
    unfold subClaspGo
    split_ifs with ha
    · obtain ⟨c, t, h1, h2⟩ := subRun_head cur.reverse (by simpa using h) (by simpa using hc)
      exact ⟨c, _, by rw [h1]; rfl, h2⟩
    · exact ih (a :: cur) (by simp) (by simpa [ha] using hc)

theorem strip_head (h : Str) (hs : strip h ≠ []) : ∃ c s, strip h = c :: s ∧ isSpace c = false := by
  unfold strip at hs ⊢
  cases hx : lstrip h with
  | nil => rw [hx] at hs; exact absurd rfl hs
  | cons c s =>
    have hc : isSpace c = false := by
      unfold lstrip at hx
      have := List.head_dropWhile_not isSpace (l := h) (by rw [hx]; simp)
      simpa [hx] using this
    rw [hx] at hs
    unfold rstrip at hs ⊢
    rw [List.reverse_cons, List.dropWhile_append]
    split_ifs with he
    · rw [List.dropWhile_cons, if_neg (by simp [hc])]
      exact ⟨c, [], rfl, hc⟩
    · rw [List.reverse_append]
      exact ⟨c, _, rfl, hc⟩

theorem cleanLine_head (h : Str) (hs : strip h ≠ []) : ∃ c s, cleanLine h = c :: s ∧ isSpace c = false := by
  obtain ⟨c, s, h1, h2⟩ := strip_head h hs
  unfold cleanLine
  rw [h1]
  unfold subClaspGo
  rw [if_neg (by simp [h2])]
  exact subClaspGo_head [c] s (by simp) (by simpa using h2)

end Verif.Header
