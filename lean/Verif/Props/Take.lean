import Verif.Model.Take
import Mathlib.Data.List.Forall2
import Mathlib.Tactic.Linarith
import Mathlib.Tactic.Ring

/-! Property C39: simple_take. -/

namespace Verif.Take
open Verif.Py

/-! ### specification: what each kind of argument selects on one axis -/

/-- negative positions count from the end -/
def fromEnd (n : ℕ) (x : ℤ) : ℤ := if x < 0 then x + n else x

/-- first candidate of a slice with positive step -/
def lowest (n : ℕ) : Option ℤ → ℤ
  | none => 0
  | some a => max (fromEnd n a) 0

/-- first candidate of a slice with negative step -/
def highest (n : ℕ) : Option ℤ → ℤ
  | none => n - 1
  | some a => min (fromEnd n a) (n - 1)

/-- the positions a Python slice selects from a sequence of length `n` -/
def SliceSel (n : ℕ) (a b : Option ℤ) (step : ℤ) (k : List ℕ) : Prop :=
  (0 < step → k.Pairwise (· < ·) ∧
    ∀ x : ℕ, x ∈ k ↔ x < n ∧ lowest n a ≤ x ∧ (∀ y, b = some y → (x : ℤ) < fromEnd n y) ∧ step ∣ x - lowest n a) ∧
  (step < 0 → k.Pairwise (· > ·) ∧
    ∀ x : ℕ, x ∈ k ↔ x < n ∧ (x : ℤ) ≤ highest n a ∧ (∀ y, b = some y → fromEnd n y < x) ∧ step ∣ highest n a - x)

/-- what `None`, a slice or an index sequence selects on an axis of length `n` -/
def Selects (n : ℕ) : Spec → List ℕ → Prop
  | .all, k => k = List.range n
  | .sl a b c, k => c.getD 1 ≠ 0 ∧ SliceSel n a b (c.getD 1) k
  | .idx t _, k => List.Forall₂ (fun (i : ℤ) (p : ℕ) => p < n ∧ (p : ℤ) = fromEnd n i) t.ravel k

/-! ### slices -/

theorem run_mem_pos {start stop step : ℤ} (hs : 0 < step) (h0 : 0 ≤ start) (x : ℕ) :
    x ∈ sliceRun start step (sliceLen start stop step) ↔ start ≤ x ∧ (x : ℤ) < stop ∧ step ∣ x - start := by
  unfold sliceRun sliceLen
  rw [if_neg (by omega)]
  simp only [List.mem_map, List.mem_range]
  constructor
  · rintro ⟨i, hi, rfl⟩
    split at hi
    · have h1 : 0 ≤ (i : ℤ) * step := by positivity
      have h2 : (i : ℤ) ≤ (stop - start - 1) / step := by
        have : 0 ≤ (stop - start - 1) / step := Int.ediv_nonneg (by omega) hs.le
        omega
      rw [Int.le_ediv_iff_mul_le hs] at h2
      rw [Int.toNat_of_nonneg (by omega)]
      exact ⟨by omega, by omega, ⟨i, by ring⟩⟩
    · omega
  · rintro ⟨h1, h2, c, hc⟩
    have hc0 : 0 ≤ c := by
      by_contra h
      have : step * c < 0 := mul_neg_of_pos_of_neg hs (by omega)
      omega
    refine ⟨c.toNat, ?_, ?_⟩
    · rw [if_pos (by omega)]
      have : c ≤ (stop - start - 1) / step := by
        rw [Int.le_ediv_iff_mul_le hs, mul_comm]; omega
      omega
    · rw [Int.toNat_of_nonneg hc0, mul_comm, ← hc]; omega

theorem run_mem_neg {start stop step : ℤ} (hs : step < 0) (h0 : -1 ≤ stop) (x : ℕ) :
    x ∈ sliceRun start step (sliceLen start stop step) ↔ (x : ℤ) ≤ start ∧ stop < x ∧ step ∣ start - x := by
  unfold sliceRun sliceLen
  rw [if_pos hs]
  simp only [List.mem_map, List.mem_range]
  constructor
  · rintro ⟨i, hi, rfl⟩
    split at hi
    · have h1 : (i : ℤ) * step ≤ 0 := mul_nonpos_of_nonneg_of_nonpos (by positivity) hs.le
      have h2 : (i : ℤ) ≤ (start - stop - 1) / (-step) := by
        have : 0 ≤ (start - stop - 1) / (-step) := Int.ediv_nonneg (by omega) (by omega)
        omega
      rw [Int.le_ediv_iff_mul_le (by omega)] at h2
      have h3 : (i : ℤ) * -step = -((i : ℤ) * step) := by ring
      rw [Int.toNat_of_nonneg (by omega)]
      exact ⟨by omega, by omega, ⟨-i, by ring⟩⟩
    · omega
  · rintro ⟨h1, h2, c, hc⟩
    have hc0 : c ≤ 0 := by
      by_contra h
      have : step * c < 0 := mul_neg_of_neg_of_pos hs (by omega)
      omega
    refine ⟨(-c).toNat, ?_, ?_⟩
    · rw [if_pos (by omega)]
      have : -c ≤ (start - stop - 1) / (-step) := by
        rw [Int.le_ediv_iff_mul_le (by omega)]
        have : -c * -step = step * c := by ring
        omega
      omega
    · rw [Int.toNat_of_nonneg (by omega)]
      have : -c * step = -(step * c) := by ring
      omega

theorem run_lt {start stop step : ℤ} (hs : 0 < step) (h0 : 0 ≤ start) :
    (sliceRun start step (sliceLen start stop step)).Pairwise (· < ·) := by
  unfold sliceRun
  rw [List.pairwise_map]
  refine List.pairwise_lt_range.imp ?_
  intro a b hab
  have h1 : (a : ℤ) * step < b * step := mul_lt_mul_of_pos_right (by exact_mod_cast hab) hs
  have h2 : 0 ≤ (a : ℤ) * step := by positivity
  omega

theorem run_gt {start stop step : ℤ} (hs : step < 0) (h0 : -1 ≤ stop) :
    (sliceRun start step (sliceLen start stop step)).Pairwise (· > ·) := by
  unfold sliceRun
  rw [List.pairwise_map]
  refine (List.pairwise_lt_range (n := sliceLen start stop step)).imp_of_mem ?_
  intro a b ha hb hab
  have hmem : (start + (b : ℤ) * step).toNat ∈ sliceRun start step (sliceLen start stop step) :=
    List.mem_map_of_mem hb
  have h1 : (b : ℤ) * step < a * step := mul_lt_mul_of_neg_right (by exact_mod_cast hab) hs
  have h2 : 0 ≤ start + (b : ℤ) * step := by
    unfold sliceLen at hb
    rw [if_pos hs, List.mem_range] at hb
    split at hb
    · have h2 : (b : ℤ) ≤ (start - stop - 1) / (-step) := by
        have : 0 ≤ (start - stop - 1) / (-step) := Int.ediv_nonneg (by omega) (by omega)
        omega
      rw [Int.le_ediv_iff_mul_le (by omega)] at h2
      have h3 : (b : ℤ) * -step = -((b : ℤ) * step) := by ring
      omega
    · omega
  omega

/-- the CPython index arithmetic selects exactly the positions of the slice -/
theorem slicePositions_sel (n : ℕ) (a b : Option ℤ) (step : ℤ) :
    SliceSel n a b step (slicePositions n step a b) := by
  constructor
  · intro hs
    have h0 : 0 ≤ sliceStart n step a := by
      unfold sliceStart adjust; split <;> repeat' split
      all_goals omega
    refine ⟨run_lt hs h0, fun x => ?_⟩
    unfold slicePositions
    rw [run_mem_pos hs h0]
    have hstop : (x : ℤ) < sliceStop n step b ↔ x < n ∧ (∀ y, b = some y → (x : ℤ) < fromEnd n y) := by
      cases b with
      | none =>
        simp only [sliceStop, if_neg (not_lt.mpr hs.le)]
        simp
      | some y =>
        simp only [sliceStop, adjust, Option.some.injEq, forall_eq', fromEnd]
        repeat' split
        all_goals omega
    rw [hstop]
    by_cases hx : x < n
    · have hstart : sliceStart n step a = lowest n a ∨ ((x : ℤ) < sliceStart n step a ∧ (x : ℤ) < lowest n a) := by
        cases a with
        | none => simp only [sliceStart, lowest, if_neg (not_lt.mpr hs.le)]; simp
        | some y =>
          simp only [sliceStart, lowest, adjust, fromEnd]
          repeat' split
          all_goals omega
      rcases hstart with h | h
      · rw [h]; tauto
      · constructor
        · rintro ⟨h1, _⟩; omega
        · rintro ⟨_, h1, _⟩; omega
    · tauto
  · intro hs
    have h0 : -1 ≤ sliceStop n step b := by
      unfold sliceStop adjust; split <;> repeat' split
      all_goals omega
    refine ⟨run_gt hs h0, fun x => ?_⟩
    unfold slicePositions
    rw [run_mem_neg hs h0]
    have hstart : sliceStart n step a = highest n a ∨ (sliceStart n step a < x ∧ highest n a < x) := by
      cases a with
      | none => simp only [sliceStart, highest, if_pos hs]; simp
      | some y =>
        simp only [sliceStart, highest, adjust, fromEnd]
        repeat' split
        all_goals omega
    have hn : (x : ℤ) ≤ highest n a → x < n := by
      cases a with
      | none => simp only [highest]; omega
      | some y => simp only [highest]; omega
    have hstop : x < n → (sliceStop n step b < x ↔ (∀ y, b = some y → fromEnd n y < x)) := by
      intro hx
      cases b with
      | none =>
        simp only [sliceStop, if_pos hs]
        simp
        omega
      | some y =>
        simp only [sliceStop, adjust, Option.some.injEq, forall_eq', fromEnd]
        repeat' split
        all_goals omega
    rcases hstart with h | h
    · rw [h]
      constructor
      · rintro ⟨h1, h2, h3⟩; exact ⟨hn h1, h1, (hstop (hn h1)).mp h2, h3⟩
      · rintro ⟨h1, h2, h3, h4⟩; exact ⟨h2, (hstop h1).mpr h3, h4⟩
    · constructor
      · rintro ⟨h1, _⟩; omega
      · rintro ⟨_, h1, _⟩; omega

/-! ### index sequences -/

theorem fixIdx_ok {n : ℕ} {i : ℤ} {p : ℕ} : fixIdx n i = .ok p ↔ p < n ∧ (p : ℤ) = fromEnd n i := by
  unfold fixIdx fromEnd
  split_ifs <;> simp <;> omega

theorem fixIdx_err {n : ℕ} {i : ℤ} : (∃ e, fixIdx n i = .error e) ↔ i < -n ∨ (n : ℤ) ≤ i := by
  unfold fixIdx
  split_ifs <;> simp <;> omega

theorem mapM_ok {l : List ℤ} {k : List ℕ} {n : ℕ} :
    l.mapM (fixIdx n) = .ok k ↔ List.Forall₂ (fun (i : ℤ) (p : ℕ) => p < n ∧ (p : ℤ) = fromEnd n i) l k := by
  induction l generalizing k with
  | nil => simp [pure, Except.pure, eq_comm]
  | cons a l ih =>
    rw [List.mapM_cons]
    cases h : fixIdx n a with
    | error e =>
      simp only [bind, Except.bind, reduceCtorEq, false_iff]
      intro hf
      cases hf with
      | cons h1 h2 => rw [← fixIdx_ok, h] at h1; simp at h1
    | ok p =>
      cases h2 : l.mapM (fixIdx n) with
      | error e =>
        simp only [bind, Except.bind, reduceCtorEq, false_iff]
        intro hf
        cases hf with
        | cons h1 h3 => rw [← ih, h2] at h3; simp at h3
      | ok ps =>
        simp only [bind, Except.bind, pure, Except.pure, Except.ok.injEq]
        constructor
        · rintro rfl
          exact .cons (fixIdx_ok.mp h) (ih.mp h2)
        · intro hf
          cases hf with
          | cons h1 h3 =>
            rw [← fixIdx_ok, h] at h1
            rw [← ih, h2] at h3
            simp at h1 h3
            rw [h1, h3]

theorem positions_sel {n : ℕ} {s : Spec} {k : List ℕ} (h : positions n s = .ok k) : Selects n s k := by
  cases s with
  | all => simpa [positions, Selects, eq_comm] using h
  | sl a b c =>
    simp only [positions, sliceIdx] at h
    split at h
    · simp at h
    · rename_i hc
      simp only [Except.ok.injEq] at h
      subst h
      exact ⟨hc, slicePositions_sel n a b _⟩
  | idx t typed =>
    simp only [positions, pickIdx] at h
    split at h
    · simp at h
    · exact mapM_ok.mp h

/-- every selected position exists -/
theorem selects_lt {n : ℕ} {s : Spec} {k : List ℕ} (h : Selects n s k) : ∀ p ∈ k, p < n := by
  cases s with
  | all => unfold Selects at h; subst h; simp
  | sl a b c =>
    obtain ⟨hc, h1, h2⟩ := h
    intro p hp
    rcases lt_or_gt_of_ne hc with hc | hc
    · exact (((h2 hc).2 p).mp hp).1
    · exact (((h1 hc).2 p).mp hp).1
  | idx t typed =>
    simp only [Selects] at h
    intro p hp
    generalize t.ravel = l at h
    induction h with
    | nil => simp at hp
    | cons h1 h2 ih =>
      rcases List.mem_cons.mp hp with rfl | h3
      · exact h1.1
      · exact ih h3

/-! ### the whole function -/

/-- the input position read for output position `idx` when axis `d` selects `sel d` -/
def source (sel : ℕ → List ℕ) (idx : List ℕ) : List ℕ :=
  (List.range idx.length).map fun d => (sel d).getD (idx.getD d 0) 0

/-- `idx` is a position of an array of this shape -/
def ValidIdx (shape idx : List ℕ) : Prop :=
  idx.length = shape.length ∧ ∀ d < shape.length, idx.getD d 0 < shape.getD d 0

/-- `b` is `a` with axis `d` replaced by the positions `sel d` -/
def IsTake {α : Type} (a : Arr α) (sel : ℕ → List ℕ) (b : Arr α) : Prop :=
  b.shape.length = a.shape.length ∧
  (∀ d < a.shape.length, b.shape.getD d 0 = (sel d).length ∧ ∀ p ∈ sel d, p < a.shape.getD d 0) ∧
  ∀ idx, ValidIdx b.shape idx → b.entry idx = a.entry (source sel idx)

/-- the (normalised) axis `d` is the one addressed by axis number `j` -/
def AxisIs (nd : ℕ) (j : ℤ) (d : ℕ) : Prop := d < nd ∧ (d : ℤ) = fromEnd nd j

theorem source_id {shape idx : List ℕ} (h : ValidIdx shape idx) :
    source (fun d => List.range (shape.getD d 0)) idx = idx := by
  unfold source
  apply List.ext_getElem
  · simp
  · intro i h1 h2
    have h3 := h.2 i (by rw [← h.1]; exact h2)
    simp only [List.getElem_map, List.getElem_range]
    rw [List.getD_eq_getElem _ _ (by simpa using h3)]
    simp [h2]

theorem isTake_refl {α : Type} (a : Arr α) : IsTake a (fun d => List.range (a.shape.getD d 0)) a :=
  ⟨rfl, fun d _ => ⟨by simp, by simp⟩, fun idx h => by rw [source_id h]⟩

theorem source_set {sel : ℕ → List ℕ} {idx k : List ℕ} {a : ℕ} (hs : sel a = List.range k.length)
    (hk : idx.getD a 0 < k.length) (ha : a < idx.length) :
    (source sel idx).set a (k.getD ((source sel idx).getD a 0) 0) = source (Function.update sel a k) idx := by
  have h0 : (source sel idx).getD a 0 = idx.getD a 0 := by
    unfold source
    rw [List.getD_eq_getElem _ _ (by simpa using ha)]
    simp only [List.getElem_map, List.getElem_range]
    rw [hs, List.getD_eq_getElem _ _ (by simpa using hk)]
    simp
  rw [h0]
  unfold source
  apply List.ext_getElem
  · simp
  · intro i h1 h2
    simp only [List.getElem_set, List.getElem_map, List.getElem_range]
    by_cases hi : a = i
    · subst hi; simp
    · rw [if_neg hi, Function.update_of_ne (Ne.symm hi)]

theorem takeAll_spec {α : Type} (ps : List (Spec × ℤ)) (a b : Arr α) (h : takeAll a ps = .ok b)
    (hnd : ps.Pairwise fun p q => ∀ d, AxisIs a.shape.length p.2 d → ¬ AxisIs a.shape.length q.2 d) :
    ∃ sel : ℕ → List ℕ, IsTake a sel b ∧
      (∀ p ∈ ps, ∀ d, AxisIs a.shape.length p.2 d → Selects (a.shape.getD d 0) p.1 (sel d)) ∧
      (∀ d, (∀ p ∈ ps, ¬ AxisIs a.shape.length p.2 d) → sel d = List.range (a.shape.getD d 0)) := by
  induction ps generalizing a with
  | nil =>
    simp only [takeAll, Except.ok.injEq] at h
    subst h
    exact ⟨_, isTake_refl a, by simp, by simp⟩
  | cons p ps ih =>
    obtain ⟨s, j⟩ := p
    rw [List.pairwise_cons] at hnd
    unfold takeAll at h
    cases hstep : takeStep a s j with
    | error e => rw [hstep] at h; simp [bind, Except.bind] at h
    | ok a' =>
      rw [hstep] at h
      simp only [bind, Except.bind] at h
      by_cases hall : s = .all
      · subst hall
        simp only [takeStep, Except.ok.injEq] at hstep
        subst hstep
        obtain ⟨sel, h1, h2, h3⟩ := ih a h hnd.2
        refine ⟨sel, h1, ?_, ?_⟩
        · intro q hq d hd
          rcases List.mem_cons.mp hq with rfl | hq
          · exact h3 d (fun q hq => hnd.1 q hq d hd)
          · exact h2 q hq d hd
        · intro d hd
          exact h3 d (fun q hq => hd q (List.mem_cons_of_mem _ hq))
      · have hstep' : (do
            let x ← fixAxis a.shape.length j
            let k ← positions (a.shape.getD x 0) s
            pure (takeAt a k x)) = (Except.ok a' : Except PyErr (Arr α)) := by
          rw [← hstep]; unfold takeStep; cases s <;> first | rfl | exact absurd rfl hall
        cases hax : fixAxis a.shape.length j with
        | error e => rw [hax] at hstep'; simp [bind, Except.bind] at hstep'
        | ok x =>
          rw [hax] at hstep'
          simp only [bind, Except.bind] at hstep'
          cases hpos : positions (a.shape.getD x 0) s with
          | error e => rw [hpos] at hstep'; simp at hstep'
          | ok k =>
            rw [hpos] at hstep'
            simp only [pure, Except.pure, Except.ok.injEq] at hstep'
            subst hstep'
            have hx : AxisIs a.shape.length j x := fixIdx_ok.mp hax
            have hsel := positions_sel hpos
            have hlen : (takeAt a k x).shape.length = a.shape.length := by simp [takeAt]
            obtain ⟨sel, h1, h2, h3⟩ := ih (takeAt a k x) h (by rw [hlen]; exact hnd.2)
            rw [hlen] at h2 h3
            have hshape : ∀ d, d ≠ x → (takeAt a k x).shape.getD d 0 = a.shape.getD d 0 := by
              intro d hd
              simp [takeAt, List.getD_eq_getElem?_getD, List.getElem?_set, Ne.symm hd]
            have hshapex : (takeAt a k x).shape.getD x 0 = k.length := by
              simp [takeAt, List.getD_eq_getElem?_getD, hx.1]
            have huniq : ∀ d, AxisIs a.shape.length j d → d = x := by
              intro d hd
              have := hd.2.trans hx.2.symm
              exact_mod_cast this
            have hselx : sel x = List.range k.length := by
              rw [h3 x (fun q hq => hnd.1 q hq x hx), hshapex]
            refine ⟨Function.update sel x k, ⟨?_, ?_, ?_⟩, ?_, ?_⟩
            · rw [h1.1, hlen]
            · intro d hd
              by_cases hdx : d = x
              · subst hdx
                have := (h1.2.1 d (by rw [hlen]; exact hd)).1
                rw [hselx] at this
                simp only [Function.update_self]
                exact ⟨by simpa using this, selects_lt hsel⟩
              · rw [Function.update_of_ne hdx]
                have := h1.2.1 d (by rw [hlen]; exact hd)
                rw [hshape d hdx] at this
                exact this
            · intro idx hidx
              have hlb : b.shape.length = a.shape.length := by rw [h1.1, hlen]
              have hxb : x < b.shape.length := by rw [hlb]; exact hx.1
              have hbx := (h1.2.1 x (by rw [hlen]; exact hx.1)).1
              rw [hselx, List.length_range] at hbx
              rw [h1.2.2 idx hidx]
              show a.entry _ = _
              rw [source_set hselx (by rw [← hbx]; exact hidx.2 x hxb) (by rw [hidx.1]; exact hxb)]
            · intro q hq d hd
              rcases List.mem_cons.mp hq with rfl | hq
              · have := huniq d hd
                subst this
                simpa using hsel
              · have hdx : d ≠ x := by
                  rintro rfl
                  exact hnd.1 q hq d hx hd
                rw [Function.update_of_ne hdx]
                have := h2 q hq d hd
                rwa [hshape d hdx] at this
            · intro d hd
              have hdx : d ≠ x := by
                rintro rfl
                exact hd _ List.mem_cons_self hx
              rw [Function.update_of_ne hdx, h3 d (fun q hq => hd q (List.mem_cons_of_mem _ hq)), hshape d hdx]

/-- the axis numbers used for the arguments -/
def pairing (slices : List Spec) (axes : Option (List ℤ)) : List (Spec × ℤ) :=
  slices.zip (axes.getD ((List.range slices.length).map Int.ofNat))

theorem pairing_eq (slices : List Spec) (axes : Option (List ℤ)) :
    slices.zip (axesOf slices.length axes) = pairing slices axes := by
  cases axes <;> rfl

/-- **C39** whenever `simple_take` returns, the result has as many dimensions as the input, and there is one list of
positions per axis such that the result's entry at `(i0, i1, …)` is the input's entry at the selected positions;
on an axis that is named (at most once) these are the positions selected by its argument, on any other axis
all positions. -/
theorem C39_take {α : Type} (a b : Arr α) (slices : List Spec) (axes : Option (List ℤ))
    (hnd : (pairing slices axes).Pairwise fun p q => ∀ d, AxisIs a.shape.length p.2 d → ¬ AxisIs a.shape.length q.2 d)
    (h : simpleTake a slices axes = .ok b) :
    b.shape.length = a.shape.length ∧
    ∃ sel : ℕ → List ℕ, IsTake a sel b ∧
      (∀ p ∈ pairing slices axes, ∀ d, AxisIs a.shape.length p.2 d → Selects (a.shape.getD d 0) p.1 (sel d)) ∧
      (∀ d, (∀ p ∈ pairing slices axes, ¬ AxisIs a.shape.length p.2 d) → sel d = List.range (a.shape.getD d 0)) := by
  unfold simpleTake at h
  rw [pairing_eq] at h
  obtain ⟨sel, h1, h2⟩ := takeAll_spec _ a b h hnd
  exact ⟨h1.1, sel, h1, h2⟩

/-- the number of dimensions is kept even when an axis is named repeatedly -/
theorem C39_ndim {α : Type} (a b : Arr α) (slices : List Spec) (axes : Option (List ℤ))
    (h : simpleTake a slices axes = .ok b) : b.shape.length = a.shape.length := by
  unfold simpleTake at h
  generalize slices.zip (axesOf slices.length axes) = ps at h
  induction ps generalizing a with
  | nil => simp only [takeAll, Except.ok.injEq] at h; rw [h]
  | cons p ps ih =>
    unfold takeAll at h
    cases hs : takeStep a p.1 p.2 with
    | error e => rw [hs] at h; simp [bind, Except.bind] at h
    | ok a' =>
      rw [hs] at h
      simp only [bind, Except.bind] at h
      rw [ih a' h]
      unfold takeStep at hs
      split at hs
      · simp at hs; rw [hs]
      · cases h1 : fixAxis a.shape.length p.2 with
        | error e => rw [h1] at hs; simp [bind, Except.bind] at hs
        | ok x =>
          rw [h1] at hs
          simp only [bind, Except.bind] at hs
          cases h2 : positions (a.shape.getD x 0) p.1 with
          | error e => rw [h2] at hs; simp at hs
          | ok k =>
            rw [h2] at hs
            simp only [pure, Except.pure, Except.ok.injEq] at hs
            rw [← hs]; simp [takeAt]

/-! ### when it raises -/

/-- an argument that cannot be applied to its axis: it is not `None` and the axis does not exist, the slice step
is zero, the Python sequence is empty, or some index is outside `[-n, n)` -/
def Bad (shape : List ℕ) (p : Spec × ℤ) : Prop :=
  p.1 ≠ .all ∧ ((∀ d, ¬ AxisIs shape.length p.2 d) ∨ ∃ d, AxisIs shape.length p.2 d ∧
    match p.1 with
    | .all => False
    | .sl _ _ c => c = some 0
    | .idx t typed => (t.ravel = [] ∧ typed = false) ∨ ∃ i ∈ t.ravel, i < -(shape.getD d 0) ∨ (shape.getD d 0 : ℤ) ≤ i)

theorem mapM_err {l : List ℤ} {n : ℕ} :
    (∃ e, l.mapM (fixIdx n) = .error e) ↔ ∃ i ∈ l, i < -n ∨ (n : ℤ) ≤ i := by
  induction l with
  | nil => simp [pure, Except.pure]
  | cons a l ih =>
    rw [List.mapM_cons]
    simp only [List.mem_cons, exists_eq_or_imp]
    rw [← ih, ← fixIdx_err]
    cases h : fixIdx n a with
    | error e => simp [bind, Except.bind]
    | ok p =>
      cases h2 : l.mapM (fixIdx n) with
      | error e => simp [bind, Except.bind]
      | ok ps => simp [bind, Except.bind, pure, Except.pure]

theorem takeStep_err {α : Type} (a : Arr α) (p : Spec × ℤ) :
    (∃ e, takeStep a p.1 p.2 = .error e) ↔ Bad a.shape p := by
  obtain ⟨s, j⟩ := p
  by_cases hall : s = .all
  · subst hall; simp [takeStep, Bad]
  · have hdef : takeStep a s j = (do
            let x ← fixAxis a.shape.length j
            let k ← positions (a.shape.getD x 0) s
            pure (takeAt a k x)) := by
      unfold takeStep; cases s <;> first | rfl | exact absurd rfl hall
    simp only [hdef]
    cases hax : fixAxis a.shape.length j with
    | error e =>
      have : ∀ d, ¬ AxisIs a.shape.length j d := by
        intro d hd
        have := fixIdx_ok.mpr hd
        unfold fixAxis at hax
        rw [hax] at this; simp at this
      simp only [bind, Except.bind, Bad]
      simp [hall, this]
    | ok x =>
      have hx : AxisIs a.shape.length j x := fixIdx_ok.mp hax
      have huniq : ∀ d, AxisIs a.shape.length j d ↔ d = x := by
        intro d
        refine ⟨fun hd => ?_, fun h => h ▸ hx⟩
        have := hd.2.trans hx.2.symm
        exact_mod_cast this
      simp only [bind, Except.bind, Bad, huniq]
      cases s with
      | all => exact absurd rfl hall
      | sl p q c =>
        simp only [positions, sliceIdx]
        cases c with
        | none => simp [pure, Except.pure]
        | some c => by_cases hc : c = 0 <;> simp [hc, pure, Except.pure]
      | idx t typed =>
        simp only [positions, pickIdx]
        by_cases he : t.ravel = [] ∧ typed = false
        · simp [he]
        · rw [if_neg he]
          simp only [he, false_or]
          rw [show (∃ d, d = x ∧ ∃ i ∈ t.ravel, i < -(a.shape.getD d 0 : ℤ) ∨ (a.shape.getD d 0 : ℤ) ≤ i) ↔
            ∃ i ∈ t.ravel, i < -(a.shape.getD x 0 : ℤ) ∨ (a.shape.getD x 0 : ℤ) ≤ i by simp]
          rw [← mapM_err]
          cases h2 : t.ravel.mapM (fixIdx (a.shape.getD x 0)) with
          | error e => simp
          | ok ps => simp [pure, Except.pure]

/-- **C39** with axes named at most once, `simple_take` raises exactly when some argument is not applicable -/
theorem C39_raises {α : Type} (a : Arr α) (slices : List Spec) (axes : Option (List ℤ))
    (hnd : (pairing slices axes).Pairwise fun p q => ∀ d, AxisIs a.shape.length p.2 d → ¬ AxisIs a.shape.length q.2 d) :
    (∃ e, simpleTake a slices axes = .error e) ↔ ∃ p ∈ pairing slices axes, Bad a.shape p := by
  unfold simpleTake
  rw [pairing_eq]
  generalize pairing slices axes = ps at hnd ⊢
  induction ps generalizing a with
  | nil => simp [takeAll]
  | cons p ps ih =>
    rw [List.pairwise_cons] at hnd
    simp only [List.mem_cons, exists_eq_or_imp]
    rw [← takeStep_err a p]
    unfold takeAll
    cases hs : takeStep a p.1 p.2 with
    | error e => simp [bind, Except.bind]
    | ok a' =>
      simp only [bind, Except.bind, reduceCtorEq, exists_false, false_or]
      have hlen : a'.shape.length = a.shape.length := by
        have := C39_ndim a a' [p.1] (some [p.2])
        simp only [simpleTake, axesOf, List.zip_cons_cons, List.zip_nil_left, takeAll, hs, bind, Except.bind] at this
        exact this trivial
      have hother : ∀ d, ¬ AxisIs a.shape.length p.2 d → a'.shape.getD d 0 = a.shape.getD d 0 := by
        intro d hd
        have h1 := takeAll_spec [p] a a' (by simp [takeAll, hs, bind, Except.bind]) (by simp)
        obtain ⟨sel, h1, _, h3⟩ := h1
        by_cases hda : d < a.shape.length
        · rw [(h1.2.1 d hda).1, h3 d (by simpa using hd)]; simp
        · rw [List.getD_eq_default _ _ (by omega), List.getD_eq_default _ _ (by omega)]
      rw [ih a' (by rw [hlen]; exact hnd.2)]
      have : ∀ q ∈ ps, (Bad a'.shape q ↔ Bad a.shape q) := by
        intro q hq
        unfold Bad
        rw [hlen]
        refine and_congr Iff.rfl (or_congr Iff.rfl (exists_congr fun d => and_congr_right fun hd => ?_))
        rw [hother d (fun h => hnd.1 q hq d h hd)]
      constructor
      · rintro ⟨q, hq, h⟩; exact ⟨q, hq, (this q hq).mp h⟩
      · rintro ⟨q, hq, h⟩; exact ⟨q, hq, (this q hq).mpr h⟩

/-- a 3 × 4 array indexed with `[2, -3]` on axis 0 and `::-2` on axis 1 satisfies the hypotheses of `C39_take` -/
example : (pairing [.idx (.seq [.num 2, .num (-3)]) false, .sl none none (some (-2))] none).Pairwise
      (fun p q => ∀ d, AxisIs 2 p.2 d → ¬ AxisIs 2 q.2 d) ∧
    ∃ b, simpleTake ⟨[3, 4], fun i => i⟩ [.idx (.seq [.num 2, .num (-3)]) false, .sl none none (some (-2))] none = .ok b ∧
      b.shape = [2, 2] ∧ b.entry [1, 0] = [0, 3] := by
  refine ⟨?_, _, rfl, by decide, by decide⟩
  simp [pairing, List.range_succ, AxisIs, fromEnd]
  intro d h1 h2 h3; omega

/-- and an index past the end is `Bad` -/
example : Bad [3, 4] (.idx (.num 3) false, 0) :=
  ⟨by simp, Or.inr ⟨0, ⟨by decide, by decide⟩, by simp [Nd.ravel]⟩⟩

end Verif.Take
