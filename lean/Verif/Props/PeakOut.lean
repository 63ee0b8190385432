import Verif.Model.PeakOut
import Verif.Props.Peak

/-! C170: the forms in which `normalize_peak` returns its result. -/

namespace Verif.Peak
open Verif.Geo Verif.Py Real
variable {k n : ℕ}

/-- one row of luminances for every direction: the first axis counts the rays -/
def Spec.RowPerRay (a : Arrays k) : Prop := a.shape.head? = some a.v.length

/-- the energy of the rows of three arrays -/
noncomputable def Spec.energyOf (w : Fin k → ℝ) (a : Arrays k) : ℝ :=
  (List.zipWith (fun (o : ℝ) (c : Fin k → ℝ) => o * ∑ j, c j * w j) a.o a.lum).sum

theorem energyOf_arrays (w : Fin k → ℝ) (rows : List (Px k)) (sh : List ℕ) :
    Spec.energyOf w (arrays rows sh) = total (fun r => r.o * lum w r) rows := by
  unfold Spec.energyOf arrays total
  induction rows with
  | nil => rfl
  | cons r rows ih => simp only [List.map_cons, List.zipWith_cons_cons, List.sum_cons, ih]; rfl

/-- **C170** with some pixel above the threshold the three forms agree: the complete arrays are the parts followed by the
peak, the peak is the same in each form, and the energy of parts and peak together is the energy of the input -/
theorem C170_agree_partial {S : Sorter n} (hS : SortOk S) {p : Par k} {x : Fin n → Px k} (h : Good p x) {i : Fin n}
    (hi : p.peakt / p.scale < lum p.w (x i)) (z flat : Bool) (fuel : ℕ) :
    ∃ (s : Src k) (a b : Arrays k),
      normalizeRet S p z flat false true true x fuel = some (.ok (.parts (.source s) a)) ∧
      normalizeRet S p z flat false false true x fuel = some (.ok (.all b)) ∧
      normalizeRet S p z flat false false false x fuel = some (.ok (.peak (.source s))) ∧
      b.v = a.v ++ [s.v] ∧ b.o = a.o ++ [s.o] ∧ b.lum = a.lum ++ [s.c] ∧
      Spec.energyOf p.w a + s.o * lum p.w s = total (fun r => r.o * lum p.w r) ((List.finRange n).map x) := by
  rcases findPeak_cases hS h with ⟨h1, h2⟩ | ⟨top, rest', l, h1, h2, h3⟩
  · have : i ∈ sorted S p x := by rw [mem_sorted hS]; exact hi
    rw [h1] at this; simp at this
  · refine ⟨source p x top (top :: l), arrays (rest z x (taken p x top (top :: l)))
        (squeeze [(rest z x (taken p x top (top :: l))).length, k]),
      arrays (rest z x (taken p x top (top :: l)) ++ [source p x top (top :: l)])
        (squeeze [(rest z x (taken p x top (top :: l))).length + 1, k]), ?_, ?_, ?_, ?_, ?_, ?_, ?_⟩
    · unfold normalizeRet; rw [h3]; rfl
    · unfold normalizeRet; rw [h3]; rfl
    · unfold normalizeRet; rw [h3]; rfl
    · simp [arrays]
    · simp [arrays]
    · simp [arrays]
    · obtain ⟨out, e1, e2⟩ := C59_energy hS h z
      rw [← e2]
      have : out = rest z x (taken p x top (top :: l)) ++ [source p x top (top :: l)] := by
        unfold normalizePeak at e1
        rw [h3] at e1
        cases z
        · simpa [rest] using (Except.ok.inj e1).symm
        · simpa [rest] using (Except.ok.inj e1).symm
      rw [this, energyOf_arrays]
      unfold total
      rw [List.map_append, List.sum_append]
      simp

/-- **C170** the shape of the returned luminances. Without bright pixels it is that of the argument; otherwise the first
axis counts the rays except when a single ray is returned: then the array has no axis for rays at all -/
theorem C170_shape (z flat parts : Bool) (x : Fin n → Px k) (r : Option (Src k) × List (Fin n)) :
    (r.1 = none → (outArrays z flat parts x r).shape = (if flat then [n] else [n, k]) ∧
      Spec.RowPerRay (outArrays z flat parts x r)) ∧
    (r.1 ≠ none → ((outArrays z flat parts x r).v.length ≠ 1 →
        (outArrays z flat parts x r).shape = (outArrays z flat parts x r).v.length :: (if k = 1 then [] else [k])) ∧
      ((outArrays z flat parts x r).v.length = 1 →
        (outArrays z flat parts x r).shape = (if k = 1 then [] else [k]))) := by
  rcases r with ⟨_ | s, pc⟩
  · refine ⟨fun _ => ⟨rfl, ?_⟩, fun h => absurd rfl h⟩
    simp only [Spec.RowPerRay, outArrays, arrays, List.length_map, List.length_finRange]
    cases flat <;> rfl
  · refine ⟨fun h => by simp at h, fun _ => ?_⟩
    have key : ∀ m : ℕ, (m ≠ 1 → squeeze [m, k] = m :: (if k = 1 then [] else [k])) ∧
        (m = 1 → squeeze [m, k] = if k = 1 then [] else [k]) := by
      intro m
      constructor
      · intro hm
        by_cases hk : k = 1 <;> simp [squeeze, hm, hk]
      · rintro rfl
        by_cases hk : k = 1 <;> simp [squeeze, hk]
    cases parts
    · have e : (outArrays z flat false x (some s, pc)).v.length = (rest z x pc).length + 1 := by
        simp [outArrays, arrays]
      rw [e]
      exact key _
    · have e : (outArrays z flat true x (some s, pc)).v.length = (rest z x pc).length := by
        simp [outArrays, arrays]
      rw [e]
      exact key _

/-- **C170** how many rays are returned: one for each pixel and one more when zeros are kept, otherwise the pixels that
were not merged and the peak -/
theorem C170_count {S : Sorter n} (hS : SortOk S) {p : Par k} {x : Fin n → Px k} (h : Good p x) (flat parts : Bool)
    {s : Src k} {pc : List (Fin n)} (hf : findPeak S p x = .ok (some s, pc)) :
    (outArrays true flat parts x (some s, pc)).v.length = n + (if parts then 0 else 1) ∧
    (outArrays false flat parts x (some s, pc)).v.length + pc.length = n + (if parts then 0 else 1) ∧ 1 ≤ pc.length := by
  rcases findPeak_cases hS h with ⟨h1, h2⟩ | ⟨top, rest', l, h1, h2, h3⟩
  · rw [h2] at hf; simp at hf
  · rw [h3] at hf
    obtain ⟨rfl, rfl⟩ : source p x top (top :: l) = s ∧ taken p x top (top :: l) = pc := by simpa using hf
    obtain ⟨t1, t2, -⟩ := taken_spec hS h1 h2
    have hl : (rest true x (taken p x top (top :: l))).length = n := by simp [rest]
    have hr : (rest false x (taken p x top (top :: l))).length + (taken p x top (top :: l)).length = n := by
      have hp : ((List.finRange n).filter fun i => i ∈ taken p x top (top :: l)).length =
          (taken p x top (top :: l)).length := by
        refine List.Perm.length_eq ((List.perm_ext_iff_of_nodup ((List.nodup_finRange n).filter _) t2).2 fun i => ?_)
        simp
      have hs := List.length_eq_length_filter_add (l := List.finRange n)
        (fun i => decide (i ∈ taken p x top (top :: l)))
      simp only [rest, Bool.false_eq_true, if_false, List.length_map]
      rw [List.length_finRange] at hs
      simp only [decide_not] at *
      omega
    refine ⟨?_, ?_, List.length_pos_of_mem t1⟩
    · cases parts <;> simp [outArrays, arrays, hl]
    · cases parts <;> simp [outArrays, arrays] <;> omega

/-- The claim: whatever the image, the peak has a direction, a solid angle and channels, and the secondary sources are a
list. -/
def C170_statement : Prop :=
  ∀ (n k : ℕ) (S : Sorter n) (p : Par k) (x : Fin n → Px k) (flat : Bool) (fuel : ℕ) (pv : PeakVal k)
    (st : Option (List (Group k n))), SortOk S → Good p x →
    normalizeRet S p false flat true false true x fuel = some (.ok (.secondary pv st)) →
    (∃ s, pv = .source s) ∧ st.isSome

/-- **C170** without a pixel above the threshold the peak is a flat array of zeros and the secondary sources are `None` -/
theorem C170_none {S : Sorter n} (hS : SortOk S) {p : Par k} {x : Fin n → Px k} (h : Good p x)
    (hd : ∀ i, lum p.w (x i) ≤ p.peakt / p.scale) (z flat : Bool) (fuel : ℕ) (ra : Bool) :
    normalizeRet S p z flat true false ra x fuel = some (.ok (.secondary (.zeros (if flat then 5 else 4 + k)) none)) ∧
    normalizeRet S p z flat false true ra x fuel = some (.ok (.parts (.zeros (if flat then 5 else 4 + k))
      (arrays ((List.finRange n).map x) (if flat then [n] else [n, k])))) ∧
    normalizeRet S p z flat false false true x fuel =
      some (.ok (.all (arrays ((List.finRange n).map x) (if flat then [n] else [n, k])))) := by
  rcases findPeak_cases hS h with ⟨h1, h2⟩ | ⟨top, rest', l, h1, h2, h3⟩
  · have hst : straysOf S p x fuel = some none := by
      unfold straysOf
      have h1' : S _ _ = [] := h1
      rw [h1']
    refine ⟨?_, ?_, ?_⟩
    · unfold normalizeRet; rw [h2, hst]; rfl
    · unfold normalizeRet; rw [h2]; rfl
    · unfold normalizeRet; rw [h2]; rfl
  · have : top ∈ sorted S p x := by rw [h1]; exact List.mem_cons_self
    rw [mem_sorted hS] at this
    exact absurd this (not_lt.2 (hd top))

/-- two dark rays -/
noncomputable def darkPx : Fin 2 → Px 2 := ![⟨⟨0, 1, 0⟩, 1, ![0, 0]⟩, ⟨⟨3 / 5, 4 / 5, 0⟩, 1, ![0, 0]⟩]

theorem darkPx_good : Good (wp ![1, 1] 1) darkPx where
  unit i := by fin_cases i <;> norm_num [darkPx, V3.normSq]
  o i := by fin_cases i <;> norm_num [darkPx]
  thr := by norm_num [wp]
  a := pi_pos
  cone := by rw [wp_cone]; linarith [cos_one_le]

theorem darkPx_dark (i : Fin 2) : lum (wp ![1, 1] 1).w (darkPx i) ≤ (wp ![1, 1] 1).peakt / (wp ![1, 1] 1).scale := by
  fin_cases i <;> simp [lum, darkPx, wp]

theorem C170_refuted : ¬ C170_statement := by
  intro h
  obtain ⟨S, hS⟩ := sorter_exists (n := 2)
  obtain ⟨⟨s, hs⟩, -⟩ := h 2 2 S (wp ![1, 1] 1) darkPx false 0 _ _ hS darkPx_good
    (C170_none hS darkPx_good darkPx_dark false false 0 true).1
  cases hs

-- a call in which everything is merged: one ray of two channels comes back, without an axis for rays
example {S : Sorter 2} (hS : SortOk S) :
    findPeak S (wp ![1, 1] 1) wx = .ok (some (source (wp ![1, 1] 1) wx 0 [0, 1]), [0, 1]) ∧
    (outArrays false false false wx (some (source (wp ![1, 1] 1) wx 0 [0, 1]), [0, 1])).shape = [2] ∧
    ¬ Spec.RowPerRay (outArrays false false false wx (some (source (wp ![1, 1] 1) wx 0 [0, 1]), [0, 1])) := by
  have e : rest false wx [0, 1] = [] := by simp [rest, List.finRange]
  refine ⟨wx_find hS, ?_, ?_⟩
  · simp [outArrays, e, arrays, squeeze]
  · simp [Spec.RowPerRay, outArrays, e, arrays, squeeze]

end Verif.Peak
