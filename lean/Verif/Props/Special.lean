import Verif.Model.Special
import Verif.Props.MetricLaws

/-! C169: when a metric is a number, and what it is otherwise. -/

namespace Verif.Metric
open Verif.Geo Verif.Map Verif.Pos Real

/-- the value is a finite number -/
def Num.IsNumber (n : Num) : Prop := ∃ x, n = .fin x

/-- a set of rays with light and solid angles that are not negative, and a positive factor to luminance -/
structure Spec.Physical (s : MS) : Prop where
  om : ∀ r ∈ s.rays, 0 ≤ r.om
  lum : ∀ r ∈ s.rays, 0 ≤ r.lum
  scale : 0 < s.o.scale

theorem Num.div_fin {x y : ℝ} (hy : y ≠ 0) : (Num.fin x).div (.fin y) = .fin (x / y) := by simp [Num.div, hy]

theorem Num.zero_div_zero : (Num.fin 0).div (.fin 0) = .nan := by simp [Num.div]

theorem sumBy_eq_zero {w : Ray → ℝ} {l : List Ray} (hw : ∀ r ∈ l, 0 ≤ w r) (h : sumBy w l = 0) : ∀ r ∈ l, w r = 0 := by
  induction l with
  | nil => simp
  | cons a l ih =>
    rw [sumBy_cons] at h
    have a1 := hw a List.mem_cons_self
    have a2 := sumBy_nonneg (f := w) (l := l) fun r hr => hw r (List.mem_cons_of_mem _ hr)
    intro r hr
    rcases List.mem_cons.1 hr with rfl | hr
    · linarith
    · exact ih (fun r hr => hw r (List.mem_cons_of_mem _ hr)) (by linarith) r hr

theorem sumBy_zero {w : Ray → ℝ} {l : List Ray} (h : ∀ r ∈ l, w r = 0) : sumBy w l = 0 := by
  rw [sumBy_congr h]
  induction l with
  | nil => rfl
  | cons a l ih => rw [sumBy_cons, ih fun r hr => h r (List.mem_cons_of_mem _ hr)]; simp

/-- where the weighted mean of luminance is positive, so is the weighted mean of its square -/
theorem square_pos {w : Ray → ℝ} {l : List Ray} (hw : ∀ r ∈ l, 0 ≤ w r) (h : sumBy (fun r => r.lum * w r) l ≠ 0) :
    0 < sumBy (fun r => r.lum * r.lum * w r) l := by
  have h0 : ∀ r ∈ l, 0 ≤ r.lum * r.lum * w r := fun r hr => mul_nonneg (mul_self_nonneg _) (hw r hr)
  rcases (sumBy_nonneg h0).lt_or_eq with hp | hp
  · exact hp
  · refine absurd (sumBy_zero fun r hr => ?_) h
    rcases mul_eq_zero.1 (sumBy_eq_zero h0 hp.symm r hr) with e | e
    · rw [mul_self_eq_zero.1 e, zero_mul]
    · rw [e, mul_zero]

/-- the contrast ratio as numpy computes it -/
theorem ratio_num {T S A c : ℝ} (hA : 0 < A) (hc : 0 < c) (h : T ≠ 0 → 0 < S) (h0 : 0 ≤ T) :
    (T * c / A > 0 → (Num.div ((Num.fin (S * c ^ 2)).div (.fin A)) (Num.sq (.fin (T * c / A)))) =
      .fin (S * c ^ 2 / A / (T * c / A) ^ 2) ∧ 0 < S * c ^ 2 / A / (T * c / A) ^ 2) := by
  intro hp
  have hT : T ≠ 0 := by rintro rfl; simp at hp
  have := h hT
  rw [Num.div_fin hA.ne']
  refine ⟨?_, by positivity⟩
  show Num.div _ (.fin ((T * c / A) ^ 2)) = _
  rw [Num.div_fin (by positivity)]

/-- **C169** averages, density and contrast of a set with some solid angle are numbers, those of the documented formulas -/
theorem C169_contrast (s : MS) (h : Spec.Physical s) (hA : 0 < s.area) :
    s.avglumN = .fin s.avglum ∧ s.densityN = .fin s.density ∧ s.gcrN = .fin s.gcr ∧ s.loggcrN = .fin s.loggcr := by
  have a1 : s.avglumN = .fin s.avglum := Num.div_fin hA.ne'
  have hT : 0 ≤ sumBy (fun r => r.lum * r.om) s.rays := sumBy_nonneg fun r hr => mul_nonneg (h.lum r hr) (h.om r hr)
  have key : s.gcrN = .fin s.gcr ∧ 0 < s.gcr := by
    unfold MS.gcrN MS.gcr
    rw [a1]
    by_cases hp : s.avglum > 0
    · rw [if_pos (show Num.gt (.fin s.avglum) (.fin 0) from hp), if_pos hp]
      exact ratio_num hA h.scale (fun hne => square_pos h.om hne) hT hp
    · rw [if_neg (show ¬ Num.gt (.fin s.avglum) (.fin 0) from hp), if_neg hp]
      exact ⟨rfl, one_pos⟩
  refine ⟨a1, Num.div_fin hA.ne', key.1, ?_⟩
  unfold MS.loggcrN MS.loggcr
  rw [key.1]
  simp [Num.log10, key.2]

/-- **C169** the same with position weights -/
theorem C169_weighted (s : MS) (h : Spec.Physical s) (hA : ∃ r ∈ s.rays, r.om ≠ 0) :
    s.pwavglumN = .fin s.pwavglum ∧ s.pwgcrN = .fin s.pwgcr ∧ s.logpwgcrN = .fin s.logpwgcr := by
  have hw : ∀ r ∈ s.rays, 0 ≤ s.pw r := fun r hr => (pw_pos s).1 (h.om r hr)
  have hA : 0 < s.pwArea := by
    rcases (sumBy_nonneg hw).lt_or_eq with hp | hp
    · exact hp
    · obtain ⟨r, hr, hne⟩ := hA
      have := (pw_pos s).2 (lt_of_le_of_ne (h.om r hr) hne.symm)
      rw [sumBy_eq_zero hw hp.symm r hr] at this
      exact absurd this (lt_irrefl _)
  have a1 : s.pwavglumN = .fin s.pwavglum := Num.div_fin hA.ne'
  have hT : 0 ≤ sumBy (fun r => r.lum * s.pw r) s.rays := sumBy_nonneg fun r hr => mul_nonneg (h.lum r hr) (hw r hr)
  have key : s.pwgcrN = .fin s.pwgcr ∧ 0 < s.pwgcr := by
    unfold MS.pwgcrN MS.pwgcr
    rw [a1]
    by_cases hp : s.pwavglum > 0
    · rw [if_pos (show Num.gt (.fin s.pwavglum) (.fin 0) from hp), if_pos hp]
      exact ratio_num hA h.scale (fun hne => square_pos hw hne) hT hp
    · rw [if_neg (show ¬ Num.gt (.fin s.pwavglum) (.fin 0) from hp), if_neg hp]
      exact ⟨rfl, one_pos⟩
  refine ⟨a1, key.1, ?_⟩
  unfold MS.logpwgcrN MS.logpwgcr
  rw [key.1]
  simp [Num.log10, key.2]

/-- **C169** a view without any ray, or with rays of no solid angle: averages are nan, the density nan or infinite, and the
contrast metrics have their values for a uniform scene -/
theorem C169_empty (s : MS) (h0 : ∀ r ∈ s.rays, r.om = 0) (hA : s.area = 0) :
    s.avglumN = .nan ∧ s.pwavglumN = .nan ∧ s.gcrN = .fin 1 ∧ s.pwgcrN = .fin 1 ∧ s.loggcrN = .fin 0 ∧
      s.logpwgcrN = .fin 0 ∧ (s.avgraylumN = .nan ↔ s.rays = []) ∧ (s.densityN = .nan ↔ s.rays = []) ∧
      (s.densityN = .pinf ↔ s.rays ≠ []) := by
  have e1 : s.avglumN = .nan := by
    unfold MS.avglumN
    rw [sumBy_zero fun r hr => by rw [h0 r hr, mul_zero], hA, zero_mul]
    exact Num.zero_div_zero
  have p0 : ∀ r ∈ s.rays, s.pw r = 0 := fun r hr => by unfold MS.pw; rw [h0 r hr, zero_div]
  have e2 : s.pwavglumN = .nan := by
    unfold MS.pwavglumN MS.pwArea
    rw [sumBy_zero fun r hr => by rw [p0 r hr, mul_zero], sumBy_zero p0, zero_mul]
    exact Num.zero_div_zero
  have e3 : s.gcrN = .fin 1 := by
    unfold MS.gcrN; rw [e1, if_neg (by simp [Num.gt])]
  have e4 : s.pwgcrN = .fin 1 := by
    unfold MS.pwgcrN; rw [e2, if_neg (by simp [Num.gt])]
  refine ⟨e1, e2, e3, e4, ?_, ?_, ?_, ?_, ?_⟩
  · unfold MS.loggcrN; rw [e3]; simp [Num.log10]
  · unfold MS.logpwgcrN; rw [e4]; simp [Num.log10]
  · unfold MS.avgraylumN
    rcases hr : s.rays with _ | ⟨a, l⟩
    · simp [Num.div, Num.scale]
    · rw [Num.div_fin (by simp; positivity)]; simp [Num.scale]
  · unfold MS.densityN
    rw [hA]
    rcases hr : s.rays with _ | ⟨a, l⟩
    · simp [Num.div]
    · have : (0 : ℝ) < (l.length : ℝ) + 1 := by positivity
      simp [Num.div, this, this.ne']
  · unfold MS.densityN
    rw [hA]
    rcases hr : s.rays with _ | ⟨a, l⟩
    · simp [Num.div]
    · have : (0 : ℝ) < (l.length : ℝ) + 1 := by positivity
      simp [Num.div, this, this.ne']

/-- **C169** the mean over rays is a number as soon as there is a ray -/
theorem C169_avgraylum (s : MS) (h : s.rays ≠ []) : s.avgraylumN = .fin s.avgraylum := by
  unfold MS.avgraylumN MS.avgraylum avg
  rw [Num.div_fin (by simpa using h)]
  simp [Num.scale, mul_comm]

/-- **C169** which rays are sources. With an absolute threshold, or a ray of some solid angle in the task area: those above
the threshold. With a threshold relative to a task area in which no ray lies the threshold is nan: nothing is a source -/
theorem C169_sources (s : MS) (hom : ∀ r ∈ s.rays, 0 ≤ r.om) :
    (s.o.thr > 100 ∨ (∃ r ∈ s.rays, s.m.degrees r.v < s.o.tradius ∧ r.om ≠ 0) →
      s.thresholdN = .fin s.threshold ∧ s.sourcesN = s.sources ∧ s.backgroundN = s.background) ∧
    (s.o.thr ≤ 100 → (∀ r ∈ s.rays, s.m.degrees r.v < s.o.tradius → r.om = 0) →
      s.tasklumN = .nan ∧ s.thresholdN = .nan ∧ s.sourcesN = [] ∧ s.backgroundN = s.rays) := by
  have hto : ∀ r ∈ s.taskRays, 0 ≤ r.om := fun r hr => hom r (List.mem_of_mem_filter hr)
  constructor
  · intro h
    have ht : s.thresholdN = .fin s.threshold := by
      unfold MS.thresholdN MS.threshold
      by_cases h1 : s.o.thr > 100
      · rw [if_pos h1, if_pos h1]
      · rw [if_neg h1, if_neg h1]
        obtain ⟨r, hr, hd, hne⟩ := h.resolve_left h1
        have hne : omSum s.taskRays ≠ 0 := fun e => hne
          (sumBy_eq_zero (w := Ray.om) hto e r (List.mem_filter.2 ⟨hr, by simpa using hd⟩))
        unfold MS.tasklumN
        rw [Num.div_fin hne]
        simp only [Num.scale, MS.tasklum]
        rw [mul_comm]; rfl
    have hs : s.srcN = s.src := by
      funext r
      unfold MS.srcN MS.src
      rw [ht]; rfl
    exact ⟨ht, by unfold MS.sourcesN MS.sources; rw [hs], by unfold MS.backgroundN MS.background; rw [hs]⟩
  · intro h1 h2
    have hz : ∀ r ∈ s.taskRays, r.om = 0 := fun r hr => by
      obtain ⟨a, b⟩ := List.mem_filter.1 hr
      exact h2 r a (by simpa using b)
    have ht : s.tasklumN = .nan := by
      unfold MS.tasklumN
      rw [sumBy_zero fun r hr => by rw [hz r hr, mul_zero], omSum_eq, sumBy_zero hz, zero_mul]
      exact Num.zero_div_zero
    have hn : s.thresholdN = .nan := by
      unfold MS.thresholdN; rw [if_neg (not_lt.2 h1), ht]; rfl
    have hs : ∀ r, s.srcN r = false := fun r => by
      unfold MS.srcN; rw [hn]; exact @decide_eq_false _ (Classical.propDecidable _) (by simp [Num.gt])
    refine ⟨ht, hn, ?_, ?_⟩
    · unfold MS.sourcesN; rw [List.filter_eq_nil_iff]; intro r _; simp [hs r]
    · unfold MS.backgroundN; rw [List.filter_eq_self]; intro r _; simp [hs r]

theorem ll_pos (s : MS) : 0 < s.ll := by
  unfold MS.ll; split
  · positivity
  · exact one_pos

theorem pwsl2N_nonneg (s : MS) (hom : ∀ r ∈ s.rays, 0 ≤ r.om) : 0 ≤ s.pwsl2N := by
  refine sumBy_nonneg fun r hr => ?_
  have := hom r (List.mem_of_mem_filter hr)
  positivity

/-- **C169** the daylight glare probability, as a function of the illuminance and the weighted source luminance:
a number when light arrives; nan without any light; 1 when sources are seen but give no illuminance; nan when the
illuminance is negative -/
theorem C169_dgp (s : MS) (hom : ∀ r ∈ s.rays, 0 ≤ r.om) :
    (0 < s.illum → s.logGcN = .fin (logb 10 (1 + s.pwsl2N / s.illum ^ (1.87 : ℝ))) ∧
      s.dgpN = .fin (min (s.ll * (0.0000587 * s.illum + 0.0918 * logb 10 (1 + s.pwsl2N / s.illum ^ (1.87 : ℝ)) + 0.16)) 1)) ∧
    (s.illum = 0 → s.pwsl2N = 0 → s.logGcN = .nan ∧ s.dgpN = .nan) ∧
    (s.illum = 0 → s.pwsl2N ≠ 0 → s.logGcN = .pinf ∧ s.dgpN = .fin 1) ∧
    (s.illum < 0 → s.logGcN = .nan ∧ s.dgpN = .nan) := by
  have hp := pwsl2N_nonneg s hom
  have hl := ll_pos s
  refine ⟨fun h => ?_, fun h h2 => ?_, fun h h2 => ?_, fun h => ?_⟩
  · have e : s.logGcN = .fin (logb 10 (1 + s.pwsl2N / s.illum ^ (1.87 : ℝ))) := by
      unfold MS.logGcN Num.pow
      rw [if_neg (not_lt.2 h.le), Num.div_fin (by positivity)]
      have : 0 < 1 + s.pwsl2N / s.illum ^ (1.87 : ℝ) := by positivity
      simp only [Num.add, Num.log10]
      rw [if_pos this]
    refine ⟨e, ?_⟩
    unfold MS.dgpN
    rw [e]
    simp only [Num.scale, Num.add, Num.min1, MS.dgpT1]
    norm_num
  · have e : s.logGcN = .nan := by
      unfold MS.logGcN Num.pow
      rw [h, h2, if_neg (lt_irrefl _), Real.zero_rpow (by norm_num), Num.zero_div_zero]
      rfl
    refine ⟨e, ?_⟩
    unfold MS.dgpN; rw [e]; rfl
  · have e : s.logGcN = .pinf := by
      unfold MS.logGcN Num.pow
      rw [h, if_neg (lt_irrefl _), Real.zero_rpow (by norm_num)]
      have : 0 < s.pwsl2N := lt_of_le_of_ne hp (Ne.symm h2)
      simp [Num.div, h2, this, Num.add, Num.log10]
    refine ⟨e, ?_⟩
    unfold MS.dgpN; rw [e]
    have c : (0 : ℝ) < 9.18 * 10 ^ (-2 : ℤ) := by norm_num
    have e1 : Num.scale (9.18 * 10 ^ (-2 : ℤ)) Num.pinf = .pinf := by
      simp only [Num.scale]; rw [if_neg c.ne', if_pos c]
    have e2 : Num.scale s.ll Num.pinf = .pinf := by
      simp only [Num.scale]; rw [if_neg hl.ne', if_pos hl]
    rw [e1]
    simp only [Num.add]
    rw [e2]; rfl
  · have e : s.logGcN = .nan := by
      unfold MS.logGcN Num.pow
      rw [if_pos h]; rfl
    refine ⟨e, ?_⟩
    unfold MS.dgpN; rw [e]; rfl

theorem ugp_fin (s : MS) {u : ℝ} (h : s.ugrN = .fin u) : s.ugpN = .fin (MS.ugpOf u) := by
  unfold MS.ugpN MS.ugpOf
  rw [h]
  simp only [Num.add, Num.scale, Num.exp10, Num.powm10]
  rw [show -1 / 40 * (u + 5) = -(u + 5) / 40 by ring]

/-- **C169** the unified glare rating, as a function of the background luminance and the weighted source luminance:
a number when there is a background; nan with neither background nor sources; infinite (a probability of one) for sources
before a black background; nan when the background comes out negative and there are sources -/
theorem C169_ugr (s : MS) (hom : ∀ r ∈ s.rays, 0 ≤ r.om) :
    (0 < s.backlumN → s.ugrN = .fin (max 0 (8 * logb 10 (0.25 * s.pwsl2N / s.backlumN))) ∧
      s.ugpN = .fin (MS.ugpOf (max 0 (8 * logb 10 (0.25 * s.pwsl2N / s.backlumN))))) ∧
    (s.backlumN = 0 → s.pwsl2N = 0 → s.ugrN = .nan ∧ s.ugpN = .nan) ∧
    (s.backlumN = 0 → s.pwsl2N ≠ 0 → s.ugrN = .pinf ∧ s.ugpN = .fin 1) ∧
    (s.backlumN < 0 → s.pwsl2N ≠ 0 → s.ugrN = .nan ∧ s.ugpN = .nan) ∧
    (s.backlumN < 0 → s.pwsl2N = 0 → s.ugrN = .fin 0) := by
  have hp := pwsl2N_nonneg s hom
  have z : (0.25 : ℝ) * 0 = 0 := mul_zero _
  refine ⟨fun h => ?_, fun h h2 => ?_, fun h h2 => ?_, fun h h2 => ?_, fun h h2 => ?_⟩
  · have e : s.ugrN = .fin (max 0 (8 * logb 10 (0.25 * s.pwsl2N / s.backlumN))) := by
      unfold MS.ugrN
      rw [Num.div_fin h.ne']
      rcases hp.lt_or_eq with h2 | h2
      · have : 0.25 * s.pwsl2N / s.backlumN > 0 := by positivity
        simp only [Num.log10]
        rw [if_pos this]; rfl
      · rw [← h2, z, zero_div]
        simp [Num.log10, Num.scale, Num.max0]
    exact ⟨e, ugp_fin s e⟩
  · have e : s.ugrN = .nan := by
      unfold MS.ugrN; rw [h, h2, z, Num.zero_div_zero]; rfl
    exact ⟨e, by unfold MS.ugpN; rw [e]; rfl⟩
  · have h3 : 0 < s.pwsl2N := lt_of_le_of_ne hp (Ne.symm h2)
    have e : s.ugrN = .pinf := by
      unfold MS.ugrN
      rw [h]
      have : (0 : ℝ) < 0.25 * s.pwsl2N := by positivity
      have e : (Num.fin (0.25 * s.pwsl2N)).div (.fin 0) = .pinf := by simp [Num.div, h2, h3]; norm_num
      rw [e]
      simp [Num.log10, Num.scale, Num.max0]
    refine ⟨e, ?_⟩
    unfold MS.ugpN; rw [e]
    have e1 : Num.scale (-1 / 40) Num.pinf = .ninf := by
      simp only [Num.scale]; rw [if_neg (by norm_num), if_neg (by norm_num)]
    simp only [Num.add]
    rw [e1]
    simp [Num.exp10, Num.scale, Num.powm10]
  · have h3 : 0 < s.pwsl2N := lt_of_le_of_ne hp (Ne.symm h2)
    have e : s.ugrN = .nan := by
      unfold MS.ugrN
      rw [Num.div_fin h.ne]
      have : 0.25 * s.pwsl2N / s.backlumN < 0 := div_neg_of_pos_of_neg (by positivity) h
      simp only [Num.log10]
      rw [if_neg (not_lt.2 this.le), if_neg this.ne]; rfl
    exact ⟨e, by unfold MS.ugpN; rw [e]; rfl⟩
  · unfold MS.ugrN
    rw [h2, z, Num.div_fin h.ne, zero_div]
    simp [Num.log10, Num.scale, Num.max0]

/-- **C169** a black scene has zero illuminance and luminance, and a uniform contrast, but no glare metric -/
theorem C169_black (s : MS) (hl : ∀ r ∈ s.rays, r.lum = 0) (hA : 0 < s.area) :
    s.illum = 0 ∧ s.avglumN = .fin 0 ∧ s.gcrN = .fin 1 ∧ s.logGcN = .nan ∧ s.dgpN = .nan ∧ s.ugrN = .nan ∧ s.ugpN = .nan := by
  have z : ∀ (w : Ray → ℝ) (l : List Ray), l ⊆ s.rays → sumBy (fun r => r.lum * w r) l = 0 := fun w l h =>
    sumBy_zero fun r hr => by rw [hl r (h hr), zero_mul]
  have hi : s.illum = 0 := by
    unfold MS.illum
    rw [sumBy_congr (g := fun r => r.lum * (s.ct r * r.om)) fun r _ => by ring, z _ _ (List.Subset.refl _), zero_mul]
  have hs : s.sourcesN ⊆ s.rays := fun r hr => List.mem_of_mem_filter hr
  have hsi : s.srcillumN = 0 := by
    unfold MS.srcillumN
    rw [sumBy_congr (g := fun r => r.lum * (s.ct r * r.om)) fun r _ => by ring, z _ _ hs, zero_mul]
  have hp : s.pwsl2N = 0 := by
    unfold MS.pwsl2N
    rw [sumBy_congr (g := fun r => r.lum * (r.lum * r.om * s.o.scale ^ 2 / s.pos r ^ 2)) fun r _ => by ring, z _ _ hs]
  have hb : s.backlumN = 0 := by unfold MS.backlumN; rw [hi, hsi]; simp
  have ha : s.avglumN = .fin 0 := by
    unfold MS.avglumN; rw [z _ _ (List.Subset.refl _), zero_mul, Num.div_fin hA.ne', zero_div]
  have e : s.logGcN = .nan := by
    unfold MS.logGcN Num.pow
    rw [hi, hp, if_neg (lt_irrefl _), Real.zero_rpow (by norm_num), Num.zero_div_zero]; rfl
  have u : s.ugrN = .nan := by
    unfold MS.ugrN; rw [hb, hp, mul_zero, Num.zero_div_zero]; rfl
  refine ⟨hi, ha, ?_, e, ?_, u, ?_⟩
  · unfold MS.gcrN; rw [ha, if_neg (by simp [Num.gt])]
  · unfold MS.dgpN; rw [e]; rfl
  · unfold MS.ugpN; rw [u]; rfl

/-- **C169** sources before a black background have an infinite rating and a glare probability of one -/
theorem C169_dark_surround (s : MS) (h : Spec.Physical s) (hb : ∀ r ∈ s.backgroundN, r.lum = 0)
    (hs : ∃ r ∈ s.sourcesN, 0 < r.om ∧ 0 < r.lum) : s.ugrN = .pinf ∧ s.ugpN = .fin 1 := by
  have hi : s.illum = s.srcillumN := by
    unfold MS.illum MS.srcillumN MS.sourcesN
    rw [← sumBy_split (fun r => s.ct r * r.lum * r.om) s.srcN s.rays]
    rw [show sumBy (fun r => s.ct r * r.lum * r.om) (s.rays.filter fun r => !s.srcN r) = 0 from
      sumBy_zero fun r hr => by rw [hb r hr]; ring, add_zero]
  have h0 : s.backlumN = 0 := by unfold MS.backlumN; rw [hi, sub_self, zero_div]
  refine (C169_ugr s h.om).2.2.1 h0 fun e => ?_
  obtain ⟨r, hr, h1, h2⟩ := hs
  have hnn : ∀ r ∈ s.sourcesN, 0 ≤ r.lum ^ 2 * r.om * s.o.scale ^ 2 / s.pos r ^ 2 := fun r hr => by
    have := h.om r (List.mem_of_mem_filter hr)
    positivity
  have h3 := sumBy_eq_zero hnn e r hr
  have := pos_pos s r
  have := h.scale
  have : 0 < r.lum ^ 2 * r.om * s.o.scale ^ 2 / s.pos r ^ 2 := by positivity
  linarith

/-- **C169** when all light comes from behind (possible in a 360 degree view), the daylight glare probability is nan -/
theorem C169_behind (s : MS) (h : Spec.Physical s) (hb : ∀ r ∈ s.rays, s.ct r ≤ 0)
    (hs : ∃ r ∈ s.rays, s.ct r < 0 ∧ 0 < r.om ∧ 0 < r.lum) : s.dgpN = .nan := by
  refine ((C169_dgp s h.om).2.2.2 ?_).2
  obtain ⟨r, hr, h1, h2, h3⟩ := hs
  have hnn : ∀ r ∈ s.rays, 0 ≤ -s.ct r * r.lum * r.om := fun r hr => by
    have := h.om r hr
    have := h.lum r hr
    have : 0 ≤ -s.ct r := by have := hb r hr; linarith
    positivity
  have key : 0 < sumBy (fun r => -s.ct r * r.lum * r.om) s.rays := by
    rcases (sumBy_nonneg hnn).lt_or_eq with hp | hp
    · exact hp
    · have e := sumBy_eq_zero hnn hp.symm r hr
      have : 0 < -s.ct r * r.lum * r.om := by
        have : 0 < -s.ct r := by linarith
        positivity
      linarith
  have e : sumBy (fun r => s.ct r * r.lum * r.om) s.rays = -sumBy (fun r => -s.ct r * r.lum * r.om) s.rays := by
    generalize s.rays = l
    induction l with
    | nil => simp [sumBy]
    | cons a l ih => simp only [sumBy_cons, ih]; ring
  unfold MS.illum
  rw [e]
  nlinarith [h.scale, mul_pos key h.scale]

/-- The claim: every metric of a set of rays in front of the viewer, with solid angles that are positive and make up the
area of the view, is a number. -/
def C169_statement : Prop :=
  ∀ s : MS, Spec.Physical s → s.rays ≠ [] → (∀ r ∈ s.rays, 0 < r.om ∧ 0 ≤ s.ct r) → s.area = omSum s.rays →
    ∀ n ∈ msAll, ∃ x, attrN s n = .ok x ∧ x.IsNumber

/-- one black ray -/
noncomputable def oneBlack : MS := ⟨View.new ⟨0, 1, 0⟩ 180, [⟨⟨0, 1, 0⟩, 1, 0⟩], 1, ⟨179, true, true, 2000, 30, false⟩⟩

theorem oneBlack_physical : Spec.Physical oneBlack :=
  ⟨fun r hr => by simp [oneBlack] at hr; subst hr; norm_num, fun r hr => by simp [oneBlack] at hr; subst hr; norm_num,
    by norm_num [oneBlack]⟩

theorem C169_refuted : ¬ C169_statement := by
  intro h
  obtain ⟨x, hx, y, hy⟩ := h oneBlack oneBlack_physical (by simp [oneBlack]) (fun r hr => by
      simp [oneBlack] at hr; subst hr
      refine ⟨by norm_num, ?_⟩
      simp [MS.ct, oneBlack, Geo.ctheta, clip1, V3.dot, View.new, Geo.norm, norm1, V3.divS, V3.len, V3.normSq])
    (by simp [oneBlack, omSum]) "dgp" (by decide)
  have := (C169_black oneBlack (fun r hr => by simp [oneBlack] at hr; subst hr; rfl) (by simp [oneBlack])).2.2.2.2.1
  simp [attrN] at hx
  rw [← hx, this] at hy
  cases hy

/-- **C169** with light in front, a background that gives some of it and a ray in the task area, every metric is a number,
the one of the documented formula -/
theorem C169_numbers_partial (s : MS) (h : Spec.Physical s) (hA : 0 < s.area)
    (ht : ∃ r ∈ s.rays, s.m.degrees r.v < s.o.tradius ∧ r.om ≠ 0) (hi : 0 < s.illum) (hb : 0 < s.backlum) :
    ∀ n ∈ msAll, ∃ x, msAttr s n = .ok x ∧ attrN s n = .ok (.fin x) := by
  obtain ⟨a1, a2, a3, a4⟩ := C169_contrast s h hA
  obtain ⟨b1, b2, b3⟩ := C169_weighted s h (by obtain ⟨r, hr, -, hne⟩ := ht; exact ⟨r, hr, hne⟩)
  have c1 := C169_avgraylum s (by obtain ⟨r, hr, -⟩ := ht; exact List.ne_nil_of_mem hr)
  obtain ⟨d1, d2, d3⟩ := (C169_sources s h.om).1 (Or.inr ht)
  have e1 : s.pwsl2N = s.pwsl2 := by unfold MS.pwsl2N MS.pwsl2; rw [d2]
  have e2 : s.srcillumN = s.srcillum := by unfold MS.srcillumN MS.srcillum; rw [d2]
  have e3 : s.backlumN = s.backlum := by unfold MS.backlumN MS.backlum; rw [e2]
  have e4 : omSum s.sourcesN = s.srcarea := by unfold MS.srcarea; rw [d2]
  obtain ⟨f1, f2⟩ := (C169_dgp s h.om).1 hi
  obtain ⟨g1, g2⟩ := (C169_ugr s h.om).1 (by rw [e3]; exact hb)
  have f1' : s.logGcN = .fin s.logGc := by rw [f1, e1]; rfl
  have f2' : s.dgpN = .fin s.dgp := by
    rw [f2, e1]
    unfold MS.dgp MS.dgpT1 MS.dgpT2 MS.logGc
    norm_num
  have g1' : s.ugrN = .fin s.ugr := by rw [g1, e1, e3]; rfl
  have g2' : s.ugpN = .fin s.ugp := by rw [g2, e1, e3]; rfl
  have k1 : s.tasklumN = .fin s.tasklum := by
    obtain ⟨r, hr, hd, hne⟩ := ht
    unfold MS.tasklumN
    have hto : ∀ r ∈ s.taskRays, 0 ≤ r.om := fun r hr => h.om r (List.mem_of_mem_filter hr)
    have hne : omSum s.taskRays ≠ 0 := fun e => hne
      (sumBy_eq_zero (w := Ray.om) hto e r (List.mem_filter.2 ⟨hr, by simpa using hd⟩))
    rw [Num.div_fin hne]
    rfl
  have k2 : s.backlumTrueN = .fin s.backlumTrue := by
    unfold MS.backlumTrueN MS.backlumTrue
    rw [d3]
    refine Num.div_fin fun e => hb.ne' ?_
    have hz : ∀ r ∈ s.background, r.om = 0 := sumBy_eq_zero (w := Ray.om) (fun r hr => h.om r (List.mem_of_mem_filter hr)) e
    have : s.illum = s.srcillum := by
      unfold MS.illum MS.srcillum MS.sources
      rw [← sumBy_split (fun r => s.ct r * r.lum * r.om) s.src s.rays]
      rw [show sumBy (fun r => s.ct r * r.lum * r.om) (s.rays.filter fun r => !s.src r) = 0 from
        sumBy_zero fun r hr => by rw [hz r hr, mul_zero], add_zero]
    unfold MS.backlum; rw [this, sub_self, zero_div]
  have k3 : s.logGcN.scale (9.18 * 10 ^ (-2 : ℤ)) = .fin s.dgpT2 := by rw [f1']; rfl
  intro n hn
  simp [msAll, baseAll, baseDefault] at hn
  rcases hn with rfl | rfl | rfl | rfl | rfl | rfl | rfl | rfl | rfl | rfl | rfl | rfl | rfl | rfl | rfl | rfl | rfl | rfl |
      rfl | rfl | rfl | rfl | rfl | rfl | rfl <;>
    simp only [msAttr, baseAttr, attrN, String.reduceEq, if_false, if_true, a1, a2, a3, a4, b1, b2, b3, c1, d1, e1, e2, e3, e4, f1',
      f2', g1', g2', k1, k2, k3, reduceIte] <;> exact ⟨_, rfl, rfl⟩

/-! cases that meet the hypotheses -/

/-- one ray along `v` of luminance `l` in a view along y -/
noncomputable def oneRay (va : ℝ) (v : V3) (l thr : ℝ) : MS :=
  ⟨View.new ⟨0, 1, 0⟩ va, [⟨v, 1, l⟩], 1, ⟨179, true, true, thr, 30, false⟩⟩

theorem oneRay_physical (va : ℝ) (v : V3) {l : ℝ} (hl : 0 ≤ l) (thr : ℝ) : Spec.Physical (oneRay va v l thr) :=
  ⟨fun r hr => by simp [oneRay] at hr; subst hr; norm_num, fun r hr => by simp [oneRay] at hr; subst hr; exact hl,
    by norm_num [oneRay]⟩

theorem oneRay_ct (va : ℝ) (y l thr : ℝ) (r : Ray) (hr : r ∈ (oneRay va ⟨0, y, 0⟩ l thr).rays) :
    (oneRay va ⟨0, y, 0⟩ l thr).ct r = clip1 y := by
  simp [oneRay] at hr; subst hr
  simp [MS.ct, oneRay, Geo.ctheta, V3.dot, View.new, Geo.norm, norm1, V3.divS, V3.len, V3.normSq]

theorem oneRay_illum (va l thr : ℝ) : (oneRay va ⟨0, 1, 0⟩ l thr).illum = l * 179 := by
  have := oneRay_ct va 1 l thr ⟨⟨0, 1, 0⟩, 1, l⟩ (by simp [oneRay])
  unfold MS.illum
  rw [show (oneRay va ⟨0, 1, 0⟩ l thr).rays = [⟨⟨0, 1, 0⟩, 1, l⟩] from rfl]
  simp only [sumBy_cons, sumBy_nil, this]
  simp [clip1, oneRay]

-- light in front, below the threshold
example : Spec.Physical (oneRay 180 ⟨0, 1, 0⟩ 1 2000) ∧ 0 < (oneRay 180 ⟨0, 1, 0⟩ 1 2000).area ∧
    0 < (oneRay 180 ⟨0, 1, 0⟩ 1 2000).illum ∧ 0 < (oneRay 180 ⟨0, 1, 0⟩ 1 2000).backlum ∧
    ∃ r ∈ (oneRay 180 ⟨0, 1, 0⟩ 1 2000).rays, (oneRay 180 ⟨0, 1, 0⟩ 1 2000).m.degrees r.v <
      (oneRay 180 ⟨0, 1, 0⟩ 1 2000).o.tradius ∧ r.om ≠ 0 := by
  refine ⟨oneRay_physical _ _ (by norm_num) _, by norm_num [oneRay], by rw [oneRay_illum]; norm_num, ?_, ?_⟩
  · have : (oneRay 180 ⟨0, 1, 0⟩ 1 2000).sources = [] := by
      unfold MS.sources MS.src MS.threshold
      simp [oneRay]
      norm_num
    unfold MS.backlum MS.srcillum
    rw [this, oneRay_illum]
    simp [sumBy]
    positivity
  · refine ⟨_, List.mem_cons_self, ?_, one_ne_zero⟩
    have h := oneRay_ct 180 1 1 2000 ⟨⟨0, 1, 0⟩, 1, 1⟩ (by simp [oneRay])
    unfold MS.ct at h
    simp only [View.degrees, View.radians, Geo.radians] at *
    rw [h]
    norm_num [clip1, oneRay]

-- a lamp before a black background
example : (∀ r ∈ (oneRay 180 ⟨0, 1, 0⟩ 100 2000).backgroundN, r.lum = 0) ∧
    ∃ r ∈ (oneRay 180 ⟨0, 1, 0⟩ 100 2000).sourcesN, 0 < r.om ∧ 0 < r.lum := by
  have h : ∀ r ∈ (oneRay 180 ⟨0, 1, 0⟩ 100 2000).rays, (oneRay 180 ⟨0, 1, 0⟩ 100 2000).srcN r = true := by
    intro r hr
    simp [oneRay] at hr; subst hr
    unfold MS.srcN MS.thresholdN
    simp [oneRay, Num.gt]
    norm_num [Num.gt]
  constructor
  · intro r hr
    unfold MS.backgroundN at hr
    obtain ⟨a, b⟩ := List.mem_filter.1 hr
    rw [h r a] at b; simp at b
  · exact ⟨⟨⟨0, 1, 0⟩, 1, 100⟩, List.mem_filter.2 ⟨by simp [oneRay], h _ (by simp [oneRay])⟩, by norm_num, by norm_num⟩

-- light from behind in a 360 degree view
example : (∀ r ∈ (oneRay 360 ⟨0, -1, 0⟩ 1 2000).rays, (oneRay 360 ⟨0, -1, 0⟩ 1 2000).ct r ≤ 0) ∧
    ∃ r ∈ (oneRay 360 ⟨0, -1, 0⟩ 1 2000).rays, (oneRay 360 ⟨0, -1, 0⟩ 1 2000).ct r < 0 ∧ 0 < r.om ∧ 0 < r.lum := by
  constructor
  · intro r hr; rw [oneRay_ct 360 (-1) 1 2000 r hr]; norm_num [clip1]
  · refine ⟨_, List.mem_cons_self, ?_, by norm_num, by norm_num⟩
    rw [oneRay_ct 360 (-1) 1 2000 _ (by simp [oneRay])]; norm_num [clip1]

end Verif.Metric
