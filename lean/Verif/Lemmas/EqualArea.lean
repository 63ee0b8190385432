import Verif.Model.Square
import Mathlib.Analysis.SpecialFunctions.PolarCoord
import Mathlib.MeasureTheory.Function.Jacobian
import Mathlib.MeasureTheory.Measure.Lebesgue.Basic
import Mathlib.Tactic.Positivity

/-! The map between the square and the hemisphere keeps areas: the four sectors of the square. -/

namespace Verif.Geo
open Real MeasureTheory Set

/-- the point of the square at angles `p` in the sector around the angle `k` with cosine `c` and sine `s` -/
noncomputable def secMap (c s k : ℝ) (p : ℝ × ℝ) : ℝ × ℝ :=
  ((c * (√2 * sin (p.1 / 2)) - s * (4 / π * (p.2 - k) * (√2 * sin (p.1 / 2))) + 1) / 2,
   (s * (√2 * sin (p.1 / 2)) + c * (4 / π * (p.2 - k) * (√2 * sin (p.1 / 2))) + 1) / 2)

/-- its derivative -/
noncomputable def secDeriv (c s k : ℝ) (p : ℝ × ℝ) : ℝ × ℝ →L[ℝ] ℝ × ℝ :=
  (Matrix.toLin (.finTwoProd ℝ) (.finTwoProd ℝ)
    !![(c - s * (4 / π * (p.2 - k))) * (√2 * (cos (p.1 / 2) / 2)) / 2, -s * (4 / π) * (√2 * sin (p.1 / 2)) / 2;
      (s + c * (4 / π * (p.2 - k))) * (√2 * (cos (p.1 / 2) / 2)) / 2, c * (4 / π) * (√2 * sin (p.1 / 2)) / 2]).toContinuousLinearMap

theorem secMap_deriv (c s k : ℝ) (p : ℝ × ℝ) : HasFDerivAt (secMap c s k) (secDeriv c s k p) p := by
  have hA : HasFDerivAt (fun p : ℝ × ℝ => √2 * sin (p.1 / 2)) ((√2 * (cos (p.1 / 2) / 2)) • ContinuousLinearMap.fst ℝ ℝ ℝ) p := by
    have h1 : HasDerivAt (fun x : ℝ => √2 * sin (x / 2)) (√2 * (cos (p.1 / 2) / 2)) p.1 := by
      refine (((hasDerivAt_id' p.1).div_const 2).sin.const_mul √2).congr_deriv ?_
      ring
    exact h1.comp_hasFDerivAt p hasFDerivAt_fst
  have hF : HasFDerivAt (fun p : ℝ × ℝ => 4 / π * (p.2 - k)) ((4 / π) • ContinuousLinearMap.snd ℝ ℝ ℝ) p := by
    have h1 : HasDerivAt (fun x : ℝ => 4 / π * (x - k)) (4 / π) p.2 := by
      have := ((hasDerivAt_id p.2).sub_const k).const_mul (4 / π)
      simpa using this
    exact h1.comp_hasFDerivAt p hasFDerivAt_snd
  have hB := hF.mul hA
  have e1 := (((hA.const_mul c).sub (hB.const_mul s)).add_const 1).mul_const (1 / 2 : ℝ)
  have e2 := (((hA.const_mul s).add (hB.const_mul c)).add_const 1).mul_const (1 / 2 : ℝ)
  unfold secDeriv
  rw [Matrix.toLin_finTwoProd_toContinuousLinearMap]
  have e := e1.prodMk e2
  refine HasFDerivAt.congr_fderiv (f := secMap c s k) (e.congr_of_eventuallyEq (Filter.Eventually.of_forall fun q => ?_)) ?_
  · unfold secMap
    simp only [Pi.mul_apply, Pi.add_apply, Pi.sub_apply]
    apply Prod.ext <;> simp only <;> ring
  · ext <;> simp <;> ring

theorem secDeriv_det {c s : ℝ} (h : c ^ 2 + s ^ 2 = 1) (k : ℝ) (p : ℝ × ℝ) : (secDeriv c s k p).det = sin p.1 / (2 * π) := by
  unfold secDeriv
  simp only [LinearMap.det_toContinuousLinearMap, LinearMap.det_toLin, Matrix.det_fin_two_of]
  have h2 : √2 * √2 = 2 := mul_self_sqrt (by norm_num)
  have hs : sin p.1 = 2 * sin (p.1 / 2) * cos (p.1 / 2) := by rw [← sin_two_mul]; congr 1; ring
  rw [hs]
  have hp := pi_pos.ne'
  have : ∀ C S F : ℝ, (c - s * (4 / π * F)) * (√2 * (C / 2)) / 2 * (c * (4 / π) * (√2 * S) / 2) -
      -s * (4 / π) * (√2 * S) / 2 * ((s + c * (4 / π * F)) * (√2 * (C / 2)) / 2) =
      (√2 * √2) * (c ^ 2 + s ^ 2) * (S * C / (2 * π)) := by
    intro C S F
    field_simp
    ring
  rw [this, h2, h]
  ring

/-- the angles of a sector -/
def secAng (k : ℝ) : Set (ℝ × ℝ) := Ioo 0 (π / 2) ×ˢ Ioo (k - π / 4) (k + π / 4)

/-- the sector -/
def sector (c s : ℝ) : Set (ℝ × ℝ) :=
  {q | c * (2 * q.1 - 1) + s * (2 * q.2 - 1) < 1 ∧
    |c * (2 * q.2 - 1) - s * (2 * q.1 - 1)| < c * (2 * q.1 - 1) + s * (2 * q.2 - 1)}

theorem half_sin {t : ℝ} (h : t ∈ Ioo 0 (π / 2)) : 0 < √2 * sin (t / 2) ∧ √2 * sin (t / 2) < 1 := by
  obtain ⟨h0, h1⟩ := h
  have hp := pi_pos
  have s0 : 0 < sin (t / 2) := sin_pos_of_pos_of_lt_pi (by linarith) (by linarith)
  have s1 : sin (t / 2) < sin (π / 4) := sin_lt_sin_of_lt_of_le_pi_div_two (by linarith) (by linarith) (by linarith)
  rw [sin_pi_div_four] at s1
  have h2 : √2 * √2 = 2 := mul_self_sqrt (by norm_num)
  have hr : 0 < √2 := by positivity
  exact ⟨by positivity, by nlinarith⟩

theorem secMap_inv {c s : ℝ} (h : c ^ 2 + s ^ 2 = 1) (k : ℝ) (p : ℝ × ℝ) :
    c * (2 * (secMap c s k p).1 - 1) + s * (2 * (secMap c s k p).2 - 1) = √2 * sin (p.1 / 2) ∧
    c * (2 * (secMap c s k p).2 - 1) - s * (2 * (secMap c s k p).1 - 1) = 4 / π * (p.2 - k) * (√2 * sin (p.1 / 2)) := by
  unfold secMap
  constructor
  · linear_combination (√2 * sin (p.1 / 2)) * h
  · linear_combination (4 / π * (p.2 - k) * (√2 * sin (p.1 / 2))) * h

theorem secMap_inj {c s : ℝ} (h : c ^ 2 + s ^ 2 = 1) (k : ℝ) : InjOn (secMap c s k) (secAng k) := by
  intro p hp q hq e
  obtain ⟨a1, b1⟩ := secMap_inv h k p
  obtain ⟨a2, b2⟩ := secMap_inv h k q
  rw [e] at a1 b1
  have hA : √2 * sin (p.1 / 2) = √2 * sin (q.1 / 2) := by rw [← a1, a2]
  obtain ⟨pa, _⟩ := half_sin hp.1
  have hB : 4 / π * (p.2 - k) * (√2 * sin (p.1 / 2)) = 4 / π * (q.2 - k) * (√2 * sin (p.1 / 2)) := by
    rw [← b1, b2, hA]
  have hF := mul_right_cancel₀ pa.ne' hB
  have hF2 := mul_left_cancel₀ (by positivity : (4 / π) ≠ 0) hF
  have hS : sin (p.1 / 2) = sin (q.1 / 2) := mul_left_cancel₀ (by positivity : √2 ≠ 0) hA
  have hp1 := hp.1
  have hq1 := hq.1
  have hpi := pi_pos
  have hT : p.1 / 2 = q.1 / 2 := injOn_sin ⟨by linarith [hp1.1], by linarith [hp1.2]⟩ ⟨by linarith [hq1.1], by linarith [hq1.2]⟩ hS
  exact Prod.ext (by linarith) (by linarith)

theorem secMap_image {c s : ℝ} (h : c ^ 2 + s ^ 2 = 1) (k : ℝ) : secMap c s k '' secAng k = sector c s := by
  have hpi := pi_pos
  ext q
  constructor
  · rintro ⟨p, hp, rfl⟩
    obtain ⟨a, b⟩ := secMap_inv h k p
    obtain ⟨h0, h1⟩ := half_sin hp.1
    unfold sector
    rw [mem_setOf_eq, a, b]
    refine ⟨h1, ?_⟩
    rw [abs_mul, abs_of_pos h0]
    have : |4 / π * (p.2 - k)| < 1 := by
      obtain ⟨l, u⟩ := hp.2
      rw [abs_mul, abs_of_pos (by positivity), div_mul_eq_mul_div, div_lt_one hpi]
      have : |p.2 - k| < π / 4 := abs_lt.mpr ⟨by linarith, by linarith⟩
      linarith
    nlinarith
  · rintro ⟨h1, h2⟩
    set A := c * (2 * q.1 - 1) + s * (2 * q.2 - 1) with hA
    set B := c * (2 * q.2 - 1) - s * (2 * q.1 - 1) with hB
    have h0 : 0 < A := lt_of_le_of_lt (abs_nonneg _) h2
    have hr : 0 < √2 := by positivity
    have r2 : √2 * √2 = 2 := mul_self_sqrt (by norm_num)
    have hx0 : 0 < A / √2 := by positivity
    have hx1 : A / √2 < √2 / 2 := by rw [div_lt_iff₀ hr]; linarith
    have hsin : sin (arcsin (A / √2)) = A / √2 := sin_arcsin (by linarith) (by
      have : √2 / 2 ≤ 1 := by nlinarith
      linarith)
    have ht0 : 0 < arcsin (A / √2) := arcsin_pos.mpr hx0
    have ht1 : arcsin (A / √2) < π / 4 := by
      rw [arcsin_lt_iff_lt_sin' ⟨by linarith, by linarith⟩, sin_pi_div_four]
      exact hx1
    refine ⟨(2 * arcsin (A / √2), k + π / 4 * (B / A)), ⟨⟨by simp only; linarith, by simp only; linarith⟩, ?_⟩, ?_⟩
    · have : |B / A| < 1 := by rw [abs_div, abs_of_pos h0, div_lt_one h0]; exact h2
      obtain ⟨l, u⟩ := abs_lt.mp this
      exact ⟨by simp only; nlinarith, by simp only; nlinarith⟩
    · unfold secMap
      simp only
      rw [show 2 * arcsin (A / √2) / 2 = arcsin (A / √2) by ring, hsin, mul_div_cancel₀ _ hr.ne',
        show 4 / π * (k + π / 4 * (B / A) - k) * A = B by field_simp; ring]
      apply Prod.ext
      · simp only [hA, hB]; linear_combination (2 * q.1 - 1) / 2 * h
      · simp only [hA, hB]; linear_combination (2 * q.2 - 1) / 2 * h

theorem sph_terms {t : ℝ} (h : t ∈ Ioo 0 (π / 2)) : sphterm (√2 * sin (t / 2)) = sin t ∧
    1 - √2 * sin (t / 2) * (√2 * sin (t / 2)) = cos t := by
  have hp := pi_pos
  have h2 : √2 * √2 = 2 := mul_self_sqrt (by norm_num)
  have hc : 0 < cos (t / 2) := cos_pos_of_mem_Ioo ⟨by linarith [h.1], by linarith [h.2]⟩
  have hs : sin t = 2 * sin (t / 2) * cos (t / 2) := by rw [← sin_two_mul]; congr 1; ring
  have hct : cos t = 1 - 2 * sin (t / 2) ^ 2 := by
    have := cos_sq' (t / 2)
    have e : cos t = 2 * cos (t / 2) ^ 2 - 1 := by rw [← cos_two_mul]; congr 1; ring
    rw [e, this]; ring
  have e : √2 * sin (t / 2) * (√2 * sin (t / 2)) = 2 * sin (t / 2) ^ 2 := by
    rw [show √2 * sin (t / 2) * (√2 * sin (t / 2)) = (√2 * √2) * sin (t / 2) ^ 2 by ring, h2]
  refine ⟨?_, by rw [e, hct]⟩
  unfold sphterm
  rw [e, show 2 - 2 * sin (t / 2) ^ 2 = 2 * cos (t / 2) ^ 2 by rw [cos_sq' (t / 2)]; ring, sqrt_mul (by norm_num), sqrt_sq hc.le,
    show √2 * sin (t / 2) * (√2 * cos (t / 2)) = (√2 * √2) * sin (t / 2) * cos (t / 2) by ring, h2, hs]

theorem sphterm_neg (r : ℝ) : sphterm (-r) = -sphterm r := by unfold sphterm; rw [neg_mul_neg]; ring

end Verif.Geo
