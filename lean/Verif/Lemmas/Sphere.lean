import Mathlib.Analysis.SpecialFunctions.Trigonometric.Deriv
import Mathlib.Analysis.SpecialFunctions.Trigonometric.Bounds
import Mathlib.Analysis.SpecialFunctions.Sqrt
import Mathlib.Analysis.Convex.Deriv
import Mathlib.Analysis.Real.Pi.Bounds

/-! On the unit sphere two points are closer than their images in the plane of the equidistant projection. -/

namespace Verif.Sphere
open Real Set

theorem mul_cos_le_sin {y : ℝ} (h0 : 0 < y) (h1 : y < 5 * π / 4) : y * cos y ≤ sin y := by
  have hpi := pi_pos
  rcases lt_or_ge y (π / 2) with h | h
  · have hc : 0 < cos y := cos_pos_of_mem_Ioo ⟨by linarith, h⟩
    have := lt_tan h0 h
    rw [tan_eq_sin_div_cos, lt_div_iff₀ hc] at this
    exact this.le
  · rcases le_or_gt y π with h2 | h2
    · have hc : cos y ≤ 0 := cos_nonpos_of_pi_div_two_le_of_le h (by linarith)
      have hs : 0 ≤ sin y := sin_nonneg_of_nonneg_of_le_pi h0.le h2
      nlinarith
    · obtain ⟨z, rfl⟩ : ∃ z, y = z + π := ⟨y - π, by ring⟩
      rw [cos_add_pi, sin_add_pi]
      have hz0 : 0 < z := by linarith
      have hz1 : z < π / 4 := by linarith
      have hc : √2 / 2 ≤ cos z := by
        rw [← cos_pi_div_four]
        exact cos_le_cos_of_nonneg_of_le_pi hz0.le (by linarith) hz1.le
      have hs : sin z ≤ z := sin_le hz0.le
      have h2 : (1 : ℝ) ≤ √2 := by rw [one_le_sqrt]; norm_num
      have := pi_gt_three
      nlinarith

theorem anti_sinc : AntitoneOn (fun y : ℝ => sin y / y) (Ioo 0 (5 * π / 4)) := by
  have hne : ∀ y ∈ Ioo (0 : ℝ) (5 * π / 4), y ≠ 0 := fun y hy => hy.1.ne'
  refine antitoneOn_of_deriv_nonpos (convex_Ioo _ _) (continuous_sin.continuousOn.div continuousOn_id hne) ?_ ?_
  · intro y hy
    rw [interior_Ioo] at hy
    exact ((hasDerivAt_sin y).div (hasDerivAt_id y) (hne y hy)).differentiableAt.differentiableWithinAt
  · intro y hy
    rw [interior_Ioo] at hy
    have := ((hasDerivAt_sin y).div (hasDerivAt_id y) (hne y hy)).deriv
    have e : deriv (fun y : ℝ => sin y / y) y = (cos y * y - sin y * 1) / y ^ 2 := this
    rw [e]
    apply div_nonpos_of_nonpos_of_nonneg
    · have := mul_cos_le_sin hy.1 hy.2
      linarith
    · positivity

theorem cos_sqrt_convex : ConvexOn ℝ (Icc 0 ((5 * π / 4) ^ 2)) fun x => cos √x := by
  have hpi := pi_pos
  have hd : ∀ x ∈ Ioo (0 : ℝ) ((5 * π / 4) ^ 2), HasDerivAt (fun x => cos √x) (-(sin √x / √x / 2)) x := by
    intro x hx
    have h := (hasDerivAt_sqrt hx.1.ne').cos
    refine h.congr_deriv ?_
    have := sqrt_pos.mpr hx.1
    field_simp
  refine MonotoneOn.convexOn_of_deriv (convex_Icc _ _) (continuous_cos.comp continuous_sqrt).continuousOn ?_ ?_
  · intro x hx
    rw [interior_Icc] at hx
    exact (hd x hx).differentiableAt.differentiableWithinAt
  · rw [interior_Icc]
    intro x hx y hy hxy
    rw [(hd x hx).deriv, (hd y hy).deriv]
    have hs : ∀ z ∈ Ioo (0 : ℝ) ((5 * π / 4) ^ 2), √z ∈ Ioo (0 : ℝ) (5 * π / 4) := fun z hz =>
      ⟨sqrt_pos.mpr hz.1, (sqrt_lt' (by positivity)).mpr hz.2⟩
    have := anti_sinc (hs x hx) (hs y hy) (sqrt_le_sqrt hxy)
    simp only at this
    linarith

/-- the law of cosines on the sphere against the one in the plane -/
theorem hinge {r s t : ℝ} (hr : 0 ≤ r) (hs : 0 ≤ s) (hrs : r + s ≤ 5 * π / 4) (ht : -1 ≤ t) (ht' : t ≤ 1) :
    cos √(r ^ 2 + s ^ 2 - 2 * r * s * t) ≤ cos r * cos s + sin r * sin s * t := by
  have hpi := pi_pos
  have m1 : (r - s) ^ 2 ∈ Icc (0 : ℝ) ((5 * π / 4) ^ 2) := ⟨sq_nonneg _, by nlinarith⟩
  have m2 : (r + s) ^ 2 ∈ Icc (0 : ℝ) ((5 * π / 4) ^ 2) := ⟨sq_nonneg _, by nlinarith⟩
  have h := cos_sqrt_convex.2 m1 m2 (show 0 ≤ (1 + t) / 2 by linarith) (show 0 ≤ (1 - t) / 2 by linarith) (by ring)
  simp only [smul_eq_mul] at h
  rw [sqrt_sq_eq_abs, cos_abs, sqrt_sq (by linarith), cos_sub, cos_add] at h
  have e : (1 + t) / 2 * (r - s) ^ 2 + (1 - t) / 2 * (r + s) ^ 2 = r ^ 2 + s ^ 2 - 2 * r * s * t := by ring
  rw [e] at h
  linarith

end Verif.Sphere
