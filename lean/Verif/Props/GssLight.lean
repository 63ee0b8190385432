import Verif.Props.GssPipe
import Mathlib.MeasureTheory.Measure.Lebesgue.VolumeOfBalls

/-! C162: the light that reaches the retina (pupil, retinal irradiance) and what a cone does when it is adapted to it. -/

namespace Verif.Gss
open Real MeasureTheory

variable {ι κ : Type} [Fintype ι] [Fintype κ]

/-- **C162** the pupil of an observer of up to 126 years has a positive width -/
theorem C162_open {age ev : ℝ} (ha : age ≤ 126) (h : 0 < ev) : 0 < pupd age ev := by
  unfold pupd
  have e0 := exp_pos (-ev / 174)
  have e1 : exp (-ev / 174) < 1 := by rw [exp_lt_one_iff, neg_div]; simp only [neg_lt_zero]; positivity
  have hm : 0.043 * (age - 10) * exp (-ev / 174) ≤ 0.043 * 116 * exp (-ev / 174) :=
    mul_le_mul_of_nonneg_right (by linarith) e0.le
  rcases le_or_gt ev 1600 with hl | hl
  · have : logb 10 (ev / 1600) ≤ 0 := logb_nonpos (by norm_num) (by positivity) (by linarith)
    have ht : tanh (0.4 * logb 10 (ev / 1600)) ≤ tanh 0 := tanh_mono (by linarith)
    rw [tanh_zero] at ht
    linarith
  · have ht := tanh_lt_one (0.4 * logb 10 (ev / 1600))
    have h2 : ev / 174 + 1 ≤ exp (ev / 174) := add_one_le_exp _
    have h3 : exp (-ev / 174) * exp (ev / 174) = 1 := by rw [← exp_add, neg_div]; simp
    nlinarith

/-- **C162** the pupil area is the area of a disc as wide as the pupil -/
theorem C162_disc {age ev : ℝ} (ha : age ≤ 126) (hev : 0 < ev) :
    pupa age ev = (volume {z : ℂ | ‖z‖ < pupd age ev / 2}).toReal := by
  have h := (C162_open ha hev).le
  have e : {z : ℂ | ‖z‖ < pupd age ev / 2} = Metric.ball (0 : ℂ) (pupd age ev / 2) := by ext z; simp
  rw [e, Complex.volume_ball, ENNReal.toReal_mul, ENNReal.toReal_pow, ENNReal.toReal_ofReal (by linarith)]
  unfold pupa
  rw [ENNReal.coe_toReal, NNReal.coe_real_pi, mul_comm]

/-- **C162** the light that enters the pupil from a patch of solid angle `w` is the light on the patch's image on the
retina, whose area is `w f²` -/
theorem C162_flux {f : ℝ} (hf : f ≠ 0) (pa lum w : ℝ) :
    retinalIrradiance f pa lum * (w * f ^ 2) = pa * (lum * w) := by
  unfold retinalIrradiance
  field_simp

/-- **C162** at ten years of age the pupil is 8 mm wide in the dark and 2 mm in bright light; in between the ratio of
the distances to these limits is a power of the illuminance, 1 at 1600 lux -/
theorem C162_pupil {ev : ℝ} (h : 0 < ev) :
    (8 - pupd 10 ev) / (pupd 10 ev - 2) = (ev / 1600) ^ (0.8 / log 10) := by
  have hq : (0 : ℝ) < ev / 1600 := by positivity
  set t := 0.4 * logb 10 (ev / 1600) with ht
  have e : pupd 10 ev = 5 - 3 * tanh t := by unfold pupd; rw [← ht]; ring
  have hp : (ev / 1600) ^ (0.8 / log 10) = exp (2 * t) := by
    rw [rpow_def_of_pos hq, ht, logb]
    congr 1
    ring
  have h1 := exp_pos t
  have h2 : exp (2 * t) = exp t ^ 2 := by rw [two_mul, exp_add, sq]
  rw [e, hp, tanh_exp, h2]
  field_simp
  ring

/-- **C162** so ten times the light and a tenth of it move the pupil by the same amount around 5 mm -/
theorem C162_symmetric {k : ℝ} (h : 0 < k) : pupd 10 (1600 * k) + pupd 10 (1600 / k) = 10 := by
  unfold pupd
  have e : logb 10 (1600 / k / 1600) = -logb 10 (1600 * k / 1600) := by
    rw [← logb_inv]; congr 1; field_simp
  rw [e, mul_neg, tanh_neg]
  ring

/-- **C162** the half saturation of a cone in the dark, and when adapted to light: its root of order 2.55 grows by the
root of the adapting irradiance -/
theorem C162_half {ea : ℝ} (h : 0 ≤ ea) :
    halfSat 0 = 5.701055 ∧ halfSat ea ^ (1 / 2.55 : ℝ) - halfSat 0 ^ (1 / 2.55 : ℝ) = ea ^ (1 / 2.55 : ℝ) := by
  have h0 : halfSat 0 = 5.701055 := by
    unfold halfSat
    rw [zero_rpow (by norm_num), add_zero, ← rpow_mul (by norm_num)]
    norm_num
  refine ⟨h0, ?_⟩
  have h1 : 0 ≤ (5.701055 : ℝ) ^ (1 / 2.55 : ℝ) + ea ^ (1 / 2.55 : ℝ) := by positivity
  rw [h0]
  unfold halfSat
  rw [← rpow_mul h1, show (2.55 : ℝ) * (1 / 2.55) = 1 by norm_num, rpow_one]
  ring

/-- **C162** half saturation is always above the irradiance adapted to, by at least the value in the dark -/
theorem C162_above {ea : ℝ} (h : 0 ≤ ea) : ea + 5.701055 ≤ halfSat ea := by
  have ha : 0 ≤ (5.701055 : ℝ) ^ (1 / 2.55 : ℝ) := by positivity
  have hb : 0 ≤ ea ^ (1 / 2.55 : ℝ) := by positivity
  have key := add_rpow_le_rpow_add ha hb (show (1 : ℝ) ≤ 2.55 by norm_num)
  rw [← rpow_mul (by norm_num), ← rpow_mul h, show (1 / 2.55 : ℝ) * 2.55 = 1 by norm_num, rpow_one, rpow_one] at key
  unfold halfSat
  linarith

/-- **C162** an eye adapted to the luminance it sees is adapted everywhere to the irradiance it receives -/
theorem C162_adapted {er : ℝ} (h : 0 < er) : localAdaptation er er = er := by
  rw [C95_mean h h, ← rpow_add h]
  norm_num

/-- **C162** so no cone in a uniform field reaches half of its response, and no pixel the middle of the scale of the
on response: the glare response of a uniform field stays below 14 % -/
theorem C162_uniform {o : Obs} {G : Filter ι} (hG : Averaging G) {sc : Scene ι κ} (h : SceneOk sc) {L pa : ℝ}
    (hL : 0 < L) (hpa : 0 < pa) (hf : o.f ≠ 0) (i : ι) :
    let eg := retinalIrradiance o.f pa (π * L / π)
    ratio o G sc (fun _ => retinalIrradiance o.f pa L) eg i < 1 / 2 ∧
    (glareResponse o G sc (fun _ => L) eg pa i).1 < 0.14 ∧
    (glareResponse o G sc (fun _ => L) eg pa i).2 < 0.005 := by
  intro eg
  have e1 : eg = retinalIrradiance o.f pa L := by
    show retinalIrradiance o.f pa (π * L / π) = _
    rw [mul_div_cancel_left₀ _ pi_ne_zero]
  obtain ⟨hr, hg⟩ := C102_uniform (o := o) hG h L eg pa
  have hx : 0 < retinalIrradiance o.f pa L := by unfold retinalIrradiance; positivity
  have e2 : localAdaptation (retinalIrradiance o.f pa L) eg = retinalIrradiance o.f pa L := by
    rw [e1]; exact C162_adapted hx
  rw [hr i, hg i, e2]
  set x := retinalIrradiance o.f pa L
  have hv : coneResponse x x < 1 / 2 := by
    rw [← C77_cone_half hx.le]
    exact C77_cone_mono hx.le (by linarith [C162_above hx.le]) hx.le
  have hv0 : 0 ≤ coneResponse x x := (C77_cone_range hx.le hx.le).1
  refine ⟨hv, ?_, ?_⟩
  · cases hm : sc.mask i with
    | false => simp [logistic]; norm_num
    | true =>
      simp only [logistic, if_true]
      rw [div_lt_iff₀ (by positivity)]
      have h1 : (1.87 : ℝ) ≤ -22 * ((1 - 0.67) * coneResponse x x - 0.25) := by linarith
      have h2 : exp 1.87 ≤ exp (-22 * ((1 - 0.67) * coneResponse x x - 0.25)) := exp_le_exp.mpr h1
      have h3 : (6.2 : ℝ) < exp 1.87 := by
        have h4 : exp (1.87 : ℝ) = exp 1 * exp 0.87 := by rw [← exp_add]; norm_num
        have h5 := exp_one_gt_d9
        have h6 : (2.3 : ℝ) ≤ exp 0.87 := by
          have := quadratic_le_exp_of_nonneg (show (0 : ℝ) ≤ 0.435 by norm_num)
          have h7 : exp (0.87 : ℝ) = exp 0.435 * exp 0.435 := by rw [← exp_add]; norm_num
          rw [h7]
          nlinarith
        rw [h4]
        nlinarith
      nlinarith
  · cases hm : sc.mask i with
    | false => simp [logistic]; norm_num
    | true =>
      simp only [logistic, if_true]
      rw [div_lt_iff₀ (by positivity)]
      have h1 : (5.5 : ℝ) ≤ 22 * ((1 - 0.67) * coneResponse x x + 0.25) := by linarith
      have h2 : exp 5.5 ≤ exp (22 * ((1 - 0.67) * coneResponse x x + 0.25)) := exp_le_exp.mpr h1
      have h3 : (200 : ℝ) < exp 5.5 := by
        have h4 : exp (5.5 : ℝ) = exp 1 ^ 5 * exp 0.5 := by
          rw [← exp_nat_mul, ← exp_add]; norm_num
        have h5 : (2.718 : ℝ) < exp 1 := by linarith [exp_one_gt_d9]
        have h6 : (1.5 : ℝ) ≤ exp 0.5 := by linarith [add_one_le_exp (0.5 : ℝ)]
        have h7 : (2.718 : ℝ) ^ 5 < exp 1 ^ 5 := pow_lt_pow_left₀ h5 (by norm_num) (by norm_num)
        have h8 : (148 : ℝ) < 2.718 ^ 5 := by norm_num
        rw [h4]
        nlinarith
      nlinarith

/-- the case is not empty -/
example : (30 : ℝ) ≤ 126 ∧ (0 : ℝ) < 500 := by norm_num

end Verif.Gss
