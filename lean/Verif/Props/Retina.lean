import Verif.Model.Retina
import Mathlib.Tactic.Linarith
import Mathlib.Tactic.Positivity
import Mathlib.Tactic.FieldSimp
import Mathlib.Analysis.Real.Pi.Bounds

/-! C74 (point spread helpers), C75, C93, C94 (retinal densities). -/

namespace Verif.Retina
open Real

/-! C74 -/

/-- **C74** the point spread function is 1 at the centre, in `(0, 1]` everywhere, one half at half the width and
strictly decreasing with eccentricity -/
theorem C74_hpsf (f : ℝ) (hf : f ≠ 0) :
    hpsf 0 f = 1 ∧ hpsf (f / 2) f = 1 / 2 ∧ (∀ x, 0 < hpsf x f ∧ hpsf x f ≤ 1) ∧
    ∀ x y, |x| < |y| → hpsf y f < hpsf x f := by
  have hm : 0 < (f / 2) ^ 2 := by positivity
  refine ⟨?_, ?_, fun x => ⟨?_, ?_⟩, fun x y h => ?_⟩
  · unfold hpsf; rw [zero_pow two_ne_zero, zero_add, div_self hm.ne']
  · unfold hpsf; field_simp; norm_num
  · unfold hpsf; positivity
  · unfold hpsf; rw [div_le_one (by positivity)]; nlinarith [sq_nonneg x]
  · unfold hpsf
    apply div_lt_div_of_pos_left hm (by positivity)
    have := sq_lt_sq.mpr h
    linarith

/-- **C74** `inv_hpsf` and `hpsf` are inverse on nonnegative eccentricities and values in `(0, 1]` -/
theorem C74_inverse (f : ℝ) (hf : f ≠ 0) :
    (∀ x, 0 ≤ x → invHpsf (hpsf x f) f = x) ∧
    (∀ y, 0 < y → y ≤ 1 → hpsf (invHpsf y f) f = y ∧ 0 ≤ invHpsf y f) := by
  have hm : 0 < (f / 2) ^ 2 := by positivity
  unfold invHpsf hpsf
  generalize (f / 2) ^ 2 = m at *
  constructor
  · intro x hx
    have : m / (m / (x ^ 2 + m)) - m = x ^ 2 := by field_simp; ring
    rw [this, sqrt_sq hx]
  · intro y h0 h1
    refine ⟨?_, sqrt_nonneg _⟩
    have : 0 ≤ m / y - m := by
      rw [sub_nonneg, le_div_iff₀ h0]; nlinarith
    rw [sq_sqrt this]
    field_simp
    ring

theorem hpsf1 : 0 < hpsf 1 fwhm0 ∧ hpsf 1 fwhm0 < 1 := by
  unfold hpsf fwhm0; norm_num

theorem r0_pos {w : ℝ} (h : 0 < w) : 0 < r0 w := by
  have := pi_pos
  unfold r0
  have : 0 < √(w / π) := sqrt_pos.mpr (by positivity)
  positivity

theorem lclip_bounds {l m : ℝ} (hm : 0 < m) : m ≤ lclip l m ∧ lclip l m ≤ m / hpsf 1 fwhm0 := by
  refine ⟨le_max_right _ _, max_le (min_le_right _ _) ?_⟩
  rw [le_div_iff₀ hpsf1.1]; nlinarith [hpsf1.2]

theorem invHpsf_anti {f y z : ℝ} (h0 : 0 < y) (h : y ≤ z) : invHpsf z f ≤ invHpsf y f := by
  unfold invHpsf
  apply sqrt_le_sqrt
  have : (f / 2) ^ 2 / z ≤ (f / 2) ^ 2 / y := div_le_div_of_nonneg_left (sq_nonneg _) h0 h
  linarith

/-- **C74** the factor of `blur_sun` is at least 1, equal to 1 for sources no brighter than the minimum, grows with
brightness and shrinks with source size -/
theorem C74_blur (omega lmin fwhm : ℝ) (hw : 0 < omega) (hl : 0 < lmin) :
    (∀ lmax, 1 ≤ blurSun omega lmax lmin fwhm) ∧
    (∀ lmax, lmax ≤ lmin → blurSun omega lmax lmin fwhm = 1) ∧
    (∀ l1 l2, l1 ≤ l2 → blurSun omega l1 lmin fwhm ≤ blurSun omega l2 lmin fwhm) ∧
    (∀ omega' lmax, omega ≤ omega' → blurSun omega' lmax lmin fwhm ≤ blurSun omega lmax lmin fwhm) := by
  have hr := r0_pos hw
  have hi : ∀ y, 0 ≤ invHpsf y fwhm := fun y => sqrt_nonneg _
  have one : ∀ lmax, 1 ≤ (r0 omega + invHpsf (lmin / lclip lmax lmin) fwhm) / r0 omega := by
    intro lmax; rw [le_div_iff₀ hr]; linarith [hi (lmin / lclip lmax lmin)]
  refine ⟨fun lmax => ?_, fun lmax h => ?_, fun l1 l2 h => ?_, fun omega' lmax h => ?_⟩
  · unfold blurSun; exact one_le_pow₀ (one lmax)
  · have : lclip lmax lmin = lmin := by
      unfold lclip; exact max_eq_right ((min_le_left _ _).trans h)
    unfold blurSun invHpsf
    rw [this, div_self hl.ne', div_one, sub_self, sqrt_zero, add_zero, div_self hr.ne', one_pow]
  · unfold blurSun
    apply pow_le_pow_left₀ (le_trans zero_le_one (one l1))
    apply div_le_div_of_nonneg_right _ hr.le
    have hc : lclip l1 lmin ≤ lclip l2 lmin := max_le_max_right _ (min_le_min_right _ h)
    have p1 := lt_of_lt_of_le hl (lclip_bounds (l := l1) hl).1
    have p2 := lt_of_lt_of_le hl (lclip_bounds (l := l2) hl).1
    have := invHpsf_anti (f := fwhm) (y := lmin / lclip l2 lmin) (z := lmin / lclip l1 lmin) (by positivity)
      (div_le_div_of_nonneg_left hl.le p1 hc)
    linarith
  · unfold blurSun
    have hr' : 0 < r0 omega' := r0_pos (hw.trans_le h)
    have hrr : r0 omega ≤ r0 omega' := by
      unfold r0
      have := pi_pos
      have : √(omega / π) ≤ √(omega' / π) := sqrt_le_sqrt (by gcongr)
      gcongr
    have hq := hi (lmin / lclip lmax lmin)
    generalize invHpsf (lmin / lclip lmax lmin) fwhm = q at *
    apply pow_le_pow_left₀ (by positivity)
    rw [add_div, add_div, div_self hr'.ne', div_self hr.ne']
    have : q / r0 omega' ≤ q / r0 omega := div_le_div_of_nonneg_left hq hr hrr
    linarith

/-- **C74** the radius the factor is measured against: a flat disc of radius `r` (radians) has the solid angle `π r²`, and its
radius in degrees is what `blur_sun` enlarges -/
theorem C74_radius (r lmax lmin f : ℝ) (hr : 0 < r) : r0 (π * r ^ 2) = r * 180 / π ∧
    blurSun (π * r ^ 2) lmax lmin f = (1 + invHpsf (lmin / lclip lmax lmin) f * π / (180 * r)) ^ 2 := by
  have e : r0 (π * r ^ 2) = r * 180 / π := by
    unfold r0
    rw [mul_div_cancel_left₀ _ pi_pos.ne', sqrt_sq hr.le]
  refine ⟨e, ?_⟩
  unfold blurSun
  rw [e]
  have := pi_pos.ne'
  congr 1
  field_simp

/-- **C74** how far a bright source spreads: the threshold contour of the blurred disc lies where the point spread
function falls to `lmin / lmax`, and at most one degree from its edge for the default width -/
theorem C74_spread (omega lmin lmax : ℝ) (hw : 0 < omega) (hl : 0 < lmin) (h : lmin ≤ lmax) :
    ∃ q, 0 ≤ q ∧ q ≤ 1 ∧ blurSun omega lmax lmin fwhm0 = ((r0 omega + q) / r0 omega) ^ 2 ∧
      (lmax * hpsf 1 fwhm0 ≤ lmin → lmax * hpsf q fwhm0 = lmin) ∧ (lmin ≤ lmax * hpsf 1 fwhm0 → q = 1) := by
  have hf : fwhm0 ≠ 0 := by unfold fwhm0; norm_num
  have hmax : 0 < lmax := hl.trans_le h
  obtain ⟨inv1, inv2⟩ := C74_inverse fwhm0 hf
  obtain ⟨b1, b2⟩ := lclip_bounds (l := lmax) hl
  have hc : 0 < lclip lmax lmin := hl.trans_le b1
  have hy : hpsf 1 fwhm0 ≤ lmin / lclip lmax lmin := by
    rw [le_div_iff₀ hc]
    rw [le_div_iff₀ hpsf1.1] at b2
    linarith
  have h1 : invHpsf (hpsf 1 fwhm0) fwhm0 = 1 := inv1 1 zero_le_one
  refine ⟨invHpsf (lmin / lclip lmax lmin) fwhm0, sqrt_nonneg _, ?_, rfl, fun hle => ?_, fun hge => ?_⟩
  · have := invHpsf_anti (f := fwhm0) hpsf1.1 hy
    rwa [h1] at this
  · have e : lclip lmax lmin = lmax := by
      unfold lclip
      rw [min_eq_left (by rw [le_div_iff₀ hpsf1.1]; exact hle), max_eq_left h]
    rw [e, (inv2 _ (by positivity) ((div_le_one hmax).mpr h)).1]
    field_simp
  · have e : lclip lmax lmin = lmin / hpsf 1 fwhm0 := by
      unfold lclip
      rw [min_eq_right (by rw [div_le_iff₀ hpsf1.1]; exact hge), max_eq_left]
      rw [le_div_iff₀ hpsf1.1]; nlinarith [hpsf1.2]
    have : lmin / (lmin / hpsf 1 fwhm0) = hpsf 1 fwhm0 := by
      have := hpsf1.1
      field_simp
    rw [e, this, h1]

example : (0 : ℝ) < 6.8e-5 ∧ (0 : ℝ) < 279.33 := by norm_num

/-! C75 -/

theorem mrdc_pos (mi : Fin 4) : 0.97 < (mrdc mi).1 ∧ (mrdc mi).1 < 1 ∧ 0 < (mrdc mi).2.1 ∧ 0 < (mrdc mi).2.2 := by
  fin_cases mi <;> simp only [mrdc] <;> norm_num

theorem rgcf_pos {deg : ℝ} (h : 0 ≤ deg) (mi : Fin 4) : 0 < rgcfMeridian deg mi := by
  obtain ⟨a, b, c, d⟩ := mrdc_pos mi
  unfold rgcfMeridian
  have : 0 < (mrdc mi).1 := by linarith
  have : 0 < 1 - (mrdc mi).1 := by linarith
  have : 0 < (1 + deg / (mrdc mi).2.1) ^ (-2 : ℤ) := by positivity
  have := exp_pos (-deg / (mrdc mi).2.2)
  positivity

theorem rgc_pos (interp : ℝ → Fin 4 → ℝ) (deg : ℝ) (mi : Fin 4) : 0 < rgcMeridian interp deg mi :=
  lt_of_lt_of_le one_pos (le_max_right _ _)

theorem ecc_sq (p : ℝ × ℝ) : ecc p ^ 2 = p.1 ^ 2 + p.2 ^ 2 := sq_sqrt (by positivity)

theorem ecc_nonneg (p : ℝ × ℝ) : 0 ≤ ecc p := sqrt_nonneg _

/-- **C75** for float coordinates the density at a point lies between those of the two meridians it is
interpolated from -/
theorem C75_between (func : ℝ → Fin 4 → ℝ) (h : ∀ r mi, 0 ≤ r → 0 < func r mi) (p : ℝ × ℝ) :
    min (func (ecc p) (xmi p)) (func (ecc p) (ymi p)) ≤ densityXY false func p ∧
    densityXY false func p ≤ max (func (ecc p) (xmi p)) (func (ecc p) (ymi p)) := by
  have hx := h (ecc p) (xmi p) (ecc_nonneg p)
  have hy := h (ecc p) (ymi p) (ecc_nonneg p)
  unfold densityXY
  split_ifs with h0
  · exact ⟨min_le_right _ _, le_max_right _ _⟩
  · have hpos : 0 < p.1 ^ 2 + p.2 ^ 2 := by
      rw [← ecc_sq]; positivity
    rw [ecc_sq]
    unfold den store
    simp only [Bool.false_eq_true, if_false]
    generalize func (ecc p) (xmi p) = a at *
    generalize func (ecc p) (ymi p) = b at *
    have hd : 0 < p.1 ^ 2 / a + p.2 ^ 2 / b := by
      rcases (sq_nonneg p.1).eq_or_lt with h1 | h1
      · have : 0 < p.2 ^ 2 := by linarith
        positivity
      · have := sq_nonneg p.2
        positivity
    have hmin : 0 < min a b := lt_min hx hy
    have s1 := sq_nonneg p.1
    have s2 := sq_nonneg p.2
    constructor
    · rw [le_div_iff₀ hd, mul_add]
      have e1 : min a b * (p.1 ^ 2 / a) ≤ p.1 ^ 2 := by
        have : min a b * (p.1 ^ 2 / a) ≤ a * (p.1 ^ 2 / a) := by gcongr; exact min_le_left _ _
        have e : a * (p.1 ^ 2 / a) = p.1 ^ 2 := by field_simp
        linarith
      have e2 : min a b * (p.2 ^ 2 / b) ≤ p.2 ^ 2 := by
        have : min a b * (p.2 ^ 2 / b) ≤ b * (p.2 ^ 2 / b) := by gcongr; exact min_le_right _ _
        have e : b * (p.2 ^ 2 / b) = p.2 ^ 2 := by field_simp
        linarith
      linarith
    · rw [div_le_iff₀ hd, mul_add]
      have e1 : p.1 ^ 2 ≤ max a b * (p.1 ^ 2 / a) := by
        have : a * (p.1 ^ 2 / a) ≤ max a b * (p.1 ^ 2 / a) := by gcongr; exact le_max_left _ _
        have e : a * (p.1 ^ 2 / a) = p.1 ^ 2 := by field_simp
        linarith
      have e2 : p.2 ^ 2 ≤ max a b * (p.2 ^ 2 / b) := by
        have : b * (p.2 ^ 2 / b) ≤ max a b * (p.2 ^ 2 / b) := by gcongr; exact le_max_right _ _
        have e : b * (p.2 ^ 2 / b) = p.2 ^ 2 := by field_simp
        linarith
      linarith

/-- **C75** both binocular densities are positive for float coordinates -/
theorem C75_positive (interp : ℝ → Fin 4 → ℝ) (p : ℝ × ℝ) : 0 < rgcfDensity false p ∧ 0 < rgcDensity false interp p := by
  have key : ∀ func : ℝ → Fin 4 → ℝ, (∀ r mi, 0 ≤ r → 0 < func r mi) → 0 < binocular false func p := by
    intro func h
    have d : ∀ q, 0 < densityXY false func q := fun q =>
      lt_of_lt_of_le (lt_min (h _ _ (ecc_nonneg q)) (h _ _ (ecc_nonneg q))) (C75_between func h q).1
    unfold binocular
    have := d (90 * p.1, 90 * p.2)
    have := d (-(90 * p.1), 90 * p.2)
    positivity
  exact ⟨key _ fun r mi hr => rgcf_pos hr mi, key _ fun r mi _ => rgc_pos interp r mi⟩

/-- **C75** the binocular density is symmetric left-right, for every density function and dtype -/
theorem C75_symmetric (isInt : Bool) (func : ℝ → Fin 4 → ℝ) (x y : ℝ) :
    binocular isInt func (-x, y) = binocular isInt func (x, y) := by
  unfold binocular
  simp only [mul_neg, neg_neg]
  rw [add_comm]

/-- The quadrant part of C75: on the vertical meridian the density is that of the superior model above and of the
inferior model below the horizontal. -/
def C75_statement : Prop :=
  ∀ y : ℝ, 0 < y → rgcfDensity false (0, y) = rgcfMeridian (90 * y) 1 ∧
    rgcfDensity false (0, -y) = rgcfMeridian (90 * y) 3

/-- **C75** what the code does on the vertical meridian: the inferior model, above as well as below -/
theorem C75_vertical_partial (func : ℝ → Fin 4 → ℝ) (h : ∀ r mi, 0 ≤ r → 0 < func r mi) (y : ℝ) :
    binocular false func (0, y) = func (90 * |y|) 3 := by
  have e : ∀ t : ℝ, ecc (0, t) = |t| := by
    intro t; unfold ecc; simp only; rw [zero_pow two_ne_zero, zero_add, sqrt_sq_eq_abs]
  have hd : ∀ t : ℝ, densityXY false func (0, t) = func |t| 3 := by
    intro t
    unfold densityXY den store xmi ymi
    simp only [e, lt_irrefl, gt_iff_lt, if_false, Bool.false_eq_true]
    have := h |t| 3 (abs_nonneg t)
    split_ifs with h0
    · rfl
    · have ht : t ^ 2 ≠ 0 := by
        intro h1; apply h0; simp at h1; simp [h1]
      rw [sq_abs, zero_pow two_ne_zero, zero_div, zero_add]
      generalize t ^ 2 = u at *
      field_simp
  unfold binocular
  simp only [mul_zero, neg_zero]
  rw [hd, abs_mul, abs_of_pos (by norm_num : (0 : ℝ) < 90)]
  ring

/-- **C75** as a whole is false: ten degrees above the fixation point the inferior model is used -/
theorem C75_refuted : ¬ C75_statement := by
  intro h
  have h1 := (h (1 / 9) (by norm_num)).1
  have h2 := C75_vertical_partial rgcfMeridian (fun r mi hr => rgcf_pos hr mi) (1 / 9)
  have h3 : rgcfMeridian (90 * |1 / 9|) 3 = rgcfMeridian (90 * (1 / 9)) 1 := by
    rw [← h2]; exact h1
  rw [abs_of_pos (by norm_num)] at h3
  unfold rgcfMeridian mrdc at h3
  simp only at h3
  have e1 : exp (-(90 * (1 / 9)) / 12.131840717293096) ≤ 1 := exp_le_one_iff.mpr (by norm_num)
  have e2 := exp_pos (-(90 * (1 / 9)) / 16.346430181031927)
  generalize exp (-(90 * (1 / 9)) / 12.131840717293096) = a at *
  generalize exp (-(90 * (1 / 9)) / 16.346430181031927) = b at *
  norm_num at h3
  linarith

/-! C93 -/

/-- **C93** along every meridian the field density falls strictly with eccentricity, from a value between 97% of
the foveal density and the foveal density. Missing for the full claim: equality of the four values at the fovea. -/
theorem C93_meridian_partial (mi : Fin 4) :
    (∀ a b, 0 ≤ a → a < b → rgcfMeridian b mi < rgcfMeridian a mi) ∧
    0.97 * 33162.4 < rgcfMeridian 0 mi ∧ rgcfMeridian 0 mi < 33162.4 := by
  obtain ⟨m1, m2, m3, m4⟩ := mrdc_pos mi
  refine ⟨fun a b ha hab => ?_, ?_, ?_⟩
  · unfold rgcfMeridian
    have h1 : (1 + b / (mrdc mi).2.1) ^ (-2 : ℤ) < (1 + a / (mrdc mi).2.1) ^ (-2 : ℤ) := by
      rw [zpow_neg, zpow_neg]
      have : a / (mrdc mi).2.1 < b / (mrdc mi).2.1 := by gcongr
      have h0 : 0 ≤ a / (mrdc mi).2.1 := by positivity
      apply inv_strictAnti₀ (by positivity)
      norm_cast
      apply pow_lt_pow_left₀ _ (by positivity) two_ne_zero
      linarith
    have h2 : exp (-b / (mrdc mi).2.2) ≤ exp (-a / (mrdc mi).2.2) := by
      apply exp_le_exp.mpr
      gcongr
    have : 0 < 33162.4 * (mrdc mi).1 := by linarith
    have : 0 < 1 - (mrdc mi).1 := by linarith
    nlinarith
  · unfold rgcfMeridian; norm_num; linarith
  · unfold rgcfMeridian; norm_num; linarith

/-- C93: the four meridian models agree at the fovea. -/
def C93_statement : Prop := ∀ mi mj : Fin 4, rgcfMeridian 0 mi = rgcfMeridian 0 mj

/-- **C93** is false: the foveal density multiplies only the first of the two weighted terms, so the models differ
by more than 700 cells per square degree at the fovea -/
theorem C93_refuted : ¬ C93_statement := by
  intro h
  have := h 2 3
  unfold rgcfMeridian mrdc at this
  norm_num at this

/-! C94 -/

/-- C94: densities do not depend on the dtype of the coordinates. -/
def C94_statement : Prop :=
  ∀ (x y : ℤ), densityXY true rgcfMeridian (x, y) = densityXY false rgcfMeridian (x, y)

/-- **C94** for integer arrays the two quotients are rounded down first, so that the density is never lower than
the one for the same float coordinates unless both round to zero (division by zero) -/
theorem C94_integer_partial (func : ℝ → Fin 4 → ℝ) (h : ∀ r mi, 0 ≤ r → 0 < func r mi) (p : ℝ × ℝ) (hp : ecc p ≠ 0) :
    densityXY true func p = (p.1 ^ 2 + p.2 ^ 2) /
      ((⌊p.1 ^ 2 / func (ecc p) (xmi p)⌋ : ℝ) + (⌊p.2 ^ 2 / func (ecc p) (ymi p)⌋ : ℝ)) ∧
    (den true func p ≠ 0 → densityXY false func p ≤ densityXY true func p) := by
  have hx := h (ecc p) (xmi p) (ecc_nonneg p)
  have hy := h (ecc p) (ymi p) (ecc_nonneg p)
  have qx : 0 ≤ p.1 ^ 2 / func (ecc p) (xmi p) := by positivity
  have qy : 0 ≤ p.2 ^ 2 / func (ecc p) (ymi p) := by positivity
  have e : den true func p
      = (⌊p.1 ^ 2 / func (ecc p) (xmi p)⌋ : ℝ) + (⌊p.2 ^ 2 / func (ecc p) (ymi p)⌋ : ℝ) := by
    unfold den store; simp only [if_true, qx, qy]
  refine ⟨?_, fun hne => ?_⟩
  · unfold densityXY; rw [if_neg hp, e, ecc_sq]
  · unfold densityXY
    rw [if_neg hp, if_neg hp]
    have l1 := Int.floor_le (p.1 ^ 2 / func (ecc p) (xmi p))
    have l2 := Int.floor_le (p.2 ^ 2 / func (ecc p) (ymi p))
    have g1 : (0 : ℝ) ≤ ⌊p.1 ^ 2 / func (ecc p) (xmi p)⌋ := by exact_mod_cast Int.floor_nonneg.mpr qx
    have g2 : (0 : ℝ) ≤ ⌊p.2 ^ 2 / func (ecc p) (ymi p)⌋ := by exact_mod_cast Int.floor_nonneg.mpr qy
    have hpos : 0 < den true func p := lt_of_le_of_ne (by rw [e]; positivity) (Ne.symm hne)
    apply div_le_div_of_nonneg_left (sq_nonneg _) hpos
    rw [e]; unfold den store; simp only [Bool.false_eq_true, if_false]; linarith

/-- **C94** is false: one degree to the side, given as integers -/
theorem C94_refuted : ¬ C94_statement := by
  intro h
  have h1 := h 1 0
  have ee : ecc ((1 : ℤ), (0 : ℤ)) = 1 := by unfold ecc; norm_num
  have hf : 1 < rgcfMeridian 1 0 := by
    unfold rgcfMeridian mrdc
    simp only
    have := exp_pos (-1 / 22.139309670912258)
    norm_num at this ⊢
    linarith
  have hpos := (C75_between rgcfMeridian (fun r mi hr => rgcf_pos hr mi) ((1 : ℤ), (0 : ℤ))).1
  have hpos' : 0 < densityXY false rgcfMeridian ((1 : ℤ), (0 : ℤ)) :=
    lt_of_lt_of_le (lt_min (rgcf_pos (ecc_nonneg _) _) (rgcf_pos (ecc_nonneg _) _)) hpos
  rw [← h1, (C94_integer_partial rgcfMeridian (fun r mi hr => rgcf_pos hr mi) _ (by rw [ee]; norm_num)).1] at hpos'
  have hx : xmi ((1 : ℤ), (0 : ℤ)) = 0 := by unfold xmi; norm_num
  rw [ee, hx] at hpos'
  have f1 : ⌊(((1 : ℤ) : ℝ)) ^ 2 / rgcfMeridian 1 0⌋ = 0 := by
    rw [Int.floor_eq_zero_iff]
    constructor
    · positivity
    · rw [div_lt_one (by linarith)]; norm_num; linarith
  simp only at hpos'
  rw [f1] at hpos'
  norm_num at hpos'

end Verif.Retina
