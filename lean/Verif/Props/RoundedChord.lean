import Verif.Model.RoundedChord
import Verif.Props.RoundedCull
import Mathlib.Analysis.Real.Pi.Bounds
import Mathlib.Analysis.SpecialFunctions.Trigonometric.Bounds

/-! Property C221: chords and angles in double precision. -/

namespace Verif.Fp
open Real

theorem rnd_twice (x : ℝ) : rnd (2 * x) = 2 * rnd x := by
  have := rnd_scale x 1
  rw [zpow_one] at this
  rw [mul_comm, this, mul_comm]

theorem rnd_half (x : ℝ) : rnd (x / 2) = rnd x / 2 := by
  have := rnd_scale x (-1)
  rw [zpow_neg_one] at this
  rw [div_eq_mul_inv, this, div_eq_mul_inv]

theorem rnd_again (x : ℝ) : rnd (rnd x) = rnd x := by
  rcases le_total 0 x with h | h
  · exact rnd_idem x h
  · have := rnd_idem (-x) (by linarith)
    rw [rnd_neg, rnd_neg] at this
    linarith

theorem theta2chordF_eq {t : ℝ} (ht : rnd t = t) : theta2chordF t = 2 * rnd (sin (t / 2)) := by
  unfold theta2chordF
  rw [rnd_twice, rnd_again, rnd_half, ht]

/-- **C221** a chord computed from any angle can be turned back into an angle: the arc sine is defined -/
theorem C221_number (t : ℝ) : |asinArgF (theta2chordF t)| ≤ 1 := by
  unfold asinArgF theta2chordF
  rw [rnd_half, rnd_again, rnd_twice, rnd_again, mul_div_cancel_left₀ _ (two_ne_zero)]
  exact rnd_le_one (abs_sin_le_one _)

theorem arcsin_le {y : ℝ} (h0 : 0 ≤ y) (h1 : y ≤ 1) : arcsin y ≤ π / 2 * y := by
  have := mul_le_sin (arcsin_nonneg.mpr h0) (arcsin_le_pi_div_two y)
  rw [sin_arcsin (by linarith) h1] at this
  have hp := pi_pos
  rw [div_mul_eq_mul_div, div_le_iff₀ hp] at this
  linarith

/-- **C221** a chord comes back from its angle with the accuracy of double precision -/
theorem C221_chord {c : ℝ} (hc : rnd c = c) (h0 : 0 ≤ c) (h2 : c ≤ 2) :
    |theta2chordF (chord2thetaF c) - c| ≤ 3 * 2⁻¹ ^ 53 * c := by
  have e : chord2thetaF c = 2 * rnd (arcsin (c / 2)) := by
    unfold chord2thetaF asinArgF
    rw [rnd_twice, rnd_again, rnd_half, hc]
  have hf : rnd (chord2thetaF c) = chord2thetaF c := by rw [e, rnd_twice, rnd_again]
  rw [theta2chordF_eq hf, e, mul_div_cancel_left₀ _ (two_ne_zero)]
  obtain ⟨y, rfl⟩ : ∃ y, c = 2 * y := ⟨c / 2, by ring⟩
  rw [mul_div_cancel_left₀ _ (two_ne_zero)]
  have y0 : 0 ≤ y := by linarith
  have y1 : y ≤ 1 := by linarith
  have a := arcsin_le y0 y1
  have a0 := arcsin_nonneg.mpr y0
  have sa := sin_arcsin (show -1 ≤ y by linarith) y1
  have r := rnd_near (arcsin y)
  rw [abs_of_nonneg a0] at r
  have l : |sin (rnd (arcsin y)) - y| ≤ |rnd (arcsin y) - arcsin y| := by
    have := abs_sin_sub_sin_le (rnd (arcsin y)) (arcsin y)
    rwa [sa] at this
  have s := rnd_near (sin (rnd (arcsin y)))
  have p := pi_lt_d2
  have hy : π / 2 * y ≤ 1.575 * y := mul_le_mul_of_nonneg_right (by linarith) y0
  have B : |sin (rnd (arcsin y)) - y| ≤ 2⁻¹ ^ 53 * (1.575 * y) :=
    l.trans (r.trans (mul_le_mul_of_nonneg_left (a.trans hy) (by norm_num)))
  generalize sin (rnd (arcsin y)) = x at *
  generalize rnd x = z at *
  have X : |x| ≤ 1.1 * y := by
    have : |x| ≤ |x - y| + |y| := by simpa using abs_add_le (x - y) y
    rw [abs_of_nonneg y0] at this
    have : (2⁻¹ : ℝ) ^ 53 * (1.575 * y) ≤ 0.1 * y := by
      rw [← mul_assoc]
      exact mul_le_mul_of_nonneg_right (by norm_num) y0
    linarith
  have S : |z - x| ≤ 2⁻¹ ^ 53 * (1.1 * y) := s.trans (mul_le_mul_of_nonneg_left X (by norm_num))
  have T : |z - y| ≤ |z - x| + |x - y| := by simpa using abs_add_le (z - x) (x - y)
  have : |2 * z - 2 * y| = 2 * |z - y| := by rw [← mul_sub, abs_mul, abs_two]
  rw [this]
  have : (0 : ℝ) ≤ 2⁻¹ ^ 53 * y := mul_nonneg (by norm_num) y0
  linarith

/-- how far the arc sine moves: angles of near sines -/
theorem angle_le {a b : ℝ} (a0 : 0 ≤ a) (a1 : a < π / 2) (b0 : 0 ≤ b) (b1 : b ≤ π / 2) :
    |a - b| * cos a ≤ π * |sin a - sin b| := by
  have hp := pi_pos
  have h1 : |sin a - sin b| = 2 * sin (|a - b| / 2) * cos ((a + b) / 2) := by
    have c0 : 0 ≤ cos ((a + b) / 2) := cos_nonneg_of_mem_Icc ⟨by linarith, by linarith⟩
    rw [sin_sub_sin, abs_mul, abs_mul, abs_two, abs_of_nonneg c0]
    congr 2
    rcases le_total 0 (a - b) with h | h
    · rw [abs_of_nonneg h, abs_of_nonneg (sin_nonneg_of_nonneg_of_le_pi (by linarith) (by linarith))]
    · rw [abs_of_nonpos h, abs_of_nonpos (sin_nonpos_of_nonpos_of_neg_pi_le (by linarith) (by linarith)), neg_div, sin_neg]
  have hd : |a - b| ≤ π / 2 := abs_le.mpr ⟨by linarith, by linarith⟩
  have h2 : |a - b| / π ≤ sin (|a - b| / 2) := by
    refine le_trans (le_of_eq ?_) (mul_le_sin (by positivity) (by linarith))
    field_simp
  have h3 : cos a / 2 ≤ cos ((a + b) / 2) := by
    have e := cos_add_cos a b
    have c0 : 0 ≤ cos ((a + b) / 2) := cos_nonneg_of_mem_Icc ⟨by linarith, by linarith⟩
    have cb : 0 ≤ cos b := cos_nonneg_of_mem_Icc ⟨by linarith, b1⟩
    have := mul_le_of_le_one_right (show 0 ≤ 2 * cos ((a + b) / 2) by linarith) (cos_le_one ((a - b) / 2))
    linarith
  have ca : 0 ≤ cos a := (cos_pos_of_mem_Ioo ⟨by linarith, a1⟩).le
  rw [h1]
  have := mul_le_mul h2 h3 (by linarith) (le_trans (by positivity) h2)
  have := mul_le_mul_of_nonneg_left this (show 0 ≤ 2 * π by linarith)
  calc |a - b| * cos a = 2 * π * (|a - b| / π * (cos a / 2)) := by field_simp
    _ ≤ _ := this
    _ = _ := by ring

/-- **C221** for angles below 180 degrees: an angle comes back from its chord up to a loss that grows with the tangent of
half of it -/
theorem C221_angle_partial {t : ℝ} (ht : rnd t = t) (h0 : 0 ≤ t) (h1 : t < π) :
    |chord2thetaF (theta2chordF t) - t| ≤ 2⁻¹ ^ 53 * π * (1 + 2 * tan (t / 2)) := by
  rw [theta2chordF_eq ht]
  have e : chord2thetaF (2 * rnd (sin (t / 2))) = 2 * rnd (arcsin (rnd (sin (t / 2)))) := by
    unfold chord2thetaF asinArgF
    rw [rnd_twice, rnd_again, rnd_half, rnd_twice, rnd_again, mul_div_cancel_left₀ _ (two_ne_zero)]
  rw [e]
  obtain ⟨a, rfl⟩ : ∃ a, t = 2 * a := ⟨t / 2, by ring⟩
  rw [mul_div_cancel_left₀ _ (two_ne_zero)]
  have a0 : 0 ≤ a := by linarith
  have a1 : a < π / 2 := by linarith
  have s0 : 0 ≤ sin a := sin_nonneg_of_nonneg_of_le_pi a0 (by linarith)
  have y0 := rnd_nonneg s0
  have y1 : rnd (sin a) ≤ 1 := (le_abs_self _).trans (rnd_le_one (abs_sin_le_one a))
  have r := rnd_near (sin a)
  rw [abs_of_nonneg s0] at r
  have ca : 0 < cos a := cos_pos_of_mem_Ioo ⟨by linarith, a1⟩
  have k := angle_le a0 a1 (arcsin_nonneg.mpr y0) (arcsin_le_pi_div_two (rnd (sin a)))
  rw [sin_arcsin (by linarith) y1, abs_sub_comm (sin a)] at k
  have B : |a - arcsin (rnd (sin a))| ≤ 2⁻¹ ^ 53 * π * tan a := by
    rw [tan_eq_sin_div_cos, ← mul_div_assoc, le_div_iff₀ ca]
    refine k.trans ((mul_le_mul_of_nonneg_left r pi_pos.le).trans (le_of_eq ?_))
    ring
  have R := rnd_near (arcsin (rnd (sin a)))
  rw [abs_of_nonneg (arcsin_nonneg.mpr y0)] at R
  have R' : |rnd (arcsin (rnd (sin a))) - arcsin (rnd (sin a))| ≤ 2⁻¹ ^ 53 * (π / 2) :=
    R.trans (mul_le_mul_of_nonneg_left (arcsin_le_pi_div_two _) (by norm_num))
  generalize arcsin (rnd (sin a)) = b at *
  rw [← mul_sub, abs_mul, abs_two]
  have T : |rnd b - a| ≤ |rnd b - b| + |a - b| := by
    rw [abs_sub_comm a b]
    simpa using abs_add_le (rnd b - b) (b - a)
  linarith

/-- **C221** the property: an angle up to 180 degrees comes back from its chord, here up to 1e-9 -/
def C221_statement : Prop := ∀ t : ℝ, rnd t = t → 0 ≤ t → t ≤ π → |chord2thetaF (theta2chordF t) - t| ≤ 1 / 10 ^ 9

theorem rnd_one_of {x : ℝ} (h0 : 1 - 2⁻¹ ^ 54 < x) (h1 : x < 1) : rnd x = 1 := by
  have x0 : 0 < x := lt_trans (by norm_num) h0
  rw [rnd_eq (-1) (2 ^ 53)]
  · norm_num
  · rw [abs_of_pos x0]
    refine le_trans ?_ h0.le
    norm_num
  · rw [abs_of_pos x0]
    simpa using h1
  · rw [show ((-1 : ℤ) - 52) = -53 by norm_num, zpow_neg, div_inv_eq_mul, abs_lt]
    push_cast
    constructor
    · have := mul_lt_mul_of_pos_right h0 (show (0 : ℝ) < 2 ^ (53 : ℤ) by positivity)
      norm_num at this ⊢
      linarith
    · have := mul_lt_mul_of_pos_right h1 (show (0 : ℝ) < 2 ^ (53 : ℤ) by positivity)
      norm_num at this ⊢
      linarith

/-- **C221** is false near 180 degrees: the sine of half the angle is rounded to 1 for the 5.7e-9 before -/
theorem C221_refuted : ¬ C221_statement := by
  intro h
  have p1 := pi_gt_d20
  have p2 := pi_lt_d20
  have hf : rnd (843314855 * 2 ^ (-28 : ℤ)) = (843314855 * 2 ^ (-28 : ℤ) : ℝ) := by
    have := rnd_float (k := 843314855) (-28) (by norm_num)
    push_cast at this
    exact this
  have hv : (843314855 * 2 ^ (-28 : ℤ) : ℝ) = 843314855 / 268435456 := by norm_num
  rw [hv] at hf
  have := h _ hf (by norm_num) (by norm_num at p1 ⊢; linarith)
  rw [theta2chordF_eq hf] at this
  have ex : sin (843314855 / 268435456 / 2) = cos ((π - 843314855 / 268435456) / 2) := by
    rw [← cos_pi_div_two_sub]
    congr 1
    ring
  have e0 : 5 / 10 ^ 9 < π - 843314855 / 268435456 := by norm_num at p1 ⊢; linarith
  have e1 : π - 843314855 / 268435456 < 6 / 10 ^ 9 := by norm_num at p2 ⊢; linarith
  generalize hw : π - 843314855 / 268435456 = w at *
  have lo : 1 - 2⁻¹ ^ 54 < cos (w / 2) := by
    refine lt_of_lt_of_le ?_ (one_sub_sq_div_two_le_cos (x := w / 2))
    have : w * w < 6 / 10 ^ 9 * (6 / 10 ^ 9) := mul_self_lt_mul_self (by linarith) e1
    norm_num at this ⊢
    nlinarith
  have hi : cos (w / 2) < 1 := by
    have := cos_lt_cos_of_nonneg_of_le_pi le_rfl (show w / 2 ≤ π by norm_num at e1; linarith) (show 0 < w / 2 by norm_num at e0; linarith)
    rwa [cos_zero] at this
  rw [ex, rnd_one_of lo hi] at this
  have e : chord2thetaF (2 * 1) = 2 * rnd (π / 2) := by
    have one : rnd 1 = 1 := by simpa using rnd_pow 0
    unfold chord2thetaF asinArgF
    rw [rnd_twice, rnd_again, rnd_half, rnd_twice, one, mul_div_cancel_left₀ _ (two_ne_zero), arcsin_one]
  rw [e] at this
  have n := abs_le.mp (rnd_near (π / 2))
  rw [abs_of_pos (by linarith [pi_pos])] at n
  have t := (abs_le.mp this).2
  norm_num at t n e0
  linarith [n.1]

/-- the hypotheses are met by 1 -/
example : rnd 1 = 1 ∧ (0 : ℝ) ≤ 1 ∧ 1 < π := ⟨by simpa using rnd_pow 0, zero_le_one, by linarith [pi_gt_three]⟩

end Verif.Fp
