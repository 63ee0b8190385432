import Verif.Props.RoundedBetween
import Verif.Props.RoundedView

/-! Properties C221 and C222, continued: all angles of chords, and angles away from 0 and 180 degrees. -/

namespace Verif.Fp
open Verif.Geo Real

/-- **C222** away from 0 and 180 degrees the angle has the accuracy of double precision: the error is at most 2e-14 over the sine -/
theorem C222_sharp_partial {v w p q : V3} {t : ℝ} (hv : v ≠ ⟨0, 0, 0⟩) (hw : w ≠ ⟨0, 0, 0⟩) (hp : normF binary64 v = some p)
    (hq : normF binary64 w = some q) (ht : radiansF binary64 p q = some t) (hs : 2e-7 ≤ sin (between v w)) :
    |t - between v w| ≤ 2e-14 / sin (between v w) := by
  have hc : AcosOk binary64 arccos := fun c _ _ => by
    rw [sub_self, abs_zero]
    exact mul_nonneg (mul_nonneg (by norm_num) binary64_ok.u0) (arccos_nonneg c)
  have e : t = angleF binary64 arccos p q := by
    unfold radiansF npArccos at ht
    rw [if_pos ⟨le_min (le_max_right _ _) (by norm_num), min_le_right _ _⟩] at ht
    exact (Option.some.inj ht).symm
  rw [e]
  exact C206_angle_sharp binary64_ok hc hv hw hp hq hs

/-- **C222** between 1 and 179 degrees the error is at most 2e-12 -/
theorem C222_degree_partial {v w p q : V3} {t : ℝ} (hv : v ≠ ⟨0, 0, 0⟩) (hw : w ≠ ⟨0, 0, 0⟩) (hp : normF binary64 v = some p)
    (hq : normF binary64 w = some q) (ht : radiansF binary64 p q = some t) (h1 : π / 180 ≤ between v w) (h2 : between v w ≤ π - π / 180) :
    |t - between v w| ≤ 2e-12 := by
  have p0 := pi_pos
  have s : 1 / 100 ≤ sin (between v w) := by
    have k : ∀ x : ℝ, π / 180 ≤ x → x ≤ π / 2 → 1 / 100 ≤ sin x := by
      intro x a b
      have := mul_le_sin (show 0 ≤ x by linarith) b
      have : 2 / π * (π / 180) ≤ 2 / π * x := mul_le_mul_of_nonneg_left a (by positivity)
      have e : 2 / π * (π / 180) = 1 / 90 := by field_simp; norm_num
      linarith
    rcases le_total (between v w) (π / 2) with h | h
    · exact k _ h1 h
    · rw [← sin_pi_sub]
      exact k _ (by linarith) (by linarith)
  refine (C222_sharp_partial hv hw hp hq ht (le_trans (by norm_num) s)).trans ?_
  rw [div_le_iff₀ (by linarith)]
  linarith

/-- **C221** up to 180 degrees included: an angle comes back from its chord to 1e-7 -/
theorem C221_all_partial {t : ℝ} (ht : rnd t = t) (h0 : 0 ≤ t) (h1 : t ≤ π) : |chord2thetaF (theta2chordF t) - t| ≤ 1 / 10 ^ 7 := by
  rw [theta2chordF_eq ht]
  have e : chord2thetaF (2 * rnd (sin (t / 2))) = 2 * rnd (arcsin (rnd (sin (t / 2)))) := by
    unfold chord2thetaF asinArgF
    rw [rnd_twice, rnd_again, rnd_half, rnd_twice, rnd_again, mul_div_cancel_left₀ _ (two_ne_zero)]
  rw [e]
  have s0 : 0 ≤ sin (t / 2) := sin_nonneg_of_nonneg_of_le_pi (by linarith) (by linarith)
  have near := rnd_near (sin (t / 2))
  have y1 : |rnd (sin (t / 2))| ≤ 1 := rnd_le_one (abs_sin_le_one _)
  have y0 : 0 ≤ rnd (sin (t / 2)) := (mul_nonneg (by norm_num) s0).trans (rnd_rel s0).1
  have sm : |sin (t / 2)| ≤ 1 := abs_sin_le_one _
  generalize rnd (sin (t / 2)) = y at *
  have a0 : 0 ≤ arcsin y := arcsin_nonneg.mpr y0
  have a1 := arcsin_le_pi_div_two y
  have K := acos_le (show 0 ≤ π / 2 - arcsin y by linarith) (by linarith) (show 0 ≤ π / 2 - t / 2 by linarith) (by linarith)
  rw [cos_pi_div_two_sub, cos_pi_div_two_sub, sin_arcsin (by linarith) (abs_le.mp y1).2] at K
  have p2 : π ^ 2 ≤ 10 := by
    have := pi_lt_d2
    calc π ^ 2 ≤ 3.15 ^ 2 := pow_le_pow_left₀ pi_pos.le (by linarith) 2
      _ ≤ 10 := by norm_num
  have n : |y - sin (t / 2)| ≤ 2⁻¹ ^ 53 := near.trans (mul_le_of_le_one_right (by norm_num) sm)
  have K' := K.trans (mul_le_mul p2 n (abs_nonneg _) (by norm_num))
  have d : |arcsin y - t / 2| ≤ 4 / 10 ^ 8 := by
    refine abs_le_of_sq_le_sq ?_ (by norm_num)
    rw [show (arcsin y - t / 2) ^ 2 = (π / 2 - arcsin y - (π / 2 - t / 2)) ^ 2 by ring]
    norm_num at K' ⊢
    linarith
  have r := rnd_near (arcsin y)
  rw [abs_of_nonneg a0] at r
  have r' : |rnd (arcsin y) - arcsin y| ≤ 1 / 10 ^ 9 := by
    have := mul_le_mul_of_nonneg_left (show arcsin y ≤ 2 by linarith [pi_lt_d2]) (show (0 : ℝ) ≤ 2⁻¹ ^ 53 by norm_num)
    refine (r.trans this).trans (by norm_num)
  rw [show 2 * rnd (arcsin y) - t = 2 * ((rnd (arcsin y) - arcsin y) + (arcsin y - t / 2)) by ring, abs_mul, abs_two]
  have := abs_add_le (rnd (arcsin y) - arcsin y) (arcsin y - t / 2)
  norm_num at *
  linarith

/-- the hypotheses are met by an angle of three radians -/
example : rnd 3 = 3 ∧ (0 : ℝ) ≤ 3 ∧ 3 ≤ π :=
  ⟨by simpa using rnd_float (k := 3) 0 (by norm_num), by norm_num, pi_gt_three.le⟩

/-- the hypotheses are met by a right angle -/
example : between ⟨1, 0, 0⟩ ⟨0, 2, 0⟩ = π / 2 ∧ π / 180 ≤ π / 2 ∧ π / 2 ≤ π - π / 180 := by
  have := pi_pos
  refine ⟨by simp [between], by linarith, by linarith⟩

end Verif.Fp
