import Verif.Props.RoundedRotate
import Verif.Props.RoundedQuantile
import Mathlib.Analysis.Real.Pi.Irrational

/-! Property C225: quarter turns in double precision. -/

namespace Verif.Fp
open Verif.Geo Real

/-- specification: a quarter turn only exchanges coordinates and changes a sign -/
def quarter (axis : Fin 3) (v : V3) : V3 :=
  match axis with
  | 0 => ⟨v.x, -v.z, v.y⟩
  | 1 => ⟨v.z, v.y, -v.x⟩
  | 2 => ⟨-v.y, v.x, v.z⟩

/-- C225, full statement: turning by `90 k` degrees is `k` quarter turns, exactly -/
def C225_statement : Prop := ∀ (axis : Fin 3) (k : ℕ) (v : V3), rnd v.x = v.x → rnd v.y = v.y → rnd v.z = v.z →
  rotateElemF true axis (90 * k) v = (quarter axis)^[k] v

theorem turned_quarter (axis : Fin 3) (v : V3) : turned axis (π / 2) v = quarter axis v := by
  fin_cases axis <;> simp [turned, quarter]

theorem turned_quarters (axis : Fin 3) (k : ℕ) (v : V3) : turned axis (k * (π / 2)) v = (quarter axis)^[k] v := by
  induction k with
  | zero => fin_cases axis <;> simp [turned]
  | succ k ih =>
    rw [Function.iterate_succ_apply', ← ih, ← turned_quarter, turned_add]
    congr 1
    push_cast
    ring

/-- C225: turning by `90 k` degrees is `k` quarter turns up to rounding -/
theorem C225_quarters_partial (axis : Fin 3) (k : ℕ) (v : V3) :
    Within ((6.3 * k + 5) * size3 v) (rotateElemF true axis (90 * k) v) ((quarter axis)^[k] v) := by
  have e := C224_error true axis (90 * k) v
  have r : radians true (90 * k) = k * (π / 2) := by simp only [radians, if_true]; ring
  rw [r, turned_quarters, abs_of_nonneg (by positivity)] at e
  have s0 : 0 ≤ size3 v := by unfold size3; positivity
  have h : 4 * (k * (π / 2)) + 5 ≤ 6.3 * k + 5 := by
    have := mul_le_mul_of_nonneg_left (show 2 * π ≤ 6.3 by linarith [pi_lt_d2]) (Nat.cast_nonneg (α := ℝ) k)
    linarith
  have g : (4 * (k * (π / 2)) + 5) * size3 v * 2⁻¹ ^ 53 ≤ (6.3 * k + 5) * size3 v * 2⁻¹ ^ 53 :=
    mul_le_mul_of_nonneg_right (mul_le_mul_of_nonneg_right h s0) (by norm_num)
  exact ⟨e.1.trans g, e.2.1.trans g, e.2.2.trans g⟩

theorem rnd_rational (x : ℝ) : ∃ q : ℚ, rnd x = q :=
  ⟨rne (x / ulp x) * (2 : ℚ) ^ (Int.log 2 |x| - 52), by unfold rnd; rw [show ulp x = (2 : ℝ) ^ (Int.log 2 |x| - 52) from rfl]; push_cast; rfl⟩

theorem rnd_nonzero {x : ℝ} (h : x ≠ 0) : rnd x ≠ 0 := by
  rcases lt_or_gt_of_ne h with h | h
  · have := rnd_pos (neg_pos.mpr h)
    rw [rnd_neg] at this
    exact (neg_pos.mp this).ne
  · exact (rnd_pos h).ne'

/-- no rational angle other than zero is a multiple of a right angle -/
theorem rational_angle {q : ℚ} (h : (q : ℝ) ≠ 0) : sin (q : ℝ) ≠ 0 ∧ cos (q : ℝ) ≠ 0 := by
  have k : sin (2 * (q : ℝ)) ≠ 0 := by
    intro e
    obtain ⟨n, hn⟩ := sin_eq_zero_iff.mp e
    have n0 : (n : ℝ) ≠ 0 := by
      intro z
      rw [z, zero_mul] at hn
      exact h (by linarith)
    refine irrational_pi ⟨2 * q / n, ?_⟩
    push_cast
    rw [← hn]
    field_simp
  rw [sin_two_mul] at k
  exact ⟨fun e => k (by rw [e]; ring), fun e => k (by rw [e]; ring)⟩

/-- C225: whatever the angle in degrees, a turn never takes a coordinate axis exactly onto another, nor onto itself reversed -/
theorem C225_never (t : ℝ) (h : t ≠ 0) :
    (rotateElemF true 2 t ⟨1, 0, 0⟩).x ≠ 0 ∧ (rotateElemF true 2 t ⟨1, 0, 0⟩).y ≠ 0 ∧
    (rotateElemF true 0 t ⟨0, 1, 0⟩).y ≠ 0 ∧ (rotateElemF true 0 t ⟨0, 1, 0⟩).z ≠ 0 ∧
    (rotateElemF true 1 t ⟨0, 0, 1⟩).z ≠ 0 ∧ (rotateElemF true 1 t ⟨0, 0, 1⟩).x ≠ 0 := by
  obtain ⟨q, hq⟩ := rnd_rational (rnd (t * rnd π) / 180)
  have a : turnAngleF true t = q := by simpa only [turnAngleF, if_true] using hq
  have q0 : (q : ℝ) ≠ 0 := by
    rw [← hq]
    exact rnd_nonzero (div_ne_zero (rnd_nonzero (mul_ne_zero h (rnd_nonzero pi_ne_zero))) (by norm_num))
  obtain ⟨s, c⟩ := rational_angle q0
  have s' := rnd_nonzero s
  have c' := rnd_nonzero c
  have e := fun v => rotateElemF_eq true t v _ _ rfl rfl
  rw [(e _).2.2, (e _).1, (e _).2.1, a]
  simp only [mul_one, mul_zero, rnd_zero, add_zero, zero_add, rnd_again]
  exact ⟨c', s', c', s', c', s'⟩

/-- C225: 90 degrees does not take the x axis exactly to the y axis -/
theorem C225_refuted : ¬ C225_statement := by
  intro h
  have one : rnd 1 = 1 := by simpa using rnd_float (k := 1) 0 (by norm_num)
  have := congrArg V3.x (h 2 1 ⟨1, 0, 0⟩ one rnd_zero rnd_zero)
  exact (C225_never (90 * (1 : ℕ)) (by norm_num)).1 (this.trans (by simp [quarter]))

/-- the claims are about more than the zero vector: two quarter turns about z -/
example : (quarter 2)^[2] ⟨1, 2, 3⟩ = ⟨-1, -2, 3⟩ ∧ (90 : ℝ) ≠ 0 := ⟨rfl, by norm_num⟩

end Verif.Fp
