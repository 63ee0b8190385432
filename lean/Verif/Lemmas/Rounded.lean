import Verif.Model.Rounded
import Verif.Lemmas.Square
import Mathlib.Analysis.Real.Pi.Bounds
import Mathlib.Analysis.SpecialFunctions.Trigonometric.Bounds
import Mathlib.Analysis.Convex.SpecificFunctions.Deriv

/-! Error bounds for the angular projection. -/

namespace Verif.Fp
open Verif.Geo Real

/-! The projection itself -/

/-- polar form of a direction, with the angles of `xyz2xy` -/
theorem polar3 (x y z : ℝ) :
    ∃ ρ θ φ, 0 ≤ ρ ∧ 0 ≤ θ ∧ θ ≤ π ∧ θ = arctan2 (√(x ^ 2 + y ^ 2)) z ∧ φ = arctan2 x y ∧ x = ρ * sin θ * sin φ ∧
      y = ρ * sin θ * cos φ ∧ z = ρ * cos θ := by
  have h1 := Complex.norm_mul_cos_arg ⟨z, √(x ^ 2 + y ^ 2)⟩
  have h2 := Complex.norm_mul_sin_arg ⟨z, √(x ^ 2 + y ^ 2)⟩
  have h3 := Complex.norm_mul_cos_arg ⟨y, x⟩
  have h4 := Complex.norm_mul_sin_arg ⟨y, x⟩
  have h5 : ‖(⟨y, x⟩ : ℂ)‖ = √(x ^ 2 + y ^ 2) := by
    rw [Complex.norm_def, Complex.normSq_apply]; congr 1; ring
  simp only at h1 h2 h3 h4
  rw [h5] at h3 h4
  refine ⟨‖(⟨z, √(x ^ 2 + y ^ 2)⟩ : ℂ)‖, arctan2 (√(x ^ 2 + y ^ 2)) z, arctan2 x y, norm_nonneg _, ?_, ?_, rfl, rfl,
    ?_, ?_, ?_⟩
  · unfold arctan2; exact Complex.arg_nonneg_iff.mpr (sqrt_nonneg _)
  · exact (arctan2_mem _ _).2
  · unfold arctan2; rw [h2, h4]
  · unfold arctan2; rw [h2, h3]
  · unfold arctan2; rw [h1]

theorem le_half_pi_sin {x : ℝ} (h0 : 0 ≤ x) (h1 : x ≤ π / 2) : x ≤ π / 2 * sin x := by
  have := mul_le_sin h0 h1
  have hp := pi_pos
  have h2 : π / 2 * (2 / π * x) = x := by field_simp
  nlinarith

/-- `sin` is at least a third of the angle up to 2.25 -/
theorem third_le_sin {x : ℝ} (h0 : 0 ≤ x) (h1 : x ≤ 2.25) : x ≤ 3 * sin x := by
  have hp := pi_gt_d2
  have hp' := pi_lt_d2
  rcases le_or_gt x (π / 2) with h | h
  · have := le_half_pi_sin h0 h
    have hs : 0 ≤ sin x := sin_nonneg_of_nonneg_of_le_pi h0 (by linarith)
    nlinarith
  · have e : sin x = cos (x - π / 2) := by rw [cos_sub_pi_div_two]
    have := one_sub_sq_div_two_le_cos (x := x - π / 2)
    rw [e]
    have h3 : 0 ≤ x - π / 2 := by linarith
    have h4 : x - π / 2 ≤ 0.68 := by linarith
    nlinarith

/-- The angular projection of a vector close to a unit vector is close to that of the unit vector. -/
theorem project_close {ρ θ φ θ₀ φ₀ q : ℝ} (hρ : 0 ≤ ρ) (h0 : 0 ≤ θ) (h1 : θ ≤ π) (g0 : 0 ≤ θ₀) (g1 : θ₀ ≤ 2.2218)
    (hq : q ≤ 1e-4)
    (hd : (ρ * sin θ * sin φ - sin θ₀ * sin φ₀) ^ 2 + (ρ * sin θ * cos φ - sin θ₀ * cos φ₀) ^ 2 +
      (ρ * cos θ - cos θ₀) ^ 2 ≤ q) :
    (θ * sin φ - θ₀ * sin φ₀) ^ 2 + (θ * cos φ - θ₀ * cos φ₀) ^ 2 ≤ 18 * q := by
  have hp := pi_gt_d2
  have hp' := pi_lt_d2
  set c := cos θ * cos θ₀ + sin θ * sin θ₀ * cos (φ - φ₀) with hc
  have e1 : (ρ * sin θ * sin φ - sin θ₀ * sin φ₀) ^ 2 + (ρ * sin θ * cos φ - sin θ₀ * cos φ₀) ^ 2 +
      (ρ * cos θ - cos θ₀) ^ 2 = ρ ^ 2 + 1 - 2 * ρ * c := by
    rw [hc, cos_sub]
    have a := sin_sq_add_cos_sq θ
    have b := sin_sq_add_cos_sq θ₀
    have d := sin_sq_add_cos_sq φ
    have e := sin_sq_add_cos_sq φ₀
    linear_combination (ρ ^ 2) * a + b + (ρ ^ 2 * sin θ ^ 2) * d + sin θ₀ ^ 2 * e
  rw [e1] at hd
  have hq0 : (ρ - c) ^ 2 + (1 - c ^ 2) ≤ q := by nlinarith
  have hs1 : 0 ≤ sin θ := sin_nonneg_of_nonneg_of_le_pi h0 h1
  have hs2 : 0 ≤ sin θ₀ := sin_nonneg_of_nonneg_of_le_pi g0 (by linarith)
  have hcd : c = cos (θ - θ₀) - sin θ * sin θ₀ * (1 - cos (φ - φ₀)) := by rw [hc, cos_sub θ θ₀]; ring
  have hv : 0 ≤ 1 - cos (φ - φ₀) := by linarith [cos_le_one (φ - φ₀)]
  have hss : 0 ≤ sin θ * sin θ₀ := mul_nonneg hs1 hs2
  have hc1 : c ≤ 1 := by linarith [cos_le_one (θ - θ₀), mul_nonneg hss hv]
  have hc0 : 0 < c := by
    have : ρ ≠ 0 := by rintro rfl; linarith
    have hρ' : 0 < ρ := lt_of_le_of_ne hρ (Ne.symm this)
    by_contra hn
    nlinarith
  have hchord : 2 - 2 * c ≤ 2 * q := by nlinarith [sq_nonneg (ρ - c)]
  -- the difference of the polar angles
  set x := |θ - θ₀| / 2 with hx
  have hx0 : 0 ≤ x := by positivity
  have hx1 : x ≤ π / 2 := by
    rw [hx]
    have : |θ - θ₀| ≤ π := abs_le.mpr ⟨by linarith, by linarith⟩
    linarith
  have ecos : cos (θ - θ₀) = 1 - 2 * sin x ^ 2 := by
    rw [← cos_abs, show |θ - θ₀| = 2 * x by rw [hx]; ring, cos_two_mul, cos_sq']; ring
  have hsx : 0 ≤ sin x := sin_nonneg_of_nonneg_of_le_pi hx0 (by linarith)
  have hlin := le_half_pi_sin hx0 hx1
  have e2 : 2 - 2 * c = 4 * sin x ^ 2 + 2 * (sin θ * sin θ₀) * (1 - cos (φ - φ₀)) := by rw [hcd, ecos]; ring
  have hsm : sin x ^ 2 ≤ q / 2 := by linarith [mul_nonneg hss hv]
  have hsx2 : sin x ≤ 0.0071 := by
    by_contra hn
    have := pow_lt_pow_left₀ (not_le.mp hn) (by norm_num) two_ne_zero
    norm_num at this
    linarith
  have hθ : θ ≤ 2.25 := by
    have : x ≤ 0.0112 := by
      have h4 : π / 2 * sin x ≤ 1.575 * 0.0071 := mul_le_mul (by linarith) hsx2 hsx (by norm_num)
      linarith
    have h3 := le_abs_self (θ - θ₀)
    rw [hx] at this
    linarith
  have k1 := third_le_sin h0 hθ
  have k2 := third_le_sin g0 (by linarith)
  have hprod : θ * θ₀ ≤ 9 * (sin θ * sin θ₀) := by
    have := mul_le_mul k1 k2 g0 (by positivity)
    linarith
  have hdiff : (θ - θ₀) ^ 2 ≤ 9 * (4 * sin x ^ 2) := by
    have : (θ - θ₀) ^ 2 = (2 * x) ^ 2 := by rw [hx, ← sq_abs]; ring
    have h4 : x ≤ 3 * sin x := by nlinarith
    have h6 := pow_le_pow_left₀ hx0 h4 2
    rw [this]
    linarith
  have e3 : (θ * sin φ - θ₀ * sin φ₀) ^ 2 + (θ * cos φ - θ₀ * cos φ₀) ^ 2 =
      (θ - θ₀) ^ 2 + 2 * (θ * θ₀) * (1 - cos (φ - φ₀)) := by
    rw [cos_sub]
    linear_combination θ ^ 2 * sin_sq_add_cos_sq φ + θ₀ ^ 2 * sin_sq_add_cos_sq φ₀
  rw [e3]
  have h5 := mul_le_mul_of_nonneg_right hprod hv
  linarith

/-! Rounded operations -/

theorem Arith.Ok.small {A : Arith} (h : A.Ok) : A.u ≤ 2.3e-16 := h.u1.trans (by norm_num)

/-- relative error as a factor -/
theorem rel {c e u : ℝ} (hu : 0 ≤ u) (h : |c - e| ≤ u * |e|) : ∃ g, |g - 1| ≤ u ∧ c = e * g := by
  rcases eq_or_ne e 0 with rfl | he
  · refine ⟨1, by simpa using hu, ?_⟩
    rw [abs_zero, mul_zero] at h
    have := abs_nonpos_iff.mp h
    linarith
  · refine ⟨c / e, ?_, by field_simp⟩
    have e1 : c / e - 1 = (c - e) / e := by field_simp
    rw [e1, abs_div, div_le_iff₀ (abs_pos.mpr he)]
    exact h

theorem near_mul {a b s t : ℝ} (ha : |a - 1| ≤ s) (hb : |b - 1| ≤ t) (hs : s ≤ 1e-3) : |a * b - 1| ≤ 1.001 * (s + t) := by
  have e : a * b - 1 = (a - 1) * (b - 1) + (a - 1) + (b - 1) := by ring
  have h0 : 0 ≤ s := (abs_nonneg _).trans ha
  have h1 : 0 ≤ t := (abs_nonneg _).trans hb
  have h2 : |(a - 1) * (b - 1)| ≤ s * t := by
    rw [abs_mul]; exact mul_le_mul ha hb (abs_nonneg _) h0
  have h3 : s * t ≤ 1e-3 * t := mul_le_mul_of_nonneg_right hs h1
  rw [e]
  have := abs_add_three ((a - 1) * (b - 1)) (a - 1) (b - 1)
  linarith

theorem near_inv {a s : ℝ} (ha : |a - 1| ≤ s) (hs : s ≤ 1e-3) : |1 / a - 1| ≤ 1.01 * s := by
  obtain ⟨h1, h2⟩ := abs_le.mp ha
  have hp : 0 < a := by linarith
  have e : 1 / a - 1 = -(a - 1) / a := by field_simp; ring
  rw [e, abs_div, abs_neg, abs_of_pos hp, div_le_iff₀ hp]
  have h0 : 0 ≤ s := (abs_nonneg _).trans ha
  nlinarith

theorem near_pos {a s : ℝ} (ha : |a - 1| ≤ s) (hs : s ≤ 1e-3) : 0 < a := by
  have := (abs_le.mp ha).1; linarith

section ops
variable {A : Arith} (h : A.Ok)
include h

theorem addR (a b : ℝ) : ∃ g, |g - 1| ≤ 2.3e-16 ∧ A.add a b = (a + b) * g := by
  obtain ⟨g, h1, h2⟩ := rel h.u0 (h.add a b); exact ⟨g, h1.trans h.small, h2⟩
theorem subR (a b : ℝ) : ∃ g, |g - 1| ≤ 2.3e-16 ∧ A.sub a b = (a - b) * g := by
  obtain ⟨g, h1, h2⟩ := rel h.u0 (h.sub a b); exact ⟨g, h1.trans h.small, h2⟩
theorem mulR (a b : ℝ) : ∃ g, |g - 1| ≤ 2.3e-16 ∧ A.mul a b = a * b * g := by
  obtain ⟨g, h1, h2⟩ := rel h.u0 (h.mul a b); exact ⟨g, h1.trans h.small, h2⟩
theorem divR (a : ℝ) {b : ℝ} (hb : b ≠ 0) : ∃ g, |g - 1| ≤ 2.3e-16 ∧ A.div a b = a / b * g := by
  obtain ⟨g, h1, h2⟩ := rel h.u0 (h.div a b hb); exact ⟨g, h1.trans h.small, h2⟩
theorem sqrtR {a : ℝ} (ha : 0 ≤ a) : ∃ g, |g - 1| ≤ 2.3e-16 ∧ A.sqrt a = √a * g := by
  obtain ⟨g, h1, h2⟩ := rel h.u0 (by rw [abs_of_nonneg (sqrt_nonneg a)]; exact h.sqrt a ha)
  exact ⟨g, h1.trans h.small, h2⟩
theorem atanR (a b : ℝ) : ∃ g, |g - 1| ≤ 9.2e-16 ∧ A.atan2 a b = arctan2 a b * g := by
  obtain ⟨g, h1, h2⟩ := rel (by have := h.u0; linarith) (h.atan2 a b)
  exact ⟨g, h1.trans (by have := h.small; linarith), h2⟩
theorem piR : ∃ g, |g - 1| ≤ 2.3e-16 ∧ A.pi = π * g := by
  obtain ⟨g, h1, h2⟩ := rel h.u0 (by rw [abs_of_pos pi_pos]; exact h.pi)
  exact ⟨g, h1.trans h.small, h2⟩
theorem sinA (a : ℝ) : |A.sin a - Real.sin a| ≤ 9.2e-16 := (h.sin a).trans (by have := h.small; linarith)
theorem cosA (a : ℝ) : |A.cos a - Real.cos a| ≤ 9.2e-16 := (h.cos a).trans (by have := h.small; linarith)

/-- the rounded hypotenuse -/
theorem hypR (x y : ℝ) : ∃ g, |g - 1| ≤ 7e-16 ∧ hyp A x y = √(x ^ 2 + y ^ 2) * g := by
  unfold hyp
  obtain ⟨g1, a1, e1⟩ := mulR h x x
  obtain ⟨g2, a2, e2⟩ := mulR h y y
  obtain ⟨g3, a3, e3⟩ := addR h (A.mul x x) (A.mul y y)
  have p1 := near_pos a1 (by norm_num)
  have p2 := near_pos a2 (by norm_num)
  have p3 := near_pos a3 (by norm_num)
  have hS : 0 ≤ A.add (A.mul x x) (A.mul y y) := by
    rw [e3, e1, e2]; nlinarith [mul_nonneg (mul_self_nonneg x) p1.le, mul_nonneg (mul_self_nonneg y) p2.le]
  obtain ⟨g4, a4, e4⟩ := sqrtR h hS
  set Q := x ^ 2 + y ^ 2 with hQ
  have hQ0 : 0 ≤ Q := by positivity
  obtain ⟨l1, u1⟩ := abs_le.mp a1
  obtain ⟨l2, u2⟩ := abs_le.mp a2
  obtain ⟨l3, u3⟩ := abs_le.mp a3
  have hs : A.mul x x + A.mul y y = x ^ 2 * g1 + y ^ 2 * g2 := by rw [e1, e2]; ring
  have b1 : (1 - 2.3e-16) * Q ≤ A.mul x x + A.mul y y := by
    rw [hs, hQ]; nlinarith [sq_nonneg x, sq_nonneg y]
  have b2 : A.mul x x + A.mul y y ≤ (1 + 2.3e-16) * Q := by
    rw [hs, hQ]; nlinarith [sq_nonneg x, sq_nonneg y]
  have hsum0 : 0 ≤ A.mul x x + A.mul y y := le_trans (by nlinarith) b1
  have c1 : (1 - 2.3e-16) ^ 2 * Q ≤ A.add (A.mul x x) (A.mul y y) := by
    rw [e3]
    have := mul_le_mul b1 (show (1 - 2.3e-16 : ℝ) ≤ g3 by linarith) (by norm_num) hsum0
    linarith
  have c2 : A.add (A.mul x x) (A.mul y y) ≤ (1 + 2.3e-16) ^ 2 * Q := by
    rw [e3]
    have := mul_le_mul b2 (show g3 ≤ (1 + 2.3e-16 : ℝ) by linarith) p3.le (by positivity)
    linarith
  have d1 : (1 - 2.3e-16) * √Q ≤ √(A.add (A.mul x x) (A.mul y y)) := by
    apply le_sqrt_of_sq_le
    rw [mul_pow, sq_sqrt hQ0]; exact c1
  have d2 : √(A.add (A.mul x x) (A.mul y y)) ≤ (1 + 2.3e-16) * √Q := by
    rw [sqrt_le_left (by positivity), mul_pow, sq_sqrt hQ0]; exact c2
  have hq := sqrt_nonneg Q
  have key : |√(A.add (A.mul x x) (A.mul y y)) - √Q| ≤ 2.3e-16 * |√Q| := by
    rw [abs_of_nonneg hq, abs_le]; constructor <;> linarith
  obtain ⟨g5, a5, e5⟩ := rel (by norm_num) key
  refine ⟨g5 * g4, (near_mul a5 a4 (by norm_num)).trans (by norm_num), ?_⟩
  rw [e4, e5]; ring

end ops

theorem abs_sqrt_sub_le {a b : ℝ} (ha : 0 ≤ a) (hb : 0 ≤ b) : |√a - b| ≤ √|a - b ^ 2| := by
  apply le_sqrt_of_sq_le
  have h1 : a - b ^ 2 = (√a - b) * (√a + b) := by linear_combination (-1) * sq_sqrt ha
  have h2 := sqrt_nonneg a
  have h3 : |√a - b| ≤ √a + b := by rw [abs_le]; constructor <;> linarith
  rw [h1, abs_mul, abs_of_nonneg (add_nonneg h2 hb), sq]
  exact mul_le_mul_of_nonneg_left h3 (abs_nonneg _)

theorem abs_cos_sub_le (a b : ℝ) : |Real.cos a - Real.cos b| ≤ |a - b| := by
  rw [cos_sub_cos, abs_mul, abs_mul, abs_neg, abs_two]
  have h1 := abs_sin_le_one ((a + b) / 2)
  have h2 : |sin ((a - b) / 2)| ≤ |(a - b) / 2| := abs_sin_le_abs
  rw [abs_div, abs_two] at h2
  nlinarith [abs_nonneg (sin ((a + b) / 2)), abs_nonneg (sin ((a - b) / 2))]

theorem abs_sin_sub_le (a b : ℝ) : |Real.sin a - Real.sin b| ≤ |a - b| := by
  have := abs_cos_sub_le (π / 2 - a) (π / 2 - b)
  rw [cos_pi_div_two_sub, cos_pi_div_two_sub, show π / 2 - a - (π / 2 - b) = -(a - b) by ring, abs_neg] at this
  exact this

/-- componentwise distance -/
def Near (a b : V3) (e : ℝ) : Prop := |a.x - b.x| ≤ e ∧ |a.y - b.y| ≤ e ∧ |a.z - b.z| ≤ e

/-- The rounded direction of a point of the image plane is close to the exact one. Near the centre the difference is
that of the square root of `1 - z * z`. -/
theorem polar2view_near {A : Arith} (h : A.Ok) (x y : ℝ) (hD : √(x ^ 2 + y ^ 2) ≤ 0.7072) :
    ∃ φ, x = √(x ^ 2 + y ^ 2) * sin φ ∧ y = √(x ^ 2 + y ^ 2) * cos φ ∧
      Near (polar2view A (x, y)) ⟨sin (π * √(x ^ 2 + y ^ 2)) * sin φ, sin (π * √(x ^ 2 + y ^ 2)) * cos φ,
        cos (π * √(x ^ 2 + y ^ 2))⟩ 1.01e-7 := by
  have hp := pi_gt_d2
  have hp' := pi_lt_d2
  obtain ⟨gh, ah, eh⟩ := hypR h x y
  set D := √(x ^ 2 + y ^ 2) with hDd
  have hD0 : 0 ≤ D := sqrt_nonneg _
  refine ⟨arctan2 x y, ?_, ?_, ?_⟩
  · have h4 := Complex.norm_mul_sin_arg ⟨y, x⟩
    have h5 : ‖(⟨y, x⟩ : ℂ)‖ = D := by
      rw [Complex.norm_def, Complex.normSq_apply, hDd]; congr 1; ring
    rw [h5] at h4; exact h4.symm
  · have h4 := Complex.norm_mul_cos_arg ⟨y, x⟩
    have h5 : ‖(⟨y, x⟩ : ℂ)‖ = D := by
      rw [Complex.norm_def, Complex.normSq_apply, hDd]; congr 1; ring
    rw [h5] at h4; exact h4.symm
  have hx : x = D * sin (arctan2 x y) := by
    have h4 := Complex.norm_mul_sin_arg ⟨y, x⟩
    have h5 : ‖(⟨y, x⟩ : ℂ)‖ = D := by
      rw [Complex.norm_def, Complex.normSq_apply, hDd]; congr 1; ring
    rw [h5] at h4; exact h4.symm
  have hy : y = D * cos (arctan2 x y) := by
    have h4 := Complex.norm_mul_cos_arg ⟨y, x⟩
    have h5 : ‖(⟨y, x⟩ : ℂ)‖ = D := by
      rw [Complex.norm_def, Complex.normSq_apply, hDd]; congr 1; ring
    rw [h5] at h4; exact h4.symm
  -- the third component
  obtain ⟨gp, ap, ep⟩ := piR h
  obtain ⟨gm, am, em⟩ := mulR h A.pi (hyp A x y)
  have hz : |zOf A (hyp A x y) - cos (π * D)| ≤ 4e-15 := by
    have e1 : A.mul A.pi (hyp A x y) = π * D * (gp * gh * gm) := by rw [em, ep, eh]; ring
    have n1 := near_mul (near_mul ap ah (by norm_num)) am (by norm_num)
    have e2 : A.mul A.pi (hyp A x y) - π * D = π * D * (gp * gh * gm - 1) := by rw [e1]; ring
    have n2 : |A.mul A.pi (hyp A x y) - π * D| ≤ 2.25 * 1.3e-15 := by
      rw [e2, abs_mul, abs_of_nonneg (by positivity)]
      refine mul_le_mul (by nlinarith) (n1.trans (by norm_num)) (abs_nonneg _) (by norm_num)
    have n3 := cosA h (A.mul A.pi (hyp A x y))
    have n4 := abs_cos_sub_le (A.mul A.pi (hyp A x y)) (π * D)
    unfold zOf
    have := abs_sub_le (A.cos (A.mul A.pi (hyp A x y))) (cos (A.mul A.pi (hyp A x y))) (cos (π * D))
    linarith
  -- the scale of the other two
  have key : ∀ t s : ℝ, t = D * s → |s| ≤ 1 →
      |A.mul t (polFactor A (hyp A x y)) - sin (π * D) * s| ≤ 1.01e-7 := by
    intro t s ht hs
    rcases eq_or_lt_of_le hD0 with h0 | h0
    · obtain ⟨g, _, e⟩ := mulR h t (polFactor A (hyp A x y))
      rw [e, ht, ← h0]
      simp; norm_num
    · have pg := near_pos ah (by norm_num)
      have hd : 0 < hyp A x y := by rw [eh]; positivity
      unfold polFactor
      rw [if_neg (not_le.mpr hd)]
      set z := zOf A (hyp A x y) with hzd
      have hz1 : |z| ≤ 1 := h.cos_le _
      obtain ⟨gz, az, ez⟩ := mulR h z z
      have pz := near_pos az (by norm_num)
      have hq1 : A.mul z z ≤ 1 := (le_abs_self _).trans (h.mul_le z z hz1 hz1)
      have hq0 : 0 ≤ A.mul z z := by rw [ez]; exact mul_nonneg (mul_self_nonneg z) pz.le
      obtain ⟨gs, as, es⟩ := subR h 1 (A.mul z z)
      have ps := near_pos as (by norm_num)
      set S := A.sub 1 (A.mul z z) with hS
      have hS0 : 0 ≤ S := by rw [es]; exact mul_nonneg (by linarith) ps.le
      have hsin : 0 ≤ sin (π * D) := sin_nonneg_of_nonneg_of_le_pi (by positivity) (by nlinarith)
      have hSd : |S - sin (π * D) ^ 2| ≤ 1e-14 := by
        have e1 : S - sin (π * D) ^ 2 = (1 - A.mul z z) * (gs - 1) - z * z * (gz - 1)
            - (z - cos (π * D)) * (z + cos (π * D)) := by
          rw [es, ez, sin_sq]; ring
        have zz : z * z ≤ 1 := by nlinarith [abs_le.mp hz1]
        have b1 : |(1 - A.mul z z) * (gs - 1)| ≤ 1 * 2.3e-16 := by
          rw [abs_mul]
          exact mul_le_mul (by rw [abs_of_nonneg (by linarith)]; linarith) as (abs_nonneg _) (by norm_num)
        have b2 : |z * z * (gz - 1)| ≤ 1 * 2.3e-16 := by
          rw [abs_mul]
          exact mul_le_mul (by rw [abs_of_nonneg (mul_self_nonneg z)]; exact zz) az (abs_nonneg _) (by norm_num)
        have b3 : |(z - cos (π * D)) * (z + cos (π * D))| ≤ 4e-15 * 2 := by
          rw [abs_mul]
          refine mul_le_mul hz ?_ (abs_nonneg _) (by norm_num)
          have := abs_add_le z (cos (π * D))
          have := abs_cos_le_one (π * D)
          linarith
        rw [e1]
        have c1 := abs_sub ((1 - A.mul z z) * (gs - 1) - z * z * (gz - 1)) ((z - cos (π * D)) * (z + cos (π * D)))
        have c2 := abs_sub ((1 - A.mul z z) * (gs - 1)) (z * z * (gz - 1))
        linarith
      have hr : |√S - sin (π * D)| ≤ 1e-7 := by
        refine (abs_sqrt_sub_le hS0 hsin).trans ?_
        rw [sqrt_le_left (by norm_num)]
        norm_num at hSd ⊢
        exact hSd
      obtain ⟨gt, at', et⟩ := sqrtR h hS0
      obtain ⟨gd, ad, ed⟩ := divR h (A.sqrt S) hd.ne'
      obtain ⟨gm2, am2, em2⟩ := mulR h t (A.div (A.sqrt S) (hyp A x y))
      have n1 := near_mul (near_mul (near_mul at' ad (by norm_num)) am2 (by norm_num))
        (near_inv ah (by norm_num)) (by norm_num)
      set G := gt * gd * gm2 * (1 / gh) with hG
      have e1 : A.mul t (A.div (A.sqrt S) (hyp A x y)) = s * (√S * G) := by
        rw [em2, ed, et, eh, ht, hG]
        field_simp
      have hS1 : √S ≤ 1.001 := by
        have := abs_le.mp hr
        have := sin_le_one (π * D)
        linarith
      have b1 : |√S * (G - 1)| ≤ 1.001 * 1e-14 := by
        rw [abs_mul, abs_of_nonneg (sqrt_nonneg S)]
        exact mul_le_mul hS1 (n1.trans (by norm_num)) (abs_nonneg _) (by norm_num)
      have e2 : s * (√S * G) - sin (π * D) * s = s * (√S * (G - 1) + (√S - sin (π * D))) := by ring
      rw [e1, e2, abs_mul]
      have b2 := abs_add_le (√S * (G - 1)) (√S - sin (π * D))
      have b3 : |√S * (G - 1) + (√S - sin (π * D))| ≤ 1.01e-7 := by linarith
      have := mul_le_mul hs b3 (abs_nonneg _) (by norm_num)
      linarith
  refine ⟨key x _ hx (abs_sin_le_one _), key y _ hy (abs_cos_le_one _), ?_⟩
  show |zOf A (hyp A x y) - cos (π * D)| ≤ 1.01e-7
  linarith

end Verif.Fp
