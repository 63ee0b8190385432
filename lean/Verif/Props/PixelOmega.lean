import Verif.Lemmas.Sphere
import Verif.Props.GssState

/-! C149: the solid angle `pixel2omega` gives to a pixel. -/

namespace Verif.Map
open Verif.Geo Verif.Gss Real

theorem polar_dot (u v : ℝ × ℝ) :
    (polar2view u).dot (polar2view v)
      = polFactor (rad2 u) * polFactor (rad2 v) * (u.1 * v.1 + u.2 * v.2) + cos (π * rad2 u) * cos (π * rad2 v) := by
  unfold polar2view V3.dot; ring

theorem rad2_sub_sq (u v : ℝ × ℝ) :
    rad2 (u.1 - v.1, u.2 - v.2) ^ 2 = rad2 u ^ 2 + rad2 v ^ 2 - 2 * (u.1 * v.1 + u.2 * v.2) := by
  rw [rad2_sq, rad2_sq, rad2_sq]; ring

theorem inner_le (u v : ℝ × ℝ) : |u.1 * v.1 + u.2 * v.2| ≤ rad2 u * rad2 v := by
  apply abs_le_of_sq_le_sq _ (mul_nonneg (rad2_nonneg _) (rad2_nonneg _))
  rw [mul_pow, rad2_sq, rad2_sq]
  nlinarith [sq_nonneg (u.1 * v.2 - u.2 * v.1)]

/-- directions are closer together than their points in the image -/
theorem polar_closer {u v : ℝ × ℝ} (hu : rad2 u ≤ 1) (hv : rad2 v ≤ 1) (h : rad2 u + rad2 v ≤ 5 / 4) :
    cos (π * rad2 (u.1 - v.1, u.2 - v.2)) ≤ (polar2view u).dot (polar2view v) := by
  have hpi := pi_pos
  have u0 := rad2_nonneg u
  have v0 := rad2_nonneg v
  rw [polar_dot]
  rcases eq_or_lt_of_le u0 with hu0 | hu0
  · have e := rad2_sub_sq u v
    have hi := inner_le u v
    rw [← hu0, zero_mul] at hi
    have hz : u.1 * v.1 + u.2 * v.2 = 0 := abs_eq_zero.mp (le_antisymm hi (abs_nonneg _))
    rw [hz, ← hu0] at e
    have e2 : rad2 (u.1 - v.1, u.2 - v.2) = rad2 v := by
      rw [← abs_of_nonneg (rad2_nonneg (u.1 - v.1, u.2 - v.2)), ← abs_of_nonneg v0]
      apply (sq_eq_sq_iff_abs_eq_abs _ _).mp
      linarith
    rw [hz, ← hu0, e2]
    simp
  rcases eq_or_lt_of_le v0 with hv0 | hv0
  · have e := rad2_sub_sq u v
    have hi := inner_le u v
    rw [← hv0, mul_zero] at hi
    have hz : u.1 * v.1 + u.2 * v.2 = 0 := abs_eq_zero.mp (le_antisymm hi (abs_nonneg _))
    rw [hz, ← hv0] at e
    have e2 : rad2 (u.1 - v.1, u.2 - v.2) = rad2 u := by
      rw [← abs_of_nonneg (rad2_nonneg (u.1 - v.1, u.2 - v.2)), ← abs_of_nonneg u0]
      apply (sq_eq_sq_iff_abs_eq_abs _ _).mp
      linarith
    rw [hz, ← hv0, e2]
    simp
  set t := (u.1 * v.1 + u.2 * v.2) / (rad2 u * rad2 v) with ht
  have huv : 0 < rad2 u * rad2 v := mul_pos hu0 hv0
  have hi := abs_le.mp (inner_le u v)
  have t0 : -1 ≤ t := by rw [ht, le_div_iff₀ huv]; linarith [hi.1]
  have t1 : t ≤ 1 := by rw [ht, div_le_one huv]; exact hi.2
  have hin : u.1 * v.1 + u.2 * v.2 = rad2 u * rad2 v * t := by rw [ht]; field_simp
  have hh := Sphere.hinge (r := π * rad2 u) (s := π * rad2 v) (by positivity) (by positivity) (by nlinarith) t0 t1
  have e : √((π * rad2 u) ^ 2 + (π * rad2 v) ^ 2 - 2 * (π * rad2 u) * (π * rad2 v) * t)
      = π * rad2 (u.1 - v.1, u.2 - v.2) := by
    rw [show (π * rad2 u) ^ 2 + (π * rad2 v) ^ 2 - 2 * (π * rad2 u) * (π * rad2 v) * t
      = (π * rad2 (u.1 - v.1, u.2 - v.2)) ^ 2 by rw [mul_pow π (rad2 (u.1 - v.1, u.2 - v.2)), rad2_sub_sq, hin]; ring]
    exact sqrt_sq (mul_nonneg hpi.le (rad2_nonneg _))
  rw [e] at hh
  have f1 := polFactor_eq u0 hu
  have f2 := polFactor_eq v0 hv
  rw [hin, show polFactor (rad2 u) * polFactor (rad2 v) * (rad2 u * rad2 v * t)
    = rad2 u * polFactor (rad2 u) * (rad2 v * polFactor (rad2 v)) * t by ring, f1, f2]
  linarith

theorem chord_le {u v : ℝ × ℝ} (hu : rad2 u ≤ 1) (hv : rad2 v ≤ 1) (h : rad2 u + rad2 v ≤ 5 / 4) :
    ((polar2view u).sub (polar2view v)).normSq ≤ 4 * sin (π * rad2 (u.1 - v.1, u.2 - v.2) / 2) ^ 2 := by
  have h1 := polar_closer hu hv h
  have a := polar2view_unit u
  have b := polar2view_unit v
  rw [normSq_dot] at a b
  rw [normSq_dot, sub_dot, a, b]
  have hc : (polar2view v).dot (polar2view u) = (polar2view u).dot (polar2view v) := by unfold V3.dot; ring
  rw [hc]
  have h2 := sin_sq_eq_half_sub (π * rad2 (u.1 - v.1, u.2 - v.2) / 2)
  rw [mul_div_cancel₀ _ (two_ne_zero' ℝ)] at h2
  linarith

theorem rad2_shift (a b e : ℝ) : rad2 (a, b) ≤ rad2 (a - e, b) + |e| ∧ rad2 (a, b) ≤ rad2 (a, b - e) + |e| := by
  have key : ∀ x y e : ℝ, x ^ 2 + y ^ 2 ≤ (√((x - e) ^ 2 + y ^ 2) + |e|) ^ 2 := by
    intro x y e
    have hs : √((x - e) ^ 2 + y ^ 2) ^ 2 = (x - e) ^ 2 + y ^ 2 := sq_sqrt (by positivity)
    have h1 : |x - e| ≤ √((x - e) ^ 2 + y ^ 2) := abs_le_sqrt (by nlinarith [sq_nonneg y])
    have h2 : (x - e) * e ≤ |x - e| * |e| := by rw [← abs_mul]; exact le_abs_self _
    have h3 : |e| ^ 2 = e ^ 2 := sq_abs e
    have h4 := abs_nonneg e
    nlinarith
  constructor
  · unfold rad2
    apply sqrt_le_iff.mpr
    exact ⟨by positivity, key a b e⟩
  · unfold rad2
    apply sqrt_le_iff.mpr
    refine ⟨by positivity, ?_⟩
    have := key b a e
    simp only
    rw [add_comm (a ^ 2), add_comm (a ^ 2)]
    exact this

/-- the side of a pixel in radians, at the centre of the view -/
noncomputable def pitch (va : ℝ) (res : ℕ) : ℝ := chordFactor va * va * π / 180 / res

/-- **C149** no pixel of the view is given a larger solid angle than a square of the sphere with the pixel's side. -/
theorem C149_bound (d : V3) (hd : d ≠ V3.zero) (va : ℝ) (h0 : 0 < va) (h1 : va ≤ 180) (res : ℕ) (hr : 0 < res)
    (hs : 4 ≤ res ∨ va ≤ 90) (x y : ℝ) (hin : (x / res - 1 / 2) ^ 2 + (y / res - 1 / 2) ^ 2 < (1 / 2) ^ 2) :
    (View.new d va).pixel2omega res (x, y) ≤ (2 * sin (pitch va res / 2)) ^ 2 := by
  have hpi := pi_pos
  have hR : (0 : ℝ) < res := by exact_mod_cast hr
  obtain ⟨c1, c2, c3, c4⟩ := cf_bounds h0 h1
  obtain ⟨_, _, e1, e2, e3⟩ := new_sf (d := d) (va := va) (by linarith)
  have hcv : (View.new d va).centred = fun q : ℝ × ℝ => (-((q.1 - 1 / 2) * (va * chordFactor va / 180)), (q.2 - 1 / 2) * (va * chordFactor va / 180)) := by
    funext q
    unfold View.centred
    rw [e1, e3]
    apply Prod.ext <;> simp only <;> ring
  set K := va * chordFactor va / 180 with hK
  have hK0 : 0 < K := by positivity
  have hK1 : K ≤ 1 := by rw [hK, div_le_one (by norm_num)]; nlinarith
  have hK2 : K * (1 + 1 / res) ≤ 5 / 4 := by
    rcases hs with hs | hs
    · have : (1 : ℝ) / res ≤ 1 / 4 := one_div_le_one_div_of_le (by norm_num) (by exact_mod_cast hs)
      nlinarith
    · have : (1 : ℝ) / res ≤ 1 := by rw [div_le_one hR]; exact_mod_cast hr
      have : K ≤ 1 / 2 := by rw [hK, div_le_iff₀ (by norm_num)]; nlinarith
      nlinarith
  have hoff := (rad2_lt_half (x / res, y / res)).mpr hin
  have hrad : ∀ a b : ℝ, rad2 (-(a * K), b * K) = K * rad2 (a, b) := by
    intro a b
    unfold rad2
    simp only
    rw [show (-(a * K)) ^ 2 + (b * K) ^ 2 = K ^ 2 * (a ^ 2 + b ^ 2) by ring, sqrt_mul (sq_nonneg K), sqrt_sq hK0.le]
  have hnear : ∀ e : ℝ, |e| = 1 / (2 * res) →
      rad2 (-((x / res - 1 / 2 + e) * K), (y / res - 1 / 2) * K) ≤ K * (1 + 1 / res) / 2 ∧
      rad2 (-((x / res - 1 / 2) * K), (y / res - 1 / 2 + e) * K) ≤ K * (1 + 1 / res) / 2 := by
    intro e he
    rw [hrad, hrad]
    have s1 := (rad2_shift (x / res - 1 / 2 + e) (y / res - 1 / 2) e).1
    have s2 := (rad2_shift (x / res - 1 / 2) (y / res - 1 / 2 + e) e).2
    rw [add_sub_cancel_right, he] at s1 s2
    have e4 : (1 : ℝ) / (2 * res) = 1 / res / 2 := by field_simp
    rw [e4] at s1 s2
    simp only at hoff
    constructor <;> nlinarith
  rw [pixel2omega_view hd]
  simp only [hcv]
  have q1 : (x + 1 / 2) / (res : ℝ) - 1 / 2 = x / res - 1 / 2 + 1 / (2 * res) := by field_simp; ring
  have q2 : (x - 1 / 2) / (res : ℝ) - 1 / 2 = x / res - 1 / 2 + -(1 / (2 * res)) := by field_simp; ring
  have q3 : (y + 1 / 2) / (res : ℝ) - 1 / 2 = y / res - 1 / 2 + 1 / (2 * res) := by field_simp; ring
  have q4 : (y - 1 / 2) / (res : ℝ) - 1 / 2 = y / res - 1 / 2 + -(1 / (2 * res)) := by field_simp; ring
  rw [q1, q2, q3, q4]
  have hp : (0 : ℝ) < 1 / (2 * res) := by positivity
  obtain ⟨n1, n3⟩ := hnear (1 / (2 * res)) (abs_of_pos hp)
  obtain ⟨n2, n4⟩ := hnear (-(1 / (2 * res))) (by rw [abs_neg, abs_of_pos hp])
  have l1 := chord_le (u := (-((x / res - 1 / 2 + 1 / (2 * res)) * K), (y / res - 1 / 2) * K))
    (v := (-((x / res - 1 / 2 + -(1 / (2 * res))) * K), (y / res - 1 / 2) * K)) (by linarith) (by linarith) (by linarith)
  have l2 := chord_le (u := (-((x / res - 1 / 2) * K), (y / res - 1 / 2 + 1 / (2 * res)) * K))
    (v := (-((x / res - 1 / 2) * K), (y / res - 1 / 2 + -(1 / (2 * res))) * K)) (by linarith) (by linarith) (by linarith)
  simp only at l1 l2
  have d1 : rad2 (-((x / res - 1 / 2 + 1 / (2 * res)) * K) - -((x / res - 1 / 2 + -(1 / (2 * res))) * K),
      (y / res - 1 / 2) * K - (y / res - 1 / 2) * K) = K / res := by
    unfold rad2
    simp only
    rw [show (-((x / res - 1 / 2 + 1 / (2 * res)) * K) - -((x / res - 1 / 2 + -(1 / (2 * (res : ℝ)))) * K)) ^ 2
      + ((y / res - 1 / 2) * K - (y / res - 1 / 2) * K) ^ 2 = (K / res) ^ 2 by field_simp; ring, sqrt_sq (by positivity)]
  have d2 : rad2 (-((x / res - 1 / 2) * K) - -((x / res - 1 / 2) * K),
      (y / res - 1 / 2 + 1 / (2 * res)) * K - (y / res - 1 / 2 + -(1 / (2 * res))) * K) = K / res := by
    unfold rad2
    simp only
    rw [show (-((x / res - 1 / 2) * K) - -((x / res - 1 / 2) * K)) ^ 2
      + ((y / res - 1 / 2 + 1 / (2 * res)) * K - (y / res - 1 / 2 + -(1 / (2 * (res : ℝ)))) * K) ^ 2 = (K / res) ^ 2 by field_simp; ring,
      sqrt_sq (by positivity)]
  rw [d1] at l1
  rw [d2] at l2
  have hpit : π * (K / res) / 2 = pitch va res / 2 := by rw [hK]; unfold pitch; ring
  rw [hpit] at l1 l2
  unfold V3.len
  apply sqrt_le_iff.mpr
  refine ⟨by positivity, ?_⟩
  rw [lagrange]
  generalize ((polar2view (-((x / res - 1 / 2 + 1 / (2 * res)) * K), (y / res - 1 / 2) * K)).sub
    (polar2view (-((x / res - 1 / 2 + -(1 / (2 * res))) * K), (y / res - 1 / 2) * K))) = X at *
  generalize ((polar2view (-((x / res - 1 / 2) * K), (y / res - 1 / 2 + 1 / (2 * res)) * K)).sub
    (polar2view (-((x / res - 1 / 2) * K), (y / res - 1 / 2 + -(1 / (2 * res))) * K))) = Y at *
  have hX : 0 ≤ X.normSq := by unfold V3.normSq; positivity
  have hY : 0 ≤ Y.normSq := by unfold V3.normSq; positivity
  have := mul_le_mul l1 l2 hY (by positivity)
  nlinarith [sq_nonneg (X.dot Y)]

/-- **C149** the pixel at the centre of the view is given exactly that. -/
theorem C149_centre (d : V3) (hd : d ≠ V3.zero) (va : ℝ) (h0 : 0 < va) (h1 : va ≤ 180) (res : ℕ) (hr : 0 < res) :
    (View.new d va).pixel2omega res ((res : ℝ) / 2, (res : ℝ) / 2) = (2 * sin (pitch va res / 2)) ^ 2 := by
  have hpi := pi_pos
  have hR : (0 : ℝ) < res := by exact_mod_cast hr
  obtain ⟨c1, c2, c3, c4⟩ := cf_bounds h0 h1
  obtain ⟨_, _, e1, e2, e3⟩ := new_sf (d := d) (va := va) (by linarith)
  have hcv : (View.new d va).centred = fun q : ℝ × ℝ => (-((q.1 - 1 / 2) * (va * chordFactor va / 180)), (q.2 - 1 / 2) * (va * chordFactor va / 180)) := by
    funext q
    unfold View.centred
    rw [e1, e3]
    apply Prod.ext <;> simp only <;> ring
  set K := va * chordFactor va / 180 with hK
  have hK0 : 0 < K := by positivity
  have hK1 : K ≤ 1 := by rw [hK, div_le_one (by norm_num)]; nlinarith
  rw [pixel2omega_view hd]
  simp only [hcv]
  have q1 : ((res : ℝ) / 2 + 1 / 2) / res - 1 / 2 = 1 / (2 * res) := by field_simp; ring
  have q2 : ((res : ℝ) / 2 - 1 / 2) / res - 1 / 2 = -(1 / (2 * res)) := by field_simp; ring
  have q3 : ((res : ℝ) / 2) / res - 1 / 2 = 0 := by field_simp; ring
  rw [q1, q2, q3]
  set e := 1 / (2 * (res : ℝ)) * K with he
  have hr1 : (1 : ℝ) ≤ res := by exact_mod_cast hr
  have hp : (0 : ℝ) < 1 / (2 * res) := by positivity
  have he0 : 0 < e := by positivity
  have he1 : e ≤ 1 := by
    have : 1 / (2 * (res : ℝ)) ≤ 1 := by rw [div_le_one (by positivity)]; linarith
    rw [he]; nlinarith
  have hpx : ∀ s : ℝ, |s| = e → polar2view (s, 0) = ⟨s / e * sin (π * e), 0, cos (π * e)⟩ ∧
      polar2view (0, s) = ⟨0, s / e * sin (π * e), cos (π * e)⟩ := by
    intro s hs
    have r1 : rad2 (s, 0) = e := by unfold rad2; simp [sqrt_sq_eq_abs, hs]
    have r2 : rad2 (0, s) = e := by unfold rad2; simp [sqrt_sq_eq_abs, hs]
    have f := polFactor_eq he0.le he1
    unfold polar2view
    rw [r1, r2, ← f]
    constructor <;> congr 1 <;> first | exact zero_mul _ | field_simp
  have z0 : (0 : ℝ) * K = 0 := zero_mul _
  rw [show -(1 / (2 * (res : ℝ))) * K = -e by rw [he]; ring, z0, neg_neg, neg_zero,
    (hpx e (abs_of_pos he0)).1, (hpx (-e) (by rw [abs_neg, abs_of_pos he0])).1, (hpx e (abs_of_pos he0)).2,
    (hpx (-e) (by rw [abs_neg, abs_of_pos he0])).2]
  have hpe : π * e = pitch va res / 2 := by rw [he, hK]; unfold pitch; field_simp
  rw [hpe]
  have d1 : e / e = 1 := div_self he0.ne'
  have d2 : -e / e = -1 := by rw [neg_div, d1]
  rw [d1, d2]
  unfold V3.len cross V3.sub V3.normSq
  simp only
  apply (sqrt_eq_iff_eq_sq (by positivity) (by positivity)).mpr
  ring

end Verif.Map
