import Verif.Props.GssState
import Verif.Props.Project
import Mathlib.MeasureTheory.Measure.Lebesgue.VolumeOfBalls

/-! # Laws of the eye: C153, C154 -/

namespace Verif.Gss
open Verif.Geo Verif.Map Real MeasureTheory

/-! ## C153: units and limits -/

/-- **C153** the pupil area is the area of a disc as wide as the pupil -/
theorem C153_area {age ev : ℝ} (ha : 10 ≤ age) (ha' : age ≤ 56) (hev : 0 < ev) (z : ℂ) :
    (volume (Metric.ball z (pupd age ev / 2))).toReal = pupa age ev := by
  have h := (C77_pupil ha hev).1
  have h0 : 0 ≤ pupd age ev / 2 := by linarith
  rw [Complex.volume_ball, ENNReal.toReal_mul, ENNReal.toReal_pow, ENNReal.toReal_ofReal h0]
  unfold pupa
  simp; ring

example : (volume (Metric.ball (0 : ℂ) (pupd 40 500 / 2))).toReal = pupa 40 500 :=
  C153_area (by norm_num) (by norm_num) (by norm_num) 0

/-- **C153** an eye of another size but the same proportions sees the same retinal irradiance, which is proportional to
the luminance and the area of the pupil -/
theorem C153_scale {k f : ℝ} (hk : k ≠ 0) (pa lum : ℝ) :
    retinalIrradiance (k * f) (k ^ 2 * pa) lum = retinalIrradiance f pa lum ∧
    retinalIrradiance f pa (k * lum) = k * retinalIrradiance f pa lum ∧
    retinalIrradiance f (k * pa) lum = k * retinalIrradiance f pa lum ∧ retinalIrradiance 1 1 1 = 1 := by
  unfold retinalIrradiance
  refine ⟨?_, by ring, by ring, by norm_num⟩
  rw [mul_pow, mul_div_mul_left _ _ (pow_ne_zero 2 hk)]

/-- **C153** the exposure used for involuntary eye movements does not depend on the focal length of the eye -/
theorem C153_exposure_size {f f' : ℝ} (hf : f ≠ 0) (hf' : f' ≠ 0) (pa lum : ℝ) :
    tau f (retinalIrradiance f pa lum) = tau f' (retinalIrradiance f' pa lum) := by
  have e : ∀ g : ℝ, g ≠ 0 → retinalIrradiance g pa lum * g ^ 2 = pa * lum := fun g hg => by
    unfold retinalIrradiance; field_simp
  unfold tau
  rw [e f hf, e f' hf']

/-- **C153** a tenth of a second at one troland; the exposure shortens as the light gets stronger, ten times for
`10 ^ (25 / 3)` times the light -/
theorem C153_exposure {f : ℝ} (hf : 0 < f) {pa lum : ℝ} (hp : 0 < pa) (hl : 0 < lum) :
    (pa * lum = 1 → tau f (retinalIrradiance f pa lum) = 0.1) ∧
    tau f (retinalIrradiance f pa ((10 : ℝ) ^ (25 / 3 : ℝ) * lum)) = tau f (retinalIrradiance f pa lum) / 10 ∧
    (∀ lum', lum < lum' → tau f (retinalIrradiance f pa lum') < tau f (retinalIrradiance f pa lum)) ∧
    0 < tau f (retinalIrradiance f pa lum) := by
  have e : ∀ l : ℝ, retinalIrradiance f pa l * f ^ 2 = pa * l := fun l => by
    unfold retinalIrradiance; field_simp
  have hpl : 0 < pa * lum := mul_pos hp hl
  unfold tau
  simp only [e]
  refine ⟨fun h => by rw [h, one_rpow, div_one], ?_, fun l' h => ?_, by positivity⟩
  · rw [show pa * ((10 : ℝ) ^ (25 / 3 : ℝ) * lum) = (10 : ℝ) ^ (25 / 3 : ℝ) * (pa * lum) by ring,
      mul_rpow (by positivity) hpl.le, ← rpow_mul (by norm_num), show (25 / 3 * 0.12 : ℝ) = 1 by norm_num, rpow_one]
    field_simp
  · exact div_lt_div_of_pos_left (by norm_num) (by positivity)
      (rpow_lt_rpow hpl.le (mul_lt_mul_of_pos_left h hp) (by norm_num))

example : tau 16.67 (retinalIrradiance 16.67 (1 / 2) 2) = 0.1 :=
  (C153_exposure (by norm_num) (by norm_num) (by norm_num)).1 (by norm_num)

/-- **C153** half saturation in the dark, and where adaptation doubles the root -/
theorem C153_half_dark : halfSat 0 = 5.701055 ∧ halfSat 5.701055 = 2 ^ (2.55 : ℝ) * 5.701055 := by
  have e : ((5.701055 : ℝ) ^ (1 / 2.55 : ℝ)) ^ (2.55 : ℝ) = 5.701055 := by
    rw [← rpow_mul (by norm_num), show (1 / 2.55 * 2.55 : ℝ) = 1 by norm_num, rpow_one]
  unfold halfSat
  constructor
  · rw [zero_rpow (by norm_num), add_zero, e]
  · rw [← two_mul, mul_rpow (by norm_num) (by positivity), e]

theorem lt_halfSat {ea : ℝ} (h : 0 ≤ ea) : ea < halfSat ea := by
  unfold halfSat
  have e : (ea ^ (1 / 2.55 : ℝ)) ^ (2.55 : ℝ) = ea := by
    rw [← rpow_mul h, show (1 / 2.55 * 2.55 : ℝ) = 1 by norm_num, rpow_one]
  conv_lhs => rw [← e]
  refine rpow_lt_rpow (rpow_nonneg h _) ?_ (by norm_num)
  have : (0 : ℝ) < (5.701055 : ℝ) ^ (1 / 2.55 : ℝ) := by positivity
  linarith

/-- **C153** what the cones are adapted to gives less than half of the response, -/
theorem C153_adapted {e : ℝ} (h : 0 < e) : coneResponse e e < 1 / 2 := by
  have h1 : e ^ (0.74 : ℝ) < halfSat e ^ (0.74 : ℝ) := rpow_lt_rpow h.le (lt_halfSat h.le) (by norm_num)
  have h0 := rpow_pos_of_pos h 0.74
  unfold coneResponse
  rw [div_lt_div_iff₀ (by linarith) (by norm_num)]
  linarith

/-- the ratio of half saturation to adaptation tends to one in bright light -/
theorem halfSat_ratio : Filter.Tendsto (fun e : ℝ => halfSat e / e) Filter.atTop (nhds 1) := by
  have e1 : ∀ e : ℝ, 0 < e → halfSat e / e = ((5.701055 / e) ^ (1 / 2.55 : ℝ) + 1) ^ (2.55 : ℝ) := fun e he => by
    unfold halfSat
    have e2 : (e ^ (1 / 2.55 : ℝ)) ^ (2.55 : ℝ) = e := by
      rw [← rpow_mul he.le, show (1 / 2.55 * 2.55 : ℝ) = 1 by norm_num, rpow_one]
    have hp := rpow_pos_of_pos he (1 / 2.55)
    nth_rewrite 2 [← e2]
    rw [← div_rpow (by positivity) hp.le, add_div, div_self hp.ne', ← div_rpow (by norm_num) he.le]
  have t1 : Filter.Tendsto (fun e : ℝ => 5.701055 / e) Filter.atTop (nhds 0) :=
    Filter.Tendsto.div_atTop tendsto_const_nhds Filter.tendsto_id
  have t2 : Filter.Tendsto (fun e : ℝ => (5.701055 / e) ^ (1 / 2.55 : ℝ)) Filter.atTop (nhds ((0 : ℝ) ^ (1 / 2.55 : ℝ))) :=
    t1.rpow_const (Or.inr (by norm_num))
  rw [zero_rpow (by norm_num)] at t2
  have t3 := ((t2.add_const 1).rpow_const (p := 2.55) (Or.inr (by norm_num)))
  rw [zero_add, one_rpow] at t3
  exact t3.congr' (by filter_upwards [Filter.eventually_gt_atTop 0] with e he; exact (e1 e he).symm)

/-- **C153** and half of it in bright light -/
theorem C153_bright : Filter.Tendsto (fun e : ℝ => coneResponse e e) Filter.atTop (nhds (1 / 2)) := by
  have t := (halfSat_ratio.rpow_const (p := 0.74) (Or.inr (by norm_num)))
  rw [one_rpow] at t
  have t2 := (t.const_add 1).inv₀ (by norm_num)
  rw [show ((1 : ℝ) + 1)⁻¹ = 1 / 2 by norm_num] at t2
  refine t2.congr' ?_
  filter_upwards [Filter.eventually_gt_atTop 0] with e he
  have h0 := rpow_pos_of_pos he 0.74
  have h1 := rpow_pos_of_pos (halfSat_pos he.le) 0.74
  unfold coneResponse
  rw [div_rpow (halfSat_pos he.le).le he.le, ← one_div]
  generalize e ^ (0.74 : ℝ) = a at *
  generalize halfSat e ^ (0.74 : ℝ) = b at *
  field_simp

/-! ## C154: the widths of the receptive fields -/

/-- what the widths should be: 0.009 at the line of sight, growing with the angle to 0.12 at 95 degrees to the sides,
55 degrees above and 85 degrees below; `r` and `u` are the angles to the side and up in degrees -/
noncomputable def fieldWidth (r u : ℝ) : ℝ :=
  0.009 + (0.12 - 0.009) * min (√((r / 95) ^ 2 + (u / if 0 ≤ u then 55 else 85) ^ 2)) 1

/-- lengths of close vectors are close -/
theorem hyp_close (a b c d : ℝ) : √(a ^ 2 + b ^ 2) ≤ √(c ^ 2 + d ^ 2) + (|a - c| + |b - d|) := by
  set s := √(c ^ 2 + d ^ 2) with hs
  have s0 : 0 ≤ s := sqrt_nonneg _
  have s2 : s ^ 2 = c ^ 2 + d ^ 2 := sq_sqrt (by positivity)
  have hc : |c| ≤ s := by rw [← sqrt_sq_eq_abs]; exact sqrt_le_sqrt (by nlinarith [sq_nonneg d])
  have hd : |d| ≤ s := by rw [← sqrt_sq_eq_abs]; exact sqrt_le_sqrt (by nlinarith [sq_nonneg c])
  have ea := abs_nonneg (a - c)
  have eb := abs_nonneg (b - d)
  rw [sqrt_le_left (by positivity)]
  have ha : a ^ 2 ≤ (|c| + |a - c|) ^ 2 := by
    rw [← sq_abs a]
    refine pow_le_pow_left₀ (abs_nonneg a) ?_ 2
    have := abs_add_le c (a - c); rwa [add_sub_cancel] at this
  have hb : b ^ 2 ≤ (|d| + |b - d|) ^ 2 := by
    rw [← sq_abs b]
    refine pow_le_pow_left₀ (abs_nonneg b) ?_ 2
    have := abs_add_le d (b - d); rwa [add_sub_cancel] at this
  have h1 := mul_le_mul_of_nonneg_right hc ea
  have h2 := mul_le_mul_of_nonneg_right hd eb
  have h3 := mul_nonneg ea eb
  have h4 : 0 ≤ s * |a - c| := by positivity
  have c2 := sq_abs c
  have d2 := sq_abs d
  nlinarith

/-- the widths computed from view coordinates are those of the angles, if the view shows 180 degrees -/
theorem sigmaC_close (q : ℝ × ℝ) (hx0 : 0 ≤ q.1) (hx1 : q.1 ≤ 1) (hy0 : 0 ≤ q.2) (hy1 : q.2 ≤ 1) :
    |sigmaC q - fieldWidth ((q.1 - 1 / 2) * 180) ((q.2 - 1 / 2) * 180)| ≤ 2e-6 := by
  have key : ∀ a b c d : ℝ, |a - c| + |b - d| ≤ 1e-5 →
      |min (√(a ^ 2 + b ^ 2)) 1 - min (√(c ^ 2 + d ^ 2)) 1| ≤ 1e-5 := by
    intro a b c d h
    have h1 := hyp_close a b c d
    have h2 := hyp_close c d a b
    rw [abs_sub_comm c a, abs_sub_comm d b] at h2
    have h3 := abs_min_sub_min_le_max (√(a ^ 2 + b ^ 2)) 1 (√(c ^ 2 + d ^ 2)) 1
    rw [sub_self, abs_zero, max_eq_left (abs_nonneg _)] at h3
    refine h3.trans (abs_le.mpr ⟨by linarith, by linarith⟩)
  have hx : |(q.1 * 2 - 1) / 1.05556 - (q.1 - 1 / 2) * 180 / 95| ≤ 4e-6 := by
    rw [abs_le]; constructor <;> norm_num <;> linarith
  have hy : |vecc (q.2 * 2 - 1) - (q.2 - 1 / 2) * 180 / (if 0 ≤ (q.2 - 1 / 2) * 180 then 55 else 85)| ≤ 6e-6 := by
    unfold vecc
    by_cases h : 0 ≤ q.2 - 1 / 2
    · rw [if_pos (by linarith), if_pos (by linarith), abs_le]; constructor <;> norm_num <;> linarith
    · rw [if_neg (by linarith), if_neg (by linarith), abs_le]; constructor <;> norm_num <;> linarith
  have h := key _ _ _ _ (show _ ≤ (1e-5 : ℝ) from (add_le_add hx hy).trans (by norm_num))
  unfold sigmaC fieldWidth emax emin
  rw [show ∀ m n : ℝ, m * (0.12 - 0.009) + 0.009 - (0.009 + (0.12 - 0.009) * n) = (m - n) * 0.111 by intros; ring,
    abs_mul, abs_of_pos (show (0 : ℝ) < 0.111 by norm_num)]
  nlinarith

/-- **C154** for views of 180 degrees: the width of the pixel that shows a direction is the one of its angles -/
theorem C154_partial (d : V3) (hd : d ≠ V3.zero) (q : ℝ × ℝ) (hx0 : 0 ≤ q.1) (hx1 : q.1 ≤ 1) (hy0 : 0 ≤ q.2)
    (hy1 : q.2 ≤ 1) :
    |sigmaC ((View.new d 180).xyz2vxy ((View.new d 180).vxy2xyz q)) -
      fieldWidth ((q.1 - 1 / 2) * 180) ((q.2 - 1 / 2) * 180)| ≤ 2e-6 := by
  rw [C91_zoom d hd 180 180 (by norm_num) le_rfl (by norm_num) le_rfl q hx0 hx1 hy0 hy1, cf_180]
  rw [show ((180 : ℝ) * 1 / (180 * 1)) = 1 by norm_num, mul_one, mul_one, add_sub_cancel, add_sub_cancel]
  exact sigmaC_close q hx0 hx1 hy0 hy1

/-- **C154** for any view: angles are stretched as if the view showed 180 degrees -/
theorem C154_stretched (d : V3) (hd : d ≠ V3.zero) (va : ℝ) (h0 : 0 < va) (h1 : va ≤ 180) (q : ℝ × ℝ)
    (hx0 : 0 ≤ q.1) (hx1 : q.1 ≤ 1) (hy0 : 0 ≤ q.2) (hy1 : q.2 ≤ 1) :
    |sigmaC ((View.new d va).xyz2vxy ((View.new d va).vxy2xyz q)) -
      fieldWidth ((q.1 - 1 / 2) * 180) ((q.2 - 1 / 2) * 180)| ≤ 2e-6 := by
  have hk := (va_cf_pos h0 h1).1.ne'
  rw [C91_zoom d hd va va h0 h1 h0 h1 q hx0 hx1 hy0 hy1, div_self hk, mul_one, mul_one, add_sub_cancel, add_sub_cancel]
  exact sigmaC_close q hx0 hx1 hy0 hy1

/-- **C154**, the full claim: the width of a direction is the same in every view that looks the same way and shows it -/
def C154_statement : Prop :=
  ∀ (d : V3) (va va' : ℝ) (p : V3), d ≠ V3.zero → 0 < va → va ≤ 180 → 0 < va' → va' ≤ 180 →
    (View.new d va).inView 0 p → (View.new d va').inView 0 p →
    |sigmaC ((View.new d va).xyz2vxy p) - sigmaC ((View.new d va').xyz2vxy p)| ≤ 1e-5

/-- **C154** is false: 15 degrees above the line of sight in a view of about 60 degrees -/
theorem C154_refuted : ¬ C154_statement := by
  intro h
  obtain ⟨va, h0, h1, hk⟩ := exists_third
  set d : V3 := ⟨0, 1, 0⟩ with hd
  obtain ⟨_, _, f1, f2, f3⟩ := new_sf (d := d) (va := va) (by linarith)
  obtain ⟨_, _, e1, e2, e3⟩ := new_sf (d := d) (va := 180) (by norm_num)
  have hk180 : (180 : ℝ) * chordFactor 180 = 180 := by rw [cf_180]; norm_num
  have hray : (View.new d va).vxy2xyz (1 / 2, 3 / 4) = (View.new d 180).vxy2xyz (1 / 2, 7 / 12) := by
    unfold View.vxy2xyz View.vxy2xyzM
    simp only
    rw [new_v2w dflt_ne, new_v2w dflt_ne]
    congr 2
    unfold View.centred
    rw [f1, f3, hk, e1, e3, hk180]
    norm_num
  have i1 := (C53_circle_partial d dflt_clear va h0 h1 (1 / 2, 3 / 4) (by norm_num) (by norm_num) (by norm_num)
    (by norm_num)).mpr (by norm_num)
  have i2 := (C53_circle_partial d dflt_clear 180 (by norm_num) le_rfl (1 / 2, 7 / 12) (by norm_num) (by norm_num)
    (by norm_num) (by norm_num)).mpr (by norm_num)
  have r := h d va 180 _ dflt_ne h0 h1 (by norm_num) le_rfl i1 (hray ▸ i2)
  have c1 := C154_stretched d dflt_ne va h0 h1 (1 / 2, 3 / 4) (by norm_num) (by norm_num) (by norm_num) (by norm_num)
  have c2 := C154_partial d dflt_ne (1 / 2, 7 / 12) (by norm_num) (by norm_num) (by norm_num) (by norm_num)
  rw [← hray] at c2
  have w : ∀ u : ℝ, 0 ≤ u → u ≤ 55 → fieldWidth 0 u = 0.009 + 0.111 * (u / 55) := fun u hu hu' => by
    unfold fieldWidth
    rw [if_pos hu, zero_div, zero_pow two_ne_zero, zero_add, sqrt_sq (by positivity), min_eq_left (by
      rw [div_le_one (by norm_num)]; exact hu')]
    norm_num
  simp only [sub_self, zero_mul] at c1 c2
  rw [w _ (by norm_num) (by norm_num)] at c1 c2
  rw [abs_le] at r c1 c2
  norm_num at r c1 c2
  linarith [r.1, r.2, c1.1, c1.2, c2.1, c2.2]

end Verif.Gss

namespace Verif.Gss
open Verif.Geo Verif.Map Real

/-- **C79** what the geometry of a view is, in terms of the place of the pixel in the image: the ray comes back to its
pixel, the mask is the inscribed circle, solid angles are those of `pixel2omega` inside it and zero outside, the cosine is
that of the angle which grows with the distance from the centre, the widths are those of C154. -/
theorem C79_pixels (d : V3) (hd : Clear d) (va : ℝ) (h0 : 0 < va) (h1 : va ≤ 180) (s : St) (r : ℕ)
    (g : GeoOf s (View.new d va) r) (i j : ℕ) (hi : i < r) (hj : j < r) (a b : ℝ) (ha : a = ((i : ℝ) + 1 / 2) / r - 1 / 2)
    (hb : b = ((j : ℝ) + 1 / 2) / r - 1 / 2) :
    (s.vecs i j).normSq = 1 ∧ (View.new d va).ray2pixel r (s.vecs i j) = ((i : ℤ), (j : ℤ)) ∧
    (s.mask i j ↔ a ^ 2 + b ^ 2 < (1 / 2) ^ 2) ∧
    (a ^ 2 + b ^ 2 < (1 / 2) ^ 2 → s.omega i j = (View.new d va).pixel2omega r (pixelCentre i j)) ∧
    (¬ a ^ 2 + b ^ 2 < (1 / 2) ^ 2 → s.omega i j = 0) ∧
    s.ctheta i j = max 0 (cos (√(a ^ 2 + b ^ 2) * (chordFactor va * va * π / 180))) ∧
    |s.sigma i j - fieldWidth (a * 180) (b * 180)| ≤ 2e-6 := by
  obtain ⟨x0, x1⟩ := centre_div hi
  obtain ⟨y0, y1⟩ := centre_div hj
  have hray : raysOf (View.new d va) r i j = (View.new d va).vxy2xyz (((i : ℝ) + 1 / 2) / r, ((j : ℝ) + 1 / 2) / r) := rfl
  obtain ⟨p1, p2⟩ := C52_pixel_round_trip d hd.1 va h0 h1 r i j hi hj
  have hm : maskOf (View.new d va) r i j ↔ a ^ 2 + b ^ 2 < (1 / 2) ^ 2 := by
    unfold maskOf
    rw [hray, C53_circle_partial d hd va h0 h1 _ x0 x1 y0 y1, ha, hb]
  have hc := C53_equiangular_partial d hd va h0 h1 (((i : ℝ) + 1 / 2) / r, ((j : ℝ) + 1 / 2) / r) x0 x1 y0 y1
  refine ⟨by rw [g.vecs]; exact p2, by rw [g.vecs]; exact p1, by rw [g.mask]; exact hm, fun h => ?_, fun h => ?_, ?_, ?_⟩
  · rw [g.omega]; unfold omegaOf; rw [if_pos (hm.mpr h)]
  · rw [g.omega]; unfold omegaOf; rw [if_neg (fun h' => h (hm.mp h'))]
  · rw [g.ctheta]
    unfold cthetaOf
    rw [hray, ha, hb]
    simp only at hc
    rw [← hc]
    unfold View.radians Geo.radians
    rw [cos_arccos]
    · unfold Geo.ctheta clip1; exact le_min (le_max_right _ _) (by norm_num)
    · unfold Geo.ctheta clip1; exact min_le_right _ _
  · rw [g.sigma]
    unfold sigmaOf
    rw [hray, ha, hb]
    exact C154_stretched d hd.1 va h0 h1 _ x0 x1 y0 y1

/-- after loading a two by two image of the default view the pixel at the lower left is in the mask -/
example (s : St) (g : GeoOf s (View.new ⟨0, 1, 0⟩ 180) 2) : s.mask 0 0 :=
  (C79_pixels ⟨0, 1, 0⟩ dflt_clear 180 (by norm_num) le_rfl s 2 g 0 0 (by norm_num) (by norm_num) _ _ rfl rfl).2.2.1.mpr
    (by norm_num)

end Verif.Gss

namespace Verif.Gss
open Verif.Geo Verif.Map Real

/-- **C79** the shapes of images accepted once an `r * r` image is loaded: of `r` rows, square ones and, although they are
no images of the view, single columns -/
theorem C79_shapes (s : St) (r : ℕ) (hr : 1 < r) (h1 : s.res = r) (h2 : s.gres = r) (p : Pic) (hp : p.rows = r) :
    ((load s p).2 = none → p.cols = r ∨ p.cols = 1) ∧
    (p.cols ≠ r → p.cols ≠ 1 → (load s p).2 = some .ValueError) ∧
    (p.cols = r ∨ p.cols = 1 → sumPx r (wgt s p) ≠ 0 → (load s p).2 = none) := by
  have e : load s p = setEcc { s with lum := some p } p := by
    unfold load; rw [if_neg (by rw [h1, hp]; simp)]
  have hb : bcast p.rows s.gres := Or.inl (by rw [hp, h2])
  have key : p.cols ≠ r → p.cols ≠ 1 → (load s p).2 = some .ValueError := by
    intro a b
    rw [e]
    unfold setEcc
    rw [if_pos]
    rintro ⟨-, h | h | h⟩
    · exact a (h.trans h2)
    · exact b h
    · exact absurd (h2.symm.trans h) (by omega)
  refine ⟨fun h => ?_, key, fun h hs => ?_⟩
  · by_contra hc
    push Not at hc
    rw [key hc.1 hc.2] at h
    cases h
  · rw [e]
    unfold setEcc
    rw [if_neg (by
      rw [not_not]
      refine ⟨hb, ?_⟩
      rcases h with h | h
      · exact Or.inl (by rw [h]; exact h2.symm)
      · exact Or.inr (Or.inl h)), if_neg, if_neg]
    · rw [hp]; exact hs
    · rw [not_not]
      refine ⟨Or.inl (by rw [hp]; exact h2), ?_⟩
      rcases h with h | h
      · exact Or.inl (by rw [h, hp])
      · exact Or.inr ⟨h, by rw [hp]; exact h2⟩

end Verif.Gss

/-! ### C157 -/

namespace Verif.Gss
open Real

variable {ι κ : Type} [Fintype ι] [Fintype κ]

/-- a filter whose width is given in degrees, on an image of `pp` pixels per degree -/
noncomputable def inDegrees (H : Filter ι) (pp : ℝ) : Filter ι := fun s t => H (s / pp) t

theorem eyeMove1_deg (H : Filter ι) {pp : ℝ} (h : 0 < pp) (er : ι → ℝ) :
    eyeMove1 (inDegrees H pp) pp er = eyeMove1 H 1 er := by
  funext i
  unfold eyeMove1 inDegrees
  have a : 4.2341723424 * pp / pp = (4.2341723424 : ℝ) * 1 := by field_simp
  have b : 14.1421356237 * pp / pp = (14.1421356237 : ℝ) * 1 := by field_simp
  have c : 30 * pp / (14.1421356237 * pp) = (30 : ℝ) * 1 / (14.1421356237 * 1) := by field_simp
  rw [a, b, c]

theorem eyeMove2_deg (H : Filter ι) {pp : ℝ} (h : 0 < pp) (f : ℝ) (er : ι → ℝ) (eg : ℝ) :
    eyeMove2 (inDegrees H pp) pp f er eg = eyeMove2 H 1 f er eg := by
  funext i
  unfold eyeMove2 inDegrees
  have a : ∀ x : ℝ, x * pp / pp = x * 1 := fun x => by field_simp
  simp only [a]

theorem rfStep_deg (H : Filter ι) {pp : ℝ} (h : 0 < pp) (sig vvm : ι → ℝ) :
    rfStep (inDegrees H pp) pp sig vvm = rfStep H 1 sig vvm := by
  funext acc k
  unfold rfStep inDegrees
  have a : stp k * pp * 60 / pp = stp k * 1 * 60 := by field_simp
  have b : stp k * pp * 60 * 3.5 / pp = stp k * 1 * 60 * 3.5 := by field_simp
  rw [a, b]

/-- **C157** all the blurs of the model — both eye movements and the receptive fields — have a fixed width in degrees: with
a filter given in degrees the response does not depend on the number of pixels per degree -/
theorem C157_degrees (o : Obs) (H : Filter ι) (sc : Scene ι κ) (h : 0 < sc.pp) (img : ι → ℝ) (eg pa : ℝ) :
    glareResponse o (inDegrees H sc.pp) sc img eg pa = glareResponse o H { sc with pp := 1 } img eg pa := by
  have e1 : ∀ er, forAdapt o (inDegrees H sc.pp) sc er = forAdapt o H { sc with pp := 1 } er := by
    intro er
    unfold forAdapt
    rw [eyeMove1_deg H h]
    rfl
  have e2 : ∀ er eg, forCone o (inDegrees H sc.pp) sc er eg = forCone o H { sc with pp := 1 } er eg := by
    intro er eg
    unfold forCone
    rw [eyeMove2_deg H h]
    rfl
  have e3 : ∀ er eg, ratio o (inDegrees H sc.pp) sc er eg = ratio o H { sc with pp := 1 } er eg := by
    intro er eg
    funext i
    unfold ratio
    rw [e1, e2]
  funext i
  unfold glareResponse fieldResponse
  simp only [e3, rfStep_deg H h]

/-- **C157** so neither does the score -/
theorem C157_score (o : Obs) (H : Filter ι) (sc : Scene ι κ) (h : 0 < sc.pp) (age ev ecc : ℝ) (img : ι → ℝ) :
    compute o (inDegrees H sc.pp) sc age ev ecc img = compute o H { sc with pp := 1 } age ev ecc img := by
  unfold compute
  rw [C157_degrees o H sc h]

/-- **C157** the blur of the direct eye movement narrows with the light the eye is adapted to: `k` times as much light
narrows both passes by `k ^ 0.06`, as does an eye of a focal length larger by `√k` -/
theorem C157_brighter (H : Filter ι) (pp f eg k : ℝ) (hf : 0 < f) (he : 0 < eg) (hk : 0 < k) (er : ι → ℝ) :
    eyeMove2 H pp f er (k * eg) = eyeMove2 (fun s t => H (s / k ^ (0.06 : ℝ)) t) pp f er eg ∧
    eyeMove2 H pp (√k * f) er eg = eyeMove2 H pp f er (k * eg) := by
  have hb : 0 < eg * f ^ 2 := by positivity
  have t1 : tau f (k * eg) = tau f eg / (k ^ (0.06 : ℝ)) ^ 2 := by
    unfold tau
    have : (k ^ (0.06 : ℝ)) ^ 2 = k ^ (0.12 : ℝ) := by
      rw [← rpow_natCast, ← rpow_mul hk.le]; norm_num
    rw [this, mul_assoc, mul_rpow hk.le hb.le, div_div, mul_comm (k ^ (0.12 : ℝ))]
  have t2 : tau (√k * f) eg = tau f (k * eg) := by
    unfold tau
    rw [mul_pow, sq_sqrt hk.le]
    ring_nf
  have hw : 0 < k ^ (0.06 : ℝ) := rpow_pos_of_pos hk _
  have s1 : ∀ c : ℝ, 0 ≤ c → 2 * √(c * tau f (k * eg)) * pp = 2 * √(c * tau f eg) * pp / k ^ (0.06 : ℝ) := by
    intro c hc
    rw [t1, ← mul_div_assoc, sqrt_div' _ (by positivity), sqrt_sq hw.le]
    ring
  refine ⟨?_, ?_⟩
  · funext i
    unfold eyeMove2
    rw [s1 250 (by norm_num), s1 30 (by norm_num)]
  · funext i
    unfold eyeMove2
    rw [t2]

/-- a filter that answers its own width -/
example : eyeMove2 (ι := Unit) (fun s _ _ _ => s) 1 1 (fun _ => 0) 1 () = 10 := by
  unfold eyeMove2 tau
  have : (250 : ℝ) * (0.1 / (1 * 1 ^ 2) ^ (0.12 : ℝ)) = 5 ^ 2 := by norm_num
  rw [this, sqrt_sq (by norm_num)]
  norm_num

end Verif.Gss
