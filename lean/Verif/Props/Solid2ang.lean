import Verif.Props.Align

/-! Converting images between the equisolid and the equiangular projection: C109. -/

namespace Verif.Map
open Verif.Geo Real

/-- position `p` lies on the ray from the image centre through `q`, at distance `r` from the centre (image side 1) -/
def OnRay (q : ℝ × ℝ) (r : ℝ) (p : ℝ × ℝ) : Prop :=
  ∃ k : ℝ, 0 ≤ k ∧ p.1 - 1 / 2 = k * (q.1 - 1 / 2) ∧ p.2 - 1 / 2 = k * (q.2 - 1 / 2) ∧ off p = r

/-- the radius at which an equisolid image of view angle `va` shows the angle `t` (edge at 1/2) -/
noncomputable def solidRadius (va t : ℝ) : ℝ := sin (t / 2) / (2 * sin (va * π / 720))

/-- the angle an equiangular image of view angle `va` shows at distance `r` from the centre -/
noncomputable def angAt (va r : ℝ) : ℝ := va * π / 180 * r

theorem gfac_nonneg {r : ℝ} (h0 : 0 ≤ r) (h1 : r ≤ π) : 0 ≤ gfac r ∧ gfac r ≤ π / (2 * √2) ∧
    r * gfac r = sin (r / 2) * π / √2 * (r / (r + 1e-9)) := by
  have hpi := pi_pos
  have hs2 : 0 < √2 := by positivity
  have hs : 0 ≤ sin (r / 2) := sin_nonneg_of_nonneg_of_le_pi (by linarith) (by linarith)
  have hs' : sin (r / 2) ≤ r / 2 := sin_le (by linarith)
  unfold gfac
  refine ⟨by positivity, ?_, by ring⟩
  rw [div_le_iff₀ (by positivity), div_mul_eq_mul_div, div_le_div_iff₀ hs2 (by positivity)]
  have : sin (r / 2) * π * (2 * √2) ≤ r / 2 * π * (2 * √2) := by
    apply mul_le_mul_of_nonneg_right _ (by positivity)
    exact mul_le_mul_of_nonneg_right hs' hpi.le
  nlinarith [mul_pos hpi hs2]

theorem off_square {q : ℝ × ℝ} (h1 : 0 ≤ q.1) (h2 : q.1 ≤ 1) (h3 : 0 ≤ q.2) (h4 : q.2 ≤ 1) : off q ≤ 0.7072 := by
  have := rad2_sq (q.1 - 1 / 2, q.2 - 1 / 2)
  have hn := rad2_nonneg (q.1 - 1 / 2, q.2 - 1 / 2)
  unfold off
  simp only at this
  nlinarith

theorem vsize_le {va : ℝ} (h1 : va ≤ 180) : vsize va ≤ π := by unfold vsize; nlinarith [pi_pos]

theorem fromSolid_lt {va : ℝ} (h0 : 0 < va) (h1 : va ≤ 180) (q : ℝ × ℝ) (hq : off q ≤ 0.7072) :
    0 ≤ gfac (vsize va * off q) ∧ rad2 (fromSolid va q) < 1 := by
  have hv := vsize_pos h0
  have h2 := off_nonneg q
  obtain ⟨g0, g1, _⟩ := gfac_nonneg (r := vsize va * off q) (by positivity) (by nlinarith [vsize_le h1, pi_pos])
  refine ⟨g0, ?_⟩
  rw [rad_fromSolid h0 q g0]
  have h3 : π / (2 * √2) < 1.13 := by
    have hs : (1.41 : ℝ) ≤ √2 := by apply le_sqrt_of_sq_le; norm_num
    rw [div_lt_iff₀ (by positivity)]
    nlinarith [pi_lt_d2]
  nlinarith

/-- where a ray of the equisolid mapper falls in the equiangular image of the same view -/
theorem solid_to_ang {d : V3} (hd : d ≠ V3.zero) {va : ℝ} (h0 : 0 < va) (h1 : va ≤ 180) (q : ℝ × ℝ)
    (hq : off q ≤ 0.7072) :
    (View.new d va).xyz2vxy ((View.new d va).solidVxy2xyz q)
      = ((fromSolid va q).1 + 1 / 2, (fromSolid va q).2 + 1 / 2) := by
  obtain ⟨_, _, e1, e2, e3⟩ := new_sf (d := d) (va := va) (by linarith)
  obtain ⟨a, b⟩ := va_cf_pos h0 h1
  rw [solid_eq, e1]
  unfold View.xyz2vxy
  rw [e2]
  simp only [Bool.false_eq_true, if_false]
  apply vxy_round _ d (fun p => (C50_isometry d hd va p p).2.1)
  · rw [e1, e3]; exact a
  · rw [e1, e3]
    simp only [add_sub_cancel_right]
    have := (fromSolid_lt h0 h1 q hq).2
    have e : ((fromSolid va q).1, (fromSolid va q).2) = fromSolid va q := rfl
    rw [e]
    nlinarith [rad2_nonneg (fromSolid va q)]

theorem solid_radians {d : V3} (h : Clear d) {va : ℝ} (h0 : 0 < va) (h1 : va ≤ 180) (q : ℝ × ℝ) (hq : off q ≤ 0.7072) :
    (View.new d va).radians ((View.new d va).solidVxy2xyz q)
      = chordFactor va * va * π / 180 * (off q * gfac (vsize va * off q)) := by
  obtain ⟨_, _, e1, e2, e3⟩ := new_sf (d := d) (va := va) (by linarith)
  obtain ⟨a, b⟩ := va_cf_pos h0 h1
  obtain ⟨g0, g1⟩ := fromSolid_lt h0 h1 q hq
  unfold View.solidVxy2xyz
  rw [e1, e3]
  have hr : rad2 ((fromSolid va q).1 * (-1 * (va * chordFactor va) / 180),
      (fromSolid va q).2 * (1 * (va * chordFactor va) / 180)) = va * chordFactor va / 180 * rad2 (fromSolid va q) := by
    have e : ((fromSolid va q).1, (fromSolid va q).2) = fromSolid va q := rfl
    rw [← e, ← rad2_scale _ _ _ (by positivity)]
    unfold rad2
    simp only
    congr 1; ring
  rw [radians_polar d h va _ (by rw [hr]; nlinarith [rad2_nonneg (fromSolid va q)]), hr, rad_fromSolid h0 q g0]
  ring

/-- the ray of a result pixel of `solid2ang` is in view when it falls inside the circle of the equiangular image -/
theorem solid_inView {d : V3} (h : Clear d) {va : ℝ} (h0 : 0 < va) (h1 : va ≤ 180) (q : ℝ × ℝ) (hq : off q ≤ 0.7072) :
    (View.new d va).inView 0 ((View.new d va).solidVxy2xyz q) ↔ off q * gfac (vsize va * off q) < 1 / 2 := by
  obtain ⟨_, _, e1, e2, e3⟩ := new_sf (d := d) (va := va) (by linarith)
  obtain ⟨a, b⟩ := va_cf_pos h0 h1
  have hpi := pi_pos
  unfold View.inView
  rw [solid_radians h h0 h1 q hq, e1, e3, sub_zero]
  have hk : 0 < chordFactor va * va * π / 180 := by rw [mul_comm (chordFactor va)]; positivity
  rw [show chordFactor va * va * π / 360 = chordFactor va * va * π / 180 * (1 / 2) by ring]
  exact mul_lt_mul_iff_right₀ hk

/-- `array_solid2ang` forward, pixel by pixel, for every view angle -/
theorem solid2ang_entry {va : ℝ} (h0 : 0 < va) (h1 : va ≤ 180) (interp : Img ℝ → ℝ × ℝ → ℝ) (im : Img ℝ)
    (hsq : im.n = im.m) (i j : ℕ) (hi : i < im.m) (hj : j < im.m) :
    (off ((i + 1 / 2 : ℝ) / im.m, (j + 1 / 2 : ℝ) / im.m)
        * gfac (vsize va * off ((i + 1 / 2 : ℝ) / im.m, (j + 1 / 2 : ℝ) / im.m)) < 1 / 2 →
      arraySolid2ang false va interp im i j = .ok (interp im
        (((fromSolid va ((i + 1 / 2 : ℝ) / im.m, (j + 1 / 2 : ℝ) / im.m)).1 + 1 / 2) * im.m,
         ((fromSolid va ((i + 1 / 2 : ℝ) / im.m, (j + 1 / 2 : ℝ) / im.m)).2 + 1 / 2) * im.m))) ∧
    (¬ off ((i + 1 / 2 : ℝ) / im.m, (j + 1 / 2 : ℝ) / im.m)
        * gfac (vsize va * off ((i + 1 / 2 : ℝ) / im.m, (j + 1 / 2 : ℝ) / im.m)) < 1 / 2 →
      arraySolid2ang false va interp im i j = .ok 0) := by
  have ci := centre_div hi
  have cj := centre_div hj
  have hq := off_square (q := ((i + 1 / 2 : ℝ) / im.m, (j + 1 / 2 : ℝ) / im.m)) ci.1 ci.2 cj.1 cj.2
  have hv := solid_inView dflt_clear h0 h1 _ hq
  have ht := solid_to_ang dflt_ne h0 h1 _ hq
  unfold arraySolid2ang solidNew
  rw [if_neg (by linarith)]
  simp only [Except.bind]
  rw [if_neg (by simpa using hsq)]
  have hray : solidRay false va im.m (pixelCentre i j) = (View.new ⟨0, 1, 0⟩ va).solidVxy2xyz
      ((i + 1 / 2 : ℝ) / im.m, (j + 1 / 2 : ℝ) / im.m) := by
    unfold solidRay View.solidPixel2ray pixelCentre dfltView; simp
  rw [hray]
  constructor
  · intro h
    rw [if_pos (hv.mpr h)]
    unfold solidPos View.ray2pixelF dfltView
    simp only [Bool.false_eq_true, if_false]
    rw [ht]
  · intro h
    rw [if_neg (fun hh => h (hv.mp hh))]

/-- the full claim of C109: the pixel of the (equiangular) result reads the (equisolid) source where it shows the
same angle in the same direction, to a millionth of the image -/
def C109_statement : Prop :=
  ∀ va : ℝ, 0 < va → va ≤ 180 → ∀ (interp : Img ℝ → ℝ × ℝ → ℝ) (im : Img ℝ), im.n = im.m → ∀ i j : ℕ, i < im.m → j < im.m →
    off ((i + 1 / 2 : ℝ) / im.m, (j + 1 / 2 : ℝ) / im.m) < 1 / 2 →
    ∃ x p : ℝ × ℝ, arraySolid2ang false va interp im i j = .ok (interp im (x.1 * im.m, x.2 * im.m)) ∧
      OnRay ((i + 1 / 2 : ℝ) / im.m, (j + 1 / 2 : ℝ) / im.m)
        (solidRadius va (angAt va (off ((i + 1 / 2 : ℝ) / im.m, (j + 1 / 2 : ℝ) / im.m)))) p ∧
      |x.1 - p.1| ≤ 1e-6 ∧ |x.2 - p.2| ≤ 1e-6

theorem comp_le_off (q : ℝ × ℝ) : |q.1 - 1 / 2| ≤ off q ∧ |q.2 - 1 / 2| ≤ off q := by
  constructor <;> apply abs_le_sqrt <;> simp only <;> nlinarith [sq_nonneg (q.1 - 1 / 2), sq_nonneg (q.2 - 1 / 2)]

theorem off_scale (q : ℝ × ℝ) (k : ℝ) (hk : 0 ≤ k) :
    off (1 / 2 + k * (q.1 - 1 / 2), 1 / 2 + k * (q.2 - 1 / 2)) = k * off q := by
  unfold off
  rw [← rad2_scale _ _ _ hk]
  congr 1
  apply Prod.ext <;> simp only <;> ring

theorem sin_quarter : 2 * sin ((180 : ℝ) * π / 720) = √2 := by
  rw [show (180 : ℝ) * π / 720 = π / 4 by ring, sin_pi_div_four]; ring

theorem off_zero {q : ℝ × ℝ} (h : off q = 0) : q.1 = 1 / 2 ∧ q.2 = 1 / 2 := by
  have := comp_le_off q
  rw [h] at this
  exact ⟨by linarith [abs_nonpos_iff.mp this.1], by linarith [abs_nonpos_iff.mp this.2]⟩

/-- **C109** for 180 degree images: `solid2ang` turns an image in the equisolid projection into one in the equiangular
projection. Every result pixel inside the circle reads the source on the same ray from the centre, at the radius at
which the equisolid law puts its angle, to `4e-10` of the image side. (The mapper implements the inverse law, C57, and
`transform_to` exchanges the two views, C91: the two cancel.) Missing: other view angles, where it is false. -/
theorem C109_forward_partial (interp : Img ℝ → ℝ × ℝ → ℝ) (im : Img ℝ) (hsq : im.n = im.m) (i j : ℕ) (hi : i < im.m)
    (hj : j < im.m) (hc : off ((i + 1 / 2 : ℝ) / im.m, (j + 1 / 2 : ℝ) / im.m) < 1 / 2) :
    ∃ x p : ℝ × ℝ, arraySolid2ang false 180 interp im i j = .ok (interp im (x.1 * im.m, x.2 * im.m)) ∧
      OnRay ((i + 1 / 2 : ℝ) / im.m, (j + 1 / 2 : ℝ) / im.m)
        (solidRadius 180 (angAt 180 (off ((i + 1 / 2 : ℝ) / im.m, (j + 1 / 2 : ℝ) / im.m)))) p ∧
      |x.1 - p.1| ≤ 4e-10 ∧ |x.2 - p.2| ≤ 4e-10 := by
  have hpi := pi_gt_three
  have hpi2 := pi_lt_d2
  have ha := (solid2ang_entry (va := 180) (by norm_num) le_rfl interp im hsq i j hi hj).1
  generalize hw : (((i + 1 / 2 : ℝ) / im.m, (j + 1 / 2 : ℝ) / im.m) : ℝ × ℝ) = w at *
  have hv : vsize 180 = π := by unfold vsize; ring
  have h0 := off_nonneg w
  have hs2 : (1.41 : ℝ) ≤ √2 := by apply le_sqrt_of_sq_le; norm_num
  have hsq2 : √2 * √2 = (2 : ℝ) := mul_self_sqrt (by norm_num)
  have hR : solidRadius 180 (angAt 180 (off w)) = sin (π * off w / 2) / √2 := by
    unfold solidRadius angAt
    rw [sin_quarter]; congr 2; ring
  rw [hR]
  rw [hv] at ha
  obtain ⟨g0, g1, g2⟩ := gfac_nonneg (r := π * off w) (by positivity) (by nlinarith)
  have hsin : sin (π * off w / 2) ≤ √2 / 2 := by
    rw [← sin_pi_div_four]
    apply sin_le_sin_of_le_of_le_pi_div_two <;> nlinarith
  have hsin0 : 0 ≤ sin (π * off w / 2) := sin_nonneg_of_nonneg_of_le_pi (by positivity) (by nlinarith)
  have hprod : off w * gfac (π * off w) = sin (π * off w / 2) / √2 * (π * off w / (π * off w + 1e-9)) := by
    have : π * (off w * gfac (π * off w)) = π * (sin (π * off w / 2) / √2 * (π * off w / (π * off w + 1e-9))) := by
      rw [← mul_assoc, g2]; ring
    exact mul_left_cancel₀ (by linarith) this
  have hb : π * off w / (π * off w + 1e-9) < 1 := by
    rw [div_lt_one (by positivity)]; norm_num
  have hb0 : 0 ≤ π * off w / (π * off w + 1e-9) := by positivity
  have hR2 : sin (π * off w / 2) / √2 ≤ 1 / 2 := by
    rw [div_le_iff₀ (by positivity)]; linarith
  have hR0 : 0 ≤ sin (π * off w / 2) / √2 := by positivity
  have hlt : off w * gfac (π * off w) < 1 / 2 := by
    rw [hprod]
    rcases hR0.lt_or_eq with h | h
    · nlinarith
    · rw [← h]; norm_num
  have he := ha hlt
  rw [fromSolid_eq (by norm_num), hv] at he
  rcases h0.lt_or_eq with hpos | hz
  · refine ⟨((w.1 - 1 / 2) * gfac (π * off w) + 1 / 2, (w.2 - 1 / 2) * gfac (π * off w) + 1 / 2),
      (1 / 2 + sin (π * off w / 2) / √2 / off w * (w.1 - 1 / 2),
      1 / 2 + sin (π * off w / 2) / √2 / off w * (w.2 - 1 / 2)), he, ⟨sin (π * off w / 2) / √2 / off w, by positivity,
      by simp, by simp, ?_⟩, ?_⟩
    · rw [off_scale _ _ (by positivity), div_mul_cancel₀ _ hpos.ne']
    · -- the factor differs by at most 4e-10 / off w
      have hk : |gfac (π * off w) - sin (π * off w / 2) / √2 / off w| * off w ≤ 4e-10 := by
        rw [show |gfac (π * off w) - sin (π * off w / 2) / √2 / off w| * off w
          = |(gfac (π * off w) - sin (π * off w / 2) / √2 / off w) * off w| by rw [abs_mul, abs_of_nonneg h0]]
        have e1 : (gfac (π * off w) - sin (π * off w / 2) / √2 / off w) * off w
            = -(sin (π * off w / 2) / √2 * (1e-9 / (π * off w + 1e-9))) := by
          have : (1 : ℝ) - π * off w / (π * off w + 1e-9) = 1e-9 / (π * off w + 1e-9) := by
            have : π * off w + 1e-9 ≠ 0 := by positivity
            field_simp; ring
          rw [← this, sub_mul, div_mul_cancel₀ _ hpos.ne', mul_comm (gfac _), hprod]; ring
        rw [e1, abs_neg, abs_of_nonneg (by positivity)]
        have h3 : sin (π * off w / 2) ≤ π * off w / 2 := sin_le (by positivity)
        rw [div_mul_div_comm, div_le_iff₀ (by positivity)]
        have : (0 : ℝ) < π * off w := by positivity
        nlinarith
      obtain ⟨c1, c2⟩ := comp_le_off w
      constructor
      · simp only
        rw [show (w.1 - 1 / 2) * gfac (π * off w) + 1 / 2 - (1 / 2 + sin (π * off w / 2) / √2 / off w * (w.1 - 1 / 2))
          = (gfac (π * off w) - sin (π * off w / 2) / √2 / off w) * (w.1 - 1 / 2) by ring, abs_mul]
        exact (mul_le_mul_of_nonneg_left c1 (abs_nonneg _)).trans hk
      · simp only
        rw [show (w.2 - 1 / 2) * gfac (π * off w) + 1 / 2 - (1 / 2 + sin (π * off w / 2) / √2 / off w * (w.2 - 1 / 2))
          = (gfac (π * off w) - sin (π * off w / 2) / √2 / off w) * (w.2 - 1 / 2) by ring, abs_mul]
        exact (mul_le_mul_of_nonneg_left c2 (abs_nonneg _)).trans hk
  · obtain ⟨e1, e2⟩ := off_zero hz.symm
    refine ⟨((w.1 - 1 / 2) * gfac (π * off w) + 1 / 2, (w.2 - 1 / 2) * gfac (π * off w) + 1 / 2),
      (1 / 2, 1 / 2), he, ⟨0, le_rfl, by simp, by simp, ?_⟩, ?_⟩
    · rw [← hz]; simp [off, rad2]
    · simp only [e1, e2]; norm_num

/-- **C109** outside the circle the result is zero (from a hundred-millionth of the image beyond it; the code accepts
rays up to about `1e-10` beyond). -/
theorem C109_outside (interp : Img ℝ → ℝ × ℝ → ℝ) (im : Img ℝ) (hsq : im.n = im.m) (i j : ℕ) (hi : i < im.m)
    (hj : j < im.m) (hc : 1 / 2 + 1e-8 ≤ off ((i + 1 / 2 : ℝ) / im.m, (j + 1 / 2 : ℝ) / im.m)) :
    arraySolid2ang false 180 interp im i j = .ok 0 := by
  have hpi := pi_gt_three
  have hpi2 := pi_lt_d2
  have ci := centre_div hi
  have cj := centre_div hj
  have hq := off_square (q := ((i + 1 / 2 : ℝ) / im.m, (j + 1 / 2 : ℝ) / im.m)) ci.1 ci.2 cj.1 cj.2
  apply (solid2ang_entry (va := 180) (by norm_num) le_rfl interp im hsq i j hi hj).2
  generalize hw : (((i + 1 / 2 : ℝ) / im.m, (j + 1 / 2 : ℝ) / im.m) : ℝ × ℝ) = w at *
  have hv : vsize 180 = π := by unfold vsize; ring
  have h0 := off_nonneg w
  rw [hv]
  push Not
  obtain ⟨g0, g1, g2⟩ := gfac_nonneg (r := π * off w) (by positivity) (by nlinarith)
  have hs2 : (0 : ℝ) < √2 := by positivity
  have hsq2 : √2 * √2 = (2 : ℝ) := mul_self_sqrt (by norm_num)
  -- the sine at half the radius beats the edge value by more than the 1e-9 in the denominator takes away
  have hlow : √2 / 2 * (1 + 1e-8) ≤ sin (π * off w / 2) := by
    have e : π * off w / 2 = π / 4 + (π * off w / 2 - π / 4) := by ring
    have t0 : 0 ≤ π * off w / 2 - π / 4 := by nlinarith
    have t2 : π * off w / 2 - π / 4 ≤ 0.33 := by nlinarith
    have t1 : 1.5e-8 ≤ π * off w / 2 - π / 4 := by nlinarith
    rw [e, sin_add, sin_pi_div_four, cos_pi_div_four]
    generalize π * off w / 2 - π / 4 = t at *
    have hc := one_sub_sq_div_two_le_cos (x := t)
    have hs := sin_gt_sub_cube (x := t) (by linarith)
    have : 1 + 1e-8 ≤ cos t + sin t := by nlinarith
    nlinarith
  have hb : 1 - 1e-9 ≤ π * off w / (π * off w + 1e-9) := by
    rw [le_div_iff₀ (by positivity)]; nlinarith
  have hprod : π * (off w * gfac (π * off w)) = sin (π * off w / 2) * π / √2 * (π * off w / (π * off w + 1e-9)) := by
    rw [← mul_assoc]; exact g2
  have h1 : π * (1 / 2 * (1 + 1e-8)) ≤ sin (π * off w / 2) * π / √2 := by
    rw [le_div_iff₀ hs2]; nlinarith
  have h2 : π * (1 / 2) ≤ π * (off w * gfac (π * off w)) := by
    rw [hprod]
    have : π * (1 / 2 * (1 + 1e-8)) * (1 - 1e-9) ≤ sin (π * off w / 2) * π / √2 * (π * off w / (π * off w + 1e-9)) :=
      mul_le_mul h1 hb (by norm_num) (by linarith [show (0 : ℝ) < π * (1 / 2 * (1 + 1e-8)) by positivity])
    nlinarith
  exact le_of_mul_le_mul_left h2 (by linarith)

theorem sin_eighth : 0.38 ≤ sin (π / 8) := by
  have h1 : (0.3925 : ℝ) ≤ π / 8 := by linarith [pi_gt_d2]
  have h2 : π / 8 ≤ 0.3938 := by linarith [pi_lt_d2]
  have := sin_gt_sub_cube (x := π / 8) (by positivity)
  have h3 := pow_le_pow_left₀ (by positivity) h2 3
  generalize sin (π / 8) = S at *
  norm_num at h1 h3 ⊢
  linarith

/-- the arithmetic of the refutation below -/
theorem refute_arith {a g k S q : ℝ} (hs2 : 1.414 ≤ a) (hb : -1e-6 ≤ k / 4 - g / 4) (hS : 0.25 ≤ S) (ha : a ≤ 1.4143)
    (hk : k * (a / 4) ≤ S * 1.32) (hq : 1 - 1e-8 ≤ q) (hprod : a / 4 * g = S * a * q) : False := by
  have h1 : a / 4 * g ≤ k * (a / 4) + a * 1e-6 := by nlinarith
  have h2 : S * a * (1 - 1e-8) ≤ S * a * q := mul_le_mul_of_nonneg_left hq (by nlinarith)
  have h3 : S * 1.414 ≤ S * a := by nlinarith
  norm_num at *
  linarith

/-- **C109** is false for 90 degree images: pixel (0, 0) of a two by two image reads the source 0.02 of the image side
too far out. -/
theorem C109_refuted : ¬ C109_statement := by
  intro h
  have hpi := pi_gt_three
  have hpi2 := pi_lt_d2
  let interp : Img ℝ → ℝ × ℝ → ℝ := fun _ p => p.1
  let im : Img ℝ := ⟨2, 2, fun _ _ => 0⟩
  have hs2 : (1.414 : ℝ) ≤ √2 := by apply le_sqrt_of_sq_le; norm_num
  have hs2' : √2 ≤ (1.4143 : ℝ) := by apply sqrt_le_iff.mpr; norm_num
  have hw : ((((0 : ℕ) : ℝ) + 1 / 2) / ((im.m : ℕ) : ℝ), (((0 : ℕ) : ℝ) + 1 / 2) / ((im.m : ℕ) : ℝ)) = ((1 / 4, 1 / 4) : ℝ × ℝ) := by
    show ((((0 : ℕ) : ℝ) + 1 / 2) / ((2 : ℕ) : ℝ), (((0 : ℕ) : ℝ) + 1 / 2) / ((2 : ℕ) : ℝ)) = _
    norm_num
  have ho : off (1 / 4, 1 / 4) = √2 / 4 := by
    unfold off rad2
    simp only
    rw [show ((1 : ℝ) / 4 - 1 / 2) ^ 2 + (1 / 4 - 1 / 2) ^ 2 = 2 * (1 / 4) ^ 2 by norm_num, sqrt_mul (by norm_num),
      sqrt_sq (by norm_num)]
    ring
  obtain ⟨x, p, e, ⟨k, k0, e1, e2, e3⟩, b1, b2⟩ := h 90 (by norm_num) (by norm_num) interp im rfl 0 0 (by decide) (by decide)
    (by rw [hw, ho]; norm_num at hs2' ⊢; linarith)
  have hv : vsize 90 = π / 2 := by unfold vsize; ring
  have ha := (solid2ang_entry (va := 90) (by norm_num) (by norm_num) interp im rfl 0 0 (by decide) (by decide)).1
  rw [hw] at ha e1 e2 e3
  rw [ho, hv] at ha
  rw [ho] at e3
  -- the angle
  obtain ⟨t, ht⟩ : ∃ t, t = π * √2 / 16 := ⟨_, rfl⟩
  have t0 : 0.26 ≤ t := by rw [ht]; nlinarith
  have t1 : t ≤ 0.28 := by rw [ht]; norm_num at hs2' ⊢; nlinarith
  have hsin0 : 0.25 ≤ sin t := by
    have := sin_gt_sub_cube (x := t) (by linarith)
    have h3 := pow_le_pow_left₀ (by linarith) t1 3
    norm_num at h3 t0 ⊢
    linarith
  have hsin1 : sin t ≤ 0.28 := (sin_le (by linarith)).trans t1
  have hr : π / 2 * (√2 / 4) = 2 * t := by rw [ht]; ring
  rw [hr] at ha
  have hg : gfac (2 * t) = sin t * π / √2 / (2 * t + 1e-9) := by
    unfold gfac; rw [show 2 * t / 2 = t by ring]
  have hprod : √2 / 4 * gfac (2 * t) = sin t * √2 * (2 * t / (2 * t + 1e-9)) := by
    have hne : 2 * t + 1e-9 ≠ 0 := by norm_num; linarith
    have hsne : √2 ≠ 0 := by positivity
    have hsq2 : √2 ^ 2 = (2 : ℝ) := sq_sqrt (by norm_num)
    have hsin : ∀ s : ℝ, √2 / 4 * (s * π / √2 / (2 * t + 1e-9)) = s * √2 * (2 * t / (2 * t + 1e-9)) := by
      intro s
      rw [ht]
      rw [ht] at hne
      field_simp
      rw [hsq2]; ring
    rw [hg]; exact hsin _
  obtain ⟨rb, rb'⟩ := rho_bound (r := 2 * t) (by linarith)
  have hlt : √2 / 4 * gfac (2 * t) < 1 / 2 := by
    rw [hprod]
    have : sin t * √2 ≤ 0.28 * 1.4143 := mul_le_mul hsin1 hs2' (by positivity) (by norm_num)
    have h0 : 0 ≤ sin t * √2 := by positivity
    nlinarith
  have he := ha hlt
  rw [e] at he
  injection he with he
  rw [fromSolid_eq (by norm_num), ho, hv, hr] at he
  have he' : x.1 * ((2 : ℕ) : ℝ) = ((1 / 4 - 1 / 2) * gfac (2 * t) + 1 / 2) * ((2 : ℕ) : ℝ) := he
  have hx : x.1 = 1 / 2 - gfac (2 * t) / 4 := by push_cast at he'; linarith
  -- the true position
  have hop : off p = k * (√2 / 4) := by
    have := off_scale (1 / 4, 1 / 4) k k0
    rw [ho] at this
    rw [← this]
    congr 1
    apply Prod.ext
    · simp only; simp only at e1; linarith
    · simp only; simp only at e2; linarith
  rw [hop] at e3
  have hR : solidRadius 90 (angAt 90 (√2 / 4)) = sin t / (2 * sin (π / 8)) := by
    unfold solidRadius angAt
    congr 2
    · rw [ht]; ring
    · congr 1; ring
  rw [hR] at e3
  have h8 := sin_eighth
  have hk : k * (√2 / 4) ≤ sin t * 1.32 := by
    rw [e3, div_le_iff₀ (by linarith)]
    have h9 : 0.76 ≤ 2 * sin (π / 8) := by linarith
    have h10 := mul_le_mul_of_nonneg_left h9 (show 0 ≤ sin t by linarith)
    norm_num at h10 hsin0 ⊢
    linarith
  have hp1 : p.1 = 1 / 2 - k / 4 := by simp only at e1; linarith
  rw [hx, hp1] at b1
  have hb := (abs_le.mp b1).1
  exact refute_arith (q := 2 * t / (2 * t + 1e-9)) hs2 (by linarith) hsin0 hs2' hk rb hprod

/-! ### the reverse direction -/

/-- `toSolid` scales about the centre -/
theorem toSolid_eq {va : ℝ} (h : 0 < va) (q : ℝ × ℝ) :
    toSolid va q = ((q.1 - 1 / 2) * (2 * arcsin (vsize va * off q * √2 / π) / (vsize va * off q + 1e-9)) + 1 / 2,
      (q.2 - 1 / 2) * (2 * arcsin (vsize va * off q * √2 / π) / (vsize va * off q + 1e-9)) + 1 / 2) := by
  have hv := (vsize_pos h).ne'
  have hr : rad2 ((q.1 - 1 / 2) * (va * π / 180), (q.2 - 1 / 2) * (va * π / 180)) = vsize va * off q :=
    rad2_scale _ _ _ (vsize_pos h).le
  have e0 : va * π / 180 = vsize va := rfl
  unfold toSolid
  rw [hr, e0]
  apply Prod.ext <;> simp only
  · congr 1; rw [div_eq_iff hv]; ring
  · congr 1; rw [div_eq_iff hv]; ring

/-- the angle an equisolid image of 180 degrees shows at distance `r` from the centre -/
noncomputable def solidAngAt (r : ℝ) : ℝ := 2 * arcsin (√2 * r)

/-- **C109** the reverse direction, for 180 degree images: every pixel of the (equisolid) result inside the circle
reads the (equiangular) source on the same ray from the centre, at the distance proportional to the angle the
equisolid law gives that pixel, to `5e-10` of the image side; outside the circle the result is zero. -/
theorem C109_reverse_partial (interp : Img ℝ → ℝ × ℝ → ℝ) (im : Img ℝ) (hsq : im.n = im.m) (i j : ℕ) (hi : i < im.m)
    (hj : j < im.m) :
    (off ((i + 1 / 2 : ℝ) / im.m, (j + 1 / 2 : ℝ) / im.m) < 1 / 2 →
      ∃ x p : ℝ × ℝ, arraySolid2ang true 180 interp im i j = .ok (interp im (x.1 * im.m, x.2 * im.m)) ∧
        OnRay ((i + 1 / 2 : ℝ) / im.m, (j + 1 / 2 : ℝ) / im.m)
          (solidAngAt (off ((i + 1 / 2 : ℝ) / im.m, (j + 1 / 2 : ℝ) / im.m)) / π) p ∧
        |x.1 - p.1| ≤ 5e-10 ∧ |x.2 - p.2| ≤ 5e-10) ∧
    (¬ off ((i + 1 / 2 : ℝ) / im.m, (j + 1 / 2 : ℝ) / im.m) < 1 / 2 → arraySolid2ang true 180 interp im i j = .ok 0) := by
  have hpi := pi_gt_three
  have hpi2 := pi_lt_d2
  have ci := centre_div hi
  have cj := centre_div hj
  have hcirc := C53_circle_partial ⟨0, 1, 0⟩ dflt_clear 180 (by norm_num) le_rfl
    ((i + 1 / 2 : ℝ) / im.m, (j + 1 / 2 : ℝ) / im.m) ci.1 ci.2 cj.1 cj.2
  have hround := (C52_vxy_round_trip ⟨0, 1, 0⟩ dflt_ne 180 (by norm_num) le_rfl
    ((i + 1 / 2 : ℝ) / im.m, (j + 1 / 2 : ℝ) / im.m) ci.1 ci.2 cj.1 cj.2).1
  rw [← rad2_lt_half] at hcirc
  have hray : solidRay true 180 im.m (pixelCentre i j) = (View.new ⟨0, 1, 0⟩ 180).vxy2xyz
      ((i + 1 / 2 : ℝ) / im.m, (j + 1 / 2 : ℝ) / im.m) := by
    unfold solidRay View.pixel2ray pixelCentre dfltView; simp
  unfold arraySolid2ang solidNew
  rw [if_neg (by norm_num)]
  simp only [Except.bind]
  rw [if_neg (by simpa using hsq), hray]
  generalize hw : (((i + 1 / 2 : ℝ) / im.m, (j + 1 / 2 : ℝ) / im.m) : ℝ × ℝ) = w at *
  have hoff : off w = rad2 (w.1 - 1 / 2, w.2 - 1 / 2) := rfl
  have hv : vsize 180 = π := by unfold vsize; ring
  constructor
  · intro h
    rw [if_pos (hcirc.mpr h)]
    obtain ⟨_, _, v1, _, _⟩ := new_sf (d := ⟨0, 1, 0⟩) (va := 180) (by norm_num)
    have hpos : solidPos true 180 im.m ((View.new ⟨0, 1, 0⟩ 180).vxy2xyz w)
        = ((toSolid 180 w).1 * im.m, (toSolid 180 w).2 * im.m) := by
      unfold solidPos View.solidRay2pixelF View.solidXyz2vxy dfltView
      simp only [if_true]
      rw [v1, hround]
    rw [hpos, toSolid_eq (by norm_num), hv]
    have h0 := off_nonneg w
    have harg : π * off w * √2 / π = √2 * off w := by field_simp
    rw [harg]
    have hs2 : (0 : ℝ) < √2 := by positivity
    have hs2' : √2 ≤ (1.4143 : ℝ) := by apply sqrt_le_iff.mpr; norm_num
    have hlt1 : √2 * off w ≤ 1 := by norm_num at hs2' ⊢; nlinarith
    have has0 : 0 ≤ arcsin (√2 * off w) := arcsin_nonneg.mpr (by positivity)
    -- arcsin x ≤ (π/2) x on [0, 1]
    have has : arcsin (√2 * off w) ≤ π / 2 * (√2 * off w) := by
      have := mul_le_sin has0 (arcsin_le_pi_div_two _)
      rw [sin_arcsin (by nlinarith [mul_nonneg hs2.le h0]) hlt1] at this
      rw [div_mul_eq_mul_div, div_le_iff₀ (by linarith)] at this
      linarith
    rcases h0.lt_or_eq with hp | hz
    · have hpo : 0 < π * off w := by positivity
      refine ⟨((w.1 - 1 / 2) * (2 * arcsin (√2 * off w) / (π * off w + 1e-9)) + 1 / 2,
        (w.2 - 1 / 2) * (2 * arcsin (√2 * off w) / (π * off w + 1e-9)) + 1 / 2),
        (1 / 2 + 2 * arcsin (√2 * off w) / (π * off w) * (w.1 - 1 / 2),
         1 / 2 + 2 * arcsin (√2 * off w) / (π * off w) * (w.2 - 1 / 2)), rfl, ⟨2 * arcsin (√2 * off w) / (π * off w),
         by positivity, by simp, by simp, ?_⟩, ?_⟩
      · rw [off_scale _ _ (by positivity)]
        unfold solidAngAt
        field_simp
      · have hk : |2 * arcsin (√2 * off w) / (π * off w + 1e-9) - 2 * arcsin (√2 * off w) / (π * off w)| * off w ≤ 5e-10 := by
          have e1 : 2 * arcsin (√2 * off w) / (π * off w + 1e-9) - 2 * arcsin (√2 * off w) / (π * off w)
              = -(2 * arcsin (√2 * off w) * 1e-9 / ((π * off w + 1e-9) * (π * off w))) := by
            have : π * off w + 1e-9 ≠ 0 := by positivity
            generalize arcsin (√2 * off w) = A
            generalize π * off w = r at *
            have := hpo.ne'
            field_simp; ring
          rw [e1, abs_neg, abs_of_nonneg (by positivity), div_mul_eq_mul_div, div_le_iff₀ (by positivity)]
          have a1 : 2 * arcsin (√2 * off w) * 1e-9 * off w ≤ π * (√2 * off w) * 1e-9 * off w := by
            have : 2 * arcsin (√2 * off w) ≤ π * (√2 * off w) := by linarith
            gcongr
          have a2 : π * (√2 * off w) * 1e-9 * off w = (π * off w) * (√2 * 1e-9 * off w) := by ring
          have a3 : √2 * 1e-9 * off w ≤ 5e-10 * (π * off w + 1e-9) := by norm_num at hs2' ⊢; nlinarith
          have a4 := mul_le_mul_of_nonneg_left a3 hpo.le
          nlinarith
        obtain ⟨c1, c2⟩ := comp_le_off w
        generalize 2 * arcsin (√2 * off w) / (π * off w + 1e-9) = A at *
        generalize 2 * arcsin (√2 * off w) / (π * off w) = B at *
        constructor
        · simp only
          rw [show (w.1 - 1 / 2) * A + 1 / 2 - (1 / 2 + B * (w.1 - 1 / 2)) = (A - B) * (w.1 - 1 / 2) by ring, abs_mul]
          exact (mul_le_mul_of_nonneg_left c1 (abs_nonneg _)).trans hk
        · simp only
          rw [show (w.2 - 1 / 2) * A + 1 / 2 - (1 / 2 + B * (w.2 - 1 / 2)) = (A - B) * (w.2 - 1 / 2) by ring, abs_mul]
          exact (mul_le_mul_of_nonneg_left c2 (abs_nonneg _)).trans hk
    · obtain ⟨e1, e2⟩ := off_zero hz.symm
      refine ⟨((w.1 - 1 / 2) * (2 * arcsin (√2 * off w) / (π * off w + 1e-9)) + 1 / 2,
        (w.2 - 1 / 2) * (2 * arcsin (√2 * off w) / (π * off w + 1e-9)) + 1 / 2), (1 / 2, 1 / 2), rfl,
        ⟨0, le_rfl, by simp, by simp, ?_⟩, ?_⟩
      · rw [← hz]; unfold solidAngAt; simp [off, rad2]
      · simp only [e1, e2]; norm_num
  · intro h
    rw [if_neg (fun hh => h (hcirc.mp hh))]

/-- **C109** view angles above 180 raise `ValueError` in both directions, and so do images that are not square. -/
theorem C109_errors (reverse : Bool) (va : ℝ) (interp : Img ℝ → ℝ × ℝ → ℝ) (im : Img ℝ) (i j : ℕ)
    (h : 180 < va ∨ im.n ≠ im.m) : arraySolid2ang reverse va interp im i j = .error .ValueError := by
  unfold arraySolid2ang solidNew
  by_cases hv : va > 180
  · rw [if_pos hv]; rfl
  · rw [if_neg hv]
    simp only [Except.bind]
    rw [if_pos (h.resolve_left hv)]

example : off ((0 + 1 / 2 : ℝ) / 2, (0 + 1 / 2 : ℝ) / 2) < 1 / 2 := by
  unfold off rad2
  rw [sqrt_lt' (by norm_num)]; norm_num

example : 1 / 2 + 1e-8 ≤ off ((0 + 1 / 2 : ℝ) / 8, (0 + 1 / 2 : ℝ) / 8) := by
  unfold off rad2
  apply le_sqrt_of_sq_le; norm_num

end Verif.Map
