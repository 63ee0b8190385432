import Verif.Props.ViewMapper
import Mathlib.Analysis.SpecialFunctions.Trigonometric.Bounds

/-! Equisolid and "perspective" mappers: C57, C58. -/

namespace Verif.Map
open Verif.Geo Real

theorem rad2_scale (k a b : ℝ) (hk : 0 ≤ k) : rad2 (a * k, b * k) = k * rad2 (a, b) := by
  unfold rad2
  simp only
  rw [show (a * k) ^ 2 + (b * k) ^ 2 = k ^ 2 * (a ^ 2 + b ^ 2) by ring, sqrt_mul (sq_nonneg k), sqrt_sq hk]

/-- image distance from the centre -/
noncomputable def off (q : ℝ × ℝ) : ℝ := rad2 (q.1 - 1 / 2, q.2 - 1 / 2)

theorem off_nonneg (q : ℝ × ℝ) : 0 ≤ off q := rad2_nonneg _

/-- the view size in radians -/
noncomputable def vsize (va : ℝ) : ℝ := va * π / 180

theorem vsize_pos {va : ℝ} (h : 0 < va) : 0 < vsize va := by unfold vsize; have := pi_pos; positivity

theorem soXY_rad {va : ℝ} (h : 0 < va) (q : ℝ × ℝ) : rad2 (soXY va q) = vsize va * off q := by
  unfold soXY off
  exact rad2_scale _ _ _ (vsize_pos h).le

/-- the radial factor of `fromSolid` -/
noncomputable def gfac (r : ℝ) : ℝ := (sin (r / 2) * π / √2) / (r + 1e-9)

theorem fromSolid_eq {va : ℝ} (h : 0 < va) (q : ℝ × ℝ) :
    fromSolid va q = ((q.1 - 1 / 2) * gfac (vsize va * off q), (q.2 - 1 / 2) * gfac (vsize va * off q)) := by
  have hv := (vsize_pos h).ne'
  unfold fromSolid gfac
  rw [soXY_rad h]
  unfold soXY
  have hs := hv
  unfold vsize at hs
  apply Prod.ext <;> simp only
  · rw [div_eq_iff hs]; ring
  · rw [div_eq_iff hs]; ring

/-- the chord bound on `[0, π/2]` -/
theorem chord_ge {t : ℝ} (h0 : 0 ≤ t) (h1 : t ≤ π / 2) : √2 / π * t ≤ sin (t / 2) := by
  have hpi := pi_pos
  rcases h0.lt_or_eq with h | h
  · rcases h1.lt_or_eq with h' | h'
    · have := chord_ratio h h'
      unfold theta2chord at this
      rw [div_lt_div_iff₀ hpi h] at this
      rw [div_mul_eq_mul_div, div_le_iff₀ hpi]
      linarith
    · rw [h', show π / 2 / 2 = π / 4 by ring, sin_pi_div_four]
      apply le_of_eq; field_simp
  · rw [← h]; simp

theorem gfac_bounds {r : ℝ} (h0 : 0 ≤ r) (h1 : r ≤ π / 2) :
    0 ≤ gfac r ∧ gfac r ≤ π / (2 * √2) ∧ r * gfac r = sin (r / 2) * π / √2 * (r / (r + 1e-9)) := by
  have hpi := pi_pos
  have hs2 : 0 < √2 := by positivity
  have hs : 0 ≤ sin (r / 2) := sin_nonneg_of_nonneg_of_le_pi (by linarith) (by linarith)
  have hs' : sin (r / 2) ≤ r / 2 := sin_le (by linarith)
  unfold gfac
  refine ⟨by positivity, ?_, by ring⟩
  rw [div_le_iff₀ (by positivity), div_mul_eq_mul_div, div_le_div_iff₀ hs2 (by positivity)]
  have : sin (r / 2) * π * (2 * √2) ≤ r / 2 * π * (2 * √2) := by
    apply mul_le_mul_of_nonneg_right _ (by positivity)
    exact mul_le_mul_of_nonneg_right hs' hpi.le
  nlinarith [mul_pos hpi hs2]

/-- `SolidViewMapper.vxy2xyz` is the equiangular transform of the remapped point -/
theorem solid_eq (m : View) (q : ℝ × ℝ) :
    m.solidVxy2xyz q = m.vxy2xyz ((fromSolid m.va q).1 + 1 / 2, (fromSolid m.va q).2 + 1 / 2) := by
  unfold View.solidVxy2xyz View.vxy2xyz View.vxy2xyzM View.centred
  simp only [add_sub_cancel_right]

theorem rad_fromSolid {va : ℝ} (h0 : 0 < va) (q : ℝ × ℝ) (hg : 0 ≤ gfac (vsize va * off q)) :
    rad2 (fromSolid va q) = off q * gfac (vsize va * off q) := by
  rw [fromSolid_eq h0, rad2_scale _ _ _ hg]
  unfold off; ring

theorem vsize_off {va : ℝ} (h0 : 0 < va) (h1 : va ≤ 180) (q : ℝ × ℝ) (hq : off q ≤ 1 / 2) :
    0 ≤ vsize va * off q ∧ vsize va * off q ≤ π / 2 := by
  have := vsize_pos h0
  have h2 := off_nonneg q
  have hpi := pi_pos
  refine ⟨by positivity, ?_⟩
  have : vsize va ≤ π := by unfold vsize; nlinarith
  nlinarith

theorem rad_lt_one {va : ℝ} (h0 : 0 < va) (h1 : va ≤ 180) (q : ℝ × ℝ) (hq : off q ≤ 1 / 2) :
    rad2 (fromSolid va q) < 1 := by
  obtain ⟨a, b⟩ := vsize_off h0 h1 q hq
  obtain ⟨g0, g1, _⟩ := gfac_bounds a b
  rw [rad_fromSolid h0 q g0]
  have h3 : π / (2 * √2) < 2 := by
    have hs : (1 : ℝ) ≤ √2 := by rw [one_le_sqrt]; norm_num
    rw [div_lt_iff₀ (by positivity)]
    nlinarith [pi_lt_d2]
  nlinarith [off_nonneg q]

/-- the exact result of the round trip -/
theorem solid_round {d : V3} (hd : d ≠ V3.zero) {va : ℝ} (h0 : 0 < va) (h1 : va ≤ 180) (q : ℝ × ℝ)
    (hq : off q ≤ 1 / 2) :
    (View.new d va).solidXyz2vxy ((View.new d va).solidVxy2xyz q)
      = toSolid va ((fromSolid va q).1 + 1 / 2, (fromSolid va q).2 + 1 / 2) := by
  obtain ⟨_, _, e1, e2, e3⟩ := new_sf (d := d) (va := va) (by linarith)
  obtain ⟨a, b⟩ := va_cf_pos h0 h1
  rw [solid_eq, e1]
  unfold View.solidXyz2vxy
  rw [e1]
  congr 1
  unfold View.xyz2vxy
  rw [e2]
  simp only [Bool.false_eq_true, if_false]
  apply vxy_round _ d (fun p => (C50_isometry d hd va p p).2.1)
  · rw [e1, e3]; exact a
  · rw [e1, e3]
    simp only [add_sub_cancel_right]
    have := rad_lt_one h0 h1 q hq
    have e : ((fromSolid va q).1, (fromSolid va q).2) = fromSolid va q := rfl
    rw [e]
    nlinarith [rad2_nonneg (fromSolid va q)]

/-- radius after the round trip, as a function of the radius `r` before (both in radians) -/
noncomputable def back (r : ℝ) : ℝ := 2 * arcsin (r * gfac r * √2 / π)

theorem solid_round_eq {d : V3} (hd : d ≠ V3.zero) {va : ℝ} (h0 : 0 < va) (h1 : va ≤ 180) (q : ℝ × ℝ)
    (hq : off q ≤ 1 / 2) :
    (View.new d va).solidXyz2vxy ((View.new d va).solidVxy2xyz q)
      = ((q.1 - 1 / 2) * (gfac (vsize va * off q) * back (vsize va * off q)
            / (vsize va * off q * gfac (vsize va * off q) + 1e-9)) + 1 / 2,
         (q.2 - 1 / 2) * (gfac (vsize va * off q) * back (vsize va * off q)
            / (vsize va * off q * gfac (vsize va * off q) + 1e-9)) + 1 / 2) := by
  obtain ⟨a, b⟩ := vsize_off h0 h1 q hq
  obtain ⟨g0, g1, _⟩ := gfac_bounds a b
  have hv := vsize_pos h0
  rw [solid_round hd h0 h1 q hq]
  unfold toSolid
  simp only [add_sub_cancel_right]
  have hr : rad2 ((fromSolid va q).1 * (va * π / 180), (fromSolid va q).2 * (va * π / 180))
      = vsize va * off q * gfac (vsize va * off q) := by
    have e0 : va * π / 180 = vsize va := rfl
    rw [e0, rad2_scale _ _ _ hv.le]
    have e : ((fromSolid va q).1, (fromSolid va q).2) = fromSolid va q := rfl
    rw [e, rad_fromSolid h0 q g0]
    ring
  rw [hr, fromSolid_eq h0]
  have hs := hv.ne'
  unfold vsize at hs
  unfold back
  apply Prod.ext <;> simp only
  · congr 1; rw [div_eq_iff hs]; ring
  · congr 1; rw [div_eq_iff hs]; ring

/-- sine is steep enough below 45 degrees -/
theorem sin_steep {a b : ℝ} (hb : 0 ≤ b) (hab : b ≤ a) (ha : a ≤ π / 4) : a - b ≤ 5 / 2 * (sin a - sin b) := by
  have hpi := pi_pos
  rw [sin_sub_sin]
  have h1 : 2 / π * ((a - b) / 2) ≤ sin ((a - b) / 2) := mul_le_sin (by linarith) (by linarith)
  have h2 : √2 / 2 ≤ cos ((a + b) / 2) := by
    rw [← cos_pi_div_four]
    exact cos_le_cos_of_nonneg_of_le_pi (by linarith) (by linarith) (by linarith)
  have hs : (7 / 5 : ℝ) ≤ √2 := by rw [le_sqrt' (by norm_num)]; norm_num
  have h3 : 2 / π * ((a - b) / 2) * π = a - b := by field_simp
  have h4 : (a - b) / 3.15 ≤ sin ((a - b) / 2) := by
    refine le_trans ?_ h1
    rw [div_le_iff₀ (by norm_num)]
    have : 0 ≤ 2 / π * ((a - b) / 2) := by
      have : 0 ≤ a - b := by linarith
      positivity
    nlinarith [pi_lt_d2]
  have h5 : 0 ≤ (a - b) / 3.15 := by
    have : 0 ≤ a - b := by linarith
    positivity
  have h6 : (a - b) / 3.15 * (7 / 10) ≤ sin ((a - b) / 2) * cos ((a + b) / 2) := by
    apply mul_le_mul h4 (by linarith) (by norm_num) (by linarith)
  have h7 : (a - b) = 3.15 * ((a - b) / 3.15) := by field_simp
  nlinarith

theorem back_bounds {r : ℝ} (h0 : 0 ≤ r) (h1 : r ≤ π / 2) :
    0 ≤ back r ∧ back r ≤ r ∧ r - 2.5e-9 ≤ back r ∧ back r ≤ r * gfac r := by
  have hpi := pi_pos
  have hs2 : 0 < √2 := by positivity
  have hsq : √2 * √2 = 2 := mul_self_sqrt (by norm_num)
  obtain ⟨g0, _, g2⟩ := gfac_bounds h0 h1
  have hs : 0 ≤ sin (r / 2) := sin_nonneg_of_nonneg_of_le_pi (by linarith) (by linarith)
  have hsr : sin (r / 2) ≤ r / 2 := sin_le (by linarith)
  have hrho0 : 0 ≤ r / (r + 1e-9) := by positivity
  have hrho1 : r / (r + 1e-9) ≤ 1 := by rw [div_le_one (by positivity)]; norm_num
  have harg : r * gfac r * √2 / π = sin (r / 2) * (r / (r + 1e-9)) := by
    rw [g2]; field_simp
  have harg0 : 0 ≤ sin (r / 2) * (r / (r + 1e-9)) := by positivity
  have harg1 : sin (r / 2) * (r / (r + 1e-9)) ≤ sin (r / 2) := by nlinarith
  have hle1 : sin (r / 2) ≤ 1 := sin_le_one _
  have hb0 : 0 ≤ back r := by
    unfold back; rw [harg]
    have := arcsin_nonneg.mpr harg0
    linarith
  have hbr : back r ≤ r := by
    unfold back; rw [harg]
    have := monotone_arcsin harg1
    rw [arcsin_sin (by linarith) (by linarith)] at this
    linarith
  have hsin : sin (back r / 2) = sin (r / 2) * (r / (r + 1e-9)) := by
    unfold back
    rw [mul_div_cancel_left₀ _ (by norm_num : (2:ℝ) ≠ 0), harg, sin_arcsin (by linarith) (by linarith)]
  refine ⟨hb0, hbr, ?_, ?_⟩
  · have h := sin_steep (a := r / 2) (b := back r / 2) (by linarith) (by linarith) (by linarith)
    rw [hsin] at h
    have hd : sin (r / 2) - sin (r / 2) * (r / (r + 1e-9)) ≤ 1e-9 / 2 := by
      have e : sin (r / 2) - sin (r / 2) * (r / (r + 1e-9)) = sin (r / 2) * (1e-9 / (r + 1e-9)) := by
        field_simp; ring
      rw [e]
      calc sin (r / 2) * (1e-9 / (r + 1e-9)) ≤ r / 2 * (1e-9 / (r + 1e-9)) := by
            apply mul_le_mul_of_nonneg_right hsr (by positivity)
        _ = 1e-9 / 2 * (r / (r + 1e-9)) := by ring
        _ ≤ 1e-9 / 2 * 1 := by apply mul_le_mul_of_nonneg_left hrho1 (by norm_num)
        _ = 1e-9 / 2 := by ring
    norm_num at hd ⊢
    linarith
  · have h := chord_ge hb0 (hbr.trans h1)
    rw [hsin] at h
    rw [g2]
    have : √2 / π * back r * (π / √2) = back r := by field_simp
    calc back r = √2 / π * back r * (π / √2) := this.symm
      _ ≤ sin (r / 2) * (r / (r + 1e-9)) * (π / √2) := by
          apply mul_le_mul_of_nonneg_right h (by positivity)
      _ = _ := by ring

/-- the radial error of the round trip -/
theorem solid_error {r : ℝ} (h0 : 0 ≤ r) (h1 : r ≤ π / 2) :
    0 ≤ r - r * (gfac r * back r / (r * gfac r + 1e-9)) ∧
    r - r * (gfac r * back r / (r * gfac r + 1e-9)) ≤ 4e-9 := by
  obtain ⟨b0, b1, b2, b3⟩ := back_bounds h0 h1
  obtain ⟨g0, _, g2⟩ := gfac_bounds h0 h1
  have e : r * (gfac r * back r / (r * gfac r + 1e-9)) = back r * (r * gfac r / (r * gfac r + 1e-9)) := by ring
  rw [e]
  have hA : 0 ≤ r * gfac r := by positivity
  have hden : 0 < r * gfac r + 1e-9 := by positivity
  have hf1 : r * gfac r / (r * gfac r + 1e-9) ≤ 1 := by rw [div_le_one hden]; norm_num
  have hf0 : 0 ≤ r * gfac r / (r * gfac r + 1e-9) := by positivity
  have hf2 : back r * (1 - r * gfac r / (r * gfac r + 1e-9)) ≤ 1e-9 := by
    have : 1 - r * gfac r / (r * gfac r + 1e-9) = 1e-9 / (r * gfac r + 1e-9) := by field_simp; ring
    rw [this]
    rw [← mul_div_assoc, div_le_iff₀ hden]
    norm_num
    nlinarith
  constructor
  · nlinarith
  · norm_num at hf2 b2 ⊢
    nlinarith

/-- what C57 asks of the round trip -/
def C57_round_statement : Prop :=
  ∀ d : V3, d ≠ V3.zero → ∀ va : ℝ, 0 < va → va ≤ 180 → ∀ q : ℝ × ℝ, off q ≤ 1 / 2 →
    rad2 (((View.new d va).solidXyz2vxy ((View.new d va).solidVxy2xyz q)).1 - q.1,
      ((View.new d va).solidXyz2vxy ((View.new d va).solidVxy2xyz q)).2 - q.2) ≤ 1e-8

theorem solid_diff {d : V3} (hd : d ≠ V3.zero) {va : ℝ} (h0 : 0 < va) (h1 : va ≤ 180) (q : ℝ × ℝ)
    (hq : off q ≤ 1 / 2) :
    vsize va * rad2 (((View.new d va).solidXyz2vxy ((View.new d va).solidVxy2xyz q)).1 - q.1,
      ((View.new d va).solidXyz2vxy ((View.new d va).solidVxy2xyz q)).2 - q.2)
      = vsize va * off q - vsize va * off q * (gfac (vsize va * off q) * back (vsize va * off q)
            / (vsize va * off q * gfac (vsize va * off q) + 1e-9)) := by
  obtain ⟨a, b⟩ := vsize_off h0 h1 q hq
  obtain ⟨e0, e1⟩ := solid_error a b
  rw [solid_round_eq hd h0 h1 q hq]
  simp only
  set f := gfac (vsize va * off q) * back (vsize va * off q)
            / (vsize va * off q * gfac (vsize va * off q) + 1e-9) with hf
  have hv := vsize_pos h0
  have h2 : rad2 ((q.1 - 1 / 2) * f + 1 / 2 - q.1, (q.2 - 1 / 2) * f + 1 / 2 - q.2) = |1 - f| * off q := by
    unfold off
    rw [← rad2_scale _ _ _ (abs_nonneg _)]
    unfold rad2
    simp only
    congr 1
    rw [mul_pow, mul_pow, sq_abs]; ring
  rw [h2]
  rcases (mul_nonneg hv.le (off_nonneg q)).lt_or_eq with hpos | hz
  · have : 0 ≤ 1 - f := by
      by_contra hc
      push Not at hc
      nlinarith
    rw [abs_of_nonneg this]; ring
  · have hz' : vsize va * off q = 0 := hz.symm
    rw [hz']
    calc vsize va * (|1 - f| * off q) = |1 - f| * (vsize va * off q) := by ring
      _ = _ := by rw [hz']; ring

/-- **C57** the round trip moves an image point by at most `4e-9` radians, i.e. `4e-9` divided by the view size;
for view angles of 30 degrees and more that is below `1e-8`. Missing for the full claim: very small view angles
(`C57_round_refuted`). -/
theorem C57_round_trip_partial (d : V3) (hd : d ≠ V3.zero) (va : ℝ) (h0 : 0 < va) (h1 : va ≤ 180) (q : ℝ × ℝ)
    (hq : off q ≤ 1 / 2) :
    vsize va * rad2 (((View.new d va).solidXyz2vxy ((View.new d va).solidVxy2xyz q)).1 - q.1,
      ((View.new d va).solidXyz2vxy ((View.new d va).solidVxy2xyz q)).2 - q.2) ≤ 4e-9 ∧
    (30 ≤ va → rad2 (((View.new d va).solidXyz2vxy ((View.new d va).solidVxy2xyz q)).1 - q.1,
      ((View.new d va).solidXyz2vxy ((View.new d va).solidVxy2xyz q)).2 - q.2) ≤ 1e-8) := by
  obtain ⟨a, b⟩ := vsize_off h0 h1 q hq
  have key : vsize va * rad2 (((View.new d va).solidXyz2vxy ((View.new d va).solidVxy2xyz q)).1 - q.1,
      ((View.new d va).solidXyz2vxy ((View.new d va).solidVxy2xyz q)).2 - q.2) ≤ 4e-9 := by
    rw [solid_diff hd h0 h1 q hq]
    exact (solid_error a b).2
  refine ⟨key, fun h30 => ?_⟩
  have hv : 1 / 2 ≤ vsize va := by unfold vsize; nlinarith [pi_gt_three]
  have hn := rad2_nonneg (((View.new d va).solidXyz2vxy ((View.new d va).solidVxy2xyz q)).1 - q.1,
      ((View.new d va).solidXyz2vxy ((View.new d va).solidVxy2xyz q)).2 - q.2)
  norm_num at key ⊢
  nlinarith

theorem C57_round_refuted : ¬ C57_round_statement := by
  intro h
  have hpi := pi_pos
  have hz0 : (⟨0, 0, 1⟩ : V3) ≠ V3.zero := by simp [V3.zero]
  set va : ℝ := 1e-9 * 180 / π with hva
  have hv0 : 0 < va := by positivity
  have hv1 : va ≤ 180 := by
    rw [hva, div_le_iff₀ hpi]
    nlinarith [pi_gt_three]
  have hoff : off (1, 1 / 2) = 1 / 2 := by
    unfold off rad2
    simp only
    rw [show ((1 : ℝ) - 1 / 2) ^ 2 + (1 / 2 - 1 / 2) ^ 2 = (1 / 2) ^ 2 by norm_num, sqrt_sq (by norm_num)]
  have hvs : vsize va = 1e-9 := by unfold vsize; rw [hva]; field_simp
  have h1 := h ⟨0, 0, 1⟩ hz0 va hv0 hv1 (1, 1 / 2) hoff.le
  have h2 := solid_diff hz0 hv0 hv1 (1, 1 / 2) hoff.le
  rw [hvs, hoff] at h2
  obtain ⟨b0, b1, b2, b3⟩ := back_bounds (r := 1e-9 * (1 / 2)) (by norm_num) (by norm_num; linarith [pi_gt_three])
  obtain ⟨g0, g1, g2⟩ := gfac_bounds (r := 1e-9 * (1 / 2)) (by norm_num) (by norm_num; linarith [pi_gt_three])
  have g3 : gfac (1e-9 * (1 / 2)) ≤ 2 := by
    refine g1.trans ?_
    have hs : (1 : ℝ) ≤ √2 := by rw [one_le_sqrt]; norm_num
    rw [div_le_iff₀ (by positivity)]
    nlinarith [pi_lt_d2]
  generalize gfac (1e-9 * (1 / 2)) = g at *
  generalize back (1e-9 * (1 / 2)) = bk at *
  have hf : (1e-9 * (1 / 2)) * (g * bk / (1e-9 * (1 / 2) * g + 1e-9)) ≤ 1e-9 * (1 / 4) := by
    rw [← mul_div_assoc, div_le_iff₀ (by positivity)]
    norm_num at b1 ⊢
    nlinarith
  have hn : 0.25 ≤ rad2 (((View.new ⟨0, 0, 1⟩ va).solidXyz2vxy ((View.new ⟨0, 0, 1⟩ va).solidVxy2xyz (1, 1 / 2))).1 - 1,
      ((View.new ⟨0, 0, 1⟩ va).solidXyz2vxy ((View.new ⟨0, 0, 1⟩ va).solidVxy2xyz (1, 1 / 2))).2 - 1 / 2) := by
    norm_num at h2 hf ⊢
    linarith
  have := hn.trans h1
  norm_num at this

/-! ### the projection law -/

/-- **C57** the law the code implements: the angle from the view direction is proportional to the SINE OF HALF the
image radius (the image radius in radians of view size). The equisolid law is the other way round
(`C57_equisolid_refuted`). -/
theorem C57_law_partial (d : V3) (h : Clear d) (va : ℝ) (h0 : 0 < va) (h1 : va ≤ 180) (q : ℝ × ℝ)
    (hq : off q ≤ 1 / 2) :
    (View.new d va).radians ((View.new d va).solidVxy2xyz q)
      = chordFactor va * (π / √2) * sin (va * π / 180 * off q / 2)
        * (va * π / 180 * off q / (va * π / 180 * off q + 1e-9)) := by
  obtain ⟨_, _, e1, e2, e3⟩ := new_sf (d := d) (va := va) (by linarith)
  obtain ⟨a, b⟩ := va_cf_pos h0 h1
  obtain ⟨r0, r1⟩ := vsize_off h0 h1 q hq
  obtain ⟨g0, _, g2⟩ := gfac_bounds r0 r1
  unfold View.solidVxy2xyz
  rw [e1, e3]
  have hr : rad2 ((fromSolid va q).1 * (-1 * (va * chordFactor va) / 180),
      (fromSolid va q).2 * (1 * (va * chordFactor va) / 180)) = va * chordFactor va / 180 * rad2 (fromSolid va q) := by
    have e : ((fromSolid va q).1, (fromSolid va q).2) = fromSolid va q := rfl
    rw [← e, ← rad2_scale _ _ _ (by positivity)]
    unfold rad2
    simp only
    congr 1; ring
  rw [radians_polar d h va _ (by
    rw [hr]
    have := rad_lt_one h0 h1 q hq
    nlinarith [rad2_nonneg (fromSolid va q)]), hr, rad_fromSolid h0 q g0]
  have : π * (va * chordFactor va / 180 * (off q * gfac (vsize va * off q)))
      = chordFactor va * (vsize va * off q * gfac (vsize va * off q)) := by unfold vsize; ring
  rw [this, g2]
  unfold vsize
  ring

/-- what C57 asks of the projection: image radius proportional to `2 sin (θ/2)`, to within `1e-8` -/
def C57_equisolid_statement : Prop :=
  ∀ d : V3, Clear d → ∀ va : ℝ, 0 < va → va ≤ 180 → ∃ k : ℝ, ∀ q : ℝ × ℝ, off q ≤ 1 / 2 →
    |off q - k * (2 * sin ((View.new d va).radians ((View.new d va).solidVxy2xyz q) / 2))| ≤ 1e-8

theorem off_x {x : ℝ} (h : 0 ≤ x) : off (1 / 2 + x, 1 / 2) = x := by
  unfold off rad2
  simp only
  rw [show ((1 : ℝ) / 2 + x - 1 / 2) ^ 2 + (1 / 2 - 1 / 2) ^ 2 = x ^ 2 by ring, sqrt_sq h]

theorem rho_bound {r : ℝ} (h : 1 / 2 ≤ r) : 1 - 1e-8 ≤ r / (r + 1e-9) ∧ r / (r + 1e-9) ≤ 1 := by
  constructor
  · rw [le_div_iff₀ (by norm_num; linarith)]
    norm_num; nlinarith
  · rw [div_le_one (by norm_num; linarith)]; norm_num

theorem C57_equisolid_refuted : ¬ C57_equisolid_statement := by
  intro h
  have hpi3 := pi_gt_three
  have hpi4 := pi_lt_d2
  have hpi5 := pi_gt_d2
  have hs2 : 0 < √2 := by positivity
  have hsq : √2 * √2 = 2 := mul_self_sqrt (by norm_num)
  have hs2a : √2 < 1.4143 := by rw [sqrt_lt' (by norm_num)]; norm_num
  obtain ⟨k, hk⟩ := h ⟨0, 0, 1⟩ clear_example.2 180 (by norm_num) (by norm_num)
  -- the edge of the image
  have h1 := hk (1 / 2 + 1 / 2, 1 / 2) (off_x (by norm_num)).le
  rw [C57_law_partial _ clear_example.2 180 (by norm_num) (by norm_num) _ (off_x (by norm_num)).le,
    off_x (by norm_num), cf_180, show (180 : ℝ) * π / 180 * (1 / 2) / 2 = π / 4 by ring, sin_pi_div_four,
    show (180 : ℝ) * π / 180 * (1 / 2) = π / 2 by ring,
    show 1 * (π / √2) * (√2 / 2) * (π / 2 / (π / 2 + 1e-9)) / 2 = π / 4 * (π / 2 / (π / 2 + 1e-9)) by
      field_simp; norm_num] at h1
  obtain ⟨p0, p1⟩ := rho_bound (r := π / 2) (by linarith)
  generalize π / 2 / (π / 2 + 1e-9) = ρ1 at *
  have hsin1 : sin (π / 4 * ρ1) ≤ √2 / 2 := by
    rw [← sin_pi_div_four]
    exact sin_le_sin_of_le_of_le_pi_div_two (by nlinarith) (by linarith) (by nlinarith)
  have hsin1' : 0 ≤ sin (π / 4 * ρ1) := sin_nonneg_of_nonneg_of_le_pi (by norm_num at p0; nlinarith) (by nlinarith)
  -- the point with sine of half the radius equal to √2/3
  set A := arcsin (√2 / 3) with hA
  have hsA : sin A = √2 / 3 := sin_arcsin (by linarith) (by linarith)
  have hA1 : A < 1 / 2 := by
    by_contra hc
    push Not at hc
    have hm : sin (1 / 2) ≤ sin A :=
      sin_le_sin_of_le_of_le_pi_div_two (by linarith) (arcsin_le_pi_div_two _) hc
    have hb := sin_bound (x := 1 / 2) (by rw [abs_of_pos] <;> norm_num)
    rw [abs_le] at hb
    have := hb.1
    norm_num [abs_of_pos] at this
    rw [hsA] at hm
    norm_num at hs2a
    linarith
  have hA0 : 0.47 ≤ A := by
    have h47 : (1.41 : ℝ) ≤ √2 := by rw [le_sqrt' (by norm_num)]; norm_num
    have := sin_le (x := A) (arcsin_nonneg.mpr (by positivity))
    rw [hsA] at this
    norm_num at h47 ⊢
    linarith
  have hx0 : 0 ≤ 2 * A / π := by
    have : 0 ≤ A := by norm_num at hA0; linarith
    positivity
  have hx1 : 2 * A / π ≤ 1 / 2 := by rw [div_le_iff₀ (by linarith)]; linarith
  have h2 := hk (1 / 2 + 2 * A / π, 1 / 2) ((off_x hx0).le.trans hx1)
  rw [C57_law_partial _ clear_example.2 180 (by norm_num) (by norm_num) _ ((off_x hx0).le.trans hx1),
    off_x hx0, cf_180, show (180 : ℝ) * π / 180 * (2 * A / π) = 2 * A by field_simp,
    show 2 * A / 2 = A by ring, hsA,
    show 1 * (π / √2) * (√2 / 3) * (2 * A / (2 * A + 1e-9)) / 2 = π / 6 * (2 * A / (2 * A + 1e-9)) by
      field_simp; norm_num] at h2
  obtain ⟨q0, q1⟩ := rho_bound (r := 2 * A) (by norm_num at hA0; linarith)
  generalize 2 * A / (2 * A + 1e-9) = ρ2 at *
  have hsin2 : 0.48 ≤ sin (π / 6 * ρ2) := by
    have hm : sin 0.52 ≤ sin (π / 6 * ρ2) :=
      sin_le_sin_of_le_of_le_pi_div_two (by norm_num; linarith) (by nlinarith)
        (by norm_num at q0 hpi5 ⊢; nlinarith)
    have hb := sin_gt_sub_cube (x := 0.52) (by norm_num)
    norm_num at hb hm ⊢
    linarith
  rw [abs_le] at h1 h2
  have e1 := h1.2
  have e2 := h2.1
  have hk0 : 0.353 ≤ k := by
    by_contra hc
    push Not at hc
    rcases le_or_gt k 0 with hn | hp
    · norm_num at e1; nlinarith
    · norm_num at e1 hc hs2a; nlinarith
  have hx3 : 2 * A / π ≤ 0.32 := by
    rw [div_le_iff₀ (by linarith)]; norm_num at hpi5 ⊢; linarith
  norm_num at e2 hk0 hsin2 hx3
  nlinarith

/-! ### C58 -/

/-- what C58 asks: image radius proportional to `tan θ`, to within `1e-8` -/
def C58_statement : Prop :=
  ∀ d : V3, Clear d → ∀ vv vh : ℝ, 0 < vv → 0 < vh → ∀ m, perspNew d vv vh = .ok m →
    ∃ k : ℝ, ∀ q : ℝ × ℝ, off q ≤ 1 / 2 → |off q - k * tan (m.radians (m.perspVxy2xyz q))| ≤ 1e-8

/-- **C58** the construction succeeds exactly below 180 degrees, with the larger of the two angles, and the
projection is the one of the equisolid class. Missing for the full claim: it is not a perspective projection
(`C58_refuted`). -/
theorem C58_same_as_solid_partial (d : V3) (vv vh : ℝ) (q : ℝ × ℝ) :
    (180 ≤ max vh vv → perspNew d vv vh = .error .ValueError) ∧
    (max vh vv < 180 → ∃ m, perspNew d vv vh = .ok m ∧ solidNew d (max vh vv) = .ok m ∧
      m.perspVxy2xyz q = m.solidVxy2xyz q ∧ m = View.new d (max vh vv)) := by
  constructor
  · intro h; unfold perspNew; rw [if_pos h]
  · intro h
    refine ⟨View.new d (max vh vv), ?_, ?_, rfl, rfl⟩
    · unfold perspNew; rw [if_neg (not_le.mpr h)]
    · unfold solidNew; rw [if_neg (not_lt.mpr h.le)]

theorem C58_refuted : ¬ C58_statement := by
  intro h
  have hpi3 := pi_gt_three
  have hpi4 := pi_lt_d2
  have hpi5 := pi_gt_d2
  have hs2 : 0 < √2 := by positivity
  have hm : perspNew ⟨0, 0, 1⟩ 120 120 = .ok (View.new ⟨0, 0, 1⟩ 120) := by
    unfold perspNew; rw [max_self, if_neg (by norm_num)]
  obtain ⟨k, hk⟩ := h ⟨0, 0, 1⟩ clear_example.2 120 120 (by norm_num) (by norm_num) _ hm
  have hk' : ∀ q : ℝ × ℝ, off q ≤ 1 / 2 →
      |off q - k * tan ((View.new ⟨0, 0, 1⟩ 120).radians ((View.new ⟨0, 0, 1⟩ 120).solidVxy2xyz q))| ≤ 1e-8 := hk
  have h1 := hk' (1 / 2 + 1 / 2, 1 / 2) (off_x (by norm_num)).le
  rw [C57_law_partial _ clear_example.2 120 (by norm_num) (by norm_num) _ (off_x (by norm_num)).le,
    off_x (by norm_num), cf_120, show (120 : ℝ) * π / 180 * (1 / 2) / 2 = π / 6 by ring, sin_pi_div_six,
    show (120 : ℝ) * π / 180 * (1 / 2) = π / 3 by ring,
    show 2 * √2 / 3 * (π / √2) * (1 / 2) * (π / 3 / (π / 3 + 1e-9)) = π / 3 * (π / 3 / (π / 3 + 1e-9)) by
      field_simp] at h1
  obtain ⟨p0, p1⟩ := rho_bound (r := π / 3) (by linarith)
  generalize π / 3 / (π / 3 + 1e-9) = ρ1 at *
  have htan1 : 1.42 ≤ tan (π / 3 * ρ1) := by
    have hx : 0.52 ≤ π / 6 * ρ1 := by norm_num at p0 hpi5 ⊢; nlinarith
    have hx2 : π / 6 * ρ1 ≤ π / 6 := by nlinarith
    have ht := le_tan (x := π / 6 * ρ1) (by norm_num at hx; linarith) (by linarith)
    have ht2 : tan (π / 6 * ρ1) < 1 := by
      rw [← tan_pi_div_four]
      exact tan_lt_tan_of_nonneg_of_lt_pi_div_two (by norm_num at hx; linarith) (by linarith) (by linarith)
    rw [show π / 3 * ρ1 = 2 * (π / 6 * ρ1) by ring, tan_two_mul]
    have ht3 : 0.52 ≤ tan (π / 6 * ρ1) := hx.trans ht
    generalize tan (π / 6 * ρ1) = t at *
    rw [le_div_iff₀ (by norm_num at ht3; nlinarith)]
    norm_num at ht3 ⊢
    nlinarith
  set A := arcsin (1 / 4) with hA
  have hsA : sin A = 1 / 4 := sin_arcsin (by norm_num) (by norm_num)
  have hA0 : 1 / 4 ≤ A := by
    have := sin_le (x := A) (arcsin_nonneg.mpr (by norm_num))
    linarith
  have hA1 : A ≤ π / 6 := by
    rw [hA]
    rw [arcsin_le_iff_le_sin' ⟨by linarith, by linarith⟩, sin_pi_div_six]
    norm_num
  have hx0 : 0 ≤ 3 * A / π := by positivity
  have hx1 : 3 * A / π ≤ 1 / 2 := by rw [div_le_iff₀ (by linarith)]; linarith
  have h2 := hk' (1 / 2 + 3 * A / π, 1 / 2) ((off_x hx0).le.trans hx1)
  rw [C57_law_partial _ clear_example.2 120 (by norm_num) (by norm_num) _ ((off_x hx0).le.trans hx1),
    off_x hx0, cf_120, show (120 : ℝ) * π / 180 * (3 * A / π) = 2 * A by field_simp; norm_num,
    show 2 * A / 2 = A by ring, hsA,
    show 2 * √2 / 3 * (π / √2) * (1 / 4) * (2 * A / (2 * A + 1e-9)) = π / 6 * (2 * A / (2 * A + 1e-9)) by
      field_simp; norm_num] at h2
  obtain ⟨q0, q1⟩ := rho_bound (r := 2 * A) (by linarith)
  generalize 2 * A / (2 * A + 1e-9) = ρ2 at *
  have htan2 : tan (π / 6 * ρ2) ≤ 0.58 := by
    have h6 : tan (π / 6) = 1 / √3 := tan_pi_div_six
    have h3 : (1.73 : ℝ) ≤ √3 := by rw [le_sqrt' (by norm_num)]; norm_num
    have : tan (π / 6 * ρ2) ≤ tan (π / 6) := by
      rcases (show π / 6 * ρ2 ≤ π / 6 by nlinarith).lt_or_eq with hl | hl
      · exact (tan_lt_tan_of_nonneg_of_lt_pi_div_two (by norm_num at q0; nlinarith) (by linarith) hl).le
      · rw [hl]
    refine this.trans ?_
    rw [h6, div_le_iff₀ (by positivity)]
    norm_num at h3 ⊢
    linarith
  have htan2' : 0 ≤ tan (π / 6 * ρ2) :=
    tan_nonneg_of_nonneg_of_le_pi_div_two (by norm_num at q0; nlinarith) (by nlinarith)
  rw [abs_le] at h1 h2
  have e1 := h1.1
  have e2 := h2.2
  have hk1 : k ≤ 0.36 := by
    by_contra hc
    push Not at hc
    norm_num at e1 hc htan1
    nlinarith
  have hx3 : 0.238 ≤ 3 * A / π := by
    rw [le_div_iff₀ (by linarith)]; norm_num at hpi4 ⊢; linarith
  norm_num at e2 hk1 htan2 hx3
  rcases le_or_gt k 0 with hn | hp
  · nlinarith
  · nlinarith

example : off (3 / 4, 1 / 2) ≤ 1 / 2 := by
  rw [show ((3 : ℝ) / 4, (1 : ℝ) / 2) = (1 / 2 + 1 / 4, 1 / 2) by norm_num, off_x (by norm_num)]; norm_num

end Verif.Map
