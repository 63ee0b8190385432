import Verif.Lemmas.EqualArea
import Verif.Props.Quadrature

/-! C199: equal areas of the square are equal solid angles. -/

namespace Verif.Geo
open Real MeasureTheory Set Verif.Map ENNReal

/-! ### the direction at a point of a sector -/

theorem uv2xyz_low {u v : ℝ} (hu : u ≤ 1) : uv2xyz 1 (u, v) =
    ⟨cos (sqPhi (2 * u - 1) (2 * v - 1)) * sphterm (sqR (2 * u - 1) (2 * v - 1)),
      sin (sqPhi (2 * u - 1) (2 * v - 1)) * sphterm (sqR (2 * u - 1) (2 * v - 1)),
      1 - sqR (2 * u - 1) (2 * v - 1) * sqR (2 * u - 1) (2 * v - 1)⟩ := by
  have h1 : hemi u = 1 := by unfold hemi; rw [if_neg (by linarith)]
  have h2 : foldU u = u := by unfold foldU; rw [if_neg (by linarith)]
  unfold uv2xyz uv2xyzOn
  simp [h1, h2, V3.set, Axes.std]

/-- the four sectors -/
inductive Quarter : ℝ → ℝ → ℝ → Prop
  | right : Quarter 1 0 0
  | up : Quarter 0 1 (π / 2)
  | left : Quarter (-1) 0 π
  | down : Quarter 0 (-1) (3 * π / 2)

theorem Quarter.unit {c s k : ℝ} (h : Quarter c s k) : c ^ 2 + s ^ 2 = 1 := by cases h <;> norm_num

theorem dir_sec {c s k : ℝ} (h : Quarter c s k) {p : ℝ × ℝ} (hp : p ∈ secAng k) :
    uv2xyz 1 (secMap c s k p) = sphDir p.1 p.2 := by
  obtain ⟨ht, hf⟩ := hp
  obtain ⟨A0, A1⟩ := half_sin ht
  obtain ⟨e1, e2⟩ := sph_terms ht
  have hpi := pi_pos
  set A := √2 * sin (p.1 / 2) with hA
  have hb : |4 / π * (p.2 - k)| < 1 := by
    obtain ⟨l, u⟩ := hf
    rw [abs_mul, abs_of_pos (by positivity), div_mul_eq_mul_div, div_lt_one hpi]
    have : |p.2 - k| < π / 4 := abs_lt.mpr ⟨by linarith, by linarith⟩
    linarith
  obtain ⟨b0, b1⟩ := abs_lt.mp hb
  set F := 4 / π * (p.2 - k) with hF
  have hFA : -A < F * A ∧ F * A < A := ⟨by nlinarith, by nlinarith⟩
  have hsq : A * A > F * A * (F * A) := by nlinarith
  unfold secMap
  rw [← hA, ← hF]
  have hk : p.2 = k + F * π / 4 := by rw [hF]; field_simp; ring
  cases h with
  | right =>
    rw [uv2xyz_low (by linarith), show 2 * ((1 * A - 0 * (F * A) + 1) / 2) - 1 = A by ring,
      show 2 * ((0 * A + 1 * (F * A) + 1) / 2) - 1 = F * A by ring]
    unfold sqR sqPhi
    rw [if_pos hsq, if_pos hsq, e1, e2, show F * A / (2 * A) * π / 2 = p.2 by rw [hk]; field_simp; ring]
    unfold sphDir
    congr 1 <;> ring
  | up =>
    rw [uv2xyz_low (by linarith), show 2 * ((0 * A - 1 * (F * A) + 1) / 2) - 1 = -(F * A) by ring,
      show 2 * ((1 * A + 0 * (F * A) + 1) / 2) - 1 = A by ring]
    have q1 : ¬ (-(F * A) * -(F * A) > A * A) := by nlinarith
    simp only [sqR, sqPhi, if_neg q1, if_neg A0.ne']
    rw [e1, e2, show (1 - -(F * A) / (2 * A)) * π / 2 = p.2 by rw [hk]; field_simp; ring]
    unfold sphDir
    congr 1 <;> ring
  | left =>
    rw [uv2xyz_low (by linarith), show 2 * ((-1 * A - 0 * (F * A) + 1) / 2) - 1 = -A by ring,
      show 2 * ((0 * A + -1 * (F * A) + 1) / 2) - 1 = -(F * A) by ring]
    unfold sqR sqPhi
    rw [if_pos (by nlinarith), if_pos (by nlinarith), sphterm_neg, e1, neg_mul_neg, e2,
      show -(F * A) / (2 * -A) * π / 2 = p.2 - π by rw [hk]; field_simp; ring, cos_sub_pi, sin_sub_pi]
    unfold sphDir
    congr 1 <;> ring
  | down =>
    rw [uv2xyz_low (by linarith), show 2 * ((0 * A - -1 * (F * A) + 1) / 2) - 1 = F * A by ring,
      show 2 * ((-1 * A + 0 * (F * A) + 1) / 2) - 1 = -A by ring]
    have q1 : ¬ (F * A * (F * A) > -A * -A) := by nlinarith
    simp only [sqR, sqPhi, if_neg q1, if_neg (neg_ne_zero.mpr A0.ne')]
    rw [sphterm_neg, e1, neg_mul_neg, e2,
      show (1 - F * A / (2 * -A)) * π / 2 = p.2 - π by rw [hk]; field_simp; ring, cos_sub_pi, sin_sub_pi]
    unfold sphDir
    congr 1 <;> ring

/-! ### integrals -/

theorem secAng_measurable (k : ℝ) : MeasurableSet (secAng k) := measurableSet_Ioo.prod measurableSet_Ioo

theorem sector_integral {c s k : ℝ} (h : Quarter c s k) (G : V3 → ℝ≥0∞) :
    ∫⁻ q in sector c s, G (uv2xyz 1 q) = ∫⁻ p in secAng k, ENNReal.ofReal (sin p.1 / (2 * π)) * G (sphDir p.1 p.2) := by
  rw [← secMap_image h.unit k, lintegral_image_eq_lintegral_abs_det_fderiv_mul volume (secAng_measurable k)
    (fun x _ => (secMap_deriv c s k x).hasFDerivWithinAt) (secMap_inj h.unit k)]
  refine setLIntegral_congr_fun (secAng_measurable k) fun p hp => ?_
  have hpi := pi_pos
  have hs : 0 ≤ sin p.1 := sin_nonneg_of_nonneg_of_le_pi hp.1.1.le (by linarith [hp.1.2])
  rw [secDeriv_det h.unit, abs_of_nonneg (by positivity), dir_sec h hp]

/-- the unit square -/
def unitSq : Set (ℝ × ℝ) := Ioo 0 1 ×ˢ Ioo 0 1

/-- the angles of the directions of a hemisphere -/
def hemiAng : Set (ℝ × ℝ) := Ioo 0 (π / 2) ×ˢ Ioo (-π) π

theorem sector_measurable (c s : ℝ) : MeasurableSet (sector c s) := by
  exact ((isOpen_lt (f := fun q : ℝ × ℝ => c * (2 * q.1 - 1) + s * (2 * q.2 - 1)) (g := fun _ => 1) (by fun_prop)
    (by fun_prop)).inter (isOpen_lt (f := fun q : ℝ × ℝ => |c * (2 * q.2 - 1) - s * (2 * q.1 - 1)|)
    (g := fun q => c * (2 * q.1 - 1) + s * (2 * q.2 - 1)) (by fun_prop) (by fun_prop))).measurableSet

theorem diag_null (c d : ℝ) : volume {q : ℝ × ℝ | q.2 = c * q.1 + d} = 0 := by
  have hm : MeasurableSet {q : ℝ × ℝ | q.2 = c * q.1 + d} := (isClosed_eq (by fun_prop) (by fun_prop)).measurableSet
  rw [Measure.volume_eq_prod, Measure.measure_prod_null hm]
  refine Filter.Eventually.of_forall fun x => ?_
  have : (Prod.mk x ⁻¹' {q : ℝ × ℝ | q.2 = c * q.1 + d}) = {c * x + d} := by ext y; simp
  show volume (Prod.mk x ⁻¹' {q : ℝ × ℝ | q.2 = c * q.1 + d}) = 0
  rw [this]
  simp

theorem square_split : (unitSq : Set (ℝ × ℝ)) =ᵐ[volume] ((sector 1 0 ∪ sector 0 1) ∪ (sector (-1) 0 ∪ sector 0 (-1)) : Set (ℝ × ℝ)) := by
  have hd : ∀ᵐ q : ℝ × ℝ, q.2 ≠ 1 * q.1 + 0 ∧ q.2 ≠ -1 * q.1 + 1 :=
    (measure_eq_zero_iff_ae_notMem.mp (diag_null 1 0)).and (measure_eq_zero_iff_ae_notMem.mp (diag_null (-1) 1))
  filter_upwards [hd] with q hq
  refine propext ?_
  show q ∈ unitSq ↔ q ∈ (sector 1 0 ∪ sector 0 1) ∪ (sector (-1) 0 ∪ sector 0 (-1))
  unfold unitSq sector
  simp only [mem_prod, mem_Ioo, mem_union, mem_setOf_eq, abs_lt]
  obtain ⟨h1, h2⟩ := hq
  constructor
  · rintro ⟨⟨a0, a1⟩, b0, b1⟩
    rcases lt_or_gt_of_ne h1 with g1 | g1 <;> rcases lt_or_gt_of_ne h2 with g2 | g2
    · right; right; refine ⟨by linarith, by linarith, by linarith⟩
    · left; left; refine ⟨by linarith, by linarith, by linarith⟩
    · right; left; refine ⟨by linarith, by linarith, by linarith⟩
    · left; right; refine ⟨by linarith, by linarith, by linarith⟩
  · rintro ((⟨x, y, z⟩ | ⟨x, y, z⟩) | (⟨x, y, z⟩ | ⟨x, y, z⟩)) <;>
      exact ⟨⟨by linarith, by linarith⟩, by linarith, by linarith⟩

theorem sector_disj (c s c' s' : ℝ) (h : ∀ q : ℝ × ℝ, q ∈ sector c s → q ∈ sector c' s' → False) :
    Disjoint (sector c s) (sector c' s') := Set.disjoint_left.mpr fun q a b => h q a b

/-- the integral over the square as four integrals over the angles -/
theorem square_integral (G : V3 → ℝ≥0∞) : ∫⁻ q in unitSq, G (uv2xyz 1 q) =
    ((∫⁻ p in secAng 0, ENNReal.ofReal (sin p.1 / (2 * π)) * G (sphDir p.1 p.2)) +
      ∫⁻ p in secAng (π / 2), ENNReal.ofReal (sin p.1 / (2 * π)) * G (sphDir p.1 p.2)) +
    ((∫⁻ p in secAng π, ENNReal.ofReal (sin p.1 / (2 * π)) * G (sphDir p.1 p.2)) +
      ∫⁻ p in secAng (3 * π / 2), ENNReal.ofReal (sin p.1 / (2 * π)) * G (sphDir p.1 p.2)) := by
  have dis : ∀ c s c' s' : ℝ, (∀ q : ℝ × ℝ, q ∈ sector c s → q ∈ sector c' s' → False) →
      Disjoint (sector c s) (sector c' s') := sector_disj
  rw [setLIntegral_congr square_split, lintegral_union ((sector_measurable _ _).union (sector_measurable _ _)),
    lintegral_union (sector_measurable _ _), lintegral_union (sector_measurable _ _), sector_integral .right, sector_integral .up,
    sector_integral .left, sector_integral .down]
  · refine dis _ _ _ _ fun q a b => ?_
    simp only [sector, mem_setOf_eq, abs_lt] at a b
    linarith [a.1, a.2.1, a.2.2, b.1, b.2.1, b.2.2]
  · refine dis _ _ _ _ fun q a b => ?_
    simp only [sector, mem_setOf_eq, abs_lt] at a b
    linarith [a.1, a.2.1, a.2.2, b.1, b.2.1, b.2.2]
  · rw [disjoint_union_left, disjoint_union_right, disjoint_union_right]
    refine ⟨⟨?_, ?_⟩, ?_, ?_⟩ <;>
    · refine dis _ _ _ _ fun q a b => ?_
      simp only [sector, mem_setOf_eq, abs_lt] at a b
      linarith [a.1, a.2.1, a.2.2, b.1, b.2.1, b.2.2]

end Verif.Geo
