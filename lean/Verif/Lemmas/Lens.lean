import Mathlib.MeasureTheory.Measure.Lebesgue.Integral
import Mathlib.MeasureTheory.Integral.IntervalIntegral.FundThmCalculus
import Mathlib.Analysis.SpecialFunctions.Trigonometric.InverseDeriv
import Mathlib.Analysis.SpecialFunctions.Sqrt

/-! Area of the intersection of two discs of the plane, the spec of the clipped solid angle (C72). -/

namespace Verif.Lens
open Real MeasureTheory Set

/-- points of the plane closer than `a` to the origin and closer than `b` to `(d, 0)` -/
def twoDiscs (a b d : ℝ) : Set (ℝ × ℝ) := {p | p.1 ^ 2 + p.2 ^ 2 < a ^ 2 ∧ (p.1 - d) ^ 2 + p.2 ^ 2 < b ^ 2}

/-- integral of the full chords of a disc of radius `r` -/
theorem chord_integral {r u v : ℝ} (hr : 0 < r) (h0 : -r ≤ u) (huv : u ≤ v) (h1 : v ≤ r) :
    ∫ t in u..v, 2 * √(r ^ 2 - t ^ 2) =
      (v * √(r ^ 2 - v ^ 2) + r ^ 2 * arcsin (v / r)) - (u * √(r ^ 2 - u ^ 2) + r ^ 2 * arcsin (u / r)) := by
  have key := intervalIntegral.integral_eq_sub_of_hasDerivAt_of_le
    (f := fun t => t * √(r ^ 2 - t ^ 2) + r ^ 2 * arcsin (t / r)) (f' := fun t => 2 * √(r ^ 2 - t ^ 2)) huv ?_ ?_ ?_
  · exact key
  · apply Continuous.continuousOn; fun_prop
  · intro t ht
    have ht1 : -r < t := lt_of_le_of_lt h0 ht.1
    have ht2 : t < r := lt_of_lt_of_le ht.2 h1
    have hpos : 0 < r ^ 2 - t ^ 2 := by nlinarith
    have hs := sqrt_pos.mpr hpos
    have hs2 := sq_sqrt hpos.le
    have d1 : HasDerivAt (fun t : ℝ => r ^ 2 - t ^ 2) (-(2 * t)) t := by
      simpa using ((hasDerivAt_id t).pow 2).const_sub (r ^ 2)
    have d2 := (hasDerivAt_id t).mul (d1.sqrt hpos.ne')
    have hlt1 : t / r ≠ -1 := by
      intro h; rw [div_eq_iff hr.ne'] at h; linarith
    have hlt2 : t / r ≠ 1 := by
      intro h; rw [div_eq_iff hr.ne'] at h; linarith
    have d3 : HasDerivAt (fun t : ℝ => arcsin (t / r)) (1 / √(1 - (t / r) ^ 2) * (1 / r)) t :=
      HasDerivAt.comp t (h := fun t : ℝ => t / r) (hasDerivAt_arcsin hlt1 hlt2) ((hasDerivAt_id t).div_const r)
    have d4 := d2.add (d3.const_mul (r ^ 2))
    refine d4.congr_deriv ?_
    have e : √(1 - (t / r) ^ 2) = √(r ^ 2 - t ^ 2) / r := by
      rw [show 1 - (t / r) ^ 2 = (r ^ 2 - t ^ 2) / r ^ 2 by field_simp, sqrt_div hpos.le, sqrt_sq hr.le]
    rw [e]
    simp only [id]
    generalize √(r ^ 2 - t ^ 2) = s at *
    field_simp
    nlinarith
  · apply Continuous.intervalIntegrable; fun_prop

/-- the circles cross and the centre of the second disc is beyond the chord -/
theorem area_twoDiscs {a b d x : ℝ} (ha : 0 < a) (hb : 0 < b) (hx : 2 * d * x = a ^ 2 - b ^ 2 + d ^ 2) (hd : 0 < d)
    (hx0 : 0 ≤ x) (hxd : x ≤ d) (hxa : x < a) (hxb : d - b < x) :
    (volume (twoDiscs a b d)).toReal = a ^ 2 * arcsin (√(a ^ 2 - x ^ 2) / a) + b ^ 2 * arcsin (√(a ^ 2 - x ^ 2) / b)
      - √(a ^ 2 - x ^ 2) * d := by
  set g : ℝ → ℝ := fun t => min (√(a ^ 2 - t ^ 2)) (√(b ^ 2 - (t - d) ^ 2)) with hg
  have hgc : Continuous g := by rw [hg]; fun_prop
  have hset : twoDiscs a b d = regionBetween (-g) g (Ioc (d - b) a) := by
    ext ⟨t, y⟩
    simp only [twoDiscs, regionBetween, mem_setOf_eq, mem_Ioc, mem_Ioo, Pi.neg_apply]
    constructor
    · rintro ⟨h1, h2⟩
      have l1 : |y| < √(a ^ 2 - t ^ 2) := by rw [lt_sqrt (abs_nonneg y), sq_abs]; linarith
      have l2 : |y| < √(b ^ 2 - (t - d) ^ 2) := by rw [lt_sqrt (abs_nonneg y), sq_abs]; linarith
      have l3 := abs_lt.mp (lt_min l1 l2)
      refine ⟨⟨?_, ?_⟩, l3.1, l3.2⟩
      · have : |t - d| < b := abs_lt_of_sq_lt_sq (by nlinarith [sq_nonneg y]) hb.le
        have := (abs_lt.mp this).1
        linarith
      · have : |t| < a := abs_lt_of_sq_lt_sq (by nlinarith [sq_nonneg y]) ha.le
        exact (abs_lt.mp this).2.le
    · rintro ⟨-, h3, h4⟩
      have l3 : |y| < g t := abs_lt.mpr ⟨h3, h4⟩
      obtain ⟨l1, l2⟩ := lt_min_iff.mp l3
      rw [lt_sqrt (abs_nonneg y), sq_abs] at l1 l2
      constructor <;> linarith
  have hg0 : ∀ t, 0 ≤ g t := fun t => le_min (sqrt_nonneg _) (sqrt_nonneg _)
  have hint : IntegrableOn g (Ioc (d - b) a) := (hgc.integrableOn_Icc).mono_set Ioc_subset_Icc_self
  have hle : d - b ≤ a := by linarith
  rw [hset, Measure.volume_eq_prod, volume_regionBetween_eq_integral hint.neg hint measurableSet_Ioc
    (fun t _ => by have := hg0 t; simp only [Pi.neg_apply]; linarith)]
  rw [ENNReal.toReal_ofReal]
  swap
  · apply integral_nonneg
    intro t; have := hg0 t; simp only [Pi.zero_apply, Pi.sub_apply, Pi.neg_apply]; linarith
  have e1 : (∫ t in Ioc (d - b) a, (g - -g) t) = ∫ t in (d - b)..a, 2 * g t := by
    rw [intervalIntegral.integral_of_le hle]
    congr 1; ext t; simp only [Pi.sub_apply, Pi.neg_apply]; ring
  have hii : ∀ u v, IntervalIntegrable (fun t => 2 * g t) volume u v :=
    fun u v => (continuous_const.mul hgc).intervalIntegrable u v
  have e2 : ∫ t in (d - b)..x, 2 * g t = ∫ t in (d - b)..x, 2 * √(b ^ 2 - (t - d) ^ 2) := by
    apply intervalIntegral.integral_congr
    intro t ht
    rw [uIcc_of_le hxb.le] at ht
    simp only [hg]
    rw [min_eq_right]
    apply sqrt_le_sqrt
    nlinarith [ht.2]
  have e3 : ∫ t in x..a, 2 * g t = ∫ t in x..a, 2 * √(a ^ 2 - t ^ 2) := by
    apply intervalIntegral.integral_congr
    intro t ht
    rw [uIcc_of_le hxa.le] at ht
    simp only [hg]
    rw [min_eq_left]
    apply sqrt_le_sqrt
    nlinarith [ht.1]
  have e4 := intervalIntegral.integral_comp_sub_right (a := d - b) (b := x) (fun u => 2 * √(b ^ 2 - u ^ 2)) d
  have hy : b ^ 2 - (x - d) ^ 2 = a ^ 2 - x ^ 2 := by linear_combination hx
  rw [e1, ← intervalIntegral.integral_add_adjacent_intervals (hii _ x) (hii x _), e2, e3, e4,
    chord_integral hb (by linarith) (by linarith) (by linarith), chord_integral ha (by linarith) hxa.le le_rfl, hy,
    show d - b - d = -b by ring, show (-b) / b = -1 by field_simp, div_self ha.ne', arcsin_neg_one, arcsin_one,
    show b ^ 2 - (-b) ^ 2 = 0 by ring, sub_self, sqrt_zero]
  have c1 : arcsin (√(a ^ 2 - x ^ 2) / a) = π / 2 - arcsin (x / a) := by
    have := arccos_eq_arcsin (x := x / a) (by positivity)
    rw [← arccos_eq_pi_div_two_sub_arcsin, this]
    congr 1
    rw [show 1 - (x / a) ^ 2 = (a ^ 2 - x ^ 2) / a ^ 2 by field_simp, sqrt_div' _ (by positivity), sqrt_sq ha.le]
  have c2 : arcsin (√(a ^ 2 - x ^ 2) / b) = π / 2 + arcsin ((x - d) / b) := by
    have := arccos_eq_arcsin (x := (d - x) / b) (by apply div_nonneg <;> linarith)
    rw [← hy, show (x - d) / b = -((d - x) / b) by ring, arcsin_neg, ← sub_eq_add_neg,
      ← arccos_eq_pi_div_two_sub_arcsin, this]
    congr 1
    rw [show 1 - ((d - x) / b) ^ 2 = (b ^ 2 - (x - d) ^ 2) / b ^ 2 by field_simp; ring, sqrt_div' _ (by positivity),
      sqrt_sq hb.le]
  rw [c1, c2]; ring

end Verif.Lens
