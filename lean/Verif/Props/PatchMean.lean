import Verif.Props.SolidAngle
import Verif.Props.SquareNear
import Mathlib.Topology.MetricSpace.Lipschitz

/-! C199, the mean over sky patches: it tends to the average over the solid angle of the hemisphere. -/

namespace Verif.Geo
open Real MeasureTheory Set Verif.Map Filter Topology

theorem uv2xyz_cont {xs : ℝ} (hx : xs = 1 ∨ xs = -1) :
    ContinuousOn (fun p : ℝ × ℝ => ((uv2xyz xs p).x, (uv2xyz xs p).y, (uv2xyz xs p).z)) {p | InRect p} := by
  have lip : ∀ {f : ℝ × ℝ → ℝ}, (∀ p q d, InRect p → InRect q → |p.1 - q.1| ≤ d → |p.2 - q.2| ≤ d → |f p - f q| ≤ 28 * d) →
      ContinuousOn f {p | InRect p} := by
    intro f h
    refine LipschitzOnWith.continuousOn (K := 28) (LipschitzOnWith.of_dist_le_mul fun p hp q hq => ?_)
    rw [Real.dist_eq]
    refine h p q (dist p q) hp hq ?_ ?_ <;> rw [← Real.dist_eq, Prod.dist_eq]
    · exact le_max_left _ _
    · exact le_max_right _ _
  refine ContinuousOn.prodMk (lip fun p q d hp hq h1 h2 => (C179_join xs hx p q d hp hq h1 h2).1)
    (ContinuousOn.prodMk (lip fun p q d hp hq h1 h2 => (C179_join xs hx p q d hp hq h1 h2).2.1)
      (lip fun p q d hp hq h1 h2 => ?_))
  have := (C179_join xs hx p q d hp hq h1 h2).2.2
  have := (abs_nonneg _).trans h1
  linarith

theorem smooth_uv {g : V3 → ℝ} (hg : Smooth g) {xs : ℝ} (hx : xs = 1 ∨ xs = -1) :
    ContinuousOn (fun p : ℝ × ℝ => g (uv2xyz xs p)) {p | InRect p} := by
  have h := Continuous.comp_continuousOn hg (uv2xyz_cont hx)
  exact h

theorem unitSq_measurable : MeasurableSet unitSq := measurableSet_Ioo.prod measurableSet_Ioo

theorem unitSq_sub : unitSq ⊆ uvRect := fun q hq => ⟨⟨hq.1.1, by linarith [hq.1.2]⟩, hq.2⟩

theorem volume_unitSq : volume unitSq = 1 := by
  unfold unitSq
  rw [Measure.volume_eq_prod, Measure.prod_prod, Real.volume_Ioo]; norm_num

theorem cap_cont {g : V3 → ℝ} (hg : Smooth g) : Continuous fun p : ℝ × ℝ => g (sphDir p.1 p.2) * sin p.1 := by
  have : Continuous fun p : ℝ × ℝ => g (sphDir p.1 p.2) :=
    hg.comp (by fun_prop : Continuous fun p : ℝ × ℝ => (sin p.1 * cos p.2, sin p.1 * sin p.2, cos p.1))
  exact this.mul (by fun_prop)

theorem cap_integrable {g : V3 → ℝ} (hg : Smooth g) (T : ℝ) :
    IntegrableOn (fun p : ℝ × ℝ => g (sphDir p.1 p.2) * sin p.1) (Ioo (0 : ℝ) T ×ˢ Ioo (-π) π) volume :=
  ((cap_cont hg).continuousOn.integrableOn_compact (isCompact_Icc.prod isCompact_Icc)).mono_set
      (prod_mono Ioo_subset_Icc_self Ioo_subset_Icc_self)

theorem cap_set {g : V3 → ℝ} (hg : Smooth g) {T : ℝ} (hT : 0 ≤ T) :
    ∫ p in (Ioo (0 : ℝ) T ×ˢ Ioo (-π) π : Set (ℝ × ℝ)), g (sphDir p.1 p.2) * sin p.1 = capIntegral T g := by
  have hpi := pi_pos
  have h := cap_integrable hg T
  rw [Measure.volume_eq_prod] at h ⊢
  rw [setIntegral_prod _ h]
  unfold capIntegral
  rw [intervalIntegral.integral_of_le hT, integral_Ioc_eq_integral_Ioo]
  refine setIntegral_congr_fun measurableSet_Ioo fun t _ => ?_
  simp only
  rw [intervalIntegral.integral_of_le (by linarith), integral_Ioc_eq_integral_Ioo]

theorem smooth_add {g : V3 → ℝ} (hg : Smooth g) (M : ℝ) : Smooth fun v => g v + M := by
  unfold Smooth at *
  exact hg.add continuous_const

theorem sphDir_unit (t f : ℝ) : (sphDir t f).normSq = 1 := by
  unfold sphDir V3.normSq
  nlinarith [sin_sq_add_cos_sq t, sin_sq_add_cos_sq f]

/-- the integral over the square, for continuous functions that are not negative -/
theorem square_real_pos {g : V3 → ℝ} (hg : Smooth g) (hp : ∀ v : V3, v.normSq = 1 → 0 ≤ g v) {xs : ℝ} (hx : xs = 1 ∨ xs = -1) :
    ∫ q in unitSq, g (uv2xyz xs q) = capIntegral (π / 2) g / (2 * π) := by
  have hpi := pi_pos
  have hc : AEStronglyMeasurable (fun q => g (uv2xyz xs q)) (volume.restrict unitSq) :=
    ((smooth_uv hg hx).mono fun q hq => uvRect_inRect (unitSq_sub hq)).aestronglyMeasurable unitSq_measurable
  rw [integral_eq_lintegral_of_nonneg_ae ((ae_restrict_iff' unitSq_measurable).mpr
    (Eventually.of_forall fun q hq => hp _ (uv2xyz_unit hx (unitSq_sub hq)))) hc]
  rw [C199_hemisphere xs hx fun d => ENNReal.ofReal (g d)]
  have hm : MeasurableSet (Ioo (0 : ℝ) (π / 2) ×ˢ Ioo (-π) π) := measurableSet_Ioo.prod measurableSet_Ioo
  have e : dirInt (π / 2) (fun d => ENNReal.ofReal (g d)) = ENNReal.ofReal (capIntegral (π / 2) g) := by
    unfold dirInt
    rw [← cap_set hg (by positivity), ofReal_integral_eq_lintegral_ofReal (cap_integrable hg _)]
    · refine setLIntegral_congr_fun hm fun p hq => ?_
      simp only
      rw [mul_comm, ← ENNReal.ofReal_mul (hp _ (sphDir_unit _ _))]
    · refine (ae_restrict_iff' hm).mpr (Eventually.of_forall fun p hq => ?_)
      exact mul_nonneg (hp _ (sphDir_unit _ _)) (sin_nonneg_of_nonneg_of_le_pi hq.1.1.le (by linarith [hq.1.2]))
  have nn : 0 ≤ capIntegral (π / 2) g := by
    rw [← cap_set hg (by positivity)]
    refine setIntegral_nonneg hm fun p hq => ?_
    exact mul_nonneg (hp _ (sphDir_unit _ _)) (sin_nonneg_of_nonneg_of_le_pi hq.1.1.le (by linarith [hq.1.2]))
  rw [e, ← ENNReal.ofReal_mul (by positivity), ENNReal.toReal_ofReal (by positivity)]
  ring

theorem cap_add {g : V3 → ℝ} (hg : Smooth g) (M : ℝ) :
    capIntegral (π / 2) (fun v => g v + M) = capIntegral (π / 2) g + M * (2 * π) := by
  have hpi := pi_pos
  have hone : Smooth fun _ => M := by unfold Smooth; exact continuous_const
  rw [← cap_set (smooth_add hg M) (by positivity), ← cap_set hg (by positivity)]
  have e : capIntegral (π / 2) (fun _ => M) = M * (2 * π) := by
    unfold capIntegral
    simp only [intervalIntegral.integral_const, smul_eq_mul, intervalIntegral.integral_const_mul, integral_sin, cos_zero,
      cos_pi_div_two, intervalIntegral.integral_mul_const]
    ring
  rw [← e, ← cap_set hone (by positivity), ← integral_add (cap_integrable hg _) (cap_integrable hone _)]
  exact integral_congr_ae (Eventually.of_forall fun p => by simp only; ring)

/-- **C199, continuous quantities.** The mean over the square of any continuous function of the direction is its average
over the solid angle of the hemisphere. -/
theorem C199_average (g : V3 → ℝ) (hg : Smooth g) (xs : ℝ) (hx : xs = 1 ∨ xs = -1) :
    ∫ q in unitSq, g (uv2xyz xs q) = capIntegral (π / 2) g / (2 * π) := by
  have hpi := pi_pos
  obtain ⟨M, hM0, hM⟩ := smooth_bound hg
  have h := square_real_pos (smooth_add hg M) (fun v hv => by have := (abs_le.mp (hM v hv)).1; linarith) hx
  have hfin : IsFiniteMeasure (volume.restrict unitSq) := ⟨by
    rw [Measure.restrict_apply_univ, volume_unitSq]; exact ENNReal.one_lt_top⟩
  have hc : AEStronglyMeasurable (fun q => g (uv2xyz xs q)) (volume.restrict unitSq) :=
    ((smooth_uv hg hx).mono fun q hq => uvRect_inRect (unitSq_sub hq)).aestronglyMeasurable unitSq_measurable
  have hi : Integrable (fun q => g (uv2xyz xs q)) (volume.restrict unitSq) := by
    refine Integrable.of_bound hc M ((ae_restrict_iff' unitSq_measurable).mpr (Eventually.of_forall fun q hq => ?_))
    exact hM _ (uv2xyz_unit hx (unitSq_sub hq))
  rw [integral_add hi (integrable_const _), cap_add hg] at h
  have hv : ∫ _ in unitSq, M = M := by
    rw [setIntegral_const, measureReal_def, volume_unitSq]; simp
  rw [hv, add_div, mul_div_assoc, div_self (by positivity), mul_one] at h
  linarith

/-! ### the mean over patches -/

theorem sum_blocks (F : ℕ → ℝ) (n m : ℕ) :
    ∑ b ∈ Finset.range (m * n), F b = ∑ i ∈ Finset.range m, ∑ j ∈ Finset.range n, F (i * n + j) := by
  induction m with
  | zero => simp
  | succ m ih => rw [Nat.succ_mul, Finset.sum_range_add, ih, Finset.sum_range_succ]

/-- keep a coordinate inside the square -/
noncomputable def clampU (x : ℝ) : ℝ := max 0 (min 1 x)

theorem clampU_rect (p : ℝ × ℝ) : InRect (clampU p.1, clampU p.2) := by
  have h : ∀ x : ℝ, 0 ≤ clampU x ∧ clampU x ≤ 1 := fun x => ⟨le_max_left _ _, max_le zero_le_one (min_le_left _ _)⟩
  exact ⟨(h _).1, by linarith [(h p.1).2], (h _).1, (h _).2⟩

theorem clampU_of {x : ℝ} (h0 : 0 ≤ x) (h1 : x ≤ 1) : clampU x = x := by
  unfold clampU; rw [min_eq_right h1, max_eq_right h0]

theorem skybin_at {n i j : ℕ} (hi : i < n) (hj : j < n) :
    skybin2xyz ((i * n + j : ℕ) : ℤ) n = uv2xyz 1 (((i : ℝ) + 1 / 2) / n, ((j : ℝ) + 1 / 2) / n) := by
  have hn : (1 : ℤ) ≤ n := by omega
  have hb : ((i * n + j : ℕ) : ℤ) < (n : ℤ) ^ 2 := by
    have : i * n + j < n ^ 2 := by nlinarith
    exact_mod_cast this
  obtain ⟨a1, a2, a3, a4, a5, _⟩ := bin2uv_center hn (b := ((i * n + j : ℕ) : ℤ)) (by positivity) (by nlinarith)
  have hz : 0 ≤ (uv2xyz 1 (bin2uv ((i * n + j : ℕ) : ℤ) n 0.5)).z :=
    (C21_uv2xyz_sphere V3.zero Axes.std Axes.std_ok 1 (Or.inl rfl) _ ⟨a1.le, a2.le, a3.le, a4.le⟩).2.1 (a5.mpr hb).le
  unfold skybin2xyz
  rw [if_neg (not_lt.mpr hz)]
  congr 1
  have e1 : ((i * n + j : ℕ) : ℤ) / (n : ℤ) = i := by
    rw [← Int.natCast_div]
    congr 1
    rw [Nat.add_comm, Nat.add_mul_div_right _ _ (by omega), Nat.div_eq_of_lt hj, Nat.zero_add]
  have e2 : ((i * n + j : ℕ) : ℤ) % (n : ℤ) = j := by
    rw [← Int.natCast_mod]
    congr 1
    rw [Nat.add_comm, Nat.add_mul_mod_self_right, Nat.mod_eq_of_lt hj]
  refine Prod.ext ?_ ?_
  · rw [bin2uv_fst hn, e1]; push_cast; norm_num
  · unfold bin2uv
    simp only
    rw [e2]; push_cast; norm_num

/-- the plain mean over the centres of the `n²` cells of the square, either orientation -/
theorem C199_cells (g : V3 → ℝ) (hg : Smooth g) (xs : ℝ) (hx : xs = 1 ∨ xs = -1) :
    Tendsto (fun n : ℕ => (∑ i ∈ Finset.range n, ∑ j ∈ Finset.range n,
      g (uv2xyz xs (((i : ℝ) + 1 / 2) / n, ((j : ℝ) + 1 / 2) / n))) / (n : ℝ) ^ 2) atTop
      (𝓝 (capIntegral (π / 2) g / (2 * π))) := by
  obtain ⟨M, hM0, hM⟩ := smooth_bound hg
  set f : ℝ × ℝ → ℝ := fun p => g (uv2xyz xs (clampU (p.1 + 1 / 2), clampU (p.2 + 1 / 2))) with hf
  have hc : Continuous f := by
    refine (smooth_uv hg hx).comp_continuous (f := fun p : ℝ × ℝ => (clampU (p.1 + 1 / 2), clampU (p.2 + 1 / 2))) ?_
      fun p => clampU_rect (p.1 + 1 / 2, p.2 + 1 / 2)
    unfold clampU; fun_prop
  have hu : ∀ p : ℝ × ℝ, (uv2xyz xs (clampU p.1, clampU p.2)).normSq = 1 := fun p =>
    (C21_uv2xyz_sphere V3.zero Axes.std Axes.std_ok xs hx _ (clampU_rect p)).1
  have key := Riemann.sum_tendsto one_pos (fun _ => f) f M
    (Eventually.of_forall fun n i j => hM _ (hu (_, _))) (Eventually.of_forall fun p _ q hq => (hc.tendsto p).comp hq)
  have hint : ∫ p in Riemann.sq 1, f p = capIntegral (π / 2) g / (2 * π) := by
    rw [← C199_average g hg xs hx]
    have hs : (Riemann.sq 1 : Set (ℝ × ℝ)) =ᵐ[volume] (Ioo (-(1 / 2)) (1 / 2) ×ˢ Ioo (-(1 / 2)) (1 / 2) : Set (ℝ × ℝ)) :=
      Measure.set_prod_ae_eq Ioo_ae_eq_Ico.symm Ioo_ae_eq_Ico.symm
    rw [setIntegral_congr_set hs]
    have hmp : MeasurePreserving (fun x : ℝ => x + 1 / 2) volume volume := measurePreserving_add_right volume (1 / 2)
    have hmp2 := hmp.prod hmp
    have h := hmp2.setIntegral_preimage_emb
      ((MeasurableEquiv.addRight (1 / 2 : ℝ)).prodCongr (MeasurableEquiv.addRight (1 / 2 : ℝ))).measurableEmbedding
      (fun q => g (uv2xyz xs q)) unitSq
    rw [Measure.volume_eq_prod, ← h]
    have e : (Prod.map (fun x : ℝ => x + 1 / 2) (fun x : ℝ => x + 1 / 2)) ⁻¹' unitSq =
        (Ioo (-(1 / 2)) (1 / 2) ×ˢ Ioo (-(1 / 2)) (1 / 2) : Set (ℝ × ℝ)) := by
      ext x
      show (0 < x.1 + 1 / 2 ∧ x.1 + 1 / 2 < 1) ∧ (0 < x.2 + 1 / 2 ∧ x.2 + 1 / 2 < 1) ↔
        (-(1 / 2) < x.1 ∧ x.1 < 1 / 2) ∧ (-(1 / 2) < x.2 ∧ x.2 < 1 / 2)
      constructor <;> rintro ⟨⟨a, b⟩, c, d⟩ <;> refine ⟨⟨?_, ?_⟩, ?_, ?_⟩ <;> linarith
    rw [e]
    refine setIntegral_congr_fun (measurableSet_Ioo.prod measurableSet_Ioo) fun p hp => ?_
    obtain ⟨⟨a, b⟩, c, d⟩ := hp
    simp only [hf]
    rw [clampU_of (by linarith) (by linarith), clampU_of (by linarith) (by linarith)]
    rfl
  rw [hint] at key
  refine key.congr' ?_
  filter_upwards [eventually_gt_atTop 0] with n hn
  have hn' : (0 : ℝ) < n := by exact_mod_cast hn
  rw [div_pow, one_pow, one_div, inv_mul_eq_div]
  congr 1
  refine Finset.sum_congr rfl fun i hi => Finset.sum_congr rfl fun j hj => ?_
  have hi := Finset.mem_range.mp hi
  have hj := Finset.mem_range.mp hj
  have e : ∀ k : ℕ, k < n → clampU (Riemann.ctr 1 n k + 1 / 2) = ((k : ℝ) + 1 / 2) / n := by
    intro k hk
    have hk' : (k : ℝ) + 1 ≤ n := by exact_mod_cast hk
    rw [show Riemann.ctr 1 n k + 1 / 2 = ((k : ℝ) + 1 / 2) / n by unfold Riemann.ctr; ring]
    exact clampU_of (by positivity) (by rw [div_le_one hn']; linarith)
  simp only [hf]
  rw [e i hi, e j hj]

/-- **C199, the mean over sky patches.** For every continuous function of the direction, its plain mean over the centres of
the `n²` sky patches tends to its average over the solid angle of the sky, as `n` grows. -/
theorem C199_mean (g : V3 → ℝ) (hg : Smooth g) :
    Tendsto (fun n : ℕ => (∑ b ∈ Finset.range (n ^ 2), g (skybin2xyz b n)) / (n : ℝ) ^ 2) atTop
      (𝓝 (capIntegral (π / 2) g / (2 * π))) := by
  refine (C199_cells g hg 1 (Or.inl rfl)).congr fun n => ?_
  rw [sq n, sum_blocks (fun b => g (skybin2xyz (b : ℤ) n))]
  congr 1
  refine Finset.sum_congr rfl fun i hi => Finset.sum_congr rfl fun j hj => ?_
  rw [skybin_at (Finset.mem_range.mp hi) (Finset.mem_range.mp hj)]

/-- a uniform sky averages to itself, and the mean cosine to the zenith tends to one half -/
theorem C199_cosine : Tendsto (fun n : ℕ => (∑ b ∈ Finset.range (n ^ 2), (skybin2xyz b n).z) / (n : ℝ) ^ 2) atTop (𝓝 (1 / 2)) := by
  have hpi := pi_pos
  have hg : Smooth fun v => v.z := by unfold Smooth; fun_prop
  have h := C199_mean _ hg
  have e : capIntegral (π / 2) (fun v => v.z) = π := by
    unfold capIntegral sphDir
    simp only [intervalIntegral.integral_const, smul_eq_mul, intervalIntegral.integral_const_mul]
    rw [show (fun t : ℝ => cos t * ((π - -π) * sin t)) = fun t => (π - -π) * (sin t * cos t) from funext fun t => by ring,
      intervalIntegral.integral_const_mul, integral_sin_mul_cos₁]
    simp
    ring
  rw [e, show π / (2 * π) = 1 / 2 by field_simp] at h
  exact h

example : solidAngle π {d | xyz2skybin true 18 d = 5} = ENNReal.ofReal (2 * π * (1 / ((18 : ℤ) : ℝ) ^ 2)) :=
  C199_patch true 18 5 (by norm_num) (by norm_num) (by norm_num)

end Verif.Geo
