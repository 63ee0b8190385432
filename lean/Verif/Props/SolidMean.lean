import Verif.Props.SolidLight

/-! C201, the other direction: plain means of equisolid pictures are averages of the scene, also of pictures made from angular
images. -/

namespace Verif.Map
open Verif.Geo Real MeasureTheory Set Filter Topology

/-! ### Spec -/

open Classical in
/-- the sum over the circle of an equisolid image, in units of the solid angle of a pixel: all pixels have the same, the
circle of diameter `n` shows `2 π` -/
noncomputable def Img.circleSum (w : V3 → ℝ) (im : Img ℝ) : ℝ :=
  8 / (im.m : ℝ) ^ 2 * ∑ i ∈ Finset.range im.n, ∑ j ∈ Finset.range im.m,
    if off (mid im.m i j) < 1 / 2 then im.at_ i j * w ((dfltView 180).v2w (lambert (mid im.m i j))) else 0

/-- an angular picture of the scene: inside the circle the scene, outside any values, all within `B` -/
def AnglePicture (L : V3 → ℝ) (B : ℝ) (n : ℕ) (im : Img ℝ) : Prop :=
  im.n = n ∧ im.m = n ∧
    (∀ i j, i < n → j < n → off (mid n i j) < 1 / 2 → im.at_ i j = L ((dfltView 180).pixel2ray n (pixelCentre i j))) ∧
    ∀ i j, i < n → j < n → |im.at_ i j| ≤ B

/-- the image `array_solid2ang(reverse=True)` makes of a picture -/
def SolidOf (nearest : Bool) (im out : Img ℝ) : Prop :=
  out.n = im.m ∧ out.m = im.m ∧
    ∀ i j, i < im.m → j < im.m → arraySolid2ang true 180 (centreInterp nearest) im i j = .ok (out.at_ i j)

/-! ### sums over an equisolid picture -/

/-- the direction at an offset from the middle -/
noncomputable def lamDir (u : ℝ × ℝ) : V3 :=
  ⟨u.1 * √(8 * (1 - 2 * (u.1 ^ 2 + u.2 ^ 2))), u.2 * √(8 * (1 - 2 * (u.1 ^ 2 + u.2 ^ 2))), 1 - 4 * (u.1 ^ 2 + u.2 ^ 2)⟩

theorem lambert_dir (u : ℝ × ℝ) : lambert (-u.1 + 1 / 2, u.2 + 1 / 2) = lamDir u := by
  unfold lambert lamDir
  simp only [add_sub_cancel_right, neg_sq, neg_mul, neg_neg]

theorem off_dir (u : ℝ × ℝ) : off (-u.1 + 1 / 2, u.2 + 1 / 2) = rad2 u := by
  unfold off rad2
  simp only [add_sub_cancel_right, neg_sq]

open Classical in
noncomputable def lamTerm (g : V3 → ℝ) (u : ℝ × ℝ) : ℝ := if rad2 u < 1 / 2 then g (lamDir u) else 0

theorem lam_continuous {g : V3 → ℝ} (hg : Smooth g) : Continuous fun u : ℝ × ℝ => g (lamDir u) := by
  have h : Continuous fun u : ℝ × ℝ => (u.1 * √(8 * (1 - 2 * (u.1 ^ 2 + u.2 ^ 2))), u.2 * √(8 * (1 - 2 * (u.1 ^ 2 + u.2 ^ 2))),
      1 - 4 * (u.1 ^ 2 + u.2 ^ 2)) := by fun_prop
  exact hg.comp h

theorem sph_lam {t f : ℝ} (h0 : 0 ≤ t) (h1 : t ≤ π) : lamDir (sin (t / 2) / √2 * cos f, sin (t / 2) / √2 * sin f) = sphDir t f := by
  have hs2 : √2 ^ 2 = (2 : ℝ) := sq_sqrt (by norm_num)
  have hc : 0 ≤ cos (t / 2) := cos_nonneg_of_mem_Icc ⟨by linarith, by linarith⟩
  have e : (sin (t / 2) / √2 * cos f) ^ 2 + (sin (t / 2) / √2 * sin f) ^ 2 = sin (t / 2) ^ 2 / 2 := by
    rw [mul_pow, mul_pow, div_pow, hs2, ← mul_add, cos_sq_add_sin_sq, mul_one]
  have hS : √(8 * (1 - 2 * (sin (t / 2) ^ 2 / 2))) = 2 * √2 * cos (t / 2) := by
    rw [show 8 * (1 - 2 * (sin (t / 2) ^ 2 / 2)) = (2 * √2 * cos (t / 2)) ^ 2 by
      rw [mul_pow, mul_pow, hs2, cos_sq']; ring]
    exact sqrt_sq (by positivity)
  have hsin : sin t = 2 * sin (t / 2) * cos (t / 2) := by rw [← sin_two_mul]; congr 1; ring
  have hcos : cos t = 1 - 4 * (sin (t / 2) ^ 2 / 2) := by
    rw [show t = 2 * (t / 2) by ring, cos_two_mul, cos_sq', show 2 * (t / 2) / 2 = t / 2 by ring]; ring
  unfold lamDir sphDir
  simp only
  rw [e, hS, hsin, hcos]
  have hne : √2 ≠ 0 := by positivity
  congr 1 <;> field_simp

theorem integral_lam {g : V3 → ℝ} (hg : Smooth g) : ∫ p in Riemann.sq 1, lamTerm g p = capIntegral (π / 2) g / 8 := by
  have hpi := pi_pos
  have hzero : ∀ p, p ∉ Riemann.sq 1 → lamTerm g p = 0 := by
    intro p hp
    unfold lamTerm
    rw [if_neg]
    intro h
    apply hp
    have h2 := rad2_sq p
    have h3 := rad2_nonneg p
    have a1 : |p.1| < 1 / 2 := abs_lt_of_sq_lt_sq (by nlinarith [sq_nonneg p.2]) (by positivity)
    have a2 : |p.2| < 1 / 2 := abs_lt_of_sq_lt_sq (by nlinarith [sq_nonneg p.1]) (by positivity)
    rw [abs_lt] at a1 a2
    exact ⟨⟨a1.1.le, a1.2⟩, ⟨a2.1.le, a2.2⟩⟩
  rw [setIntegral_eq_integral_of_forall_compl_eq_zero hzero, ← integral_comp_polarCoord_symm]
  have ht : polarCoord.target = Ioi (0 : ℝ) ×ˢ Ioo (-π) π := rfl
  have hfun : ∀ p ∈ polarCoord.target, p.1 • lamTerm g (polarCoord.symm p) =
      (Ioo (0 : ℝ) (1 / 2) ×ˢ Ioo (-π) π).indicator (fun p => g (lamDir (p.1 * cos p.2, p.1 * sin p.2)) * p.1) p := by
    intro p hp
    rw [ht] at hp
    obtain ⟨hp1, hp2⟩ := hp
    have e : polarCoord.symm p = (p.1 * cos p.2, p.1 * sin p.2) := rfl
    have hp1 : 0 < p.1 := hp1
    rw [e]
    unfold lamTerm
    rw [rad2_polar hp1.le]
    by_cases h : p.1 < 1 / 2
    · rw [if_pos h, indicator_of_mem (show p ∈ Ioo (0 : ℝ) (1 / 2) ×ˢ Ioo (-π) π from ⟨⟨hp1, h⟩, hp2⟩), smul_eq_mul, mul_comm]
    · rw [if_neg h, smul_zero, indicator_of_notMem]
      exact fun h' => h h'.1.2
  have hmt : MeasurableSet polarCoord.target := polarCoord.open_target.measurableSet
  have hsub : polarCoord.target ∩ Ioo (0 : ℝ) (1 / 2) ×ˢ Ioo (-π) π = Ioo (0 : ℝ) (1 / 2) ×ˢ Ioo (-π) π := by
    rw [ht]
    exact inter_eq_right.2 (prod_mono (fun x hx => hx.1) subset_rfl)
  have hcont : Continuous fun p : ℝ × ℝ => g (lamDir (p.1 * cos p.2, p.1 * sin p.2)) * p.1 :=
    ((lam_continuous hg).comp (by fun_prop : Continuous fun p : ℝ × ℝ => (p.1 * cos p.2, p.1 * sin p.2))).mul continuous_fst
  have hint : IntegrableOn (fun p : ℝ × ℝ => g (lamDir (p.1 * cos p.2, p.1 * sin p.2)) * p.1)
      (Ioo (0 : ℝ) (1 / 2) ×ˢ Ioo (-π) π) (volume.prod volume) := by
    rw [← Measure.volume_eq_prod]
    exact (hcont.continuousOn.integrableOn_compact (isCompact_Icc.prod isCompact_Icc)).mono_set
      (prod_mono Ioo_subset_Icc_self Ioo_subset_Icc_self)
  rw [setIntegral_congr_fun hmt hfun, setIntegral_indicator (measurableSet_Ioo.prod measurableSet_Ioo), hsub,
    Measure.volume_eq_prod, setIntegral_prod _ hint]
  have hin : ∀ x : ℝ, ∫ y in Ioo (-π) π, g (lamDir (x * cos y, x * sin y)) * x =
      ∫ y in (-π)..π, g (lamDir (x * cos y, x * sin y)) * x := by
    intro x
    rw [intervalIntegral.integral_of_le (by linarith), integral_Ioc_eq_integral_Ioo]
  simp only [hin]
  rw [← integral_Ioc_eq_integral_Ioo, ← intervalIntegral.integral_of_le (by norm_num)]
  have hG : Continuous fun x : ℝ => ∫ y in (-π)..π, g (lamDir (x * cos y, x * sin y)) * x :=
    intervalIntegral.continuous_parametric_intervalIntegral_of_continuous' hcont _ _
  have hs2 : √2 * √2 = (2 : ℝ) := mul_self_sqrt (by norm_num)
  have hsub2 := intervalIntegral.integral_comp_mul_deriv (a := 0) (b := π / 2) (f := fun t => sin (t / 2) / √2)
    (f' := fun t => cos (t / 2) * (1 / 2) / √2) (fun t _ => ((hasDerivAt_id t).div_const 2).sin.div_const _)
    (by fun_prop) hG
  have e0 : sin ((0 : ℝ) / 2) / √2 = 0 := by simp
  have e1 : sin (π / 2 / 2) / √2 = 1 / 2 := by
    rw [show π / 2 / 2 = π / 4 by ring, sin_pi_div_four, div_div, div_eq_div_iff (by positivity) (by norm_num)]
    linarith
  rw [e0, e1] at hsub2
  rw [← hsub2, capIntegral, ← intervalIntegral.integral_div]
  refine intervalIntegral.integral_congr fun t ht => ?_
  rw [uIcc_of_le (by positivity)] at ht
  obtain ⟨t0, t1⟩ := ht
  simp only [Function.comp]
  have hpt : ∀ y, g (lamDir (sin (t / 2) / √2 * cos y, sin (t / 2) / √2 * sin y)) = g (sphDir t y) := fun y => by
    rw [sph_lam t0 (by linarith)]
  simp only [hpt, intervalIntegral.integral_mul_const]
  have hsin : sin t = 2 * sin (t / 2) * cos (t / 2) := by rw [← sin_two_mul]; congr 1; ring
  rw [hsin]
  have hne : √2 ≠ 0 := by positivity
  generalize (∫ y in (-π)..π, g (sphDir t y)) = I
  rw [show I * (sin (t / 2) / √2) * (cos (t / 2) * (1 / 2) / √2) = I * sin (t / 2) * cos (t / 2) * (1 / 2) / (√2 * √2) by
    field_simp, hs2]
  ring

open Classical in
/-- sums of a continuous function of the direction over the circle of an equisolid picture tend to its integral -/
theorem circle_limit {g : V3 → ℝ} (hg : Smooth g) :
    Tendsto (fun n : ℕ => 8 / (n : ℝ) ^ 2 * ∑ i ∈ Finset.range n, ∑ j ∈ Finset.range n,
      if off (mid n i j) < 1 / 2 then g (lambert (mid n i j)) else 0) atTop (𝓝 (capIntegral (π / 2) g)) := by
  obtain ⟨M, hM0, hM⟩ := smooth_bound hg
  have key := Riemann.sum_tendsto one_pos (fun _ => lamTerm g) (lamTerm g) M ?_ ?_
  · rw [integral_lam hg] at key
    have := key.const_mul 8
    rw [mul_div_cancel₀ _ (by norm_num : (8 : ℝ) ≠ 0)] at this
    refine this.congr' ?_
    filter_upwards [eventually_gt_atTop 0] with n hn
    have hN : (0 : ℝ) < n := by exact_mod_cast hn
    rw [← Finset.sum_range_reflect (fun i => ∑ j ∈ Finset.range n, if off (mid n i j) < 1 / 2 then g (lambert (mid n i j)) else 0)]
    rw [← mul_assoc]
    congr 1
    · field_simp
    refine Finset.sum_congr rfl fun i hi => Finset.sum_congr rfl fun j hj => ?_
    have hi := Finset.mem_range.mp hi
    have e : mid n (n - 1 - i) j = (-(Riemann.ctr 1 n i) + 1 / 2, Riemann.ctr 1 n j + 1 / 2) := by
      have e2 : ((n - 1 - i : ℕ) : ℝ) = n - 1 - i := by
        rw [Nat.cast_sub (by omega), Nat.cast_sub (by omega)]; norm_num
      unfold mid Riemann.ctr
      rw [e2]
      apply Prod.ext <;> simp only <;> field_simp <;> ring
    rw [e]
    have l := lambert_dir (Riemann.ctr 1 n i, Riemann.ctr 1 n j)
    have o := off_dir (Riemann.ctr 1 n i, Riemann.ctr 1 n j)
    simp only at l o
    rw [l, o]
    rfl
  · refine Eventually.of_forall fun n i j => ?_
    unfold lamTerm
    split_ifs with h
    · refine hM _ ?_
      rw [← lambert_dir]
      exact lambert_unit (by rw [off_dir]; exact h.le)
    · simpa using hM0
  · have n2 : ∀ᵐ p : ℝ × ℝ, p.1 ^ 2 + p.2 ^ 2 ≠ (1 / 2) ^ 2 := by
      rw [ae_iff]
      simp only [ne_eq, not_not]
      exact circle_null _
    filter_upwards [n2] with p hp _ q hq
    have hr := (continuous_rad2.tendsto p).comp hq
    have hne : rad2 p ≠ 1 / 2 := fun h => hp (by rw [← rad2_sq, h])
    unfold lamTerm
    rcases lt_or_gt_of_ne hne with h | h
    · rw [if_pos h]
      refine (((lam_continuous hg).tendsto p).comp hq).congr' ?_
      filter_upwards [hr.eventually (gt_mem_nhds h)] with n hn
      exact (if_pos hn).symm
    · rw [if_neg h.not_gt]
      refine tendsto_const_nhds.congr' ?_
      filter_upwards [hr.eventually (lt_mem_nhds h)] with n hn
      exact (if_neg (not_lt.mpr (le_of_lt hn))).symm

/-! ### photographs -/

/-- **C201, photographs.** The plain sum over the circle of an equisolid photograph, times the solid angle of a pixel, tends to
the light of the scene (the photographs `solid2ang` starts from hold the right light). -/
theorem C201_photo (L w : V3 → ℝ) (hL : Smooth L) (hw : Smooth w) (B : ℝ) (im : ℕ → Img ℝ) (hp : ∀ n, SolidPicture L B n (im n)) :
    Tendsto (fun n => (im n).circleSum w) atTop
      (𝓝 (capIntegral (π / 2) fun p => L ((dfltView 180).v2w p) * w ((dfltView 180).v2w p))) := by
  have hLw : Smooth fun p => L p * w p := by unfold Smooth at *; exact hL.mul hw
  refine (circle_limit (smooth_v2w hLw (dfltView 180))).congr fun n => ?_
  obtain ⟨p1, p2, p3, p4⟩ := hp n
  unfold Img.circleSum
  rw [p1, p2]
  congr 1
  refine Finset.sum_congr rfl fun i hi => Finset.sum_congr rfl fun j hj => ?_
  split_ifs with h
  · rw [p3 i j (Finset.mem_range.mp hi) (Finset.mem_range.mp hj) h]
  · rfl

/-! ### the conversion of angular pictures -/

/-- the position read by `array_solid2ang(reverse=True)` -/
theorem back_entry (interp : Img ℝ → ℝ × ℝ → ℝ) (im : Img ℝ) (hsq : im.n = im.m) (i j : ℕ) (hi : i < im.m) (hj : j < im.m)
    (h : off (mid im.m i j) < 1 / 2) : arraySolid2ang true 180 interp im i j
      = .ok (interp im ((toSolid 180 (mid im.m i j)).1 * im.m, (toSolid 180 (mid im.m i j)).2 * im.m)) := by
  have ci := centre_div hi
  have cj := centre_div hj
  have hcirc := C53_circle_partial ⟨0, 1, 0⟩ dflt_clear 180 (by norm_num) le_rfl (mid im.m i j) ci.1 ci.2 cj.1 cj.2
  have hround := (C52_vxy_round_trip ⟨0, 1, 0⟩ dflt_ne 180 (by norm_num) le_rfl (mid im.m i j) ci.1 ci.2 cj.1 cj.2).1
  rw [← rad2_lt_half] at hcirc
  have hray : solidRay true 180 im.m (pixelCentre i j) = (View.new ⟨0, 1, 0⟩ 180).vxy2xyz (mid im.m i j) := by
    unfold solidRay View.pixel2ray pixelCentre dfltView mid; simp
  unfold arraySolid2ang solidNew
  rw [if_neg (by norm_num)]
  simp only [Except.bind]
  rw [if_neg (by simpa using hsq), hray, if_pos (hcirc.mpr h)]
  obtain ⟨_, _, v1, _, _⟩ := new_sf (d := ⟨0, 1, 0⟩) (va := 180) (by norm_num)
  unfold solidPos View.solidRay2pixelF View.solidXyz2vxy dfltView
  simp only [if_true]
  rw [v1, hround]

/-- where the reverse conversion reads -/
theorem back_read {w : ℝ × ℝ} (hw : off w < 1 / 2) : ∃ p : ℝ × ℝ, lambert w = polar2view (-(p.1 - 1 / 2), p.2 - 1 / 2) ∧
    cos (π * off p) = 1 - 4 * off w ^ 2 ∧ off p < 1 / 2 ∧ off (toSolid 180 w) ≤ off p ∧
    |(toSolid 180 w).1 - p.1| ≤ 5e-10 ∧ |(toSolid 180 w).2 - p.2| ≤ 5e-10 := by
  have hpi := pi_gt_three
  have hpi2 := pi_lt_d2
  have h0 := off_nonneg w
  have hs2 : (0 : ℝ) < √2 := by positivity
  have hs2' : √2 ≤ (1.4143 : ℝ) := by apply sqrt_le_iff.mpr; norm_num
  have hsq : √2 ^ 2 = (2 : ℝ) := sq_sqrt (by norm_num)
  have hv : vsize 180 = π := by unfold vsize; ring
  have harg : π * off w * √2 / π = √2 * off w := by field_simp
  rw [toSolid_eq (by norm_num), hv, harg]
  have hlt1 : √2 * off w < √2 / 2 := by nlinarith
  have hy0 : 0 ≤ √2 * off w := by positivity
  have hy1 : √2 * off w ≤ 1 := by norm_num at hs2' ⊢; nlinarith
  have has0 : 0 ≤ arcsin (√2 * off w) := arcsin_nonneg.mpr hy0
  have hsa : sin (arcsin (√2 * off w)) = √2 * off w := sin_arcsin (by linarith) hy1
  have has : arcsin (√2 * off w) ≤ π / 2 * (√2 * off w) := by
    have := mul_le_sin has0 (arcsin_le_pi_div_two _)
    rw [hsa, div_mul_eq_mul_div, div_le_iff₀ (by linarith)] at this
    linarith
  have hA : arcsin (√2 * off w) < π / 4 := by
    rw [← arcsin_sin (x := π / 4) (by linarith) (by linarith), sin_pi_div_four]
    exact arcsin_lt_arcsin (by linarith) hlt1 (by nlinarith)
  rcases h0.lt_or_eq with hpos | hz
  · obtain ⟨ρ, hρ⟩ : ∃ ρ, ρ = π * off w / (π * off w + 1e-9) := ⟨_, rfl⟩
    have hb0 : 0 < π * off w + 1e-9 := by positivity
    have r0 : 0 ≤ ρ := by rw [hρ]; positivity
    have r1 : ρ ≤ 1 := by rw [hρ, div_le_one hb0]; norm_num
    obtain ⟨k, hk⟩ : ∃ k, k = 2 * arcsin (√2 * off w) / (π * off w) := ⟨_, rfl⟩
    have hpo : 0 < π * off w := by positivity
    have hap : 0 < arcsin (√2 * off w) := arcsin_pos.mpr (by positivity)
    have k0 : 0 < k := by rw [hk]; positivity
    have hF : 2 * arcsin (√2 * off w) / (π * off w + 1e-9) = k * ρ := by
      rw [hk, hρ]; field_simp
    have hp : off (1 / 2 + k * (w.1 - 1 / 2), 1 / 2 + k * (w.2 - 1 / 2)) = 2 * arcsin (√2 * off w) / π := by
      rw [off_scale _ _ k0.le, hk]; field_simp
    have hang : π * (2 * arcsin (√2 * off w) / π) / 2 = arcsin (√2 * off w) := by field_simp
    have hplt : 2 * arcsin (√2 * off w) / π < 1 / 2 := by
      rw [div_lt_iff₀ (by linarith)]; linarith
    have hon : OnRay (1 / 2 + k * (w.1 - 1 / 2), 1 / 2 + k * (w.2 - 1 / 2))
        (sin (π * off (1 / 2 + k * (w.1 - 1 / 2), 1 / 2 + k * (w.2 - 1 / 2)) / 2) / √2) w := by
      refine ⟨1 / k, by positivity, by simp only; field_simp; ring, by simp only; field_simp; ring, ?_⟩
      rw [hp, hang, hsa]; field_simp
    obtain ⟨l1, l2⟩ := lambert_onRay (by rw [hp]; exact hplt.le) hon
    refine ⟨_, l1, by linarith, by rw [hp]; exact hplt, ?_, ?_⟩
    · rw [hF, show ((w.1 - 1 / 2) * (k * ρ) + 1 / 2, (w.2 - 1 / 2) * (k * ρ) + 1 / 2)
        = (1 / 2 + k * ρ * (w.1 - 1 / 2), 1 / 2 + k * ρ * (w.2 - 1 / 2)) by apply Prod.ext <;> simp only <;> ring,
        off_scale _ _ (by positivity), off_scale _ _ k0.le]
      nlinarith [mul_pos k0 hpos]
    · have hkk : k * off w * (1 - ρ) ≤ 5e-10 := by
        have e1 : 1 - ρ = 1e-9 / (π * off w + 1e-9) := by rw [hρ]; field_simp; ring
        have e2 : k * off w = 2 * arcsin (√2 * off w) / π := by rw [hk]; field_simp
        rw [e1, e2, div_mul_div_comm, div_le_iff₀ (by positivity)]
        have h3 : 2 * arcsin (√2 * off w) ≤ π * (1.4143 * off w) := by
          have : √2 * off w ≤ 1.4143 * off w := mul_le_mul_of_nonneg_right hs2' h0
          nlinarith
        have h4 : π * (1.4143 * off w) * 1e-9 ≤ 5e-10 * (π * (π * off w + 1e-9)) := by
          norm_num at hpi2 ⊢
          nlinarith [mul_pos (show 0 < π by linarith) hpo]
        have h5 : 2 * arcsin (√2 * off w) * 1e-9 ≤ π * (1.4143 * off w) * 1e-9 := mul_le_mul_of_nonneg_right h3 (by norm_num)
        linarith
      obtain ⟨c1, c2⟩ := comp_le_off w
      have hB : ∀ t : ℝ, |t| ≤ off w → |t * (k * ρ) + 1 / 2 - (1 / 2 + k * t)| ≤ 5e-10 := by
        intro t ht
        rw [show t * (k * ρ) + 1 / 2 - (1 / 2 + k * t) = -(t * (k * (1 - ρ))) by ring, abs_neg, abs_mul,
          abs_of_nonneg (mul_nonneg k0.le (by linarith))]
        refine le_trans ?_ hkk
        rw [show k * off w * (1 - ρ) = off w * (k * (1 - ρ)) by ring]
        exact mul_le_mul_of_nonneg_right ht (mul_nonneg k0.le (by linarith))
      rw [hF]
      exact ⟨hB _ c1, hB _ c2⟩
  · obtain ⟨e1, e2⟩ := off_zero hz.symm
    have hh : off ((1 : ℝ) / 2, (1 : ℝ) / 2) = 0 := by simp [off, rad2]
    refine ⟨(1 / 2, 1 / 2), ?_, ?_, ?_, ?_, ?_⟩
    · unfold lambert polar2view
      simp [e1, e2, rad2]
    · rw [hh, ← hz]; simp
    · rw [hh]; norm_num
    · rw [hh, e1, e2]; simp [off, rad2]
    · simp only [e1, e2]; norm_num

/-- every pixel inside the circle of the converted picture -/
theorem back_near (L : V3 → ℝ) {K : ℝ} (hK : 0 ≤ K) (hL : Steep K L) (B : ℝ) {z : ℝ} (hz : 0 < z) {n : ℕ} (hn : 16 < z * n) (hz1 : z ≤ 1)
    (nearest : Bool) (im out : Img ℝ) (hp : AnglePicture L B n im) (ho : SolidOf nearest im out) (i j : ℕ) (hi : i < n) (hj : j < n)
    (hin : off (mid n i j) < 1 / 2) :
    (z ≤ 1 - 4 * off (mid n i j) ^ 2 →
      |out.at_ i j - L ((dfltView 180).v2w (lambert (mid n i j)))| ≤ K * (14 * (1 / n + 5e-10))) ∧ |out.at_ i j| ≤ 4 * B := by
  obtain ⟨p1, p2, p3, p4⟩ := hp
  obtain ⟨o1, o2, o3⟩ := ho
  have hpi := pi_gt_three
  have hpi4 := pi_le_four
  have hnr : (16 : ℝ) < n := by
    have : (0 : ℝ) ≤ n := Nat.cast_nonneg n
    nlinarith
  have hn0 : (0 : ℝ) < n := by linarith
  have hn2 : 2 ≤ n := by
    have : (2 : ℝ) ≤ n := by linarith
    exact_mod_cast this
  have hv := o3 i j (by omega) (by omega)
  rw [back_entry _ im (p1.trans p2.symm) i j (by omega) (by omega) (by rw [p2]; exact hin), p2] at hv
  injection hv with hv
  obtain ⟨p, l1, l2, hplt, hx, hx1, hx2⟩ := back_read hin
  rw [← hv, l1]
  generalize toSolid 180 (mid n i j) = x at *
  obtain ⟨c1, c2⟩ := comp_le_off x
  rw [abs_le] at c1 c2
  refine ⟨fun hzc => ?_, ?_⟩
  · have hpz : off p ≤ 1 / 2 - z / 4 := by
      have : cos (π * off p) ≤ π / 2 - π * off p := by
        rw [← sin_pi_div_two_sub]
        exact sin_le (by nlinarith)
      rw [l2] at this
      nlinarith
    have hzn : 1 / (n : ℝ) ≤ z / 16 := by
      rw [div_le_div_iff₀ hn0 (by norm_num)]; linarith
    have hn1 : (1 / (n : ℝ)) * n = 1 := by field_simp
    refine centre_close nearest im hn2 p1 p2 (X := (x.1 * n, x.2 * n)) ⟨?_, ?_, ?_, ?_⟩ fun a b ha hb ha' hb' => ?_
    · simp only; nlinarith
    · simp only; nlinarith
    · simp only; nlinarith
    · simp only; nlinarith
    · have q1 : |(mid n a b).1 - x.1| ≤ 1 / n := by
        rw [show (mid n a b).1 - x.1 = ((a : ℝ) + 1 / 2 - x.1 * n) / n by unfold mid; field_simp, abs_div, abs_of_pos hn0]
        gcongr
      have q2 : |(mid n a b).2 - x.2| ≤ 1 / n := by
        rw [show (mid n a b).2 - x.2 = ((b : ℝ) + 1 / 2 - x.2 * n) / n by unfold mid; field_simp, abs_div, abs_of_pos hn0]
        gcongr
      have hq := off_add _ _ q1 q2
      have hlt : off (mid n a b) < 1 / 2 := by linarith
      rw [p3 a b ha hb hlt]
      have hray : (dfltView 180).pixel2ray n (pixelCentre a b)
          = (dfltView 180).v2w (polar2view (-((mid n a b).1 - 1 / 2), (mid n a b).2 - 1 / 2)) := v2w_polar ⟨0, 1, 0⟩ n a b
      rw [hray]
      have hnorm : ∀ v : V3, v.normSq = 1 → ((dfltView 180).v2w v).normSq = 1 := fun v hv => by
        rw [← hv, normSq_dot, normSq_dot]; exact (C50_isometry ⟨0, 1, 0⟩ dflt_ne 180 v v).2.2.2
      refine (hL _ _ (hnorm _ (polar2view_unit _)) (hnorm _ (polar2view_unit _))).trans ?_
      refine mul_le_mul_of_nonneg_left ?_ hK
      rw [v2w_chord]
      have hos := off_sq p
      obtain ⟨d1, d2, d3⟩ := polar_near (u := (-((mid n a b).1 - 1 / 2), (mid n a b).2 - 1 / 2))
        (v := (-(p.1 - 1 / 2), p.2 - 1 / 2)) (h := 2 * (1 / n + 5e-10)) (by
          simp only [neg_sq]
          rw [← hos]
          nlinarith [off_nonneg p]) (by
          simp only
          rw [show -((mid n a b).1 - 1 / 2) - -(p.1 - 1 / 2) = -((mid n a b).1 - p.1) by ring, abs_neg]
          refine (abs_sub_le _ x.1 _).trans ?_
          linarith) (by
          simp only
          rw [show (mid n a b).2 - 1 / 2 - (p.2 - 1 / 2) = (mid n a b).2 - p.2 by ring]
          refine (abs_sub_le _ x.2 _).trans ?_
          linarith) (by norm_num at hzn hz1 ⊢; linarith)
      generalize polar2view (-((mid n a b).1 - 1 / 2), (mid n a b).2 - 1 / 2) = A at *
      generalize polar2view (-(p.1 - 1 / 2), p.2 - 1 / 2) = C at *
      have hh : (0 : ℝ) ≤ 1 / n + 5e-10 := by positivity
      generalize (1 : ℝ) / n + 5e-10 = h at *
      have y1 := sq_le_sq' (abs_le.mp d1).1 (abs_le.mp d1).2
      have y2 := sq_le_sq' (abs_le.mp d2).1 (abs_le.mp d2).2
      have y3 := sq_le_sq' (abs_le.mp d3).1 (abs_le.mp d3).2
      unfold V3.len V3.normSq V3.sub
      refine sqrt_le_iff.mpr ⟨by linarith, ?_⟩
      have := sq_nonneg h
      simp only
      linarith [show (4 * (2 * h)) ^ 2 = 64 * h ^ 2 by ring, show (14 * h) ^ 2 = 196 * h ^ 2 by ring]
  · refine centre_bound nearest im hn2 p1 p2 (X := (x.1 * n, x.2 * n)) ?_ ?_ ?_ ?_ p4 <;> simp only <;> nlinarith

open Classical in
/-- a sum over the circle of an equisolid image -/
noncomputable def lamSum (g : ℕ → ℕ → ℝ) (n : ℕ) : ℝ :=
  8 / (n : ℝ) ^ 2 * ∑ i ∈ Finset.range n, ∑ j ∈ Finset.range n, if off (mid n i j) < 1 / 2 then g i j else 0

open Classical in
/-- the solid angle of the pixels within `z` of the edge of the circle -/
noncomputable def rimSum (z : ℝ) (n : ℕ) : ℝ := lamSum (fun i j => if 1 - 4 * off (mid n i j) ^ 2 < z then 1 else 0) n

theorem lamSum_le {f g : ℕ → ℕ → ℝ} {n : ℕ} (h : ∀ i j, i < n → j < n → off (mid n i j) < 1 / 2 → f i j ≤ g i j) :
    lamSum f n ≤ lamSum g n := by
  unfold lamSum
  refine mul_le_mul_of_nonneg_left (Finset.sum_le_sum fun i hi => Finset.sum_le_sum fun j hj => ?_) (by positivity)
  split_ifs with hv
  · exact h i j (Finset.mem_range.mp hi) (Finset.mem_range.mp hj) hv
  · exact le_rfl

theorem lamSum_add (f g : ℕ → ℕ → ℝ) (n : ℕ) : lamSum (fun i j => f i j + g i j) n = lamSum f n + lamSum g n := by
  unfold lamSum
  rw [← mul_add, ← Finset.sum_add_distrib]
  congr 1
  refine Finset.sum_congr rfl fun i _ => ?_
  rw [← Finset.sum_add_distrib]
  refine Finset.sum_congr rfl fun j _ => ?_
  split_ifs <;> simp

theorem lamSum_mul (c : ℝ) (f : ℕ → ℕ → ℝ) (n : ℕ) : lamSum (fun i j => c * f i j) n = c * lamSum f n := by
  unfold lamSum
  rw [mul_left_comm]
  congr 1
  rw [Finset.mul_sum]
  refine Finset.sum_congr rfl fun i _ => ?_
  rw [Finset.mul_sum]
  refine Finset.sum_congr rfl fun j _ => ?_
  split_ifs <;> simp

theorem lambert_z (w : ℝ × ℝ) : (lambert w).z = 1 - 4 * off w ^ 2 := by
  rw [off_sq]; rfl

theorem rim_small {e : ℝ} (he : 0 < e) : ∃ z, 0 < z ∧ z ≤ 1 ∧ ∀ᶠ n : ℕ in atTop, rimSum z n < e := by
  have hpi := pi_pos
  obtain ⟨k, hk⟩ := exists_nat_gt (4 * π / e)
  have hk1 : (0 : ℝ) < (k : ℝ) + 1 := by positivity
  have hk0 : (0 : ℝ) ≤ k := Nat.cast_nonneg k
  have hs : Smooth fun p => (1 - p.z) ^ k := by
    unfold Smooth
    fun_prop
  have lim := circle_limit hs
  rw [cap_pow] at lim
  have hone : 1 / (2 * ((k : ℝ) + 1)) ≤ 1 := by
    rw [div_le_one (by positivity)]
    linarith
  refine ⟨1 / (2 * (k + 1)), by positivity, hone, ?_⟩
  have hlt : 2 * π / (k + 1) < e / 2 := by
    rw [div_lt_iff₀ hk1]
    rw [div_lt_iff₀ he] at hk
    nlinarith
  filter_upwards [lim.eventually (gt_mem_nhds hlt)] with n hn
  have hn : lamSum (fun i j => (1 - (lambert (mid n i j)).z) ^ k) n < e / 2 := hn
  have : rimSum (1 / (2 * (k + 1))) n ≤ 2 * lamSum (fun i j => (1 - (lambert (mid n i j)).z) ^ k) n := by
    rw [← lamSum_mul]
    refine lamSum_le fun i j _ _ _ => ?_
    rw [lambert_z]
    have hq := sq_nonneg (off (mid n i j))
    split_ifs with hz
    · have b := one_add_mul_le_pow (a := -(1 / (2 * ((k : ℝ) + 1)))) (by linarith) k
      have b2 : (k : ℝ) * (1 / (2 * (k + 1))) ≤ 1 / 2 := by
        rw [mul_one_div, div_le_div_iff₀ (by positivity) (by norm_num)]
        linarith
      have b3 : (1 + -(1 / (2 * ((k : ℝ) + 1)))) ^ k ≤ (1 - (1 - 4 * off (mid n i j) ^ 2)) ^ k :=
        pow_le_pow_left₀ (by linarith) (by linarith) k
      linarith
    · have : 0 ≤ (1 - (1 - 4 * off (mid n i j) ^ 2)) ^ k := pow_nonneg (by linarith) k
      linarith
  linarith

/-- **C201, back.** Convert angular pictures of any continuous scene to the equisolid projection (`reverse=True`, 180 degrees,
linear or nearest). From some resolution on, the plain sum over the circle, times the one solid angle all its pixels have,
differs from the integral of scene times weight over the hemisphere by at most `4.5e-8` times the steepness of the scene
times the largest weight, and any chosen allowance on top. -/
theorem C201_mean (L w : V3 → ℝ) (hL : Smooth L) (hw : Smooth w) {K M : ℝ} (hK : 0 ≤ K) (hs : Steep K L)
    (hM : ∀ v : V3, v.normSq = 1 → |w v| ≤ M) (B : ℝ) (hB : 0 ≤ B) {e : ℝ} (he : 0 < e) (nearest : Bool) :
    ∀ᶠ n : ℕ in atTop, ∀ im out : Img ℝ, AnglePicture L B n im → SolidOf nearest im out →
      |out.circleSum w - capIntegral (π / 2) fun p => L ((dfltView 180).v2w p) * w ((dfltView 180).v2w p)|
        ≤ 4.5e-8 * K * M + e := by
  have hpi := pi_pos
  have hM0 : 0 ≤ M := (abs_nonneg _).trans (hM ⟨1, 0, 0⟩ (by unfold V3.normSq; norm_num))
  obtain ⟨M', hM'0, hM'⟩ := smooth_bound hL
  have hLw : Smooth fun p => L p * w p := by unfold Smooth at *; exact hL.mul hw
  have base := circle_limit (smooth_v2w hLw (dfltView 180))
  have area := circle_limit (g := fun p => (1 - p.z) ^ 0) (by unfold Smooth; fun_prop)
  rw [cap_pow 0] at area
  simp only [pow_zero, Nat.cast_zero, zero_add, div_one] at area
  obtain ⟨z, hz0, hz1, hedge⟩ := rim_small (e := e / (4 * ((4 * B + M') * M + 1))) (by positivity)
  have hsmall : Tendsto (fun n : ℕ => K * (14 * (1 / (n : ℝ))) * M * 7) atTop (𝓝 0) := by
    have := (tendsto_one_div_atTop_nhds_zero_nat (𝕜 := ℝ)).const_mul (K * 14 * M * 7)
    rw [mul_zero] at this
    refine this.congr fun n => by ring
  have hbig : Tendsto (fun n : ℕ => z * (n : ℝ)) atTop atTop := (tendsto_natCast_atTop_atTop).const_mul_atTop hz0
  rw [Metric.tendsto_nhds] at base
  have harea : (2 * π : ℝ) < 6.2832 := by nlinarith [pi_lt_d6]
  filter_upwards [hedge, hsmall.eventually (gt_mem_nhds (show (0 : ℝ) < e / 4 by positivity)), hbig.eventually_gt_atTop 16,
    base (e / 4) (by positivity), area.eventually (gt_mem_nhds harea)] with n h1 h2 h3 h4 h5 im out hp ho
  have h4 : |lamSum (fun i j => L ((dfltView 180).v2w (lambert (mid n i j))) * w ((dfltView 180).v2w (lambert (mid n i j)))) n
      - capIntegral (π / 2) fun p => L ((dfltView 180).v2w p) * w ((dfltView 180).v2w p)| < e / 4 := by
    rw [← Real.dist_eq]; exact h4
  have h5 : lamSum (fun _ _ => 1) n < 6.2832 := h5
  have hout : out.circleSum w = lamSum (fun i j => out.at_ i j * w ((dfltView 180).v2w (lambert (mid n i j)))) n := by
    unfold Img.circleSum lamSum
    rw [ho.1, ho.2.1, hp.2.1]
  rw [hout]
  have hn0 : (0 : ℝ) ≤ 1 / n := by positivity
  have hpix : ∀ i j, i < n → j < n → off (mid n i j) < 1 / 2 →
      |out.at_ i j * w ((dfltView 180).v2w (lambert (mid n i j)))
        - L ((dfltView 180).v2w (lambert (mid n i j))) * w ((dfltView 180).v2w (lambert (mid n i j)))| ≤
      K * (14 * (1 / n + 5e-10)) * M * 1 + (4 * B + M') * M * (if 1 - 4 * off (mid n i j) ^ 2 < z then 1 else 0) := by
    intro i j hi hj hv
    have hu : ((dfltView 180).v2w (lambert (mid n i j))).normSq = 1 := by
      rw [normSq_dot]
      have := (C50_isometry ⟨0, 1, 0⟩ dflt_ne 180 (lambert (mid n i j)) (lambert (mid n i j))).2.2.2
      rw [← normSq_dot (lambert _), lambert_unit hv.le] at this
      exact this
    have hwm := hM _ hu
    have hLm := hM' _ hu
    obtain ⟨k1, k2⟩ := back_near L hK hs B hz0 h3 hz1 nearest im out hp ho i j hi hj hv
    rw [← sub_mul, abs_mul]
    split_ifs with hz
    · have h6 : |out.at_ i j - L ((dfltView 180).v2w (lambert (mid n i j)))| ≤ 4 * B + M' := (abs_sub _ _).trans (add_le_add k2 hLm)
      have h7 : |out.at_ i j - L ((dfltView 180).v2w (lambert (mid n i j)))| * |w ((dfltView 180).v2w (lambert (mid n i j)))| ≤
          (4 * B + M') * M := by gcongr
      have h8 : 0 ≤ K * (14 * (1 / (n : ℝ) + 5e-10)) * M := by positivity
      linarith
    · have := k1 (not_lt.mp hz)
      rw [mul_zero, add_zero, mul_one]
      gcongr
  have key : |lamSum (fun i j => out.at_ i j * w ((dfltView 180).v2w (lambert (mid n i j)))) n
      - lamSum (fun i j => L ((dfltView 180).v2w (lambert (mid n i j))) * w ((dfltView 180).v2w (lambert (mid n i j)))) n| ≤
      K * (14 * (1 / n + 5e-10)) * M * lamSum (fun _ _ => 1) n + (4 * B + M') * M * rimSum z n := by
    unfold rimSum
    rw [← lamSum_mul, ← lamSum_mul, ← lamSum_add, abs_le]
    constructor
    · rw [neg_le_sub_iff_le_add, ← lamSum_add]
      exact lamSum_le fun i j hi hj hv => by have := (abs_le.mp (hpix i j hi hj hv)).1; linarith
    · rw [sub_le_iff_le_add, ← lamSum_add]
      exact lamSum_le fun i j hi hj hv => by have := (abs_le.mp (hpix i j hi hj hv)).2; linarith
  have f1 : K * (14 * (1 / n + 5e-10)) * M * lamSum (fun _ _ => 1) n ≤ e / 4 + 4.5e-8 * K * M := by
    have : K * (14 * (1 / n + 5e-10)) * M * lamSum (fun _ _ => 1) n ≤ K * (14 * (1 / n + 5e-10)) * M * 6.2832 :=
      mul_le_mul_of_nonneg_left h5.le (by positivity)
    have q : 0 ≤ K * (1 / (n : ℝ)) * M := by positivity
    have q2 : 0 ≤ K * M := by positivity
    nlinarith
  have f2 : (4 * B + M') * M * rimSum z n ≤ e / 4 := by
    have hp0 : 0 ≤ (4 * B + M') * M := by positivity
    refine (mul_le_mul_of_nonneg_left h1.le hp0).trans ?_
    rw [mul_div_assoc', div_le_div_iff₀ (by positivity) (by norm_num)]
    nlinarith
  rw [abs_le] at key ⊢
  rw [abs_lt] at h4
  constructor <;> linarith [key.1, key.2, h4.1, h4.2]

/-! ### there are such pictures -/

theorem angle_exists (L : V3 → ℝ) {M : ℝ} (hM : ∀ v : V3, v.normSq = 1 → |L v| ≤ M) (nearest : Bool) (n : ℕ) :
    ∃ im out, AnglePicture L M n im ∧ SolidOf nearest im out := by
  let im : Img ℝ := ⟨n, n, fun i j => L ((dfltView 180).pixel2ray n (pixelCentre i j))⟩
  have hv : ∀ i j, ∃ v, arraySolid2ang true 180 (centreInterp nearest) im i j = .ok v := by
    intro i j
    unfold arraySolid2ang solidNew
    rw [if_neg (by norm_num)]
    simp only [Except.bind]
    rw [if_neg (show ¬ im.n ≠ im.m from fun h => h rfl)]
    split_ifs
    · exact ⟨_, rfl⟩
    · exact ⟨_, rfl⟩
  choose f hf using hv
  exact ⟨im, ⟨n, n, f⟩, ⟨rfl, rfl, fun i j _ _ _ => rfl, fun i j _ _ => hM _ (pixel_unit ⟨0, 1, 0⟩ dflt_ne 180 n (pixelCentre i j))⟩,
    rfl, rfl, fun i j _ _ => hf i j⟩

/-- the scene `y`: photographs of it, the conversion, and a bound that says something -/
example : (∃ im out, AnglePicture (fun p => p.y) 1 40 im ∧ SolidOf true im out) ∧ Smooth (fun p => p.y) :=
  ⟨angle_exists _ (fun v hv => by
    unfold V3.normSq at hv
    refine abs_le_of_sq_le_sq ?_ (by norm_num)
    nlinarith [sq_nonneg v.x, sq_nonneg v.z]) true 40, by unfold Smooth; fun_prop⟩

end Verif.Map
