import Verif.Lemmas.Riemann
import Verif.Lemmas.SphereArea
import Verif.Props.GssLaws
import Mathlib.Analysis.SpecialFunctions.PolarCoord
import Mathlib.MeasureTheory.Integral.IntervalIntegral.Basic
import Mathlib.MeasureTheory.Integral.Prod
import Mathlib.Analysis.SpecialFunctions.Integrals.Basic

/-! C158: sums over the pixels of a view tend to integrals over its directions. -/

namespace Verif.Map
open Verif.Geo Verif.Gss Real Filter Topology MeasureTheory Set

/-! Spec -/

/-- the direction at angle `t` from the line of sight and angle `f` around it -/
noncomputable def sphDir (t f : ℝ) : V3 := ⟨sin t * cos f, sin t * sin f, cos t⟩

/-- the integral of `g` over the directions within `a` of the line of sight -/
noncomputable def capIntegral (a : ℝ) (g : V3 → ℝ) : ℝ := ∫ t in (0)..a, ∫ f in (-π)..π, g (sphDir t f) * sin t

/-- a function of the direction without jumps -/
def Smooth (g : V3 → ℝ) : Prop := Continuous fun p : ℝ × ℝ × ℝ => g ⟨p.1, p.2.1, p.2.2⟩

/-! Model: the sum over an image -/

open Classical in
/-- the sum of `g` times the solid angle over the pixels in view: the form of every sum over `pixelrays`, `in_view` and
`pixel2omega` (imagetools.py 189-206, evaluate/hvsgsm.py 244-247) -/
noncomputable def viewSum (v : View) (g : V3 → ℝ) (n : ℕ) : ℝ :=
  ∑ i ∈ Finset.range n, ∑ j ∈ Finset.range n,
    if v.inView 0 (v.pixel2ray n (pixelCentre i j)) then
      g (v.pixel2ray n (pixelCentre i j)) * v.pixel2omega n (pixelCentre i j) else 0

/-! Directions in view space -/

theorem smooth_v2w {g : V3 → ℝ} (hg : Smooth g) (v : View) : Smooth fun p => g (v.v2w p) := by
  unfold Smooth at *
  have : (fun p : ℝ × ℝ × ℝ => g (v.v2w ⟨p.1, p.2.1, p.2.2⟩)) =
      (fun p : ℝ × ℝ × ℝ => g ⟨p.1, p.2.1, p.2.2⟩) ∘
        fun p : ℝ × ℝ × ℝ => ((v.v2w ⟨p.1, p.2.1, p.2.2⟩).x, (v.v2w ⟨p.1, p.2.1, p.2.2⟩).y, (v.v2w ⟨p.1, p.2.1, p.2.2⟩).z) := by
    funext p; rfl
  rw [this]
  refine hg.comp ?_
  unfold View.v2w Map.v2w M3.app
  simp only
  fun_prop

theorem smooth_bound {g : V3 → ℝ} (hg : Smooth g) : ∃ M, 0 ≤ M ∧ ∀ v : V3, v.normSq = 1 → |g v| ≤ M := by
  obtain ⟨M, hM⟩ := (isCompact_Icc (a := ((-1, -1, -1) : ℝ × ℝ × ℝ)) (b := (1, 1, 1))).exists_bound_of_continuousOn
    hg.continuousOn
  refine ⟨max M 0, le_max_right _ _, fun v hv => le_trans ?_ (le_max_left _ _)⟩
  have := hM (v.x, v.y, v.z) ?_
  · simpa using this
  · unfold V3.normSq at hv
    refine ⟨⟨?_, ?_, ?_⟩, ⟨?_, ?_, ?_⟩⟩ <;> simp only <;> nlinarith [sq_nonneg v.x, sq_nonneg v.y, sq_nonneg v.z]

theorem polar_normSq {u : ℝ × ℝ} (h1 : rad2 u ≤ 1) : (polar2view u).normSq = 1 := by
  have e := polFactor_eq (rad2_nonneg u) h1
  have e2 := rad2_sq u
  unfold polar2view V3.normSq
  simp only
  have : (u.1 * polFactor (rad2 u)) ^ 2 + (u.2 * polFactor (rad2 u)) ^ 2 = sin (π * rad2 u) ^ 2 := by
    rw [← e]
    have : (rad2 u * polFactor (rad2 u)) ^ 2 = rad2 u ^ 2 * polFactor (rad2 u) ^ 2 := by ring
    rw [this, e2]; ring
  rw [this, sin_sq_add_cos_sq]

theorem rad2_polar {r f : ℝ} (hr : 0 ≤ r) : rad2 (r * cos f, r * sin f) = r := by
  unfold rad2
  simp only
  rw [show (r * cos f) ^ 2 + (r * sin f) ^ 2 = r ^ 2 * (sin f ^ 2 + cos f ^ 2) by ring, sin_sq_add_cos_sq, mul_one,
    sqrt_sq hr]

theorem polar_sphDir {r f : ℝ} (h0 : 0 < r) (h1 : r ≤ 1) :
    polar2view (r * cos f, r * sin f) = sphDir (π * r) f := by
  have e := polFactor_eq h0.le h1
  unfold polar2view sphDir
  rw [rad2_polar h0.le, ← e]
  congr 1 <;> ring

theorem continuous_rad2 : Continuous rad2 := by unfold rad2; fun_prop

theorem smooth_polar {g : V3 → ℝ} (hg : Smooth g) {u : ℝ × ℝ} (h0 : 0 < rad2 u) (h1 : rad2 u < 1) :
    ContinuousAt (fun p => g (polar2view p)) u := by
  have ht : 0 < u.1 ^ 2 + u.2 ^ 2 := by rw [← rad2_sq]; positivity
  obtain ⟨dx, dy, dz⟩ := x_deriv ht rfl rfl
  have h := hg.continuousAt.comp (dx.continuousAt.prodMk (dy.continuousAt.prodMk dz.continuousAt))
  refine h.congr ?_
  filter_upwards [continuous_rad2.continuousAt.eventually (lt_mem_nhds h0),
    continuous_rad2.continuousAt.eventually (gt_mem_nhds h1)] with p p0 p1
  rw [polar_fun p0 p1.le]
  rfl

/-! Circles have no area -/

theorem circle_null (c : ℝ) : volume {p : ℝ × ℝ | p.1 ^ 2 + p.2 ^ 2 = c} = 0 := by
  have hm : MeasurableSet {p : ℝ × ℝ | p.1 ^ 2 + p.2 ^ 2 = c} :=
    (isClosed_eq (by fun_prop) continuous_const).measurableSet
  rw [Measure.volume_eq_prod, Measure.measure_prod_null hm]
  refine Eventually.of_forall fun x => ?_
  have : (Prod.mk x ⁻¹' {p : ℝ × ℝ | p.1 ^ 2 + p.2 ^ 2 = c}) ⊆ {√(c - x ^ 2), -√(c - x ^ 2)} := by
    intro y hy
    simp only [mem_preimage, mem_setOf_eq] at hy
    have e : y ^ 2 = c - x ^ 2 := by linarith
    simp only [mem_insert_iff, mem_singleton_iff]
    rw [← e, sqrt_sq_eq_abs]
    rcases abs_choice y with h | h
    · left; exact h.symm
    · right; rw [h]; ring
  exact (Set.Finite.subset (by simp) this).measure_zero _

/-! Pixels -/

/-- the pixel coordinates of a point of the angular image -/
noncomputable def toPix (K : ℝ) (n : ℕ) (u : ℝ × ℝ) : ℝ × ℝ := (n * (1 / 2 - u.1 / K), n * (1 / 2 + u.2 / K))

/-- the directions at the sides of a small square -/
noncomputable def para (u : ℝ × ℝ) (h : ℝ) : ℝ :=
  (cross ((polar2view (u.1 + h, u.2)).sub (polar2view (u.1 - h, u.2)))
    ((polar2view (u.1, u.2 + h)).sub (polar2view (u.1, u.2 - h)))).len

theorem cross_swap (a b c : V3) : (cross (a.sub b) c).len = (cross (b.sub a) c).len := by
  unfold V3.len V3.normSq cross V3.sub
  congr 1
  simp only
  ring

/-- the scale of the image: half of it is the radius of the view, in units of 180 degrees -/
noncomputable def kOf (va : ℝ) : ℝ := va * chordFactor va / 180

theorem kOf_pos {va : ℝ} (h0 : 0 < va) (h1 : va ≤ 180) : 0 < kOf va ∧ kOf va ≤ 1 := by
  obtain ⟨c1, c2, c3, c4⟩ := cf_bounds h0 h1
  unfold kOf
  refine ⟨by positivity, ?_⟩
  rw [div_le_one (by norm_num)]
  nlinarith

theorem centred_view {d : V3} {va : ℝ} (h1 : va ≤ 180) (q : ℝ × ℝ) :
    (View.new d va).centred q = (-((q.1 - 1 / 2) * kOf va), (q.2 - 1 / 2) * kOf va) := by
  obtain ⟨_, _, e1, e2, e3⟩ := new_sf (d := d) (va := va) (by linarith)
  unfold View.centred kOf
  rw [e1, e3]
  apply Prod.ext <;> simp only <;> ring

theorem omega_para {d : V3} (hd : d ≠ V3.zero) {va : ℝ} (h0 : 0 < va) (h1 : va ≤ 180) {n : ℕ} (hn : 0 < n) (u : ℝ × ℝ) :
    (View.new d va).pixel2omega n (toPix (kOf va) n u) = para u (kOf va / (2 * n)) := by
  have hN : (0 : ℝ) < n := by exact_mod_cast hn
  obtain ⟨k0, -⟩ := kOf_pos h0 h1
  rw [pixel2omega_view hd]
  simp only [centred_view h1]
  unfold para toPix
  set K := kOf va
  rw [cross_swap]
  congr 3 <;> congr 2 <;> simp only <;> field_simp <;> ring

theorem ray_toPix {d : V3} {va : ℝ} (h0 : 0 < va) (h1 : va ≤ 180) {n : ℕ} (hn : 0 < n) (u : ℝ × ℝ) :
    (View.new d va).pixel2ray n (toPix (kOf va) n u) = (View.new d va).v2w (polar2view u) := by
  have hN : (0 : ℝ) < n := by exact_mod_cast hn
  obtain ⟨k0, -⟩ := kOf_pos h0 h1
  unfold View.pixel2ray View.vxy2xyz View.vxy2xyzM
  simp only
  rw [centred_view h1]
  congr 2
  unfold toPix
  apply Prod.ext <;> simp only <;> field_simp <;> ring

theorem pix_ctr {va : ℝ} (h0 : 0 < va) (h1 : va ≤ 180) {n i : ℕ} (hi : i < n) (j : ℕ) :
    pixelCentre (n - 1 - i) j = toPix (kOf va) n (Riemann.ctr (kOf va) n i, Riemann.ctr (kOf va) n j) := by
  have hN : (0 : ℝ) < n := by exact_mod_cast (by omega : 0 < n)
  obtain ⟨k0, -⟩ := kOf_pos h0 h1
  have e : ((n - 1 - i : ℕ) : ℝ) = n - 1 - i := by
    rw [Nat.cast_sub (by omega), Nat.cast_sub (by omega)]; norm_num
  unfold pixelCentre toPix Riemann.ctr
  rw [e]
  apply Prod.ext <;> simp only <;> field_simp <;> ring

open Classical in
/-- the summand at a point of the angular image -/
noncomputable def term (K : ℝ) (g : V3 → ℝ) (n : ℕ) (u : ℝ × ℝ) : ℝ :=
  if rad2 u < K / 2 then g (polar2view u) * (para u (K / (2 * n)) / (2 * (K / (2 * n))) ^ 2) else 0

open Classical in
/-- its limit -/
noncomputable def limTerm (K : ℝ) (g : V3 → ℝ) (u : ℝ × ℝ) : ℝ :=
  if rad2 u < K / 2 then g (polar2view u) * (π * (sin (π * rad2 u) / rad2 u)) else 0

theorem rad2_half_iff {K : ℝ} (hK : 0 < K) (a b : ℝ) : rad2 (K * a, K * b) < K / 2 ↔ a ^ 2 + b ^ 2 < (1 / 2) ^ 2 := by
  have e : rad2 (K * a, K * b) = K * √(a ^ 2 + b ^ 2) := by
    unfold rad2
    simp only
    rw [show (K * a) ^ 2 + (K * b) ^ 2 = K ^ 2 * (a ^ 2 + b ^ 2) by ring, sqrt_mul (sq_nonneg K), sqrt_sq hK.le]
  rw [e, show K / 2 = K * (1 / 2) by ring, mul_lt_mul_iff_right₀ hK, sqrt_lt' (by norm_num)]

theorem viewSum_eq {d : V3} (hd : Clear d) {va : ℝ} (h0 : 0 < va) (h1 : va ≤ 180) (g : V3 → ℝ) {n : ℕ} (hn : 0 < n) :
    viewSum (View.new d va) g n = (kOf va / n) ^ 2 * ∑ i ∈ Finset.range n, ∑ j ∈ Finset.range n,
      term (kOf va) (fun p => g ((View.new d va).v2w p)) n (Riemann.ctr (kOf va) n i, Riemann.ctr (kOf va) n j) := by
  have hN : (0 : ℝ) < n := by exact_mod_cast hn
  obtain ⟨k0, -⟩ := kOf_pos h0 h1
  unfold viewSum
  rw [← Finset.sum_range_reflect, Finset.mul_sum]
  refine Finset.sum_congr rfl fun i hi => ?_
  rw [Finset.mul_sum]
  refine Finset.sum_congr rfl fun j hj => ?_
  have hi' := Finset.mem_range.1 hi
  have hj' := Finset.mem_range.1 hj
  have hm : (View.new d va).inView 0 ((View.new d va).pixel2ray n (pixelCentre (n - 1 - i) j)) ↔
      rad2 (Riemann.ctr (kOf va) n i, Riemann.ctr (kOf va) n j) < kOf va / 2 := by
    obtain ⟨x0, x1⟩ := centre_div (show n - 1 - i < n by omega)
    obtain ⟨y0, y1⟩ := centre_div hj'
    have := C53_circle_partial d hd va h0 h1 ((((n - 1 - i : ℕ) : ℝ) + 1 / 2) / n, ((j : ℝ) + 1 / 2) / n) x0 x1 y0 y1
    have e : (View.new d va).pixel2ray n (pixelCentre (n - 1 - i) j) =
        (View.new d va).vxy2xyz ((((n - 1 - i : ℕ) : ℝ) + 1 / 2) / n, ((j : ℝ) + 1 / 2) / n) := rfl
    rw [e, this]
    unfold Riemann.ctr
    rw [rad2_half_iff k0]
    have e2 : ((n - 1 - i : ℕ) : ℝ) = n - 1 - i := by
      rw [Nat.cast_sub (by omega), Nat.cast_sub (by omega)]; norm_num
    rw [e2]
    have e3 : ((n : ℝ) - 1 - i + 1 / 2) / n - 1 / 2 = -((i + 1 / 2) / n - 1 / 2) := by field_simp; ring
    simp only
    rw [e3, neg_sq]
  unfold term
  by_cases h : rad2 (Riemann.ctr (kOf va) n i, Riemann.ctr (kOf va) n j) < kOf va / 2
  · rw [if_pos (hm.2 h), if_pos h, pix_ctr h0 h1 hi', omega_para hd.1 h0 h1 hn, ray_toPix h0 h1 hn]
    field_simp
  · rw [if_neg (fun h' => h (hm.1 h')), if_neg h, mul_zero]

theorem term_bound {d : V3} (hd : d ≠ V3.zero) {va : ℝ} (h0 : 0 < va) (h1 : va ≤ 180) {g : V3 → ℝ} {M : ℝ} (hM0 : 0 ≤ M)
    (hM : ∀ v : V3, v.normSq = 1 → |g v| ≤ M) {n : ℕ} (hn : 4 ≤ n) (u : ℝ × ℝ) : |term (kOf va) g n u| ≤ M * π ^ 2 := by
  have hN : (0 : ℝ) < n := by exact_mod_cast (by omega : 0 < n)
  obtain ⟨k0, k1⟩ := kOf_pos h0 h1
  unfold term
  split_ifs with h
  · have hg := hM (polar2view u) (polar_normSq (by linarith))
    have hb := C149_bound d hd va h0 h1 n (by omega) (Or.inl hn) (toPix (kOf va) n u).1 (toPix (kOf va) n u).2 (by
      unfold toPix
      simp only
      have e1 : (n : ℝ) * (1 / 2 - u.1 / kOf va) / n - 1 / 2 = -(u.1 / kOf va) := by field_simp; ring
      have e2 : (n : ℝ) * (1 / 2 + u.2 / kOf va) / n - 1 / 2 = u.2 / kOf va := by field_simp; ring
      rw [e1, e2, neg_sq]
      rw [← rad2_half_iff k0, mul_div_cancel₀ _ k0.ne', mul_div_cancel₀ _ k0.ne']
      exact h)
    rw [Prod.mk.eta, omega_para hd h0 h1 (by omega)] at hb
    have hp : pitch va n / 2 = π * kOf va / (2 * n) := by unfold pitch kOf; field_simp
    have hs : 2 * sin (pitch va n / 2) ≤ π * kOf va / n := by
      have hpp : 0 < pitch va n / 2 := by rw [hp]; have := pi_pos; positivity
      have := (sin_lt hpp).le
      rw [hp] at this ⊢
      calc 2 * sin (π * kOf va / (2 * n)) ≤ 2 * (π * kOf va / (2 * n)) := by linarith
        _ = _ := by field_simp
    have hs0 : 0 ≤ sin (pitch va n / 2) := by
      rw [hp]
      refine sin_nonneg_of_nonneg_of_le_pi (by have := pi_pos; positivity) ?_
      rw [div_le_iff₀ (by positivity)]
      have : (4 : ℝ) ≤ n := by exact_mod_cast hn
      nlinarith [pi_pos, mul_pos pi_pos k0]
    have hb2 : para u (kOf va / (2 * n)) ≤ (π * kOf va / n) ^ 2 := hb.trans (pow_le_pow_left₀ (by linarith) hs 2)
    have hq : 0 ≤ para u (kOf va / (2 * n)) := sqrt_nonneg _
    rw [abs_mul, abs_of_nonneg (div_nonneg hq (sq_nonneg _))]
    refine mul_le_mul hg ?_ (by positivity) hM0
    rw [div_le_iff₀ (by positivity)]
    refine hb2.trans (le_of_eq ?_)
    field_simp
  · rw [abs_zero]; positivity

theorem term_tendsto {K : ℝ} (hK : 0 < K) (hK1 : K ≤ 1) {g : V3 → ℝ} (hg : Smooth g) {u : ℝ × ℝ}
    (h0 : 0 < rad2 u) (h1 : rad2 u ≠ K / 2) {q : ℕ → ℝ × ℝ} (hq : Tendsto q atTop (𝓝 u)) :
    Tendsto (fun n => term K g n (q n)) atTop (𝓝 (limTerm K g u)) := by
  have hr := (continuous_rad2.tendsto u).comp hq
  have hh : Tendsto (fun n : ℕ => K / (2 * (n : ℝ))) atTop (𝓝 0) := by
    have := tendsto_const_div_atTop_nhds_zero_nat (K / 2)
    refine this.congr fun n => ?_
    rw [div_div]
  have hp : ∀ᶠ n : ℕ in atTop, 0 < K / (2 * (n : ℝ)) := by
    filter_upwards [eventually_gt_atTop 0] with n hn
    have : (0 : ℝ) < n := by exact_mod_cast hn
    positivity
  rcases lt_or_gt_of_ne h1 with h | h
  · unfold limTerm
    rw [if_pos h]
    have a := (smooth_polar hg h0 (by linarith)).tendsto.comp hq
    have b := area_limit h0 (by linarith : rad2 u < 1) hq hh hp
    refine (a.mul b).congr' ?_
    filter_upwards [hr.eventually (gt_mem_nhds h)] with n hn
    have hn : rad2 (q n) < K / 2 := hn
    unfold term
    rw [if_pos hn]
    rfl
  · unfold limTerm
    rw [if_neg (not_lt.2 h.le)]
    refine tendsto_const_nhds.congr' ?_
    filter_upwards [hr.eventually (lt_mem_nhds h)] with n hn
    have hn : K / 2 < rad2 (q n) := hn
    unfold term
    rw [if_neg (not_lt.2 hn.le)]

theorem integral_limTerm {K : ℝ} (hK : 0 < K) (hK1 : K ≤ 1) {g : V3 → ℝ} (hg : Smooth g) :
    ∫ p in Riemann.sq K, limTerm K g p = capIntegral (π * (K / 2)) g := by
  have hpi := pi_pos
  have hzero : ∀ p, p ∉ Riemann.sq K → limTerm K g p = 0 := by
    intro p hp
    unfold limTerm
    rw [if_neg]
    intro h
    apply hp
    have h2 := rad2_sq p
    have h3 := rad2_nonneg p
    have a1 : |p.1| < K / 2 := abs_lt_of_sq_lt_sq (by nlinarith [sq_nonneg p.2]) (by positivity)
    have a2 : |p.2| < K / 2 := abs_lt_of_sq_lt_sq (by nlinarith [sq_nonneg p.1]) (by positivity)
    rw [abs_lt] at a1 a2
    exact ⟨⟨a1.1.le, a1.2⟩, ⟨a2.1.le, a2.2⟩⟩
  rw [setIntegral_eq_integral_of_forall_compl_eq_zero hzero, ← integral_comp_polarCoord_symm]
  have ht : polarCoord.target = Ioi (0 : ℝ) ×ˢ Ioo (-π) π := rfl
  have hfun : ∀ p ∈ polarCoord.target, p.1 • limTerm K g (polarCoord.symm p) =
      (Ioo (0 : ℝ) (K / 2) ×ˢ Ioo (-π) π).indicator (fun p => π * (g (sphDir (π * p.1) p.2) * sin (π * p.1))) p := by
    intro p hp
    rw [ht] at hp
    obtain ⟨hp1, hp2⟩ := hp
    have e : polarCoord.symm p = (p.1 * cos p.2, p.1 * sin p.2) := rfl
    have hp1 : 0 < p.1 := hp1
    rw [e]
    unfold limTerm
    rw [rad2_polar hp1.le]
    by_cases h : p.1 < K / 2
    · rw [if_pos h, indicator_of_mem (show p ∈ Ioo (0 : ℝ) (K / 2) ×ˢ Ioo (-π) π from ⟨⟨hp1, h⟩, hp2⟩),
        polar_sphDir hp1 (by linarith), smul_eq_mul]
      field_simp
    · rw [if_neg h, smul_zero, indicator_of_notMem]
      exact fun h' => h h'.1.2
  have hmt : MeasurableSet polarCoord.target := polarCoord.open_target.measurableSet
  have hsub : polarCoord.target ∩ Ioo (0 : ℝ) (K / 2) ×ˢ Ioo (-π) π = Ioo (0 : ℝ) (K / 2) ×ˢ Ioo (-π) π := by
    rw [ht]
    exact inter_eq_right.2 (prod_mono (fun x hx => hx.1) subset_rfl)
  have hcont : Continuous fun p : ℝ × ℝ => π * (g (sphDir (π * p.1) p.2) * sin (π * p.1)) := by
    have : Continuous fun p : ℝ × ℝ => g (sphDir (π * p.1) p.2) :=
      hg.comp (by fun_prop : Continuous fun p : ℝ × ℝ =>
        (sin (π * p.1) * cos p.2, sin (π * p.1) * sin p.2, cos (π * p.1)))
    exact continuous_const.mul (this.mul (by fun_prop))
  have hint : IntegrableOn (fun p : ℝ × ℝ => π * (g (sphDir (π * p.1) p.2) * sin (π * p.1)))
      (Ioo (0 : ℝ) (K / 2) ×ˢ Ioo (-π) π) (volume.prod volume) := by
    rw [← Measure.volume_eq_prod]
    exact (hcont.continuousOn.integrableOn_compact (isCompact_Icc.prod isCompact_Icc)).mono_set
      (prod_mono Ioo_subset_Icc_self Ioo_subset_Icc_self)
  rw [setIntegral_congr_fun hmt hfun, setIntegral_indicator (measurableSet_Ioo.prod measurableSet_Ioo), hsub,
    Measure.volume_eq_prod, setIntegral_prod _ hint]
  have hin : ∀ x, ∫ y in Ioo (-π) π, π * (g (sphDir (π * x) y) * sin (π * x)) =
      π * ∫ y in (-π)..π, g (sphDir (π * x) y) * sin (π * x) := by
    intro x
    rw [intervalIntegral.integral_of_le (by linarith), integral_Ioc_eq_integral_Ioo, integral_const_mul]
  simp only [hin]
  rw [← integral_Ioc_eq_integral_Ioo, ← intervalIntegral.integral_of_le (by positivity),
    intervalIntegral.integral_const_mul]
  have hsubst := intervalIntegral.smul_integral_comp_mul_left (a := 0) (b := K / 2)
    (fun t => ∫ y in (-π)..π, g (sphDir t y) * sin t) π
  rw [smul_eq_mul, mul_zero] at hsubst
  exact hsubst

/-- **C158** the sum of any continuous function of the direction over the pixels in view, weighted by their solid angles,
tends to the integral over the cone of the view when the resolution grows -/
theorem C158_limit (d : V3) (hd : Clear d) (va : ℝ) (h0 : 0 < va) (h1 : va ≤ 180) (g : V3 → ℝ) (hg : Smooth g) :
    Tendsto (viewSum (View.new d va) g) atTop
      (𝓝 (capIntegral (chordFactor va * va * π / 360) fun p => g ((View.new d va).v2w p))) := by
  obtain ⟨k0, k1⟩ := kOf_pos h0 h1
  have hg2 := smooth_v2w hg (View.new d va)
  obtain ⟨M, hM0, hM⟩ := smooth_bound hg2
  have key := Riemann.sum_tendsto k0 (fun n => term (kOf va) (fun p => g ((View.new d va).v2w p)) n)
    (limTerm (kOf va) fun p => g ((View.new d va).v2w p)) (M * π ^ 2) ?_ ?_
  · rw [integral_limTerm k0 k1 hg2] at key
    have e : π * (kOf va / 2) = chordFactor va * va * π / 360 := by unfold kOf; ring
    rw [e] at key
    refine key.congr' ?_
    filter_upwards [eventually_gt_atTop 0] with n hn
    exact (viewSum_eq hd h0 h1 g hn).symm
  · filter_upwards [eventually_ge_atTop 4] with n hn i j
    exact term_bound hd.1 h0 h1 hM0 hM hn _
  · have n1 : ∀ᵐ p : ℝ × ℝ, p.1 ^ 2 + p.2 ^ 2 ≠ 0 := by
      rw [ae_iff]; simpa using circle_null 0
    have n2 : ∀ᵐ p : ℝ × ℝ, p.1 ^ 2 + p.2 ^ 2 ≠ (kOf va / 2) ^ 2 := by
      rw [ae_iff]; simpa using circle_null ((kOf va / 2) ^ 2)
    filter_upwards [n1, n2] with p p1 p2 _ q hq
    refine term_tendsto k0 k1 hg2 ?_ ?_ hq
    · unfold rad2
      exact sqrt_pos.2 (lt_of_le_of_ne (by positivity) p1.symm)
    · intro h
      apply p2
      rw [← rad2_sq, h]

/-- the solid angles add up to that of the cone -/
theorem C158_area (d : V3) (hd : Clear d) (va : ℝ) (h0 : 0 < va) (h1 : va ≤ 180) :
    Tendsto (viewSum (View.new d va) fun _ => 1) atTop (𝓝 (2 * π * (1 - cos (chordFactor va * va * π / 360)))) := by
  have h := C158_limit d hd va h0 h1 (fun _ => 1) continuous_const
  have e : capIntegral (chordFactor va * va * π / 360) (fun _ => 1) = 2 * π * (1 - cos (chordFactor va * va * π / 360)) := by
    unfold capIntegral
    simp only [one_mul, intervalIntegral.integral_const, smul_eq_mul, intervalIntegral.integral_const_mul, integral_sin,
      cos_zero]
    ring
  rwa [e] at h

/-- the sum of the cosines to the line of sight: the weight of the illuminance -/
theorem C158_cosine (d : V3) (hd : Clear d) (va : ℝ) (h0 : 0 < va) (h1 : va ≤ 180) :
    Tendsto (viewSum (View.new d va) fun p => p.dot (View.new d va).dxyz) atTop
      (𝓝 (π * sin (chordFactor va * va * π / 360) ^ 2)) := by
  have h := C158_limit d hd va h0 h1 (fun p => p.dot (View.new d va).dxyz) (by
    unfold Smooth V3.dot
    fun_prop)
  have e : capIntegral (chordFactor va * va * π / 360) (fun p => ((View.new d va).v2w p).dot (View.new d va).dxyz) =
      π * sin (chordFactor va * va * π / 360) ^ 2 := by
    have e1 : ∀ p : V3, ((View.new d va).v2w p).dot (View.new d va).dxyz = p.z := by
      intro p
      have a := (C50_isometry d hd.1 va p ⟨0, 0, 1⟩).2.2.2
      rw [(C50_look_partial d hd va).2.1] at a
      rw [a]
      unfold V3.dot
      ring
    unfold capIntegral
    simp only [e1, sphDir, intervalIntegral.integral_const, smul_eq_mul, intervalIntegral.integral_const_mul]
    have e2 : ∀ t : ℝ, cos t * ((π - -π) * sin t) = 2 * π * (sin t * cos t) := fun t => by ring
    simp only [e2, intervalIntegral.integral_const_mul, integral_sin_mul_cos₁, sin_zero]
    ring
  rwa [e] at h

/-- the pixels of the default view of 180 degrees make up a hemisphere -/
example : Tendsto (viewSum (View.new ⟨0, 1, 0⟩ 180) fun _ => 1) atTop (𝓝 (2 * π)) := by
  have h := C158_area ⟨0, 1, 0⟩ dflt_clear 180 (by norm_num) le_rfl
  rw [cf_180, show (1 : ℝ) * 180 * π / 360 = π / 2 by ring, cos_pi_div_two, sub_zero, mul_one] at h
  exact h

end Verif.Map
