import Verif.Props.PixelOmega
import Mathlib.Analysis.Calculus.Deriv.Comp
import Mathlib.Analysis.SpecialFunctions.Sqrt
import Mathlib.Analysis.Calculus.ContDiff.RCLike
import Mathlib.Analysis.SpecialFunctions.Trigonometric.Deriv
import Mathlib.Analysis.Calculus.FDeriv.Mul
import Mathlib.Analysis.Calculus.Deriv.Inv

/-! The area covered by a small square of the angular image: derivative of the direction. -/

namespace Verif.Map
open Verif.Geo Real Filter Topology

/-- symmetric difference quotients at moving points -/
theorem strict_quot {f : ℝ × ℝ → ℝ} {L : ℝ × ℝ →L[ℝ] ℝ} {p : ℝ × ℝ} (hf : HasStrictFDerivAt f L p) (e : ℝ × ℝ)
    {q : ℕ → ℝ × ℝ} (hq : Tendsto q atTop (𝓝 p)) {h : ℕ → ℝ} (hh : Tendsto h atTop (𝓝 0)) (h0 : ∀ᶠ n in atTop, 0 < h n) :
    Tendsto (fun n => (f (q n + h n • e) - f (q n - h n • e)) / (2 * h n)) atTop (𝓝 (L e)) := by
  have hs : Tendsto (fun n => h n • e) atTop (𝓝 0) := by
    have := hh.smul_const e
    rwa [zero_smul] at this
  have t1 : Tendsto (fun n => (q n + h n • e, q n - h n • e)) atTop (𝓝 (p, p)) := by
    refine Tendsto.prodMk_nhds ?_ ?_
    · have := hq.add hs; rwa [add_zero] at this
    · have := hq.sub hs; rwa [sub_zero] at this
  have ho := hf.isLittleO.comp_tendsto t1
  simp only [Function.comp_def] at ho
  have hd : ∀ n, q n + h n • e - (q n - h n • e) = (2 * h n) • e := by
    intro n; rw [add_sub_sub_cancel, mul_smul, two_smul]
  simp only [hd, map_smul, smul_eq_mul] at ho
  have ho2 : (fun n => f (q n + h n • e) - f (q n - h n • e) - 2 * h n * L e) =o[atTop] fun n => 2 * h n := by
    refine ho.trans_isBigO ?_
    refine Asymptotics.IsBigO.of_bound ‖e‖ (Eventually.of_forall fun n => ?_)
    rw [norm_smul, mul_comm]
  have h1 := ho2.tendsto_div_nhds_zero
  have h2 := h1.add_const (L e)
  rw [zero_add] at h2
  refine h2.congr' ?_
  filter_upwards [h0] with n hn
  field_simp
  ring

/-- `sin (π √t) / √t` -/
noncomputable def sfun (t : ℝ) : ℝ := sin (π * √t) / √t

/-- `cos (π √t)` -/
noncomputable def cfun (t : ℝ) : ℝ := cos (π * √t)

theorem sfun_deriv {t : ℝ} (h : 0 < t) :
    HasStrictDerivAt sfun ((π * cos (π * √t) - sin (π * √t) / √t) / (2 * t)) t := by
  have hs : 0 < √t := sqrt_pos.2 h
  have d0 := (hasStrictDerivAt_sqrt h.ne')
  have d1 := (d0.const_mul π).sin
  refine (d1.div d0 hs.ne').congr_deriv ?_
  have ht : t = √t ^ 2 := (sq_sqrt h.le).symm
  rw [show 2 * t = 2 * √t ^ 2 by rw [sq_sqrt h.le]]
  field_simp

theorem cfun_deriv {t : ℝ} (h : 0 < t) : HasStrictDerivAt cfun (-(π * (sin (π * √t) / √t) / 2)) t := by
  have d0 := (hasStrictDerivAt_sqrt h.ne')
  refine ((d0.const_mul π).cos).congr_deriv ?_
  have hs : 0 < √t := sqrt_pos.2 h
  field_simp

theorem polar_fun {u : ℝ × ℝ} (h0 : 0 < rad2 u) (h1 : rad2 u ≤ 1) :
    polar2view u = ⟨u.1 * sfun (u.1 ^ 2 + u.2 ^ 2), u.2 * sfun (u.1 ^ 2 + u.2 ^ 2), cfun (u.1 ^ 2 + u.2 ^ 2)⟩ := by
  have e := polFactor_eq h0.le h1
  have e2 : polFactor (rad2 u) = sfun (u.1 ^ 2 + u.2 ^ 2) := by
    unfold sfun
    rw [show √(u.1 ^ 2 + u.2 ^ 2) = rad2 u from rfl, eq_div_iff h0.ne', mul_comm]
    exact e
  unfold polar2view
  rw [e2]
  rfl

/-- `t = u₁² + u₂²` -/
noncomputable def tder (u : ℝ × ℝ) : ℝ × ℝ →L[ℝ] ℝ :=
  (2 * u.1) • ContinuousLinearMap.fst ℝ ℝ ℝ + (2 * u.2) • ContinuousLinearMap.snd ℝ ℝ ℝ

theorem t_deriv (u : ℝ × ℝ) : HasStrictFDerivAt (fun p : ℝ × ℝ => p.1 ^ 2 + p.2 ^ 2) (tder u) u := by
  have h1 : HasStrictFDerivAt (fun p : ℝ × ℝ => p.1) (ContinuousLinearMap.fst ℝ ℝ ℝ) u := hasStrictFDerivAt_fst
  have h2 : HasStrictFDerivAt (fun p : ℝ × ℝ => p.2) (ContinuousLinearMap.snd ℝ ℝ ℝ) u := hasStrictFDerivAt_snd
  refine ((h1.pow 2).add (h2.pow 2)).congr_fderiv ?_
  unfold tder
  ext <;> simp

theorem x_deriv {u : ℝ × ℝ} (h : 0 < u.1 ^ 2 + u.2 ^ 2) {s c : ℝ} (hs : s = sfun (u.1 ^ 2 + u.2 ^ 2))
    (hc : c = (π * cos (π * √(u.1 ^ 2 + u.2 ^ 2)) - s) / (u.1 ^ 2 + u.2 ^ 2)) :
    HasStrictFDerivAt (fun p : ℝ × ℝ => p.1 * sfun (p.1 ^ 2 + p.2 ^ 2))
      ((s + c * u.1 ^ 2) • ContinuousLinearMap.fst ℝ ℝ ℝ + (c * u.1 * u.2) • ContinuousLinearMap.snd ℝ ℝ ℝ) u ∧
    HasStrictFDerivAt (fun p : ℝ × ℝ => p.2 * sfun (p.1 ^ 2 + p.2 ^ 2))
      ((c * u.1 * u.2) • ContinuousLinearMap.fst ℝ ℝ ℝ + (s + c * u.2 ^ 2) • ContinuousLinearMap.snd ℝ ℝ ℝ) u ∧
    HasStrictFDerivAt (fun p : ℝ × ℝ => cfun (p.1 ^ 2 + p.2 ^ 2))
      ((-(π * s * u.1)) • ContinuousLinearMap.fst ℝ ℝ ℝ + (-(π * s * u.2)) • ContinuousLinearMap.snd ℝ ℝ ℝ) u := by
  have h1 : HasStrictFDerivAt (fun p : ℝ × ℝ => p.1) (ContinuousLinearMap.fst ℝ ℝ ℝ) u := hasStrictFDerivAt_fst
  have h2 : HasStrictFDerivAt (fun p : ℝ × ℝ => p.2) (ContinuousLinearMap.snd ℝ ℝ ℝ) u := hasStrictFDerivAt_snd
  have hS := (sfun_deriv h).comp_hasStrictFDerivAt u (t_deriv u)
  have hC := (cfun_deriv h).comp_hasStrictFDerivAt u (t_deriv u)
  have e1 : (π * cos (π * √(u.1 ^ 2 + u.2 ^ 2)) - sin (π * √(u.1 ^ 2 + u.2 ^ 2)) / √(u.1 ^ 2 + u.2 ^ 2)) /
      (2 * (u.1 ^ 2 + u.2 ^ 2)) = c / 2 := by
    rw [hc, hs]; unfold sfun; field_simp
  have e2 : sin (π * √(u.1 ^ 2 + u.2 ^ 2)) / √(u.1 ^ 2 + u.2 ^ 2) = s := by rw [hs]; rfl
  rw [e1] at hS
  rw [e2] at hC
  have hs' : (sfun ∘ fun p : ℝ × ℝ => p.1 ^ 2 + p.2 ^ 2) u = s := hs.symm
  refine ⟨(h1.mul hS).congr_fderiv ?_, (h2.mul hS).congr_fderiv ?_, hC.congr_fderiv ?_⟩
  · rw [hs']; unfold tder
    ext <;> simp <;> ring
  · rw [hs']; unfold tder
    ext <;> simp <;> ring
  · unfold tder
    ext <;> simp <;> ring

/-- the parallelogram spanned by the directions of a small square of side `2 h` around `q n`, divided by its area -/
theorem area_limit {u : ℝ × ℝ} (h0 : 0 < rad2 u) (h1 : rad2 u < 1) {q : ℕ → ℝ × ℝ} (hq : Tendsto q atTop (𝓝 u))
    {h : ℕ → ℝ} (hh : Tendsto h atTop (𝓝 0)) (hp : ∀ᶠ n in atTop, 0 < h n) :
    Tendsto (fun n => (cross ((polar2view ((q n).1 + h n, (q n).2)).sub (polar2view ((q n).1 - h n, (q n).2)))
      ((polar2view ((q n).1, (q n).2 + h n)).sub (polar2view ((q n).1, (q n).2 - h n)))).len / (2 * h n) ^ 2) atTop
      (𝓝 (π * (sin (π * rad2 u) / rad2 u))) := by
  have ht : 0 < u.1 ^ 2 + u.2 ^ 2 := by rw [← rad2_sq]; positivity
  obtain ⟨s, hs⟩ : ∃ s, s = sfun (u.1 ^ 2 + u.2 ^ 2) := ⟨_, rfl⟩
  obtain ⟨c, hc⟩ : ∃ c, c = (π * cos (π * √(u.1 ^ 2 + u.2 ^ 2)) - s) / (u.1 ^ 2 + u.2 ^ 2) := ⟨_, rfl⟩
  obtain ⟨dx, dy, dz⟩ := x_deriv ht hs hc
  have cont : Continuous rad2 := by unfold rad2; fun_prop
  have good : ∀ e : ℝ × ℝ, ∀ᶠ n in atTop, (0 < rad2 (q n + h n • e) ∧ rad2 (q n + h n • e) ≤ 1) ∧
      (0 < rad2 (q n - h n • e) ∧ rad2 (q n - h n • e) ≤ 1) := by
    intro e
    have hs : Tendsto (fun n => h n • e) atTop (𝓝 0) := by
      have := hh.smul_const e
      rwa [zero_smul] at this
    have a : Tendsto (fun n => rad2 (q n + h n • e)) atTop (𝓝 (rad2 u)) := by
      have := (cont.tendsto (u + 0)).comp (hq.add hs)
      rwa [add_zero] at this
    have b : Tendsto (fun n => rad2 (q n - h n • e)) atTop (𝓝 (rad2 u)) := by
      have := (cont.tendsto (u - 0)).comp (hq.sub hs)
      rwa [sub_zero] at this
    filter_upwards [a.eventually (lt_mem_nhds h0), a.eventually (gt_mem_nhds h1), b.eventually (lt_mem_nhds h0),
      b.eventually (gt_mem_nhds h1)] with n a1 a2 b1 b2
    exact ⟨⟨a1, a2.le⟩, ⟨b1, b2.le⟩⟩
  have x1 := strict_quot dx (1, 0) hq hh hp
  have y1 := strict_quot dy (1, 0) hq hh hp
  have z1 := strict_quot dz (1, 0) hq hh hp
  have x2 := strict_quot dx (0, 1) hq hh hp
  have y2 := strict_quot dy (0, 1) hq hh hp
  have z2 := strict_quot dz (0, 1) hq hh hp
  simp only [ContinuousLinearMap.add_apply, ContinuousLinearMap.smul_apply, ContinuousLinearMap.coe_fst',
    ContinuousLinearMap.coe_snd', smul_eq_mul, mul_one, mul_zero, add_zero, zero_add] at x1 y1 z1 x2 y2 z2
  have lim := ((((y1.mul z2).sub (z1.mul y2)).pow 2).add (((z1.mul x2).sub (x1.mul z2)).pow 2)).add
    (((x1.mul y2).sub (y1.mul x2)).pow 2)
  have lim2 := lim.sqrt
  have val : √((c * u.1 * u.2 * -(π * s * u.2) - -(π * s * u.1) * (s + c * u.2 ^ 2)) ^ 2 +
      (-(π * s * u.1) * (c * u.1 * u.2) - (s + c * u.1 ^ 2) * -(π * s * u.2)) ^ 2 +
      ((s + c * u.1 ^ 2) * (s + c * u.2 ^ 2) - c * u.1 * u.2 * (c * u.1 * u.2)) ^ 2) = π * (sin (π * rad2 u) / rad2 u) := by
    have hs2 : s = sin (π * rad2 u) / rad2 u := by rw [hs]; rfl
    have hs0 : 0 ≤ s := by
      rw [hs2]
      exact div_nonneg (sin_nonneg_of_nonneg_of_le_pi (by have := pi_pos; positivity) (by have := pi_pos; nlinarith)) h0.le
    have hcc : s + c * (u.1 ^ 2 + u.2 ^ 2) = π * cos (π * rad2 u) := by
      rw [hc, div_mul_cancel₀ _ ht.ne']
      unfold rad2; ring
    have hsr : s ^ 2 * (u.1 ^ 2 + u.2 ^ 2) = sin (π * rad2 u) ^ 2 := by
      rw [← rad2_sq, hs2]; field_simp
    rw [← hs2, sqrt_eq_iff_eq_sq (by positivity) (by have := pi_pos; positivity)]
    have e : (c * u.1 * u.2 * -(π * s * u.2) - -(π * s * u.1) * (s + c * u.2 ^ 2)) ^ 2 +
      (-(π * s * u.1) * (c * u.1 * u.2) - (s + c * u.1 ^ 2) * -(π * s * u.2)) ^ 2 +
      ((s + c * u.1 ^ 2) * (s + c * u.2 ^ 2) - c * u.1 * u.2 * (c * u.1 * u.2)) ^ 2 =
      π ^ 2 * s ^ 2 * (s ^ 2 * (u.1 ^ 2 + u.2 ^ 2)) + s ^ 2 * (s + c * (u.1 ^ 2 + u.2 ^ 2)) ^ 2 := by ring
    rw [e, hcc, hsr]
    have := sin_sq_add_cos_sq (π * rad2 u)
    calc _ = π ^ 2 * s ^ 2 * (sin (π * rad2 u) ^ 2 + cos (π * rad2 u) ^ 2) := by ring
      _ = _ := by rw [this]; ring
  rw [val] at lim2
  refine lim2.congr' ?_
  filter_upwards [good (1, 0), good (0, 1), hp] with n g1 g2 hn
  obtain ⟨⟨a1, a2⟩, ⟨b1, b2⟩⟩ := g1
  obtain ⟨⟨c1, c2⟩, ⟨d1, d2⟩⟩ := g2
  have m1 : q n + h n • ((1, 0) : ℝ × ℝ) = ((q n).1 + h n, (q n).2) := by ext <;> simp
  have m2 : q n - h n • ((1, 0) : ℝ × ℝ) = ((q n).1 - h n, (q n).2) := by ext <;> simp
  have m3 : q n + h n • ((0, 1) : ℝ × ℝ) = ((q n).1, (q n).2 + h n) := by ext <;> simp
  have m4 : q n - h n • ((0, 1) : ℝ × ℝ) = ((q n).1, (q n).2 - h n) := by ext <;> simp
  rw [m1] at a1 a2
  rw [m2] at b1 b2
  rw [m3] at c1 c2
  rw [m4] at d1 d2
  rw [polar_fun a1 a2, polar_fun b1 b2, polar_fun c1 c2, polar_fun d1 d2]
  simp only [m1, m2, m3, m4]
  unfold V3.len V3.normSq cross V3.sub
  simp only
  rw [eq_div_iff (by positivity), ← sqrt_sq (show (0 : ℝ) ≤ (2 * h n) ^ 2 by positivity), ← sqrt_mul (by positivity)]
  congr 1
  field_simp

end Verif.Map
