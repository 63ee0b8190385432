import Verif.Model.Gss
import Mathlib.Analysis.SpecialFunctions.Trigonometric.Bounds
import Mathlib.Analysis.SpecialFunctions.Trigonometric.ArctanDeriv
import Mathlib.MeasureTheory.Integral.IntervalIntegral.FundThmCalculus
import Mathlib.Algebra.BigOperators.Field
import Mathlib.Analysis.Real.Pi.Bounds

/-! C76 (energy of the point spread function), C99 (energy given to the window). -/

namespace Verif.Gss
open Real

theorem ageFactor_ge (age : ℝ) : 1 ≤ ageFactor age := by
  unfold ageFactor; have : 0 ≤ (age / 70) ^ 4 := by positivity
  linarith

theorem pf_pos {pig : ℝ} (h0 : 0 < pig) (h1 : pig < 1) : 0 < pf pig := by
  unfold pf; rw [sub_pos, lt_div_iff₀ h0]; linarith

theorem csa_add_cla {pig : ℝ} (age : ℝ) (h0 : 0 < pig) (h1 : pig < 1) : csa age pig + cla age pig = 1 := by
  have ha := lt_of_lt_of_le one_pos (ageFactor_ge age)
  have hp := pf_pos h0 h1
  unfold csa cla
  field_simp
  ring

theorem csa_nonneg {pig : ℝ} (age : ℝ) (h0 : 0 < pig) (h1 : pig < 1) : 0 < csa age pig := by
  have ha := lt_of_lt_of_le one_pos (ageFactor_ge age)
  have hp := pf_pos h0 h1
  unfold csa; positivity

theorem cla_nonneg {pig : ℝ} (age : ℝ) (h0 : 0 < pig) (h1 : pig < 1) : 0 < cla age pig := by
  have ha := lt_of_lt_of_le one_pos (ageFactor_ge age)
  have hp := pf_pos h0 h1
  unfold cla; positivity

theorem c3_bounds {pig : ℝ} (age : ℝ) (h0 : 0 < pig) (h1 : pig < 1) : 0 < c3 age pig ∧ c3 age pig < cla age pig := by
  have ha := lt_of_lt_of_le one_pos (ageFactor_ge age)
  have hc := cla_nonneg age h0 h1
  have hi : 0 < 1 / ageFactor age := by positivity
  have hd : 1 < (1 + 25 * pig) * (1 + 1 / ageFactor age) := by nlinarith
  unfold c3
  exact ⟨by positivity, div_lt_self hc hd⟩

/-- **C76** the four coefficients sum to one for every age and pupil -/
theorem C76_sum {pig pd : ℝ} (age : ℝ) (h0 : 0 < pig) (h1 : pig < 1) (hp : pd ≠ 0) : (cs age pig pd).sum = 1 := by
  have h := csa_add_cla age h0 h1
  have e : csa age pig / pdC pd + csa age pig / dpC pd = csa age pig := by
    unfold pdC dpC
    have q : 0 < (pd / 3.2) ^ 2 := by positivity
    have q2 : (3.2 / pd) ^ 2 = 1 / (pd / 3.2) ^ 2 := by field_simp
    rw [q2]
    generalize (pd / 3.2) ^ 2 = z at *
    field_simp
    ring
  simp only [cs, List.sum_cons, List.sum_nil]
  linarith

/-- **C76** the four coefficients are positive for every age and pupil -/
theorem C76_pos {pig pd : ℝ} (age : ℝ) (h0 : 0 < pig) (h1 : pig < 1) :
    ∀ c ∈ cs age pig pd, 0 < c := by
  have hs := csa_nonneg age h0 h1
  have hc := c3_bounds age h0 h1
  have e1 : 0 < pdC pd := by unfold pdC; positivity
  have e2 : 0 < dpC pd := by unfold dpC; positivity
  intro c hm
  simp only [cs, List.mem_cons, List.not_mem_nil, or_false] at hm
  rcases hm with rfl | rfl | rfl | rfl
  · positivity
  · positivity
  · exact hc.1
  · linarith [hc.2]

/-- the widths are positive for ages up to 100 years and pupils of at least 1 mm -/
theorem bs_pos {age pig pd : ℝ} (ha0 : 0 ≤ age) (ha : age ≤ 100) (h0 : 0 < pig) (hp : 1 ≤ pd) :
    ∀ b ∈ bs age pig pd, 0 < b := by
  have hA := ageFactor_ge age
  have hA2 : ageFactor age ≤ 6 := by
    unfold ageFactor
    have : age / 70 ≤ 10 / 7 := by linarith
    have : (age / 70) ^ 4 ≤ (10 / 7) ^ 4 := pow_le_pow_left₀ (by positivity) this 4
    norm_num at this ⊢
    linarith
  have hs1 : 1 ≤ √(ageFactor age) := by rw [one_le_sqrt]; exact hA
  have hs2 : √(ageFactor age) ≤ 3 := by rw [sqrt_le_left (by norm_num)]; linarith
  have hb : 6000 ≤ bcoef age := by unfold bcoef; linarith
  have e1 : 0 < pdC pd := by unfold pdC; positivity
  have e2 : 0 < dpC pd := by unfold dpC; positivity
  have he : 1 / 2000 ≤ ecoef age := by unfold ecoef; linarith
  have hbp : 6000 ≤ bcoef age * pd := by nlinarith
  have hbi : 1 / (bcoef age * pd) ≤ 1 / 6000 := one_div_le_one_div_of_le (by norm_num) hbp
  intro b hm
  simp only [bs, List.mem_cons, List.not_mem_nil, or_false] at hm
  rcases hm with rfl | rfl | rfl | rfl
  · have : 0 < bcoef age * pd := by linarith
    positivity
  · have : 0 < ecoef age - 1 / (bcoef age * pd) := by linarith
    positivity
  · have : 5 / ageFactor age ≤ 5 := div_le_self (by norm_num) hA
    have : 0 < 10 + 60 * pig - 5 / ageFactor age := by linarith
    positivity
  · exact one_pos

/-- **C76** the discrete kernel sums exactly to the captured energy and only its peak is changed -/
theorem C76_kernel {κ : Type} [Fintype κ] [DecidableEq κ] (ker : κ → ℝ) (pk : κ) (cap : ℝ) :
    ∑ k, fixPeak ker pk cap k = cap ∧ ∀ k, k ≠ pk → fixPeak ker pk cap k = ker k := by
  constructor
  · unfold fixPeak
    set u := Function.update ker pk 0 with hu
    have h0 : u pk = 0 := by rw [hu, Function.update_self]
    rw [← Finset.add_sum_erase _ _ (Finset.mem_univ pk), Function.update_self]
    have e : ∑ x ∈ Finset.univ.erase pk, Function.update u pk (cap - ∑ k, u k) x = ∑ k, u k := by
      rw [← Finset.add_sum_erase _ u (Finset.mem_univ pk), h0, zero_add]
      exact Finset.sum_congr rfl fun x hx => Function.update_of_ne (Finset.ne_of_mem_erase hx) _ _
    rw [e]; ring
  · intro k hk
    unfold fixPeak
    rw [Function.update_of_ne hk, Function.update_of_ne hk]

/-! Energy of the continuous functions -/

theorem den_pos {b : ℝ} (hb : 0 < b) (x : ℝ) : 0 < sin x ^ 2 + b ^ 2 * cos x ^ 2 := by
  rcases eq_or_ne (cos x) 0 with h | h
  · have := sin_sq_add_cos_sq x
    rw [h] at this ⊢
    nlinarith
  · positivity

theorem rpow_three_halves {x : ℝ} (hx : 0 < x) : x ^ (1.5 : ℝ) = x * √x := by
  rw [sqrt_eq_rpow, show (1.5 : ℝ) = 1 + 1 / 2 by norm_num, rpow_add hx, rpow_one]

theorem hasDeriv_disc {b : ℝ} (hb : 0 < b) (c x : ℝ) :
    HasDerivAt (fun t => -(c * b * cos t / √(sin t ^ 2 + b ^ 2 * cos t ^ 2))) (fb b c x * (2 * π * sin x)) x := by
  have hD := den_pos hb x
  have hs := sqrt_pos.mpr hD
  have hs2 := sq_sqrt hD.le
  have d1 : HasDerivAt (fun t => sin t ^ 2 + b ^ 2 * cos t ^ 2) (2 * sin x * cos x * (1 - b ^ 2)) x := by
    have := ((hasDerivAt_sin x).pow 2).add (((hasDerivAt_cos x).pow 2).const_mul (b ^ 2))
    refine this.congr_deriv ?_
    simp; ring
  have d2 := (((hasDerivAt_cos x).const_mul (c * b)).div (d1.sqrt hD.ne') hs.ne').neg
  refine d2.congr_deriv ?_
  have e : cos x ^ 2 = 1 - sin x ^ 2 := by linarith [sin_sq_add_cos_sq x]
  unfold fb
  rw [rpow_three_halves hD]
  have hpi := pi_pos
  have hs2' : √(sin x ^ 2 + b ^ 2 * cos x ^ 2) ^ 2 = sin x ^ 2 + b ^ 2 * cos x ^ 2 := hs2
  generalize √(sin x ^ 2 + b ^ 2 * cos x ^ 2) = r at *
  rw [← hs2']
  field_simp
  rw [hs2']
  linear_combination (c * sin x) * e

theorem cont_fb {b : ℝ} (hb : 0 < b) (c : ℝ) : Continuous fun t => fb b c t * (2 * π * sin t) := by
  unfold fb
  refine Continuous.mul (Continuous.div continuous_const (Continuous.mul continuous_const ?_) ?_) (by fun_prop)
  · exact Continuous.rpow_const (by fun_prop) fun t => Or.inl (den_pos hb t).ne'
  · intro t
    have := rpow_pos_of_pos (den_pos hb t) 1.5
    have := pi_pos
    positivity

theorem cont_lb {b : ℝ} (hb : 0 < b) (c : ℝ) : Continuous fun t => lb b c t := by
  unfold lb
  refine Continuous.div continuous_const (by fun_prop) fun t => ?_
  have := den_pos hb t
  have := pi_pos
  positivity

/-- energy of one component within the angle `w` of the axis -/
theorem disc_energy {b w : ℝ} (hb : 0 < b) (c : ℝ) (hw : 0 ≤ w) :
    ∫ t in (0)..w, fb b c t * (2 * π * sin t) = c * (1 - b * cos w / √(sin w ^ 2 + b ^ 2 * cos w ^ 2)) := by
  rw [intervalIntegral.integral_eq_sub_of_hasDerivAt_of_le hw (fun t _ => (hasDeriv_disc hb c t).continuousAt.continuousWithinAt)
    (fun t _ => hasDeriv_disc hb c t) ((cont_fb hb c).intervalIntegrable _ _)]
  simp only [sin_zero, cos_zero]
  have : √((0 : ℝ) ^ 2 + b ^ 2 * 1 ^ 2) = b := by
    rw [show (0 : ℝ) ^ 2 + b ^ 2 * 1 ^ 2 = b ^ 2 by ring, sqrt_sq hb.le]
  rw [this]
  field_simp
  ring

theorem hasDeriv_strip {b x : ℝ} (hb : 0 < b) (c : ℝ) (hx : cos x ≠ 0) :
    HasDerivAt (fun t => c / π * arctan (tan t / b)) (lb b c x) x := by
  have d1 : HasDerivAt (fun t => tan t / b) (1 / cos x ^ 2 / b) x := (hasDerivAt_tan hx).div_const b
  have d2 : HasDerivAt (fun t => arctan (tan t / b)) (1 / (1 + (tan x / b) ^ 2) * (1 / cos x ^ 2 / b)) x :=
    HasDerivAt.comp x (h := fun t => tan t / b) (hasDerivAt_arctan _) d1
  refine (d2.const_mul (c / π)).congr_deriv ?_
  have hD := den_pos hb x
  unfold lb
  rw [tan_eq_sin_div_cos]
  have hpi := pi_pos
  have e : 1 + (sin x / cos x / b) ^ 2 = (sin x ^ 2 + b ^ 2 * cos x ^ 2) / (b ^ 2 * cos x ^ 2) := by
    field_simp; ring
  rw [e]
  generalize sin x ^ 2 + b ^ 2 * cos x ^ 2 = D at *
  field_simp

/-- energy of one component in the strip of half width `w` -/
theorem strip_energy {b w : ℝ} (hb : 0 < b) (c : ℝ) (hw : 0 ≤ w) (hw2 : w < π / 2) :
    ∫ t in (-w)..w, lb b c t = 2 * c / π * arctan (tan w / b) := by
  have hc : ∀ t ∈ Set.Icc (-w) w, cos t ≠ 0 := fun t ht =>
    (cos_pos_of_mem_Ioo ⟨by linarith [ht.1], by linarith [ht.2]⟩).ne'
  rw [intervalIntegral.integral_eq_sub_of_hasDerivAt_of_le (by linarith)
    (fun t ht => (hasDeriv_strip hb c (hc t ht)).continuousAt.continuousWithinAt)
    (fun t ht => hasDeriv_strip hb c (hc t ⟨ht.1.le, ht.2.le⟩)) ((cont_lb hb c).intervalIntegrable _ _)]
  rw [tan_neg, neg_div, arctan_neg]
  ring

theorem mix_cons (f : ℝ → ℝ → ℝ → ℝ) (bc : ℝ × ℝ) (l : List (ℝ × ℝ)) (x : ℝ) :
    mix f (bc :: l) x = f bc.1 bc.2 x + mix f l x := by simp [mix]

theorem cont_mix_fb (l : List (ℝ × ℝ)) (h : ∀ bc ∈ l, 0 < bc.1) : Continuous fun t => mix fb l t * (2 * π * sin t) := by
  induction l with
  | nil => simp only [mix, List.map_nil, List.sum_nil, zero_mul]; exact continuous_const
  | cons bc l ih =>
    simp only [mix_cons, add_mul]
    exact (cont_fb (h bc (by simp)) bc.2).add (ih fun x hx => h x (by simp [hx]))

theorem cont_mix_lb (l : List (ℝ × ℝ)) (h : ∀ bc ∈ l, 0 < bc.1) : Continuous fun t => mix lb l t := by
  induction l with
  | nil => simp only [mix, List.map_nil, List.sum_nil]; exact continuous_const
  | cons bc l ih =>
    simp only [mix_cons]
    exact (cont_lb (h bc (by simp)) bc.2).add (ih fun x hx => h x (by simp [hx]))

theorem mix_disc (l : List (ℝ × ℝ)) (h : ∀ bc ∈ l, 0 < bc.1) {w : ℝ} (hw : 0 ≤ w) :
    ∫ t in (0)..w, mix fb l t * (2 * π * sin t) =
      (l.map fun bc => bc.2 * (1 - bc.1 * cos w / √(sin w ^ 2 + bc.1 ^ 2 * cos w ^ 2))).sum := by
  induction l with
  | nil => simp [mix]
  | cons bc l ih =>
    have h' : ∀ x ∈ l, 0 < x.1 := fun x hx => h x (by simp [hx])
    simp only [mix_cons, add_mul]
    rw [intervalIntegral.integral_add ((cont_fb (h bc (by simp)) bc.2).intervalIntegrable _ _)
      ((cont_mix_fb l h').intervalIntegrable _ _), disc_energy (h bc (by simp)) _ hw, ih h', List.map_cons,
      List.sum_cons]

theorem mix_strip (l : List (ℝ × ℝ)) (h : ∀ bc ∈ l, 0 < bc.1) {w : ℝ} (hw : 0 ≤ w) (hw2 : w < π / 2) :
    ∫ t in (-w)..w, mix lb l t = (l.map fun bc => 2 * bc.2 / π * arctan (tan w / bc.1)).sum := by
  induction l with
  | nil => simp [mix]
  | cons bc l ih =>
    have h' : ∀ x ∈ l, 0 < x.1 := fun x hx => h x (by simp [hx])
    simp only [mix_cons]
    rw [intervalIntegral.integral_add ((cont_lb (h bc (by simp)) bc.2).intervalIntegrable _ _)
      ((cont_mix_lb l h').intervalIntegrable _ _), strip_energy (h bc (by simp)) _ hw hw2, ih h', List.map_cons,
      List.sum_cons]

theorem zip_fst_pos {age pig pd : ℝ} (ha0 : 0 ≤ age) (ha : age ≤ 100) (h0 : 0 < pig) (hp : 1 ≤ pd) :
    ∀ bc ∈ (bs age pig pd).zip (cs age pig pd), 0 < bc.1 := fun bc hm =>
  bs_pos ha0 ha h0 hp bc.1 (List.of_mem_zip hm).1

/-- **C76** all the light entering the eye reaches the hemisphere: the point spread function integrates to one -/
theorem C76_total {age pig pd : ℝ} (ha0 : 0 ≤ age) (ha : age ≤ 100) (h0 : 0 < pig) (h1 : pig < 1) (hp : 1 ≤ pd) :
    ∫ t in (0)..(π / 2), mix fb ((bs age pig pd).zip (cs age pig pd)) t * (2 * π * sin t) = 1 := by
  rw [mix_disc _ (zip_fst_pos ha0 ha h0 hp) (by positivity)]
  refine Eq.trans ?_ (C76_sum age h0 h1 (show pd ≠ 0 by linarith))
  simp [bs, cs]

example : ∫ t in (0)..(π / 2), mix fb ((bs 40 0.106 3).zip (cs 40 0.106 3)) t * (2 * π * sin t) = 1 :=
  C76_total (by norm_num) (by norm_num) (by norm_num) (by norm_num) (by norm_num)

/-! C99 -/

theorem cos_theta {b w : ℝ} (hb : 0 < b) (hw : cos w ≠ 0) (hw' : 0 < cos w) :
    b * cos w / √(sin w ^ 2 + b ^ 2 * cos w ^ 2) = cos (arctan (tan w / b)) := by
  have hD := den_pos hb w
  rw [cos_arctan, tan_eq_sin_div_cos,
    show 1 + (sin w / cos w / b) ^ 2 = (sin w ^ 2 + b ^ 2 * cos w ^ 2) / (b * cos w) ^ 2 by field_simp; ring,
    sqrt_div hD.le, sqrt_sq (by positivity), one_div_div]

theorem jordan {t : ℝ} (h0 : 0 < t) (h1 : t < π / 2) : 1 - cos t < 2 / π * t := by
  have := mul_lt_sin (x := π / 2 - t) (by linarith) (by linarith)
  rw [sin_pi_div_two_sub] at this
  have e : 2 / π * (π / 2 - t) = 1 - 2 / π * t := by
    have := pi_pos
    field_simp
  linarith

theorem strip_gt_disc_list (l : List (ℝ × ℝ)) (h : ∀ bc ∈ l, 0 < bc.1 ∧ 0 < bc.2) (hne : l ≠ []) {w : ℝ} (hw : 0 < w)
    (hw2 : w < π / 2) :
    (l.map fun bc => bc.2 * (1 - bc.1 * cos w / √(sin w ^ 2 + bc.1 ^ 2 * cos w ^ 2))).sum <
      (l.map fun bc => 2 * bc.2 / π * arctan (tan w / bc.1)).sum := by
  have hcos : 0 < cos w := cos_pos_of_mem_Ioo ⟨by linarith, hw2⟩
  refine List.sum_lt_sum_of_ne_nil hne _ _ fun bc hm => ?_
  obtain ⟨hb, hc⟩ := h bc hm
  rw [cos_theta hb hcos.ne' hcos]
  have ht : 0 < arctan (tan w / bc.1) := by
    rw [arctan_pos]; exact div_pos (tan_pos_of_pos_of_lt_pi_div_two hw hw2) hb
  have := jordan ht (arctan_lt_pi_div_two _)
  have e : 2 * bc.2 / π * arctan (tan w / bc.1) = bc.2 * (2 / π * arctan (tan w / bc.1)) := by ring
  rw [e]
  exact mul_lt_mul_of_pos_left this hc

/-- **C99** the line spread over the width of the window holds strictly more energy than the point spread within the
window's radius, for every eye and every window narrower than the hemisphere -/
theorem C99_surplus {age pig pd w : ℝ} (ha0 : 0 ≤ age) (ha : age ≤ 100) (h0 : 0 < pig) (h1 : pig < 1) (hp : 1 ≤ pd)
    (hw : 0 < w) (hw2 : w < π / 2) :
    ∫ t in (0)..w, mix fb ((bs age pig pd).zip (cs age pig pd)) t * (2 * π * sin t) <
      ∫ t in (-w)..w, mix lb ((bs age pig pd).zip (cs age pig pd)) t := by
  have hz := zip_fst_pos ha0 ha h0 hp
  rw [mix_disc _ hz hw.le, mix_strip _ hz hw.le hw2]
  exact strip_gt_disc_list _ (fun bc hm => ⟨hz bc hm, C76_pos age h0 h1 _ (List.of_mem_zip hm).2⟩) (by simp [bs, cs]) hw hw2

example : ∫ t in (0)..(5 * π / 180), mix fb ((bs 40 0.106 3).zip (cs 40 0.106 3)) t * (2 * π * sin t) <
    ∫ t in (-(5 * π / 180))..(5 * π / 180), mix lb ((bs 40 0.106 3).zip (cs 40 0.106 3)) t :=
  C99_surplus (by norm_num) (by norm_num) (by norm_num) (by norm_num) (by norm_num) (by positivity)
    (by linarith [pi_pos])

end Verif.Gss
