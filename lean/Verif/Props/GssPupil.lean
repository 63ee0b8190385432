import Verif.Props.GssResp
import Mathlib.Analysis.SpecialFunctions.Pow.Deriv
import Mathlib.Analysis.Convex.SpecificFunctions.Basic
import Mathlib.Analysis.Calculus.Deriv.MeanValue

/-! C100: the ages at which more light never opens the pupil. -/

namespace Verif.Gss
open Real

/-- the exponent of the pupil's response -/
noncomputable def bet : ℝ := 0.8 / log 10

theorem log_ten_bounds : 2.302585 < log 10 ∧ log 10 < 2.302586 := by
  rw [log_ten_eq]
  constructor
  · linarith [log_two_gt_d9, log_five_gt_d9]
  · linarith [log_two_lt_d9, log_five_lt_d9]

theorem bet_bounds : 0.34743 < bet ∧ bet < 0.34744 := by
  obtain ⟨h1, h2⟩ := log_ten_bounds
  unfold bet
  constructor
  · rw [lt_div_iff₀ (by linarith)]; linarith
  · rw [div_lt_iff₀ (by linarith)]; linarith

theorem pupd_rpow (age : ℝ) {ev : ℝ} (h : 0 < ev) :
    pupd age ev = 2 + 6 / ((ev / 1600) ^ bet + 1) - 0.043 * (age - 10) * exp (-ev / 174) := by
  unfold pupd
  have hu : 0 < ev / 1600 := by positivity
  have e : exp (0.4 * logb 10 (ev / 1600)) ^ 2 = (ev / 1600) ^ bet := by
    rw [← exp_nat_mul, rpow_def_of_pos hu]
    congr 1
    unfold bet logb
    have : log 10 ≠ 0 := by linarith [log_ten_bounds.1]
    field_simp
    norm_num
    ring
  rw [tanh_exp, e]
  ring

/-- the slope of the diameter -/
theorem pupd_deriv (age : ℝ) {ev : ℝ} (h : 0 < ev) :
    HasDerivAt (pupd age)
      (0.043 * (age - 10) * exp (-ev / 174) / 174 - 6 * bet * (ev / 1600) ^ bet / (ev * ((ev / 1600) ^ bet + 1) ^ 2)) ev := by
  have hu : 0 < ev / 1600 := by positivity
  have hp : 0 < (ev / 1600) ^ bet := rpow_pos_of_pos hu _
  have d1 : HasDerivAt (fun e : ℝ => e / 1600) (1 / 1600) ev := (hasDerivAt_id ev).div_const 1600
  have d2 := (d1.rpow_const (p := bet) (Or.inl hu.ne'))
  have d3 := ((d2.add_const 1).inv (by positivity)).const_mul 6
  have d4 : HasDerivAt (fun e : ℝ => exp (-e / 174)) (exp (-ev / 174) * (-1 / 174)) ev :=
    (((hasDerivAt_id ev).neg).div_const 174).exp
  have d5 := ((d3.const_add 2).sub (d4.const_mul (0.043 * (age - 10))))
  refine (d5.congr_of_eventuallyEq ?_).congr_deriv ?_
  · filter_upwards [lt_mem_nhds h] with e he
    rw [pupd_rpow age he]
    rfl
  · rw [rpow_sub_one hu.ne']
    field_simp
    ring

theorem exp_08 : exp (0.8 : ℝ) < 2.22555 := by
  have e : exp (0.8 : ℝ) ^ 5 = exp 1 ^ 4 := by rw [← exp_nat_mul, ← exp_nat_mul]; norm_num
  by_contra hc
  have := pow_le_pow_left₀ (by norm_num) (not_lt.mp hc) 5
  rw [e] at this
  have h4 := pow_le_pow_left₀ (exp_pos 1).le exp_one_lt_d9.le 4
  norm_num at this h4
  linarith

theorem exp_08' : 2.2255 < exp (0.8 : ℝ) := by
  have e : exp (0.8 : ℝ) ^ 5 = exp 1 ^ 4 := by rw [← exp_nat_mul, ← exp_nat_mul]; norm_num
  by_contra hc
  have := pow_le_pow_left₀ (exp_pos _).le (not_lt.mp hc) 5
  rw [e] at this
  have h4 := pow_le_pow_left₀ (by norm_num) exp_one_gt_d9.le 4
  norm_num at this h4
  linarith

theorem exp_085 : 2.339 < exp (0.85 : ℝ) := by
  have e : exp (0.85 : ℝ) ^ 20 = exp 1 ^ 17 := by rw [← exp_nat_mul, ← exp_nat_mul]; norm_num
  by_contra hc
  have := pow_le_pow_left₀ (exp_pos _).le (not_lt.mp hc) 20
  rw [e] at this
  have h4 := pow_le_pow_left₀ (by norm_num) exp_one_gt_d9.le 17
  norm_num at this h4
  linarith

theorem tenth_bet : (0.1 : ℝ) ^ bet = exp (-0.8) := by
  rw [rpow_def_of_pos (by norm_num)]
  congr 1
  rw [show (0.1 : ℝ) = 10⁻¹ by norm_num, log_inv]
  unfold bet
  have : log 10 ≠ 0 := by linarith [log_ten_bounds.1]
  field_simp

theorem c_bet : (0.10875 : ℝ) ^ bet < 0.4632 ∧ ((0.10875 : ℝ) ^ bet)⁻¹ < 2.1652 := by
  obtain ⟨b1, b2⟩ := bet_bounds
  have e : (0.10875 : ℝ) ^ bet = exp (-0.8) * (1.0875 : ℝ) ^ bet := by
    rw [← tenth_bet, ← mul_rpow (by norm_num) (by norm_num)]
    norm_num
  have u : (1.0875 : ℝ) ^ bet ≤ 1 + bet * 0.0875 := by
    have := rpow_one_add_le_one_add_mul_self (s := 0.0875) (by norm_num) (p := bet) (by linarith) (by linarith)
    norm_num at this ⊢
    linarith
  have l : 1.0279 < (1.0875 : ℝ) ^ bet := by
    rw [rpow_def_of_pos (by norm_num)]
    have h1 : 1 - (1.0875 : ℝ)⁻¹ ≤ log 1.0875 := one_sub_inv_le_log_of_pos (by norm_num)
    have h2 := add_one_le_exp (log 1.0875 * bet)
    norm_num at h1
    nlinarith
  rw [e, exp_neg]
  have p1 := exp_08
  have p2 := exp_08'
  constructor
  · rw [inv_mul_lt_iff₀ (exp_pos _)]
    nlinarith
  · rw [mul_inv, inv_inv, ← div_eq_mul_inv, div_lt_iff₀ (by linarith)]
    nlinarith

/-- the inequality behind the threshold -/
theorem pupil_core {x : ℝ} (hx : 0 < x) :
    1.204 * (x * ((0.10875 * x) ^ bet + 2 + ((0.10875 * x) ^ bet)⁻¹)) ≤ 6 * bet * exp x := by
  obtain ⟨b1, b2⟩ := bet_bounds
  obtain ⟨c1, c2⟩ := c_bet
  have cp : 0 < (0.10875 : ℝ) ^ bet := rpow_pos_of_pos (by norm_num) _
  have xp : 0 < x ^ bet := rpow_pos_of_pos hx _
  rw [mul_rpow (by norm_num) hx.le, mul_inv]
  have g1 : x ^ bet ≤ 1 + bet * (x - 1) := by
    have := rpow_one_add_le_one_add_mul_self (s := x - 1) (by linarith) (p := bet) (by linarith) (by linarith)
    simpa using this
  have g2 : x * (x ^ bet)⁻¹ ≤ 1 + (1 - bet) * (x - 1) := by
    have := rpow_one_add_le_one_add_mul_self (s := x - 1) (by linarith) (p := 1 - bet) (by linarith) (by linarith)
    rw [add_sub_cancel, rpow_sub hx, rpow_one] at this
    simpa [div_eq_mul_inv] using this
  have g3 : exp 0.85 * (1 + (x - 0.85) / 2) ^ 2 ≤ exp x := by
    have h1 : 1 + (x - 0.85) / 2 ≤ exp ((x - 0.85) / 2) := by linarith [add_one_le_exp ((x - 0.85) / 2)]
    have h2 := pow_le_pow_left₀ (by linarith) h1 2
    rw [← exp_nat_mul] at h2
    calc exp 0.85 * (1 + (x - 0.85) / 2) ^ 2 ≤ exp 0.85 * exp ((2 : ℕ) * ((x - 0.85) / 2)) := by gcongr
      _ = exp x := by rw [← exp_add]; congr 1; push_cast; ring
  have q1 : x * ((0.10875 : ℝ) ^ bet * x ^ bet) ≤ 0.4632 * (x * (1 + bet * (x - 1))) := by
    have : (0.10875 : ℝ) ^ bet * x ^ bet ≤ 0.4632 * (1 + bet * (x - 1)) := mul_le_mul c1.le g1 xp.le (by norm_num)
    nlinarith
  have q2 : x * (((0.10875 : ℝ) ^ bet)⁻¹ * (x ^ bet)⁻¹) ≤ 2.1652 * (1 + (1 - bet) * (x - 1)) := by
    have : ((0.10875 : ℝ) ^ bet)⁻¹ * (x * (x ^ bet)⁻¹) ≤ 2.1652 * (1 + (1 - bet) * (x - 1)) :=
      mul_le_mul c2.le g2 (by positivity) (by norm_num)
    calc _ = ((0.10875 : ℝ) ^ bet)⁻¹ * (x * (x ^ bet)⁻¹) := by ring
      _ ≤ _ := this
  have q3 : 6 * 0.34743 * (2.339 * (1 + (x - 0.85) / 2) ^ 2) ≤ 6 * bet * exp x := by
    have h1 : 2.339 * (1 + (x - 0.85) / 2) ^ 2 ≤ exp x :=
      le_trans (mul_le_mul_of_nonneg_right exp_085.le (sq_nonneg _)) g3
    exact mul_le_mul (by linarith) h1 (by positivity) (by linarith)
  refine le_trans ?_ q3
  have q1' : 0.4632 * (x * (1 + bet * (x - 1))) ≤ 0.4632 * (x * (0.65257 + 0.34744 * x)) := by
    have : 1 + bet * (x - 1) ≤ 0.65257 + 0.34744 * x := by nlinarith
    gcongr
  have q2' : 2.1652 * (1 + (1 - bet) * (x - 1)) ≤ 2.1652 * (0.34744 + 0.65257 * x) := by nlinarith
  nlinarith [sq_nonneg (x - 0.85), sq_nonneg (x - 0.8)]

theorem pupd_38 : AntitoneOn (pupd 38) (Set.Ioi 0) := by
  refine antitoneOn_of_deriv_nonpos (convex_Ioi 0) ?_ ?_ ?_
  · exact fun x hx => (pupd_deriv 38 hx).continuousAt.continuousWithinAt
  · exact fun x hx => (pupd_deriv 38 (interior_subset hx)).differentiableAt.differentiableWithinAt
  · intro ev hev
    have h : 0 < ev := interior_subset hev
    rw [(pupd_deriv 38 h).deriv]
    have hp : 0 < (ev / 1600) ^ bet := rpow_pos_of_pos (by positivity) _
    have key := pupil_core (x := ev / 174) (by positivity)
    rw [show 0.10875 * (ev / 174) = ev / 1600 by norm_num; ring] at key
    set U := (ev / 1600) ^ bet with hU
    have e : exp (-ev / 174) = (exp (ev / 174))⁻¹ := by rw [← exp_neg]; congr 1; ring
    have ep := exp_pos (ev / 174)
    rw [sub_nonpos, e, div_le_div_iff₀ (by norm_num) (by positivity)]
    have k2 := mul_le_mul_of_nonneg_right key (mul_nonneg hp.le (inv_nonneg.2 ep.le))
    have e1 : 6 * bet * exp (ev / 174) * (U * (exp (ev / 174))⁻¹) = 6 * bet * U := by
      field_simp
    have e2 : 1.204 * (ev / 174 * (U + 2 + U⁻¹)) * (U * (exp (ev / 174))⁻¹) =
        0.043 * (38 - 10) * (exp (ev / 174))⁻¹ * (ev * (U + 1) ^ 2) / 174 := by
      field_simp
      ring
    rw [e1, e2, div_le_iff₀ (by norm_num)] at k2
    exact k2

/-- **C100** up to the age of 38 more light never opens the pupil -/
theorem C100_young_partial {age ev ev' : ℝ} (ha : age ≤ 38) (h0 : 0 < ev) (h : ev ≤ ev') : pupd age ev' ≤ pupd age ev := by
  have h1 := pupd_38 (Set.mem_Ioi.2 h0) (Set.mem_Ioi.2 (h0.trans_le h)) h
  have h2 : exp (-ev' / 174) ≤ exp (-ev / 174) := exp_le_exp.2 (by linarith)
  have e : ∀ e : ℝ, pupd age e = pupd 38 e + 0.043 * (38 - age) * exp (-e / 174) := by
    intro e; unfold pupd; ring
  rw [e, e]
  have : 0 ≤ 0.043 * (38 - age) := by nlinarith
  nlinarith [mul_le_mul_of_nonneg_left h2 this]

/-- the slope at 160 lux -/
theorem slope_160 : 0 < 0.043 * (39 - 10) * exp (-160 / 174) / 174 -
    6 * bet * ((160 : ℝ) / 1600) ^ bet / (160 * ((160 / 1600) ^ bet + 1) ^ 2) := by
  obtain ⟨b1, b2⟩ := bet_bounds
  rw [show (160 : ℝ) / 1600 = 0.1 by norm_num, tenth_bet, exp_neg]
  have p1 := exp_08
  have p2 := exp_08'
  set E := exp (0.8 : ℝ)
  have ep : 0 < E := exp_pos _
  have h1 : 0.398 < exp (-160 / 174 : ℝ) := by
    have e : exp (-160 / 174 : ℝ) = (exp 1)⁻¹ * exp (14 / 174) := by
      rw [← exp_neg, ← exp_add]; norm_num
    have h2 := quadratic_le_exp_of_nonneg (show (0 : ℝ) ≤ 14 / 174 by norm_num)
    have h3 := exp_one_lt_d9
    rw [e, ← div_eq_inv_mul, lt_div_iff₀ (exp_pos 1)]
    norm_num at h2
    linarith
  have e2 : 6 * bet * E⁻¹ / (160 * (E⁻¹ + 1) ^ 2) = 6 * bet * E / (160 * (1 + E) ^ 2) := by
    field_simp
  rw [e2]
  have h4 : 6 * bet * E / (160 * (1 + E) ^ 2) < 0.0028 := by
    rw [div_lt_iff₀ (by positivity)]
    nlinarith
  have h5 : 0.0028 < 0.043 * (39 - 10) * exp (-160 / 174 : ℝ) / 174 := by
    rw [lt_div_iff₀ (by norm_num)]
    linarith
  linarith

/-- **C100** from the age of 39 some more light at 160 lux opens the pupil -/
theorem C100_old {age : ℝ} (ha : 39 ≤ age) : ∃ ev', 160 < ev' ∧ pupd age 160 < pupd age ev' := by
  have d := pupd_deriv age (show (0 : ℝ) < 160 by norm_num)
  have hs : 0 < 0.043 * (age - 10) * exp (-160 / 174) / 174 -
      6 * bet * ((160 : ℝ) / 1600) ^ bet / (160 * ((160 / 1600) ^ bet + 1) ^ 2) := by
    refine lt_of_lt_of_le slope_160 ?_
    gcongr
  have := d.hasDerivWithinAt (s := Set.Ioi 160) 
  rw [hasDerivWithinAt_iff_tendsto_slope' (by simp)] at this
  obtain ⟨ev', h1, h2⟩ := ((this.eventually (lt_mem_nhds hs)).and self_mem_nhdsWithin).exists
  refine ⟨ev', h2, ?_⟩
  rw [slope_def_field, div_pos_iff_of_pos_right (sub_pos.2 h2)] at h1
  linarith

/-- **C100** at whole years: the claim holds for an age exactly when it is at most 38 -/
theorem C100_years (n : ℕ) :
    (∀ ev ev' : ℝ, 0 < ev → ev ≤ ev' → pupd n ev' ≤ pupd n ev) ↔ n ≤ 38 := by
  constructor
  · intro h
    by_contra hc
    obtain ⟨ev', h1, h2⟩ := C100_old (age := n) (by
      have : 39 ≤ n := by omega
      exact_mod_cast this)
    exact absurd (h 160 ev' (by norm_num) h1.le) (not_le.2 h2)
  · intro h ev ev' h0 h1
    exact C100_young_partial (by exact_mod_cast h) h0 h1

end Verif.Gss
