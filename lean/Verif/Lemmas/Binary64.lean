import Verif.Model.Binary64
import Verif.Lemmas.Rounded

/-! Binary64 meets the contract of the rounded operations. -/

namespace Verif.Fp
open Verif.Geo Real

theorem rne_near (x : ℝ) : |(rne x : ℝ) - x| ≤ 1 / 2 := by
  have h0 := Int.floor_le x
  have h1 := Int.lt_floor_add_one x
  unfold rne
  split_ifs <;> push_cast <;> rw [abs_le] <;> constructor <;> linarith

/-- an integer less than half away is the result -/
theorem rne_eq {x : ℝ} {n : ℤ} (h : |x - n| < 1 / 2) : rne x = n := by
  have h1 := rne_near x
  have h2 : |((rne x - n : ℤ) : ℝ)| < 1 := by
    push_cast
    have : (rne x : ℝ) - n = (rne x - x) + (x - n) := by ring
    rw [this]
    exact (abs_add_le _ _).trans_lt (by linarith)
  have h3 : |rne x - n| < 1 := by exact_mod_cast h2
  rw [Int.abs_lt_one_iff] at h3
  linarith

theorem rne_int (n : ℤ) : rne n = n := rne_eq (by simp)

theorem ulp_pos (x : ℝ) : 0 < ulp x := by unfold ulp; positivity

theorem rnd_zero : rnd 0 = 0 := by
  unfold rnd
  rw [zero_div, show (0 : ℝ) = ((0 : ℤ) : ℝ) by simp, rne_int]
  simp

theorem log_eq {x : ℝ} {L : ℤ} (h0 : (2 : ℝ) ^ L ≤ x) (h1 : x < (2 : ℝ) ^ (L + 1)) : Int.log 2 x = L := by
  have hx : 0 < x := lt_of_lt_of_le (by positivity) h0
  have a := Int.zpow_log_le_self (b := 2) one_lt_two hx
  have b := Int.lt_zpow_succ_log_self (b := 2) one_lt_two x
  push_cast at a b
  have c : Int.log 2 x < L + 1 := (zpow_lt_zpow_iff_right₀ (one_lt_two (α := ℝ))).mp (a.trans_lt h1)
  have d : L < Int.log 2 x + 1 := (zpow_lt_zpow_iff_right₀ (one_lt_two (α := ℝ))).mp (h0.trans_lt b)
  omega

/-- the relative error of rounding -/
theorem rnd_near (x : ℝ) : |rnd x - x| ≤ 2⁻¹ ^ 53 * |x| := by
  rcases eq_or_ne x 0 with rfl | hx
  · simp [rnd_zero]
  have hu := ulp_pos x
  have e : rnd x - x = (rne (x / ulp x) - x / ulp x) * ulp x := by unfold rnd; field_simp
  have hl : (2 : ℝ) ^ Int.log 2 |x| ≤ |x| := by
    have := Int.zpow_log_le_self (b := 2) one_lt_two (abs_pos.mpr hx)
    exact_mod_cast this
  have hul : ulp x = 2 ^ Int.log 2 |x| * (2⁻¹ ^ 52 : ℝ) := by
    unfold ulp
    rw [zpow_sub₀ two_ne_zero]
    norm_num
    ring
  rw [e, abs_mul, abs_of_pos hu]
  have h1 := mul_le_mul_of_nonneg_right (rne_near (x / ulp x)) hu.le
  have h2 : 1 / 2 * ulp x ≤ 2⁻¹ ^ 53 * |x| := by
    rw [hul]
    have := mul_le_mul_of_nonneg_left hl (show (0 : ℝ) ≤ 2⁻¹ ^ 53 by positivity)
    calc 1 / 2 * (2 ^ Int.log 2 |x| * (2⁻¹ ^ 52 : ℝ)) = 2⁻¹ ^ 53 * 2 ^ Int.log 2 |x| := by ring
      _ ≤ _ := this
  linarith

/-- the value of a rounding -/
theorem rnd_eq {x : ℝ} (L n : ℤ) (h0 : (2 : ℝ) ^ L ≤ |x|) (h1 : |x| < (2 : ℝ) ^ (L + 1))
    (h : |x / 2 ^ (L - 52) - n| < 1 / 2) : rnd x = n * 2 ^ (L - 52) := by
  unfold rnd ulp
  rw [log_eq h0 h1, rne_eq h]

/-- numbers of 53 significant bits are kept -/
theorem rnd_float {k : ℤ} (e : ℤ) (hk : |k| < 2 ^ 53) : rnd (k * 2 ^ e) = k * 2 ^ e := by
  rcases eq_or_ne k 0 with rfl | h0
  · simp [rnd_zero]
  set x : ℝ := k * 2 ^ e with hx
  have hp : (0 : ℝ) < 2 ^ e := by positivity
  have hx0 : x ≠ 0 := mul_ne_zero (by exact_mod_cast h0) hp.ne'
  have hl : (2 : ℝ) ^ Int.log 2 |x| ≤ |x| := by
    have := Int.zpow_log_le_self (b := 2) one_lt_two (abs_pos.mpr hx0)
    exact_mod_cast this
  have hlt : |x| < (2 : ℝ) ^ (53 + e) := by
    rw [hx, abs_mul, abs_of_pos hp, zpow_add₀ two_ne_zero]
    refine mul_lt_mul_of_pos_right ?_ hp
    exact_mod_cast hk
  have hL : Int.log 2 |x| < 53 + e := (zpow_lt_zpow_iff_right₀ (one_lt_two (α := ℝ))).mp (hl.trans_lt hlt)
  obtain ⟨d, hd⟩ : ∃ d : ℕ, e - (Int.log 2 |x| - 52) = d := ⟨(e - (Int.log 2 |x| - 52)).toNat, by omega⟩
  have hq : x / ulp x = ((k * 2 ^ d : ℤ) : ℝ) := by
    unfold ulp
    rw [hx, mul_div_assoc, ← zpow_sub₀ two_ne_zero, ← hx, hd]
    push_cast
    rw [zpow_natCast]
  have hu := ulp_pos x
  unfold rnd
  rw [hq, rne_int, ← hq]
  field_simp

/-- whole numbers below 2 ^ 53 are kept -/
theorem rnd_whole {k : ℤ} (hk : |k| < 2 ^ 53) : rnd k = k := by
  have := rnd_float 0 hk
  simpa using this

theorem rnd_le_one {x : ℝ} (h : |x| ≤ 1) : |rnd x| ≤ 1 := by
  rcases eq_or_ne x 0 with rfl | hx
  · simp [rnd_zero]
  rcases h.lt_or_eq with h | h
  · set L := Int.log 2 |x| with hLd
    have hl : (2 : ℝ) ^ L ≤ |x| := by
      have := Int.zpow_log_le_self (b := 2) one_lt_two (abs_pos.mpr hx)
      exact_mod_cast this
    have hu' : |x| < (2 : ℝ) ^ (L + 1) := by
      have := Int.lt_zpow_succ_log_self (b := 2) one_lt_two |x|
      exact_mod_cast this
    have hL : L < 0 := (zpow_lt_zpow_iff_right₀ (one_lt_two (α := ℝ))).mp (by simpa using hl.trans_lt h)
    have hu := ulp_pos x
    have hn : |(rne (x / ulp x) : ℝ)| < 2 ^ 53 + 1 := by
      have h1 := rne_near (x / ulp x)
      have h2 : |x / ulp x| < 2 ^ 53 := by
        rw [abs_div, abs_of_pos hu, div_lt_iff₀ hu]
        unfold ulp
        rw [← hLd]
        calc |x| < (2 : ℝ) ^ (L + 1) := hu'
          _ = 2 ^ (53 + (L - 52)) := by congr 1; ring
          _ = 2 ^ 53 * 2 ^ (L - 52) := by rw [zpow_add₀ two_ne_zero]; norm_cast
      have h3 := abs_sub_abs_le_abs_sub (rne (x / ulp x) : ℝ) (x / ulp x)
      linarith
    have hn' : |rne (x / ulp x)| ≤ 2 ^ 53 := by
      have : |rne (x / ulp x)| < 2 ^ 53 + 1 := by exact_mod_cast hn
      omega
    have hn'' : |(rne (x / ulp x) : ℝ)| ≤ 2 ^ 53 := by exact_mod_cast hn'
    unfold rnd
    rw [abs_mul, abs_of_pos hu]
    calc |(rne (x / ulp x) : ℝ)| * ulp x ≤ 2 ^ 53 * ulp x := mul_le_mul_of_nonneg_right hn'' hu.le
      _ = 2 ^ (53 + (L - 52)) := by unfold ulp; rw [zpow_add₀ two_ne_zero]; norm_cast
      _ ≤ 2 ^ (0 : ℤ) := zpow_le_zpow_right₀ one_le_two (by omega)
      _ = 1 := zpow_zero _
  · rcases eq_or_eq_neg_of_abs_eq h with e | e
    · have := rnd_whole (k := 1) (by norm_num)
      push_cast at this
      rw [e, this]; simp
    · have := rnd_whole (k := -1) (by norm_num)
      push_cast at this
      rw [e, this]; simp

theorem rnd_two (x : ℝ) : |rnd x - x| ≤ 2⁻¹ ^ 52 * |x| :=
  (rnd_near x).trans (mul_le_mul_of_nonneg_right (by norm_num) (abs_nonneg _))

theorem rnd_abs (x : ℝ) : |rnd x| ≤ (1 + 2⁻¹ ^ 53) * |x| := by
  have := rnd_near x
  have := abs_sub_abs_le_abs_sub (rnd x) x
  linarith

theorem rnd_dot (p q r : ℝ) :
    |rnd (rnd (rnd p + rnd q) + rnd r) - (p + q + r)| ≤ 4 * 2⁻¹ ^ 52 * (|p| + |q| + |r|) := by
  have v0 : (0 : ℝ) ≤ 2⁻¹ ^ 53 := by positivity
  have hp := rnd_near p
  have hq := rnd_near q
  have hr := rnd_near r
  have hs := rnd_near (rnd p + rnd q)
  have ht := rnd_near (rnd (rnd p + rnd q) + rnd r)
  have ap := rnd_abs p
  have aq := rnd_abs q
  have ar := rnd_abs r
  have as := rnd_abs (rnd p + rnd q)
  have b1 := abs_add_le (rnd p) (rnd q)
  have b2 := abs_add_le (rnd (rnd p + rnd q)) (rnd r)
  have e : rnd (rnd (rnd p + rnd q) + rnd r) - (p + q + r) =
      (rnd (rnd (rnd p + rnd q) + rnd r) - (rnd (rnd p + rnd q) + rnd r)) +
      ((rnd (rnd p + rnd q) - (rnd p + rnd q)) + (rnd p - p)) + ((rnd q - q) + (rnd r - r)) := by ring
  rw [e]
  have c1 := abs_add_three (rnd (rnd (rnd p + rnd q) + rnd r) - (rnd (rnd p + rnd q) + rnd r))
    ((rnd (rnd p + rnd q) - (rnd p + rnd q)) + (rnd p - p)) ((rnd q - q) + (rnd r - r))
  have c2 := abs_add_le (rnd (rnd p + rnd q) - (rnd p + rnd q)) (rnd p - p)
  have c3 := abs_add_le (rnd q - q) (rnd r - r)
  have np := abs_nonneg p
  have nq := abs_nonneg q
  have nr := abs_nonneg r
  norm_num at hp hq hr hs ht ap aq ar as ⊢
  linarith

theorem binary64_ok : binary64.Ok where
  u0 := by simp only [binary64]; positivity
  u1 := le_rfl
  add a b := rnd_two _
  sub a b := rnd_two _
  mul a b := rnd_two _
  div a b _ := rnd_two _
  sqrt a _ := by have := rnd_two (√a); rw [abs_of_nonneg (sqrt_nonneg a)] at this; exact this
  sin a := by
    refine (rnd_two _).trans ?_
    simp only [binary64]
    have := abs_sin_le_one a
    have h0 : (0 : ℝ) ≤ 2⁻¹ ^ 52 := by positivity
    nlinarith
  cos a := by
    refine (rnd_two _).trans ?_
    simp only [binary64]
    have := abs_cos_le_one a
    have h0 : (0 : ℝ) ≤ 2⁻¹ ^ 52 := by positivity
    nlinarith
  atan2 a b := by
    refine (rnd_two _).trans ?_
    simp only [binary64]
    have := mul_nonneg (show (0 : ℝ) ≤ 2⁻¹ ^ 52 by positivity) (abs_nonneg (arctan2 a b))
    linarith
  dot3 a b := rnd_dot _ _ _
  pi := by have := rnd_two π; rw [abs_of_pos pi_pos] at this; exact this
  cos_le a := rnd_le_one (abs_cos_le_one a)
  mul_le a b ha hb := rnd_le_one (by rw [abs_mul]; exact mul_le_one₀ ha (abs_nonneg _) hb)

end Verif.Fp
