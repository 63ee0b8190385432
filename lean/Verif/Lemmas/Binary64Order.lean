import Verif.Lemmas.Binary64

/-! Order and scale of the rounding, and the square root of a rounded square. -/

namespace Verif.Fp
open Real

theorem log_bounds {x : ℝ} (hx : 0 < x) : (2 : ℝ) ^ Int.log 2 x ≤ x ∧ x < (2 : ℝ) ^ (Int.log 2 x + 1) := by
  have a := Int.zpow_log_le_self (b := 2) one_lt_two hx
  have b := Int.lt_zpow_succ_log_self (b := 2) one_lt_two x
  push_cast at a b
  exact ⟨a, b⟩

theorem rne_mono {x y : ℝ} (h : x ≤ y) : rne x ≤ rne y := by
  by_contra hn
  have hn : rne y + 1 ≤ rne x := by omega
  have a := abs_le.mp (rne_near x)
  have b := abs_le.mp (rne_near y)
  have c : (rne y : ℝ) + 1 ≤ rne x := by exact_mod_cast hn
  have e : x = y := by linarith
  rw [e] at hn
  omega

theorem rnd_nonneg {x : ℝ} (h : 0 ≤ x) : 0 ≤ rnd x := by
  have := (abs_le.mp (rnd_near x)).1
  rw [abs_of_nonneg h] at this
  have : (2⁻¹ : ℝ) ^ 53 * x ≤ 1 * x := mul_le_mul_of_nonneg_right (by norm_num) h
  linarith

/-- powers of two -/
theorem rnd_pow (e : ℤ) : rnd (2 ^ e) = 2 ^ e := by
  have := rnd_float (k := 1) e (by norm_num)
  simpa using this

theorem rnd_scale (x : ℝ) (j : ℤ) : rnd (x * 2 ^ j) = rnd x * 2 ^ j := by
  rcases eq_or_ne x 0 with rfl | hx
  · simp [rnd_zero]
  have hp : (0 : ℝ) < 2 ^ j := by positivity
  have hl : Int.log 2 |x * 2 ^ j| = Int.log 2 |x| + j := by
    obtain ⟨a, b⟩ := log_bounds (abs_pos.mpr hx)
    rw [abs_mul, abs_of_pos hp]
    apply log_eq
    · rw [zpow_add₀ two_ne_zero]; exact mul_le_mul_of_nonneg_right a hp.le
    · rw [show Int.log 2 |x| + j + 1 = Int.log 2 |x| + 1 + j by ring, zpow_add₀ two_ne_zero (Int.log 2 |x| + 1)]
      exact mul_lt_mul_of_pos_right b hp
  have hu : ulp (x * 2 ^ j) = ulp x * 2 ^ j := by
    unfold ulp
    rw [hl, show Int.log 2 |x| + j - 52 = Int.log 2 |x| - 52 + j by ring, zpow_add₀ two_ne_zero]
  unfold rnd
  rw [hu, mul_div_mul_right _ _ hp.ne', mul_assoc]

/-- rounding stays within the powers of two around a number -/
theorem rnd_binade {x : ℝ} (hx : 0 < x) : (2 : ℝ) ^ Int.log 2 x ≤ rnd x ∧ rnd x ≤ (2 : ℝ) ^ (Int.log 2 x + 1) := by
  obtain ⟨a, b⟩ := log_bounds hx
  set L := Int.log 2 x with hL
  have hu : ulp x = 2 ^ (L - 52) := by unfold ulp; rw [abs_of_pos hx]
  have hp : (0 : ℝ) < 2 ^ (L - 52) := by positivity
  have e1 : (2 : ℝ) ^ L = ((2 ^ 52 : ℤ) : ℝ) * 2 ^ (L - 52) := by
    rw [show L = 52 + (L - 52) by ring, zpow_add₀ two_ne_zero]; norm_num
  have e2 : (2 : ℝ) ^ (L + 1) = ((2 ^ 53 : ℤ) : ℝ) * 2 ^ (L - 52) := by
    rw [show L + 1 = 53 + (L - 52) by ring, zpow_add₀ two_ne_zero]; norm_num
  unfold rnd
  rw [hu, e1, e2]
  rw [e1] at a
  rw [e2] at b
  have c1 : (2 ^ 52 : ℤ) ≤ rne (x / 2 ^ (L - 52)) := by
    rw [← rne_int (2 ^ 52)]; exact rne_mono (by rwa [le_div_iff₀ hp])
  have c2 : rne (x / 2 ^ (L - 52)) ≤ (2 ^ 53 : ℤ) := by
    rw [← rne_int (2 ^ 53)]; exact rne_mono (by rw [div_le_iff₀ hp]; exact b.le)
  exact ⟨mul_le_mul_of_nonneg_right (by exact_mod_cast c1) hp.le, mul_le_mul_of_nonneg_right (by exact_mod_cast c2) hp.le⟩

/-- rounding keeps the order -/
theorem rnd_mono {x y : ℝ} (h0 : 0 ≤ x) (h : x ≤ y) : rnd x ≤ rnd y := by
  rcases eq_or_lt_of_le h0 with h1 | h1
  · rw [← h1, rnd_zero]; exact rnd_nonneg (h0.trans h)
  have h2 := h1.trans_le h
  obtain ⟨a, b⟩ := log_bounds h1
  obtain ⟨c, d⟩ := log_bounds h2
  have hl : Int.log 2 x < Int.log 2 y + 1 := (zpow_lt_zpow_iff_right₀ (one_lt_two (α := ℝ))).mp (a.trans_lt (h.trans_lt d))
  rcases (Int.lt_add_one_iff.mp hl).eq_or_lt with e | e
  · have hu : ulp x = ulp y := by unfold ulp; rw [abs_of_pos h1, abs_of_pos h2, e]
    unfold rnd
    rw [hu]
    refine mul_le_mul_of_nonneg_right ?_ (ulp_pos y).le
    exact_mod_cast rne_mono (div_le_div_of_nonneg_right h (ulp_pos y).le)
  · refine (rnd_binade h1).2.trans (le_trans ?_ (rnd_binade h2).1)
    exact zpow_le_zpow_right₀ one_le_two (by omega)

/-- what rounding returns is kept by rounding -/
theorem rnd_idem (x : ℝ) (h0 : 0 ≤ x) : rnd (rnd x) = rnd x := by
  rcases eq_or_lt_of_le h0 with h1 | h1
  · rw [← h1, rnd_zero, rnd_zero]
  obtain ⟨a, b⟩ := rnd_binade h1
  rcases b.lt_or_eq with b | b
  · have : rnd x = (rne (x / ulp x) : ℝ) * 2 ^ (Int.log 2 x - 52) := by
      conv_lhs => unfold rnd
      unfold ulp; rw [abs_of_pos h1]
    rw [this]
    apply rnd_float
    rw [this] at b
    have hp : (0 : ℝ) < 2 ^ (Int.log 2 x - 52) := by positivity
    have e2 : (2 : ℝ) ^ (Int.log 2 x + 1) = ((2 ^ 53 : ℤ) : ℝ) * 2 ^ (Int.log 2 x - 52) := by
      rw [show Int.log 2 x + 1 = 53 + (Int.log 2 x - 52) by ring, zpow_add₀ two_ne_zero]; norm_num
    rw [e2] at b
    have c := lt_of_mul_lt_mul_right b hp.le
    have d : 0 ≤ rne (x / ulp x) := by
      rw [← rne_int 0]
      exact rne_mono (by simpa using div_nonneg h0 (ulp_pos x).le)
    rw [abs_of_nonneg d]
    exact_mod_cast c
  · rw [b, rnd_pow]

/-- the square root of a rounded square, for a whole number of 53 bits -/
theorem sqrt_sq_whole {k : ℤ} (h0 : 2 ^ 52 ≤ k) (h1 : k < 2 ^ 53) : rnd √(rnd ((k : ℝ) ^ 2)) = k := by
  have r0 : (2 : ℝ) ^ 52 ≤ k := by exact_mod_cast h0
  have r1 : (k : ℝ) ≤ 2 ^ 53 - 1 := by
    have : k ≤ 2 ^ 53 - 1 := by omega
    exact_mod_cast this
  have hk : (0 : ℝ) < k := lt_of_lt_of_le (by norm_num) r0
  have key : 2 ^ 52 ≤ √(rnd ((k : ℝ) ^ 2)) ∧ |√(rnd ((k : ℝ) ^ 2)) - k| < 1 / 2 := by
    rcases eq_or_lt_of_le h0 with e | e
    · have : ((k : ℝ)) ^ 2 = 2 ^ (104 : ℤ) := by rw [← e]; norm_num
      rw [this, rnd_pow, ← this, sqrt_sq hk.le]
      exact ⟨r0, by norm_num⟩
    · set q := rnd ((k : ℝ) ^ 2) with hq
      have hn := rnd_near ((k : ℝ) ^ 2)
      rw [← hq, abs_of_nonneg (sq_nonneg (k : ℝ))] at hn
      obtain ⟨n1, n2⟩ := abs_le.mp hn
      have hq0 : 0 ≤ q := rnd_nonneg (sq_nonneg _)
      have s := sq_sqrt hq0
      have s0 := sqrt_nonneg q
      have k2 : (2⁻¹ : ℝ) ^ 53 * (k : ℝ) ^ 2 ≤ k - 1 / 2 := by
        have : (k : ℝ) * k ≤ (2 ^ 53 - 1) * k := mul_le_mul_of_nonneg_right r1 hk.le
        norm_num at this r0 ⊢
        linarith
      have e1 : (2 : ℝ) ^ 52 + 1 ≤ k := by exact_mod_cast e
      have hlow : (k : ℝ) - 1 < √q := by
        apply lt_sqrt_of_sq_lt
        linarith
      have hd : |√q - k| * (√q + k) ≤ k - 1 / 2 := by
        rw [← abs_of_nonneg (show 0 ≤ √q + k by linarith), ← abs_mul, show (√q - k) * (√q + k) = √q ^ 2 - k ^ 2 by ring, s]
        exact hn.trans k2
      have hlt : |√q - k| < 1 / 2 := by
        by_contra hc
        have := mul_le_mul_of_nonneg_right (not_lt.mp hc) (show 0 ≤ √q + k by linarith)
        linarith
      refine ⟨?_, hlt⟩
      have := (abs_lt.mp hlt).1
      linarith
  have hs0 := sqrt_nonneg (rnd ((k : ℝ) ^ 2))
  have := rnd_eq (x := √(rnd ((k : ℝ) ^ 2))) 52 k (by rw [abs_of_nonneg hs0]; exact_mod_cast key.1)
    (by
      rw [abs_of_nonneg hs0]
      have := (abs_lt.mp key.2).2
      norm_num at this r1 ⊢
      linarith)
    (by simpa using key.2)
  simpa using this

/-- **the square root of the rounded square of a float is the float** -/
theorem sqrt_sq_float {y : ℝ} (hy : rnd y = y) : rnd √(rnd (y ^ 2)) = |y| := by
  rcases eq_or_ne y 0 with rfl | h0
  · simp [rnd_zero]
  have hp := abs_pos.mpr h0
  obtain ⟨a, b⟩ := log_bounds hp
  set L := Int.log 2 |y| with hL
  have hu : ulp y = 2 ^ (L - 52) := rfl
  have hpp : (0 : ℝ) < 2 ^ (L - 52) := by positivity
  have e0 : y = (rne (y / ulp y) : ℝ) * 2 ^ (L - 52) := by
    rw [← hu]; exact hy.symm
  set k := |rne (y / ulp y)| with hk
  have e1 : |y| = (k : ℝ) * 2 ^ (L - 52) := by
    conv_lhs => rw [e0]
    rw [abs_mul, abs_of_pos hpp, hk]
    push_cast; rfl
  have e2 : (2 : ℝ) ^ L = ((2 ^ 52 : ℤ) : ℝ) * 2 ^ (L - 52) := by
    rw [show L = 52 + (L - 52) by ring, zpow_add₀ two_ne_zero]; norm_num
  have e3 : (2 : ℝ) ^ (L + 1) = ((2 ^ 53 : ℤ) : ℝ) * 2 ^ (L - 52) := by
    rw [show L + 1 = 53 + (L - 52) by ring, zpow_add₀ two_ne_zero]; norm_num
  rw [e1, e2] at a
  rw [e1, e3] at b
  have c1 : (2 : ℤ) ^ 52 ≤ k := by exact_mod_cast le_of_mul_le_mul_right a hpp
  have c2 : k < (2 : ℤ) ^ 53 := by exact_mod_cast lt_of_mul_lt_mul_right b hpp.le
  have e4 : y ^ 2 = (k : ℝ) ^ 2 * 2 ^ (2 * (L - 52)) := by
    rw [← sq_abs, e1, mul_pow, two_mul, zpow_add₀ two_ne_zero]; ring
  have e5 : √(rnd ((k : ℝ) ^ 2) * 2 ^ (2 * (L - 52))) = √(rnd ((k : ℝ) ^ 2)) * 2 ^ (L - 52) := by
    rw [sqrt_mul (rnd_nonneg (sq_nonneg _)), two_mul, zpow_add₀ two_ne_zero, sqrt_mul_self hpp.le]
  rw [e4, rnd_scale, e5, rnd_scale, sqrt_sq_whole c1 c2, e1]

end Verif.Fp
