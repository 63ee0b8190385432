import Verif.Lemmas.Rounded

/-! The map from the disk to the square does not tear or stretch: distances grow by at most a factor 3. -/

namespace Verif.Geo
open Real

/-- first coordinate of the boundary of the square, `s` runs around it from -1 to 7 -/
noncomputable def sideA (s : ℝ) : ℝ := max (-1) (min 1 (|s - 4| - 2))

/-- second coordinate -/
noncomputable def sideB (s : ℝ) : ℝ := max (-1) (min 1 (2 - |s - 2|))

theorem clamp_lip (x y : ℝ) : |max (-1) (min 1 x) - max (-1) (min 1 y)| ≤ |x - y| := by
  have h1 : |max (-1) (min 1 x) - max (-1) (min 1 y)| ≤ |min 1 x - min 1 y| := by
    have := abs_max_sub_max_le_max (-1) (min 1 x) (-1) (min 1 y)
    rwa [show (-1 : ℝ) - -1 = 0 by norm_num, abs_zero, max_eq_right (abs_nonneg (min 1 x - min 1 y))] at this
  have h2 : |min 1 x - min 1 y| ≤ |x - y| := by
    have := abs_min_sub_min_le_max 1 x 1 y
    rwa [show (1 : ℝ) - 1 = 0 by norm_num, abs_zero, max_eq_right (abs_nonneg (x - y))] at this
  exact h1.trans h2

theorem sideA_lip (s t : ℝ) : |sideA s - sideA t| ≤ |s - t| := by
  refine (clamp_lip _ _).trans ?_
  rw [show |s - 4| - 2 - (|t - 4| - 2) = |s - 4| - |t - 4| by ring]
  refine (abs_abs_sub_abs_le_abs_sub _ _).trans_eq (by congr 1; ring)

theorem sideB_lip (s t : ℝ) : |sideB s - sideB t| ≤ |s - t| := by
  refine (clamp_lip _ _).trans ?_
  rw [show 2 - |s - 2| - (2 - |t - 2|) = |t - 2| - |s - 2| by ring]
  refine (abs_abs_sub_abs_le_abs_sub _ _).trans_eq (by rw [abs_sub_comm]; congr 1; ring)

theorem sideA_le (s : ℝ) : |sideA s| ≤ 1 := by
  unfold sideA
  rw [abs_le]
  exact ⟨le_max_left _ _, max_le (by norm_num) (min_le_left _ _)⟩

theorem sideB_le (s : ℝ) : |sideB s| ≤ 1 := by
  unfold sideB
  rw [abs_le]
  exact ⟨le_max_left _ _, max_le (by norm_num) (min_le_left _ _)⟩

theorem side_ends : sideA (-1) = 1 ∧ sideA 7 = 1 ∧ sideB (-1) = -1 ∧ sideB 7 = -1 := by
  unfold sideA sideB; norm_num

/-- the two ends of the boundary are the same point -/
theorem round_lip {f : ℝ → ℝ} (hf : ∀ s t, |f s - f t| ≤ |s - t|) (he : f (-1) = f 7) {s t d : ℝ} (hs : -1 ≤ s) (hs' : s < 7)
    (ht : -1 ≤ t) (ht' : t < 7) (m : ℤ) (h : |s - t - 8 * m| ≤ d) (hd : d ≤ 4) : |f s - f t| ≤ d := by
  obtain ⟨h1, h2⟩ := abs_le.mp h
  have hm : m = 0 ∨ m = 1 ∨ m = -1 := by
    have a1 : (m : ℝ) < 2 := by linarith
    have a2 : (-2 : ℝ) < m := by linarith
    have b1 : m < 2 := by exact_mod_cast a1
    have b2 : -2 < m := by exact_mod_cast a2
    omega
  rcases hm with rfl | rfl | rfl
  · rw [Int.cast_zero, mul_zero, sub_zero] at h
    exact (hf s t).trans h
  · rw [Int.cast_one] at h1 h2
    have a := hf s 7
    have b := hf (-1) t
    rw [abs_of_nonpos (show s - 7 ≤ 0 by linarith)] at a
    rw [abs_of_nonpos (show -1 - t ≤ 0 by linarith)] at b
    have := abs_sub_le (f s) (f 7) (f t)
    rw [← he] at this a
    linarith
  · push_cast at h1 h2
    have a := hf s (-1)
    have b := hf 7 t
    rw [abs_of_nonneg (show 0 ≤ s - -1 by linarith)] at a
    rw [abs_of_nonneg (show 0 ≤ 7 - t by linarith)] at b
    have := abs_sub_le (f s) (f (-1)) (f t)
    rw [he] at this a
    linarith

/-- the four pieces are one formula -/
theorem wedge_side (r : ℝ) {phi : ℝ} (h0 : -(π / 4) ≤ phi) (h1 : phi < 7 * (π / 4)) :
    wedge r phi = (r * sideA (4 * phi / π), r * sideB (4 * phi / π)) := by
  have hp := pi_pos
  obtain ⟨s, rfl⟩ : ∃ s, phi = s * (π / 4) := ⟨4 * phi / π, by field_simp⟩
  have e : 4 * (s * (π / 4)) / π = s := by field_simp
  have hs0 : -1 ≤ s := by nlinarith
  have hs1 : s < 7 := by nlinarith
  rw [e]
  unfold wedge sideA sideB
  split_ifs with c1 c2 c3
  · have : s < 1 := by nlinarith
    rw [abs_of_nonpos (by linarith), abs_of_nonpos (by linarith), min_eq_left (by linarith), max_eq_right (by norm_num),
      min_eq_right (by linarith), max_eq_right (by linarith)]
    refine Prod.ext (by ring) ?_
    simp only; field_simp; ring
  · have a1 : 1 ≤ s := by nlinarith
    have a2 : s < 3 := by nlinarith
    have e2 : min 1 (2 - |s - 2|) = 1 := by
      apply min_eq_left
      have : |s - 2| ≤ 1 := abs_le.mpr ⟨by linarith, by linarith⟩
      linarith
    rw [e2, abs_of_nonpos (by linarith), min_eq_right (by linarith), max_eq_right (by linarith), max_eq_right (by norm_num)]
    refine Prod.ext ?_ (by ring)
    simp only; field_simp; ring
  · have a1 : 3 ≤ s := by nlinarith
    have a2 : s < 5 := by nlinarith
    have e2 : max (-1) (min 1 (|s - 4| - 2)) = -1 := by
      apply max_eq_left
      have : |s - 4| ≤ 1 := abs_le.mpr ⟨by linarith, by linarith⟩
      exact (min_le_right _ _).trans (by linarith)
    rw [e2, abs_of_nonneg (by linarith), min_eq_right (by linarith), max_eq_right (by linarith)]
    refine Prod.ext (by ring) ?_
    simp only; field_simp; ring
  · have a1 : 5 ≤ s := by nlinarith
    rw [abs_of_nonneg (by linarith), abs_of_nonneg (by linarith), min_eq_right (by linarith), max_eq_right (by linarith),
      min_eq_right (by linarith), max_eq_left (by linarith)]
    refine Prod.ext ?_ (by ring)
    simp only; field_simp; ring

theorem wrap_mem {t : ℝ} (h1 : -π < t) (h2 : t ≤ π) :
    -(π / 4) ≤ t + (if t < -(π / 4) then 2 * π else 0) ∧ t + (if t < -(π / 4) then 2 * π else 0) < 7 * (π / 4) := by
  have hp := pi_pos
  split_ifs with c <;> constructor <;> linarith

/-- turns of the two angles -/
theorem turn_exists {t t' : ℝ} (h1 : -π < t) (h2 : t ≤ π) (h1' : -π < t') (h2' : t' ≤ π) :
    ∃ k : ℤ, |t - t' - 2 * π * k| ≤ π := by
  rcases lt_or_ge π (t - t') with h | h
  · exact ⟨1, abs_le.mpr ⟨by push_cast; linarith, by push_cast; linarith⟩⟩
  rcases lt_or_ge (t - t') (-π) with g | g
  · exact ⟨-1, abs_le.mpr ⟨by push_cast; linarith, by push_cast; linarith⟩⟩
  · exact ⟨0, abs_le.mpr ⟨by push_cast; linarith, by push_cast; linarith⟩⟩

/-- two points in polar form -/
theorem polar_lip {f : ℝ → ℝ} (hf : ∀ s t, |f s - f t| ≤ |s - t|) (he : f (-1) = f 7) (hb : ∀ s, |f s| ≤ 1)
    {r r' t t' : ℝ} (hr : 0 < r) (hr' : 0 < r') (h1 : -π < t) (h2 : t ≤ π) (h1' : -π < t') (h2' : t' ≤ π) :
    |r * f (4 * (t + (if t < -(π / 4) then 2 * π else 0)) / π) - r' * f (4 * (t' + (if t' < -(π / 4) then 2 * π else 0)) / π)|
      ≤ 3 * √((r * cos t - r' * cos t') ^ 2 + (r * sin t - r' * sin t') ^ 2) := by
  have hp := pi_pos
  obtain ⟨k, hk⟩ := turn_exists h1 h2 h1' h2'
  obtain ⟨w0, w1⟩ := wrap_mem h1 h2
  obtain ⟨w0', w1'⟩ := wrap_mem h1' h2'
  set δ := t - t' - 2 * π * k with hδ
  have scale : ∀ x : ℝ, -(π / 4) ≤ x → x < 7 * (π / 4) → -1 ≤ 4 * x / π ∧ 4 * x / π < 7 := fun x a b =>
    ⟨by rw [le_div_iff₀ hp]; linarith, by rw [div_lt_iff₀ hp]; linarith⟩
  obtain ⟨m, hm⟩ : ∃ m : ℤ, 4 * (t + (if t < -(π / 4) then 2 * π else 0)) / π -
      4 * (t' + (if t' < -(π / 4) then 2 * π else 0)) / π - 8 * m = 4 * δ / π := by
    refine ⟨k + (if t < -(π / 4) then 1 else 0) - (if t' < -(π / 4) then 1 else 0), ?_⟩
    rw [hδ]
    split_ifs <;> push_cast <;> field_simp <;> ring
  have hd : |4 * δ / π| ≤ 4 := by
    rw [abs_div, abs_of_pos hp, div_le_iff₀ hp, abs_mul]
    norm_num
    linarith
  have key := round_lip hf he (scale _ w0 w1).1 (scale _ w0 w1).2 (scale _ w0' w1').1 (scale _ w0' w1').2 m (hm ▸ le_refl _) hd
  set F := f (4 * (t + (if t < -(π / 4) then 2 * π else 0)) / π)
  set F' := f (4 * (t' + (if t' < -(π / 4) then 2 * π else 0)) / π)
  have bF : |F| ≤ 1 := hb _
  have bF' : |F'| ≤ 1 := hb _
  -- the chord
  set x := |δ| / 2 with hx
  have hx0 : 0 ≤ x := by positivity
  have hx1 : x ≤ π / 2 := by rw [hx]; linarith
  have hsx : 0 ≤ sin x := sin_nonneg_of_nonneg_of_le_pi hx0 (by linarith)
  have hlin := Fp.le_half_pi_sin hx0 hx1
  have ecos : cos (t - t') = 1 - 2 * sin x ^ 2 := by
    have : cos (t - t') = cos δ := by
      rw [hδ, show t - t' - 2 * π * k = t - t' - k * (2 * π) by ring, cos_sub_int_mul_two_pi]
    rw [this, ← cos_abs, show |δ| = 2 * x by rw [hx]; ring, cos_two_mul, cos_sq']; ring
  have edist : (r * cos t - r' * cos t') ^ 2 + (r * sin t - r' * sin t') ^ 2 = (r - r') ^ 2 + 4 * (r * r') * sin x ^ 2 := by
    have e := cos_sub t t'
    rw [ecos] at e
    linear_combination r ^ 2 * sin_sq_add_cos_sq t + r' ^ 2 * sin_sq_add_cos_sq t' + 2 * r * r' * e
  rw [edist]
  set D := √((r - r') ^ 2 + 4 * (r * r') * sin x ^ 2) with hD
  have hrr : 0 ≤ r * r' := by positivity
  have d1 : |r - r'| ≤ D := by
    rw [hD]; apply le_sqrt_of_sq_le
    rw [sq_abs]; nlinarith [mul_nonneg hrr (sq_nonneg (sin x))]
  have d2 : ∀ q, 0 ≤ q → q ≤ r → q ≤ r' → q * (2 * sin x) ≤ D := fun q q0 q1 q2 => by
    rw [hD]; apply le_sqrt_of_sq_le
    have : q * q ≤ r * r' := mul_le_mul q1 q2 q0 hr.le
    nlinarith [sq_nonneg (r - r'), sq_nonneg (sin x)]
  have d3 : |4 * δ / π| ≤ 4 * sin x := by
    rw [abs_div, abs_of_pos hp, div_le_iff₀ hp, abs_mul]
    norm_num
    rw [hx] at hlin
    linarith
  have k2 := key.trans d3
  rcases le_total r r' with hc | hc
  · have e : r * F - r' * F' = (r - r') * F' + r * (F - F') := by ring
    have a1 := abs_add_le ((r - r') * F') (r * (F - F'))
    rw [abs_mul, abs_mul, abs_of_pos hr] at a1
    have a2 := d2 r hr.le le_rfl hc
    have a3 := mul_le_mul_of_nonneg_left k2 hr.le
    have a4 := mul_le_mul_of_nonneg_left bF' (abs_nonneg (r - r'))
    rw [e]; linarith
  · have e : r * F - r' * F' = (r - r') * F + r' * (F - F') := by ring
    have a1 := abs_add_le ((r - r') * F) (r' * (F - F'))
    rw [abs_mul, abs_mul, abs_of_pos hr'] at a1
    have a2 := d2 r' hr'.le hc le_rfl
    have a3 := mul_le_mul_of_nonneg_left k2 hr'.le
    have a4 := mul_le_mul_of_nonneg_left bF (abs_nonneg (r - r'))
    rw [e]; linarith

theorem disk2sq_abs (x y : ℝ) : |(disk2sq x y).1| ≤ √(x ^ 2 + y ^ 2) ∧ |(disk2sq x y).2| ≤ √(x ^ 2 + y ^ 2) := by
  have h := disk2sq_max x y
  have : max |(disk2sq x y).1| |(disk2sq x y).2| = √(x ^ 2 + y ^ 2) := by
    rw [← h, sqrt_sq (le_max_of_le_left (abs_nonneg _))]
  rw [← this]
  exact ⟨le_max_left _ _, le_max_right _ _⟩

/-- coordinates on the square change by at most three times the distance on the disk -/
theorem disk2sq_lip (x y x' y' : ℝ) :
    |(disk2sq x y).1 - (disk2sq x' y').1| ≤ 3 * √((x - x') ^ 2 + (y - y') ^ 2) ∧
    |(disk2sq x y).2 - (disk2sq x' y').2| ≤ 3 * √((x - x') ^ 2 + (y - y') ^ 2) := by
  obtain ⟨r, t, hr, h1, h2, ex, ey⟩ := polar_exists x y
  obtain ⟨r', t', hr', h1', h2', ex', ey'⟩ := polar_exists x' y'
  rcases eq_or_lt_of_le hr with h0 | hr
  · have a : x = 0 := by rw [ex, ← h0]; ring
    have b : y = 0 := by rw [ey, ← h0]; ring
    obtain ⟨c1, c2⟩ := disk2sq_abs x' y'
    rw [a, b, disk2sq_zero]
    have e : (0 - x') ^ 2 + (0 - y') ^ 2 = x' ^ 2 + y' ^ 2 := by ring
    rw [e]
    simp only [zero_sub, abs_neg]
    have := sqrt_nonneg (x' ^ 2 + y' ^ 2)
    constructor <;> linarith
  rcases eq_or_lt_of_le hr' with h0 | hr'
  · have a : x' = 0 := by rw [ex', ← h0]; ring
    have b : y' = 0 := by rw [ey', ← h0]; ring
    obtain ⟨c1, c2⟩ := disk2sq_abs x y
    rw [a, b, disk2sq_zero]
    simp only [sub_zero]
    have := sqrt_nonneg (x ^ 2 + y ^ 2)
    constructor <;> linarith
  rw [ex, ey, ex', ey', disk2sq_polar hr h1 h2, disk2sq_polar hr' h1' h2', wedge_side _ (wrap_mem h1 h2).1 (wrap_mem h1 h2).2,
    wedge_side _ (wrap_mem h1' h2').1 (wrap_mem h1' h2').2]
  obtain ⟨s1, s2, s3, s4⟩ := side_ends
  exact ⟨polar_lip sideA_lip (by rw [s1, s2]) sideA_le hr hr' h1 h2 h1' h2',
    polar_lip sideB_lip (by rw [s3, s4]) sideB_le hr hr' h1 h2 h1' h2'⟩

end Verif.Geo
