import Verif.Props.RoundedReflect

/-! Property C227: normalising in double precision. -/

namespace Verif.Fp
open Verif.Geo Real

theorem nrm_flip (v : V3) : nrm binary64 ⟨-v.x, -v.y, -v.z⟩ = nrm binary64 v := by
  change rnd √(rnd (rnd (rnd (-v.x * -v.x) + rnd (-v.y * -v.y)) + rnd (-v.z * -v.z))) = rnd √(rnd (rnd (rnd (v.x * v.x) + rnd (v.y * v.y)) + rnd (v.z * v.z)))
  simp only [neg_mul_neg]

/-- C227: the opposite vector has the opposite direction, bit for bit -/
theorem C227_opposite (v : V3) :
    normF binary64 ⟨-v.x, -v.y, -v.z⟩ = (normF binary64 v).map fun p => ⟨-p.x, -p.y, -p.z⟩ := by
  unfold normF
  rw [nrm_flip]
  split
  · rfl
  · change some (⟨rnd (-v.x / _), rnd (-v.y / _), rnd (-v.z / _)⟩ : V3) = some ⟨-rnd (v.x / _), -rnd (v.y / _), -rnd (v.z / _)⟩
    simp only [neg_div, rnd_neg]

theorem nrm_pow (v : V3) (k : ℤ) : nrm binary64 ⟨v.x * 2 ^ k, v.y * 2 ^ k, v.z * 2 ^ k⟩ = nrm binary64 v * 2 ^ k := by
  have p : (0 : ℝ) < 2 ^ k := by positivity
  have q : ∀ x : ℝ, rnd (x * 2 ^ k * (x * 2 ^ k)) = rnd (x * x) * 2 ^ (k + k) := by
    intro x
    rw [← rnd_scale, zpow_add₀ (by norm_num)]
    congr 1
    ring
  change rnd √(rnd (rnd (rnd (v.x * 2 ^ k * (v.x * 2 ^ k)) + rnd (v.y * 2 ^ k * (v.y * 2 ^ k))) + rnd (v.z * 2 ^ k * (v.z * 2 ^ k)))) =
    rnd √(rnd (rnd (rnd (v.x * v.x) + rnd (v.y * v.y)) + rnd (v.z * v.z))) * 2 ^ k
  rw [q, q, q, ← add_mul, rnd_scale, ← add_mul, rnd_scale, zpow_add₀ (by norm_num), sqrt_mul' _ (mul_self_nonneg _), sqrt_mul_self p.le, rnd_scale]

/-- C227: multiplying by a power of two does not change one bit of the direction -/
theorem C227_binary_scale (v : V3) (k : ℤ) :
    normF binary64 ⟨v.x * 2 ^ k, v.y * 2 ^ k, v.z * 2 ^ k⟩ = normF binary64 v := by
  have p : (2 : ℝ) ^ k ≠ 0 := by positivity
  unfold normF
  rw [nrm_pow]
  simp only [mul_eq_zero, p, or_false]
  split
  · rfl
  · change some (⟨rnd (_ / _), rnd (_ / _), rnd (_ / _)⟩ : V3) = some ⟨rnd (v.x / _), rnd (v.y / _), rnd (v.z / _)⟩
    simp only [mul_div_mul_right _ _ p]

theorem direction_scale {v : V3} {s : ℝ} (hs : 0 < s) : direction ⟨s * v.x, s * v.y, s * v.z⟩ = direction v := by
  have e : √((s * v.x) ^ 2 + (s * v.y) ^ 2 + (s * v.z) ^ 2) = s * √(v.x ^ 2 + v.y ^ 2 + v.z ^ 2) := by
    rw [show (s * v.x) ^ 2 + (s * v.y) ^ 2 + (s * v.z) ^ 2 = s ^ 2 * (v.x ^ 2 + v.y ^ 2 + v.z ^ 2) by ring, sqrt_mul (sq_nonneg s), sqrt_sq hs.le]
  unfold direction
  simp only [e, mul_div_mul_left _ _ hs.ne']

/-- C227: vectors of one direction are normalised to the same vector up to rounding -/
theorem C227_scale {v p q : V3} {s : ℝ} (hs : 0 < s) (h : v ≠ ⟨0, 0, 0⟩) (hp : normF binary64 v = some p)
    (hq : normF binary64 ⟨s * v.x, s * v.y, s * v.z⟩ = some q) : Within 10 q p := by
  have n : (⟨s * v.x, s * v.y, s * v.z⟩ : V3) ≠ ⟨0, 0, 0⟩ := by
    intro e
    apply h
    cases v
    simpa [hs.ne'] using e
  have a := (norm_within h hp).1
  have b := (norm_within n hq).1
  rw [direction_scale hs] at b
  have k : ∀ {x y d : ℝ}, |x - d| ≤ 5 * 2⁻¹ ^ 53 → |y - d| ≤ 5 * 2⁻¹ ^ 53 → |y - x| ≤ 10 * 2⁻¹ ^ 53 := by
    intro x y d h1 h2
    rw [abs_sub_comm] at h1
    have : |y - x| ≤ |y - d| + |d - x| := by simpa using abs_add_le (y - d) (d - x)
    linarith
  exact ⟨k a.1 b.1, k a.2.1 b.2.1, k a.2.2 b.2.2⟩

/-- the length of a normalised vector -/
theorem norm_length {v p : V3} (h : v ≠ ⟨0, 0, 0⟩) (hp : normF binary64 v = some p) :
    (1 - 5 * 2⁻¹ ^ 53) ≤ √(p.x ^ 2 + p.y ^ 2 + p.z ^ 2) ∧ √(p.x ^ 2 + p.y ^ 2 + p.z ^ 2) ≤ 1 + 5 * 2⁻¹ ^ 53 := by
  have nv : nrm binary64 v ≠ 0 := (lt_of_lt_of_le (mul_pos (by norm_num) (len_pos h)) (nrm_rel v).1).ne'
  have e : p = ⟨rnd (v.x / nrm binary64 v), rnd (v.y / nrm binary64 v), rnd (v.z / nrm binary64 v)⟩ := by
    unfold normF at hp
    rw [if_neg nv] at hp
    exact (Option.some.inj hp).symm
  have d := div_nrm_rel h
  have u := direction_unit h
  unfold Unit3 direction at u
  simp only at u
  have k : ∀ {x y : ℝ}, |x - y| ≤ 5 * 2⁻¹ ^ 53 * |y| → (1 - 5 * 2⁻¹ ^ 53) ^ 2 * y ^ 2 ≤ x ^ 2 ∧ x ^ 2 ≤ (1 + 5 * 2⁻¹ ^ 53) ^ 2 * y ^ 2 := by
    intro x y h
    have h1 : |x| ≤ |x - y| + |y| := by simpa using abs_add_le (x - y) y
    have h2 : |y| ≤ |x - y| + |x| := by
      rw [abs_sub_comm]; simpa using abs_add_le (y - x) x
    rw [← sq_abs x, ← sq_abs y, ← mul_pow, ← mul_pow]
    exact ⟨pow_le_pow_left₀ (mul_nonneg (by norm_num) (abs_nonneg _)) (by linarith) 2, pow_le_pow_left₀ (abs_nonneg _) (by linarith) 2⟩
  have x := k (d v.x)
  have y := k (d v.y)
  have z := k (d v.z)
  subst e
  simp only
  constructor
  · refine le_sqrt_of_sq_le ?_
    have : (1 - 5 * 2⁻¹ ^ 53 : ℝ) ^ 2 = (1 - 5 * 2⁻¹ ^ 53) ^ 2 * ((v.x / √(v.x ^ 2 + v.y ^ 2 + v.z ^ 2)) ^ 2 + (v.y / √(v.x ^ 2 + v.y ^ 2 + v.z ^ 2)) ^ 2 + (v.z / √(v.x ^ 2 + v.y ^ 2 + v.z ^ 2)) ^ 2) := by rw [u, mul_one]
    rw [this, mul_add, mul_add]
    exact add_le_add (add_le_add x.1 y.1) z.1
  · refine sqrt_le_iff.mpr ⟨by norm_num, ?_⟩
    have : (1 + 5 * 2⁻¹ ^ 53 : ℝ) ^ 2 = (1 + 5 * 2⁻¹ ^ 53) ^ 2 * ((v.x / √(v.x ^ 2 + v.y ^ 2 + v.z ^ 2)) ^ 2 + (v.y / √(v.x ^ 2 + v.y ^ 2 + v.z ^ 2)) ^ 2 + (v.z / √(v.x ^ 2 + v.y ^ 2 + v.z ^ 2)) ^ 2) := by rw [u, mul_one]
    rw [this, mul_add, mul_add]
    exact add_le_add (add_le_add x.2 y.2) z.2

/-- C227: normalising again changes a vector by rounding only -/
theorem C227_again {v p q : V3} (h : v ≠ ⟨0, 0, 0⟩) (hp : normF binary64 v = some p) (hq : normF binary64 p = some q) : Within 11 q p := by
  obtain ⟨lo, hi⟩ := norm_length h hp
  have p0 : p ≠ ⟨0, 0, 0⟩ := by
    rintro rfl
    norm_num at lo
  obtain ⟨w, -⟩ := norm_within p0 hq
  obtain ⟨u1, u2, u3⟩ := unit3_le (direction_unit p0)
  unfold direction at w u1 u2 u3
  simp only at w u1 u2 u3
  have l := len_pos p0
  unfold Within at w ⊢
  simp only at w
  generalize √(p.x ^ 2 + p.y ^ 2 + p.z ^ 2) = n at *
  have k : ∀ {x y : ℝ}, |y - x / n| ≤ 5 * 2⁻¹ ^ 53 → |x / n| ≤ 1 → |y - x| ≤ 11 * 2⁻¹ ^ 53 := by
    intro x y h1 h2
    have e : x / n - x = x / n * (1 - n) := by field_simp
    have h3 : |x / n - x| ≤ 1 * (5 * 2⁻¹ ^ 53) := by
      rw [e, abs_mul]
      refine mul_le_mul h2 (abs_le.mpr ⟨by linarith, by linarith⟩) (abs_nonneg _) zero_le_one
    have : |y - x| ≤ |y - x / n| + |x / n - x| := by simpa using abs_add_le (y - x / n) (x / n - x)
    norm_num at *
    linarith
  exact ⟨k w.1 u1, k w.2.1 u2, k w.2.2 u3⟩

/-- the hypotheses are met: every vector other than zero has a direction, which has one again -/
example : ∃ p q, normF binary64 ⟨1, 2, 3⟩ = some p ∧ normF binary64 p = some q := by
  have some' : ∀ {v : V3}, v ≠ ⟨0, 0, 0⟩ → ∃ p, normF binary64 v = some p := by
    intro v h
    have nv : nrm binary64 v ≠ 0 := (lt_of_lt_of_le (mul_pos (by norm_num) (len_pos h)) (nrm_rel v).1).ne'
    exact ⟨_, if_neg nv⟩
  have h : (⟨1, 2, 3⟩ : V3) ≠ ⟨0, 0, 0⟩ := by
    intro e
    have := congrArg V3.x e
    norm_num at this
  obtain ⟨p, hp⟩ := some' h
  have p0 : p ≠ ⟨0, 0, 0⟩ := by
    rintro rfl
    have := (norm_length h hp).1
    norm_num at this
  obtain ⟨q, hq⟩ := some' p0
  exact ⟨p, q, hp, hq⟩

end Verif.Fp
