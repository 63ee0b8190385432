import Verif.Props.RoundedNorm
import Verif.Props.RoundedChord

/-! Property C222: angles between directions in double precision. -/

namespace Verif.Fp
open Verif.Geo Real

/-- specification: the angle between two vectors -/
noncomputable def between (v w : V3) : ℝ :=
  arccos ((v.x * w.x + v.y * w.y + v.z * w.z) / (√(v.x ^ 2 + v.y ^ 2 + v.z ^ 2) * √(w.x ^ 2 + w.y ^ 2 + w.z ^ 2)))

/-- **C222** the angle is a number between 0 and 180 degrees, for all arguments, and does not depend on their order -/
theorem C222_number (a b : V3) : (∃ t, radiansF binary64 a b = some t ∧ 0 ≤ t ∧ t ≤ π) ∧ radiansF binary64 a b = radiansF binary64 b a := by
  constructor
  · refine ⟨arccos (min (max (binary64.dot3 a b) (-1)) 1), ?_, arccos_nonneg _, arccos_le_pi _⟩
    unfold radiansF npArccos
    rw [if_pos ⟨le_min (le_max_right _ _) (by norm_num), min_le_right _ _⟩]
  · have : binary64.dot3 a b = binary64.dot3 b a := by
      change rnd (rnd (rnd (a.x * b.x) + rnd (a.y * b.y)) + rnd (a.z * b.z)) = rnd (rnd (rnd (b.x * a.x) + rnd (b.y * a.y)) + rnd (b.z * a.z))
      rw [mul_comm a.x, mul_comm a.y, mul_comm a.z]
    unfold radiansF
    rw [this]

/-- how far the arc cosine moves -/
theorem acos_le {a b : ℝ} (a0 : 0 ≤ a) (a1 : a ≤ π) (b0 : 0 ≤ b) (b1 : b ≤ π) : 2 * (a - b) ^ 2 ≤ π ^ 2 * |cos a - cos b| := by
  have hp := pi_pos
  wlog h : b ≤ a generalizing a b
  · have := this b0 b1 a0 a1 (le_of_not_ge h)
    rw [abs_sub_comm]
    linarith [show (a - b) ^ 2 = (b - a) ^ 2 by ring]
  have s1 : (a - b) / π ≤ sin ((a - b) / 2) := by
    refine le_trans (le_of_eq ?_) (mul_le_sin (by linarith) (by linarith))
    field_simp
  have s0 : 0 ≤ (a - b) / π := div_nonneg (by linarith) hp.le
  have s2 : sin ((a - b) / 2) ≤ sin ((a + b) / 2) := by
    rcases le_total ((a + b) / 2) (π / 2) with h' | h'
    · exact sin_le_sin_of_le_of_le_pi_div_two (by linarith) h' (by linarith)
    · rw [← sin_pi_sub ((a + b) / 2)]
      exact sin_le_sin_of_le_of_le_pi_div_two (by linarith) (by linarith) (by linarith)
  have e : |cos a - cos b| = 2 * sin ((a + b) / 2) * sin ((a - b) / 2) := by
    rw [cos_sub_cos, show -2 * sin ((a + b) / 2) * sin ((a - b) / 2) = -(2 * sin ((a + b) / 2) * sin ((a - b) / 2)) by ring, abs_neg,
      abs_of_nonneg]
    have := s0.trans s1
    have := this.trans s2
    positivity
  have m := mul_le_mul (s1.trans s2) s1 s0 (s0.trans (s1.trans s2))
  rw [e]
  have := mul_le_mul_of_nonneg_left m (show 0 ≤ 2 * π ^ 2 by positivity)
  calc 2 * (a - b) ^ 2 = 2 * π ^ 2 * ((a - b) / π * ((a - b) / π)) := by field_simp
    _ ≤ _ := this
    _ = _ := by ring

/-- the relative error of a rounding of any sign -/
theorem rnd_fac (x : ℝ) : ∃ d, rnd x = x * (1 + d) ∧ |d| ≤ 2⁻¹ ^ 53 := by
  rcases eq_or_ne x 0 with rfl | hx
  · exact ⟨0, by simp [rnd_zero], by norm_num⟩
  · refine ⟨(rnd x - x) / x, by field_simp; ring, ?_⟩
    rw [abs_div, div_le_iff₀ (abs_pos.mpr hx)]
    exact rnd_near x

/-- the computed length -/
theorem nrm_rel (v : V3) : (1 - 3 * 2⁻¹ ^ 53) * √(v.x ^ 2 + v.y ^ 2 + v.z ^ 2) ≤ nrm binary64 v ∧
    nrm binary64 v ≤ (1 + 3 * 2⁻¹ ^ 53) * √(v.x ^ 2 + v.y ^ 2 + v.z ^ 2) := by
  have q : ∀ x : ℝ, (1 - 2⁻¹ ^ 53) * x ^ 2 ≤ rnd (x * x) ∧ rnd (x * x) ≤ (1 + 2⁻¹ ^ 53) * x ^ 2 := fun x => by
    rw [pow_two]; exact rnd_rel (mul_self_nonneg x)
  obtain ⟨x1, x2⟩ := q v.x
  obtain ⟨y1, y2⟩ := q v.y
  obtain ⟨z1, z2⟩ := q v.z
  change _ ≤ rnd (√(rnd (rnd (rnd (v.x * v.x) + rnd (v.y * v.y)) + rnd (v.z * v.z)))) ∧
    rnd (√(rnd (rnd (rnd (v.x * v.x) + rnd (v.y * v.y)) + rnd (v.z * v.z)))) ≤ _
  have X0 := rnd_nonneg (mul_self_nonneg v.x)
  have Y0 := rnd_nonneg (mul_self_nonneg v.y)
  have Z0 := rnd_nonneg (mul_self_nonneg v.z)
  have hx := sq_nonneg v.x
  have hy := sq_nonneg v.y
  have hz := sq_nonneg v.z
  generalize rnd (v.x * v.x) = X at *
  generalize rnd (v.y * v.y) = Y at *
  generalize rnd (v.z * v.z) = Z at *
  generalize v.x ^ 2 = x at *
  generalize v.y ^ 2 = y at *
  generalize v.z ^ 2 = z at *
  obtain ⟨p, q⟩ := rnd_rel (add_nonneg X0 Y0)
  have P0 := rnd_nonneg (add_nonneg X0 Y0)
  generalize rnd (X + Y) = P at *
  obtain ⟨r, s⟩ := rnd_rel (add_nonneg P0 Z0)
  have D0 := rnd_nonneg (add_nonneg P0 Z0)
  generalize rnd (P + Z) = D at *
  have lo : (1 - 2⁻¹ ^ 53) ^ 3 * (x + y + z) ≤ D := by
    have a0 : (0 : ℝ) ≤ 1 - 2⁻¹ ^ 53 := by norm_num
    have a1 : (1 : ℝ) - 2⁻¹ ^ 53 ≤ 1 := by norm_num
    generalize (1 : ℝ) - 2⁻¹ ^ 53 = a at *
    have h1 : a * (a * x + a * y) ≤ P := (mul_le_mul_of_nonneg_left (add_le_add x1 y1) a0).trans p
    have h2 : a * (a * z) ≤ Z := (mul_le_of_le_one_left (mul_nonneg a0 hz) a1).trans z1
    refine le_trans (le_of_eq ?_) ((mul_le_mul_of_nonneg_left (add_le_add h1 h2) a0).trans r)
    ring
  have hi : D ≤ (1 + 2⁻¹ ^ 53) ^ 3 * (x + y + z) := by
    have b1 : (1 : ℝ) ≤ 1 + 2⁻¹ ^ 53 := by norm_num
    generalize (1 : ℝ) + 2⁻¹ ^ 53 = b at *
    have b0 : 0 ≤ b := zero_le_one.trans b1
    have h1 : P ≤ b * (b * x + b * y) := q.trans (mul_le_mul_of_nonneg_left (add_le_add x2 y2) b0)
    have h2 : Z ≤ b * (b * z) := z2.trans (le_mul_of_one_le_left (mul_nonneg b0 hz) b1)
    refine (s.trans (mul_le_mul_of_nonneg_left (add_le_add h1 h2) b0)).trans (le_of_eq ?_)
    ring
  have n0 : 0 ≤ x + y + z := by linarith
  generalize x + y + z = n at *
  obtain ⟨c, d⟩ := rnd_rel (sqrt_nonneg D)
  constructor
  · refine le_trans ?_ c
    have : (1 - 2 * 2⁻¹ ^ 53) * √n ≤ √D := by
      rw [show (1 - 2 * 2⁻¹ ^ 53 : ℝ) * √n = √((1 - 2 * 2⁻¹ ^ 53) ^ 2 * n) by
        rw [sqrt_mul (sq_nonneg _), sqrt_sq (by norm_num)]]
      refine sqrt_le_sqrt (le_trans (mul_le_mul_of_nonneg_right ?_ n0) lo)
      norm_num
    have := mul_le_mul_of_nonneg_left this (show (0 : ℝ) ≤ 1 - 2⁻¹ ^ 53 by norm_num)
    refine le_trans ?_ this
    rw [← mul_assoc]
    exact mul_le_mul_of_nonneg_right (by norm_num) (sqrt_nonneg n)
  · refine d.trans ?_
    have : √D ≤ (1 + 7 / 4 * 2⁻¹ ^ 53) * √n := by
      rw [show (1 + 7 / 4 * 2⁻¹ ^ 53 : ℝ) * √n = √((1 + 7 / 4 * 2⁻¹ ^ 53) ^ 2 * n) by
        rw [sqrt_mul (sq_nonneg _), sqrt_sq (by norm_num)]]
      refine sqrt_le_sqrt (hi.trans (mul_le_mul_of_nonneg_right ?_ n0))
      norm_num
    have := mul_le_mul_of_nonneg_left this (show (0 : ℝ) ≤ 1 + 2⁻¹ ^ 53 by norm_num)
    refine this.trans ?_
    rw [← mul_assoc]
    exact mul_le_mul_of_nonneg_right (by norm_num) (sqrt_nonneg n)

theorem len_pos {v : V3} (h : v ≠ ⟨0, 0, 0⟩) : 0 < √(v.x ^ 2 + v.y ^ 2 + v.z ^ 2) := by
  refine sqrt_pos.mpr ?_
  by_contra hn
  apply h
  have hx := sq_nonneg v.x
  have hy := sq_nonneg v.y
  have hz := sq_nonneg v.z
  have ex : v.x = 0 := pow_eq_zero_iff (two_ne_zero) |>.mp (by linarith)
  have ey : v.y = 0 := pow_eq_zero_iff (two_ne_zero) |>.mp (by linarith)
  have ez : v.z = 0 := pow_eq_zero_iff (two_ne_zero) |>.mp (by linarith)
  cases v
  simp_all

/-- a coordinate of a normalised vector -/
theorem div_nrm_rel {v : V3} (h : v ≠ ⟨0, 0, 0⟩) (t : ℝ) :
    |rnd (t / nrm binary64 v) - t / √(v.x ^ 2 + v.y ^ 2 + v.z ^ 2)| ≤ 5 * 2⁻¹ ^ 53 * |t / √(v.x ^ 2 + v.y ^ 2 + v.z ^ 2)| := by
  have n0 := len_pos h
  obtain ⟨lo, hi⟩ := nrm_rel v
  generalize √(v.x ^ 2 + v.y ^ 2 + v.z ^ 2) = n at *
  have m0 : 0 < nrm binary64 v := lt_of_lt_of_le (mul_pos (by norm_num) n0) lo
  generalize nrm binary64 v = m at *
  obtain ⟨d, e, hd⟩ := rnd_fac (t / m)
  rw [e]
  have : t / m * (1 + d) - t / n = t / n * (n / m * (1 + d) - 1) := by field_simp
  rw [this, abs_mul, mul_comm]
  refine mul_le_mul_of_nonneg_right ?_ (abs_nonneg _)
  have r1 : n / m ≤ 1 / (1 - 3 * 2⁻¹ ^ 53) := by
    rw [div_le_div_iff₀ m0 (by norm_num)]
    linarith
  have r2 : 1 / (1 + 3 * 2⁻¹ ^ 53) ≤ n / m := by
    rw [div_le_div_iff₀ (by norm_num) m0]
    linarith
  obtain ⟨d1, d2⟩ := abs_le.mp hd
  have r0 : 0 ≤ n / m := (div_pos n0 m0).le
  generalize n / m = r at *
  rw [abs_le]
  constructor
  · have := mul_le_mul r2 (show 1 - 2⁻¹ ^ 53 ≤ 1 + d by linarith) (by norm_num) r0
    refine le_trans ?_ (sub_le_sub_right this 1)
    norm_num
  · have := mul_le_mul r1 (show 1 + d ≤ 1 + 2⁻¹ ^ 53 by linarith) (by norm_num at d1 ⊢; linarith) (by norm_num)
    refine (sub_le_sub_right this 1).trans ?_
    norm_num

theorem prod_rel {p q a b u : ℝ} (u0 : 0 ≤ u) (u1 : u ≤ 1 / 10) (hp : |p - a| ≤ u * |a|) (hq : |q - b| ≤ u * |b|) :
    |p * q - a * b| ≤ 2.1 * u * |a * b| := by
  have : p * q - a * b = (p - a) * (q - b) + (p - a) * b + a * (q - b) := by ring
  rw [this]
  have h1 : |(p - a) * (q - b)| ≤ u * |a| * (u * |b|) := by
    rw [abs_mul]; exact mul_le_mul hp hq (abs_nonneg _) (mul_nonneg u0 (abs_nonneg _))
  have h2 : |(p - a) * b| ≤ u * |a| * |b| := by rw [abs_mul]; exact mul_le_mul_of_nonneg_right hp (abs_nonneg _)
  have h3 : |a * (q - b)| ≤ |a| * (u * |b|) := by rw [abs_mul]; exact mul_le_mul_of_nonneg_left hq (abs_nonneg _)
  have t := (abs_add_le ((p - a) * (q - b) + (p - a) * b) (a * (q - b))).trans (add_le_add (abs_add_le _ _) le_rfl)
  have ab := mul_nonneg (abs_nonneg a) (abs_nonneg b)
  have k : u * (u * (|a| * |b|)) ≤ 1 / 10 * (u * (|a| * |b|)) := mul_le_mul_of_nonneg_right u1 (mul_nonneg u0 ab)
  rw [abs_mul a b]
  refine t.trans ?_
  linarith

/-- a dot product with rounded factors -/
theorem dot_rel {p q r x y z : ℝ} (hx : |p - x| ≤ 11 * 2⁻¹ ^ 53 * |x|) (hy : |q - y| ≤ 11 * 2⁻¹ ^ 53 * |y|) (hz : |r - z| ≤ 11 * 2⁻¹ ^ 53 * |z|) :
    |rnd (rnd (rnd p + rnd q) + rnd r) - (x + y + z)| ≤ 15 * 2⁻¹ ^ 53 * (|x| + |y| + |z|) := by
  have one : ∀ p x : ℝ, |p - x| ≤ 11 * 2⁻¹ ^ 53 * |x| → |rnd p - x| ≤ 12.1 * 2⁻¹ ^ 53 * |x| := by
    intro p x h
    have r := rnd_near p
    have : |p| ≤ |p - x| + |x| := by simpa using abs_add_le (p - x) x
    have t : |rnd p - x| ≤ |rnd p - p| + |p - x| := by simpa using abs_add_le (rnd p - p) (p - x)
    have x0 := abs_nonneg x
    have : |p| ≤ 1.1 * |x| := by
      have : (11 * 2⁻¹ ^ 53 : ℝ) * |x| ≤ 0.1 * |x| := mul_le_mul_of_nonneg_right (by norm_num) x0
      linarith
    have := mul_le_mul_of_nonneg_left this (show (0 : ℝ) ≤ 2⁻¹ ^ 53 by norm_num)
    linarith
  have X := one p x hx
  have Y := one q y hy
  have Z := one r z hz
  generalize rnd p = P at *
  generalize rnd q = Q at *
  generalize rnd r = R at *
  have hn : ∀ s w E N : ℝ, |s - w| ≤ E * 2⁻¹ ^ 53 * N → |w| ≤ N → 0 ≤ N → E ≤ 20 → |rnd s - w| ≤ (E + 1.1) * 2⁻¹ ^ 53 * N := by
    intro s w E N h hw hN hE
    have r := rnd_near s
    have : |s| ≤ |s - w| + |w| := by simpa using abs_add_le (s - w) w
    have t : |rnd s - w| ≤ |rnd s - s| + |s - w| := by simpa using abs_add_le (rnd s - s) (s - w)
    have : |s| ≤ 1.1 * N := by
      have : E * 2⁻¹ ^ 53 * N ≤ 0.1 * N := mul_le_mul_of_nonneg_right (by norm_num; linarith) hN
      linarith
    have := mul_le_mul_of_nonneg_left this (show (0 : ℝ) ≤ 2⁻¹ ^ 53 by norm_num)
    linarith
  have x0 := abs_nonneg x
  have y0 := abs_nonneg y
  have z0 := abs_nonneg z
  have S := hn (P + Q) (x + y) 12.1 (|x| + |y|) (by
    rw [show P + Q - (x + y) = (P - x) + (Q - y) by ring]
    refine (abs_add_le _ _).trans ?_
    linarith) (abs_add_le x y) (by linarith) (by norm_num)
  generalize rnd (P + Q) = T at *
  have U := hn (T + R) (x + y + z) 13.2 (|x| + |y| + |z|) (by
    rw [show T + R - (x + y + z) = (T - (x + y)) + (R - z) by ring]
    refine (abs_add_le _ _).trans ?_
    have : (0 : ℝ) ≤ 2⁻¹ ^ 53 * |z| := mul_nonneg (by norm_num) z0
    linarith) ((abs_add_le _ _).trans (by linarith [abs_add_le x y])) (by linarith) (by norm_num)
  refine U.trans (mul_le_mul_of_nonneg_right (by norm_num) (by linarith))

/-- **C222** the angle between two normalised vectors is the angle between the vectors to 1e-7, for all vectors other
than zero -/
theorem C222_error_partial {v w : V3} (hv : v ≠ ⟨0, 0, 0⟩) (hw : w ≠ ⟨0, 0, 0⟩) :
    ∃ p q t, normF binary64 v = some p ∧ normF binary64 w = some q ∧ radiansF binary64 p q = some t ∧ |t - between v w| ≤ 1 / 10 ^ 7 := by
  have nv : nrm binary64 v ≠ 0 := (lt_of_lt_of_le (mul_pos (by norm_num) (len_pos hv)) (nrm_rel v).1).ne'
  have nw : nrm binary64 w ≠ 0 := (lt_of_lt_of_le (mul_pos (by norm_num) (len_pos hw)) (nrm_rel w).1).ne'
  refine ⟨_, _, _, if_neg nv, if_neg nw, if_pos ⟨le_min (le_max_right _ _) (by norm_num), min_le_right _ _⟩, ?_⟩
  have dv := div_nrm_rel hv
  have dw := div_nrm_rel hw
  have lv := len_pos hv
  have lw := len_pos hw
  have sv := sq_sqrt (show 0 ≤ v.x ^ 2 + v.y ^ 2 + v.z ^ 2 by positivity)
  have sw := sq_sqrt (show 0 ≤ w.x ^ 2 + w.y ^ 2 + w.z ^ 2 by positivity)
  unfold between
  generalize √(v.x ^ 2 + v.y ^ 2 + v.z ^ 2) = n at *
  generalize √(w.x ^ 2 + w.y ^ 2 + w.z ^ 2) = m at *
  have pr := fun a b => prod_rel (show (0 : ℝ) ≤ 5 * 2⁻¹ ^ 53 by norm_num) (by norm_num) (dv a) (dw b)
  have pr' : ∀ a b, |rnd (a / nrm binary64 v) * rnd (b / nrm binary64 w) - a / n * (b / m)| ≤ 11 * 2⁻¹ ^ 53 * |a / n * (b / m)| := fun a b =>
    (pr a b).trans (mul_le_mul_of_nonneg_right (by norm_num) (abs_nonneg _))
  have D := dot_rel (pr' v.x w.x) (pr' v.y w.y) (pr' v.z w.z)
  change |arccos (min (max (rnd (rnd (rnd (rnd (v.x / nrm binary64 v) * rnd (w.x / nrm binary64 w)) +
    rnd (rnd (v.y / nrm binary64 v) * rnd (w.y / nrm binary64 w))) + rnd (rnd (v.z / nrm binary64 v) * rnd (w.z / nrm binary64 w)))) (-1)) 1) - _| ≤ _
  have cs : |v.x / n * (w.x / m)| + |v.y / n * (w.y / m)| + |v.z / n * (w.z / m)| ≤ 1 := by
    have k : ∀ a b : ℝ, |a * b| ≤ (a ^ 2 + b ^ 2) / 2 := fun a b => by
      rw [abs_mul, ← sq_abs a, ← sq_abs b]
      linarith [sq_nonneg (|a| - |b|), sub_sq |a| |b|]
    have h1 : (v.x / n) ^ 2 + (v.y / n) ^ 2 + (v.z / n) ^ 2 = 1 := by
      rw [div_pow, div_pow, div_pow, ← add_div, ← add_div, ← sv, div_self (pow_pos lv 2).ne']
    have h2 : (w.x / m) ^ 2 + (w.y / m) ^ 2 + (w.z / m) ^ 2 = 1 := by
      rw [div_pow, div_pow, div_pow, ← add_div, ← add_div, ← sw, div_self (pow_pos lw 2).ne']
    linarith [k (v.x / n) (w.x / m), k (v.y / n) (w.y / m), k (v.z / n) (w.z / m)]
  have D' := D.trans (mul_le_mul_of_nonneg_left cs (show (0 : ℝ) ≤ 15 * 2⁻¹ ^ 53 by norm_num))
  have ce : (v.x * w.x + v.y * w.y + v.z * w.z) / (n * m) = v.x / n * (w.x / m) + v.y / n * (w.y / m) + v.z / n * (w.z / m) := by
    field_simp
  rw [ce]
  have c1 : |v.x / n * (w.x / m) + v.y / n * (w.y / m) + v.z / n * (w.z / m)| ≤ 1 :=
    ((abs_add_le _ _).trans (add_le_add (abs_add_le _ _) le_rfl)).trans cs
  generalize v.x / n * (w.x / m) + v.y / n * (w.y / m) + v.z / n * (w.z / m) = c at *
  generalize rnd (rnd (rnd (rnd (v.x / nrm binary64 v) * rnd (w.x / nrm binary64 w)) +
    rnd (rnd (v.y / nrm binary64 v) * rnd (w.y / nrm binary64 w))) + rnd (rnd (v.z / nrm binary64 v) * rnd (w.z / nrm binary64 w))) = d at *
  obtain ⟨cl, cr⟩ := abs_le.mp c1
  have clip : |min (max d (-1)) 1 - c| ≤ |d - c| := by
    rcases le_total d (-1) with h | h
    · rw [max_eq_right h, min_eq_left (by norm_num), abs_of_nonpos (by linarith), abs_of_nonpos (by linarith)]
      linarith
    · rw [max_eq_left h]
      rcases le_total d 1 with h' | h'
      · rw [min_eq_left h']
      · rw [min_eq_right h', abs_of_nonneg (by linarith), abs_of_nonneg (by linarith)]
        linarith
  have e0 : -1 ≤ min (max d (-1)) 1 := le_min (le_max_right _ _) (by norm_num)
  have e1 : min (max d (-1)) 1 ≤ 1 := min_le_right _ _
  generalize min (max d (-1)) 1 = e at *
  have K := acos_le (arccos_nonneg e) (arccos_le_pi e) (arccos_nonneg c) (arccos_le_pi c)
  rw [cos_arccos e0 e1, cos_arccos cl cr] at K
  have E : |e - c| ≤ 15 * 2⁻¹ ^ 53 := clip.trans (D'.trans (by norm_num))
  have p2 : π ^ 2 ≤ 10 := by
    have := pi_lt_d2
    have h0 := pi_pos
    calc π ^ 2 ≤ 3.15 ^ 2 := pow_le_pow_left₀ h0.le (by linarith) 2
      _ ≤ 10 := by norm_num
  have K' := K.trans (mul_le_mul p2 E (abs_nonneg _) (by norm_num))
  refine abs_le_of_sq_le_sq ?_ (by norm_num)
  norm_num at K' ⊢
  linarith

/-- **C222** the property: the angle between normalised vectors is the angle between the vectors up to rounding, here to
1e-9, for vectors of doubles -/
def C222_statement : Prop :=
  ∀ v w p q : V3, ∀ t, IsDouble3 v → IsDouble3 w → normF binary64 v = some p → normF binary64 w = some q → radiansF binary64 p q = some t →
    |t - between v w| ≤ 1 / 10 ^ 9

/-- **C222** is false: the angle of (1, 1, 0) with itself is 2e-8, as the sum of the squares of its normalised coordinates is below 1 -/
theorem C222_refuted : ¬ C222_statement := by
  intro h
  have one : rnd 1 = 1 := by simpa using rnd_pow 0
  have s2 : rnd √2 = 6369051672525773 * 2 ^ (-52 : ℤ) := by
    have l : (6369051672525772.51 : ℝ) / 2 ^ 52 ≤ √2 := le_sqrt_of_sq_le (by norm_num)
    have u : √2 ≤ (6369051672525773.4 : ℝ) / 2 ^ 52 := sqrt_le_iff.mpr ⟨by norm_num, by norm_num⟩
    have := rnd_eq (x := √2) 0 6369051672525773 (by
      rw [abs_of_nonneg (sqrt_nonneg 2), zpow_zero]; refine le_trans ?_ l; norm_num) (by
      rw [abs_of_nonneg (sqrt_nonneg 2)]; refine lt_of_le_of_lt u ?_; norm_num) (by
      rw [show ((0 : ℤ) - 52) = -52 by norm_num, zpow_neg, div_inv_eq_mul, abs_lt]
      norm_num at l u ⊢
      constructor <;> linarith)
    rw [this]
    norm_num
  have hn : nrm binary64 ⟨1, 1, 0⟩ = 6369051672525773 * 2 ^ (-52 : ℤ) := by
    change rnd (√(rnd (rnd (rnd (1 * 1) + rnd (1 * 1)) + rnd (0 * 0)))) = _
    have two : rnd 2 = 2 := by simpa using rnd_pow 1
    rw [mul_one, one, mul_zero, rnd_zero, show (1 : ℝ) + 1 = 2 by norm_num, two, add_zero, two, s2]
  have hx : rnd (1 / (6369051672525773 * 2 ^ (-52 : ℤ))) = 6369051672525772 * 2 ^ (-53 : ℤ) := by
    have := rnd_eq (x := 1 / (6369051672525773 * 2 ^ (-52 : ℤ))) (-1) 6369051672525772 (by norm_num [abs_of_pos]) (by norm_num [abs_of_pos]) (by
      norm_num [abs_lt])
    rw [this]
    norm_num
  have hq : rnd (6369051672525772 * 2 ^ (-53 : ℤ) * (6369051672525772 * 2 ^ (-53 : ℤ))) = 9007199254740990 * 2 ^ (-54 : ℤ) := by
    have := rnd_eq (x := 6369051672525772 * 2 ^ (-53 : ℤ) * (6369051672525772 * 2 ^ (-53 : ℤ))) (-2) 9007199254740990 (by norm_num [abs_of_pos]) (by norm_num [abs_of_pos]) (by
      norm_num [abs_lt])
    rw [this]
    norm_num
  have hp : normF binary64 ⟨1, 1, 0⟩ = some ⟨6369051672525772 * 2 ^ (-53 : ℤ), 6369051672525772 * 2 ^ (-53 : ℤ), 0⟩ := by
    unfold normF
    rw [hn, if_neg (by norm_num)]
    change some (V3.mk (rnd _) (rnd _) (rnd _)) = _
    rw [hx, zero_div, rnd_zero]
  have hd : binary64.dot3 ⟨6369051672525772 * 2 ^ (-53 : ℤ), 6369051672525772 * 2 ^ (-53 : ℤ), 0⟩ ⟨6369051672525772 * 2 ^ (-53 : ℤ), 6369051672525772 * 2 ^ (-53 : ℤ), 0⟩ =
      9007199254740990 * 2 ^ (-53 : ℤ) := by
    change rnd (rnd (rnd (6369051672525772 * 2 ^ (-53 : ℤ) * (6369051672525772 * 2 ^ (-53 : ℤ))) + rnd (6369051672525772 * 2 ^ (-53 : ℤ) * (6369051672525772 * 2 ^ (-53 : ℤ)))) + rnd (0 * 0)) = _
    have := rnd_float (k := 9007199254740990) (-53) (by norm_num)
    push_cast at this
    rw [hq, mul_zero, rnd_zero, add_zero, ← two_mul, show (2 : ℝ) * (9007199254740990 * 2 ^ (-54 : ℤ)) = 9007199254740990 * 2 ^ (-53 : ℤ) by norm_num,
      this, this]
  have dbl : IsDouble3 ⟨1, 1, 0⟩ := ⟨⟨1, 0, by norm_num, by simp⟩, ⟨1, 0, by norm_num, by simp⟩, isDouble_zero⟩
  have := h ⟨1, 1, 0⟩ ⟨1, 1, 0⟩ _ _ (arccos (9007199254740990 * 2 ^ (-53 : ℤ))) dbl dbl hp hp (by
    unfold radiansF npArccos
    rw [hd, max_eq_left (by norm_num), min_eq_left (by norm_num), if_pos (by norm_num)])
  have b0 : between ⟨1, 1, 0⟩ ⟨1, 1, 0⟩ = 0 := by
    unfold between
    rw [mul_self_sqrt (by norm_num)]
    norm_num
  rw [b0, sub_zero, abs_of_nonneg (arccos_nonneg _)] at this
  have c := cos_le_cos_of_nonneg_of_le_pi (arccos_nonneg _) (show (1 : ℝ) / 10 ^ 9 ≤ π by norm_num; linarith [pi_gt_three]) this
  rw [cos_arccos (by norm_num) (by norm_num)] at c
  have l := one_sub_sq_div_two_le_cos (x := 1 / 10 ^ 9)
  norm_num at c l
  linarith

/-- the hypotheses are met by vectors that are not of length one -/
example : (⟨3, 4, 0⟩ : V3) ≠ ⟨0, 0, 0⟩ ∧ (⟨0, 0, 2⟩ : V3) ≠ ⟨0, 0, 0⟩ := by
  constructor <;> intro h <;> simp at h

end Verif.Fp
