import Verif.Lemmas.SquareLipschitz
import Verif.Props.Square

/-! C179 Neighbouring directions have neighbouring coordinates, and the other way round. -/

namespace Verif.Geo
open Real

/-! ### From directions to coordinates -/

/-- Spec: distance of two vectors -/
noncomputable def gap (p q : V3) : ℝ := √((p.x - q.x) ^ 2 + (p.y - q.y) ^ 2 + (p.z - q.z) ^ 2)

theorem gap_z (p q : V3) : |p.z - q.z| ≤ gap p q := by
  unfold gap; apply le_sqrt_of_sq_le; rw [sq_abs]; nlinarith [sq_nonneg (p.x - q.x), sq_nonneg (p.y - q.y)]

theorem gap_xy (p q : V3) : √((p.x - q.x) ^ 2 + (p.y - q.y) ^ 2) ≤ gap p q := by
  unfold gap; apply sqrt_le_sqrt; nlinarith [sq_nonneg (p.z - q.z)]

/-- length of a sum of two plane vectors -/
theorem hyp_add (a b c d : ℝ) : √((a + c) ^ 2 + (b + d) ^ 2) ≤ √(a ^ 2 + b ^ 2) + √(c ^ 2 + d ^ 2) := by
  have h1 := sq_sqrt (show 0 ≤ a ^ 2 + b ^ 2 by positivity)
  have h2 := sq_sqrt (show 0 ≤ c ^ 2 + d ^ 2 by positivity)
  have p1 := sqrt_nonneg (a ^ 2 + b ^ 2)
  have p2 := sqrt_nonneg (c ^ 2 + d ^ 2)
  rw [sqrt_le_left (by positivity)]
  have h3 : a * c + b * d ≤ √(a ^ 2 + b ^ 2) * √(c ^ 2 + d ^ 2) := by
    rw [← sqrt_mul (by positivity)]
    apply le_sqrt_of_sq_le
    nlinarith [sq_nonneg (a * d - b * c)]
  nlinarith

theorem hyp_scale (k a b : ℝ) : √((k * a) ^ 2 + (k * b) ^ 2) = |k| * √(a ^ 2 + b ^ 2) := by
  rw [show (k * a) ^ 2 + (k * b) ^ 2 = k ^ 2 * (a ^ 2 + b ^ 2) by ring, sqrt_mul (sq_nonneg k), sqrt_sq_eq_abs]

/-- the scale between sphere and disk -/
theorem scale_lip {z z' : ℝ} (h : 0 ≤ z) (h' : 0 ≤ z') : |1 / √(1 + z) - 1 / √(1 + z')| ≤ |z - z'| / 2 := by
  have s1 := sq_sqrt (show 0 ≤ 1 + z by linarith)
  have s2 := sq_sqrt (show 0 ≤ 1 + z' by linarith)
  have l1 : 1 ≤ √(1 + z) := one_le_sqrt.mpr (by linarith)
  have l2 : 1 ≤ √(1 + z') := one_le_sqrt.mpr (by linarith)
  set a := √(1 + z)
  set b := √(1 + z')
  have e : 1 / a - 1 / b = (z' - z) / (a * b * (a + b)) := by
    have : z' - z = (b - a) * (a + b) := by linarith
    rw [this]; field_simp
  have hp : 2 ≤ a * b * (a + b) := by nlinarith [mul_le_mul l1 l2 (by norm_num) (by linarith)]
  rw [e, abs_div, abs_of_pos (show 0 < a * b * (a + b) by linarith), abs_sub_comm]
  exact div_le_div_of_nonneg_left (abs_nonneg _) (by norm_num) hp

/-- the points on the disk of two directions above the horizon -/
theorem disk_lip {p q : V3} (hp : p.normSq = 1) (hq : q.normSq = 1) (zp : 0 ≤ p.z) (zq : 0 ≤ q.z) :
    √((p.x / √(1 + p.z) - q.x / √(1 + q.z)) ^ 2 + (p.y / √(1 + p.z) - q.y / √(1 + q.z)) ^ 2) ≤ 1.5 * gap p q := by
  have e1 : p.x / √(1 + p.z) - q.x / √(1 + q.z) =
      1 / √(1 + p.z) * (p.x - q.x) + (1 / √(1 + p.z) - 1 / √(1 + q.z)) * q.x := by ring
  have e2 : p.y / √(1 + p.z) - q.y / √(1 + q.z) =
      1 / √(1 + p.z) * (p.y - q.y) + (1 / √(1 + p.z) - 1 / √(1 + q.z)) * q.y := by ring
  rw [e1, e2]
  refine (hyp_add _ _ _ _).trans ?_
  rw [hyp_scale, hyp_scale]
  have l1 : 1 ≤ √(1 + p.z) := one_le_sqrt.mpr (by linarith)
  have b1 : |1 / √(1 + p.z)| ≤ 1 := by
    rw [abs_of_pos (by positivity), div_le_one (by linarith)]; exact l1
  have b2 : √(q.x ^ 2 + q.y ^ 2) ≤ 1 := by
    rw [sqrt_le_one]
    unfold V3.normSq at hq
    nlinarith [sq_nonneg q.z]
  have b3 := scale_lip zp zq
  have b4 := gap_z p q
  have b5 := gap_xy p q
  have c1 := mul_le_mul b1 b5 (sqrt_nonneg _) (by norm_num)
  have c2 := mul_le_mul b3 b2 (sqrt_nonneg _) (by positivity)
  linarith

theorem xyz2sq_up {x y z : ℝ} (h : 0 ≤ z) : xyz2sq x y z = disk2sq (x / √(1 + z)) (y / √(1 + z)) := by
  unfold xyz2sq zsign
  rw [if_neg (not_lt.mpr h), one_mul, show 2 - (1 - z) = 1 + z by ring]

theorem xyz2sq_down {x y z : ℝ} (h : z < 0) : xyz2sq x y z = disk2sq (x / √(1 + -z)) (y / √(1 + -z)) := by
  unfold xyz2sq zsign
  rw [if_pos h, show 2 - (1 - -1 * z) = 1 + -z by ring]

/-- **C179** two directions on the same side of the horizon have coordinates no further apart than 2.25 times their
distance: there is no seam within a hemisphere, not where the angle jumps and not at the diagonals. -/
theorem C179_near (flipu : Bool) (p q : V3) (hp : p.normSq = 1) (hq : q.normSq = 1)
    (hs : 0 ≤ p.z ∧ 0 ≤ q.z ∨ p.z < 0 ∧ q.z < 0) :
    |(xyz2uv flipu p).1 - (xyz2uv flipu q).1| ≤ 2.25 * gap p q ∧ |(xyz2uv flipu p).2 - (xyz2uv flipu q).2| ≤ 2.25 * gap p q := by
  have key : ∀ x y, |(xyz2sq p.x p.y p.z).1 - (xyz2sq q.x q.y q.z).1| ≤ x → |(xyz2sq p.x p.y p.z).2 - (xyz2sq q.x q.y q.z).2| ≤ y →
      zsign p.z = zsign q.z →
      |(xyz2uv flipu p).1 - (xyz2uv flipu q).1| ≤ x / 2 ∧ |(xyz2uv flipu p).2 - (xyz2uv flipu q).2| ≤ y / 2 := by
    intro x y hx hy hz
    unfold xyz2uv xyz2uvA
    simp only [Bool.false_eq_true, if_false, Axes.std, V3.get]
    rw [hz]
    unfold sq2uv
    have hn : |zsign q.z| = 1 := by unfold zsign; split_ifs <;> norm_num
    constructor
    · cases flipu
      · simp only [Bool.false_eq_true, if_false]
        rw [show ∀ a b c : ℝ, (a + 2 - c) / 2 - (b + 2 - c) / 2 = (a - b) / 2 by intros; ring, abs_div, abs_two]
        linarith
      · simp only [if_true]
        rw [show ∀ a b c d : ℝ, (d - a * c) / 2 - (d - b * c) / 2 = c * (b - a) / 2 by intros; ring, abs_div, abs_two, abs_mul,
          hn, one_mul, abs_sub_comm]
        linarith
    · simp only
      rw [show ∀ a b : ℝ, (a + 1) / 2 - (b + 1) / 2 = (a - b) / 2 by intros; ring, abs_div, abs_two]
      linarith
  rcases hs with ⟨zp, zq⟩ | ⟨zp, zq⟩
  · have hd := disk_lip hp hq zp zq
    have h1 := disk2sq_lip (p.x / √(1 + p.z)) (p.y / √(1 + p.z)) (q.x / √(1 + q.z)) (q.y / √(1 + q.z))
    rw [← xyz2sq_up zp, ← xyz2sq_up zq] at h1
    have := key _ _ (h1.1.trans (mul_le_mul_of_nonneg_left hd (by norm_num)))
      (h1.2.trans (mul_le_mul_of_nonneg_left hd (by norm_num)))
      (by unfold zsign; rw [if_neg (not_lt.mpr zp), if_neg (not_lt.mpr zq)])
    constructor <;> linarith [this.1, this.2]
  · have hd := disk_lip (p := ⟨p.x, p.y, -p.z⟩) (q := ⟨q.x, q.y, -q.z⟩) (by unfold V3.normSq at *; simpa using hp)
      (by unfold V3.normSq at *; simpa using hq) (by simp only; linarith) (by simp only; linarith)
    have hg : gap ⟨p.x, p.y, -p.z⟩ ⟨q.x, q.y, -q.z⟩ = gap p q := by
      unfold gap; congr 1; simp only; ring
    rw [hg] at hd
    simp only at hd
    have h1 := disk2sq_lip (p.x / √(1 + -p.z)) (p.y / √(1 + -p.z)) (q.x / √(1 + -q.z)) (q.y / √(1 + -q.z))
    rw [← xyz2sq_down zp, ← xyz2sq_down zq] at h1
    have := key _ _ (h1.1.trans (mul_le_mul_of_nonneg_left hd (by norm_num)))
      (h1.2.trans (mul_le_mul_of_nonneg_left hd (by norm_num)))
      (by unfold zsign; rw [if_pos zp, if_pos zq])
    constructor <;> linarith [this.1, this.2]

example : (⟨3 / 5, 0, 4 / 5⟩ : V3).normSq = 1 ∧ (⟨0, 3 / 5, 4 / 5⟩ : V3).normSq = 1 := by
  constructor <;> norm_num [V3.normSq]

/-- straight up on the disk is straight up on the square -/
theorem disk2sq_up {y : ℝ} (h : 0 < y) : (disk2sq 0 y).1 = 0 := by
  have hp := pi_pos
  have e : disk2sq (y * cos (π / 2)) (y * sin (π / 2)) = _ := disk2sq_polar h (by linarith) (by linarith)
  rw [cos_pi_div_two, sin_pi_div_two, mul_zero, mul_one, if_neg (by linarith), add_zero] at e
  rw [e]
  unfold wedge
  rw [if_neg (by linarith), if_pos (by linarith)]
  simp

/-- **C179** the horizon is a seam: as near as you like there are two directions, one on and one below the horizon, whose
first coordinates differ by one. -/
theorem C179_horizon (e : ℝ) (he : 0 < e) : ∃ p q : V3, p.normSq = 1 ∧ q.normSq = 1 ∧ gap p q ≤ e ∧
    (xyz2uv false q).1 - (xyz2uv false p).1 = 1 := by
  obtain ⟨t, t0, t1, t2⟩ : ∃ t : ℝ, 0 < t ∧ t ≤ 1 / 2 ∧ t ≤ e / 2 :=
    ⟨min (1 / 2) (e / 2), lt_min (by norm_num) (by linarith), min_le_left _ _, min_le_right _ _⟩
  have k : 0 < 1 + t ^ 2 := by positivity
  have y0 : 0 < (1 - t ^ 2) / (1 + t ^ 2) := div_pos (by nlinarith) k
  have z0 : -(2 * t / (1 + t ^ 2)) < 0 := neg_neg_of_pos (by positivity)
  refine ⟨⟨0, 1, 0⟩, ⟨0, (1 - t ^ 2) / (1 + t ^ 2), -(2 * t / (1 + t ^ 2))⟩, by norm_num [V3.normSq], ?_, ?_, ?_⟩
  · unfold V3.normSq; simp only; field_simp; ring
  · unfold gap
    simp only
    rw [sqrt_le_left he.le]
    have h : ((0 : ℝ) - 0) ^ 2 + (1 - (1 - t ^ 2) / (1 + t ^ 2)) ^ 2 + (0 - -(2 * t / (1 + t ^ 2))) ^ 2 = 4 * t ^ 2 / (1 + t ^ 2) := by
      field_simp; ring
    rw [h, div_le_iff₀ k]
    nlinarith [mul_self_le_mul_self t0.le t2, sq_nonneg (e * t)]
  · unfold xyz2uv xyz2uvA
    simp only [Bool.false_eq_true, if_false, Axes.std, V3.get]
    rw [xyz2sq_up le_rfl, xyz2sq_down z0]
    unfold sq2uv
    simp only [Bool.false_eq_true, if_false]
    rw [zero_div, zero_div, disk2sq_up (div_pos y0 (sqrt_pos.mpr (by linarith))), disk2sq_up (div_pos one_pos (sqrt_pos.mpr (by norm_num)))]
    unfold zsign
    rw [if_pos z0, if_neg (lt_irrefl _)]
    norm_num

/-! ### From coordinates to directions -/

/-- along the boundary of the square no way is longer than twice the distance -/
theorem side_inv {s t : ℝ} (hs : -1 ≤ s) (hs' : s < 7) (ht : -1 ≤ t) (ht' : t < 7) {d : ℝ} (hA : |sideA s - sideA t| ≤ d)
    (hB : |sideB s - sideB t| ≤ d) : ∃ m : ℤ, |s - t - 8 * m| ≤ 2 * d := by
  have val : ∀ s, -1 ≤ s → s < 7 → (-1 ≤ s ∧ s ≤ 1 ∧ sideA s = 1 ∧ sideB s = s) ∨ (1 ≤ s ∧ s ≤ 3 ∧ sideA s = 2 - s ∧ sideB s = 1) ∨
      (3 ≤ s ∧ s ≤ 5 ∧ sideA s = -1 ∧ sideB s = 4 - s) ∨ (5 ≤ s ∧ s ≤ 7 ∧ sideA s = s - 6 ∧ sideB s = -1) := by
    intro s h h'
    have hp := pi_pos
    have hw := wedge_side 1 (phi := s * (π / 4)) (by nlinarith) (by nlinarith)
    rw [show 4 * (s * (π / 4)) / π = s by field_simp, one_mul, one_mul] at hw
    have e : ∀ x : ℝ, x * 1 / (π / 4) = x / (π / 4) := fun x => by rw [mul_one]
    unfold wedge at hw
    split_ifs at hw with c1 c2 c3
    · left
      have h1 := congrArg Prod.fst hw
      have h2 := congrArg Prod.snd hw
      simp only at h1 h2
      refine ⟨h, by nlinarith, h1.symm, ?_⟩
      rw [← h2]; field_simp
    · right; left
      have h1 := congrArg Prod.fst hw
      have h2 := congrArg Prod.snd hw
      simp only at h1 h2
      refine ⟨by nlinarith, by nlinarith, ?_, h2.symm⟩
      rw [← h1]; field_simp; ring
    · right; right; left
      have h1 := congrArg Prod.fst hw
      have h2 := congrArg Prod.snd hw
      simp only at h1 h2
      refine ⟨by nlinarith, by nlinarith, h1.symm, ?_⟩
      rw [← h2]; field_simp; ring
    · right; right; right
      have h1 := congrArg Prod.fst hw
      have h2 := congrArg Prod.snd hw
      simp only at h1 h2
      refine ⟨by nlinarith, h'.le, ?_, h2.symm⟩
      rw [← h1]; field_simp; ring
  obtain ⟨a1, a2⟩ := abs_le.mp hA
  obtain ⟨b1, b2⟩ := abs_le.mp hB
  have fin : ∀ m : ℤ, -(2 * d) ≤ s - t - 8 * m → s - t - 8 * m ≤ 2 * d → ∃ m : ℤ, |s - t - 8 * m| ≤ 2 * d := fun m x y =>
    ⟨m, abs_le.mpr ⟨x, y⟩⟩
  rcases val s hs hs' with ⟨l, u, eA, eB⟩ | ⟨l, u, eA, eB⟩ | ⟨l, u, eA, eB⟩ | ⟨l, u, eA, eB⟩ <;>
  rcases val t ht ht' with ⟨l', u', eA', eB'⟩ | ⟨l', u', eA', eB'⟩ | ⟨l', u', eA', eB'⟩ | ⟨l', u', eA', eB'⟩ <;>
  rw [eA, eA'] at a1 a2 <;> rw [eB, eB'] at b1 b2 <;>
  first
  | exact fin 0 (by push_cast; linarith) (by push_cast; linarith)
  | exact fin 1 (by push_cast; linarith) (by push_cast; linarith)
  | exact fin (-1) (by push_cast; linarith) (by push_cast; linarith)
  | (rcases le_total (s - t) 4 with c | c
     · exact fin 0 (by push_cast; linarith) (by push_cast; linarith)
     · exact fin 1 (by push_cast; linarith) (by push_cast; linarith))
  | (rcases le_total (-4) (s - t) with c | c
     · exact fin 0 (by push_cast; linarith) (by push_cast; linarith)
     · exact fin (-1) (by push_cast; linarith) (by push_cast; linarith))

/-- a component of a point in polar form -/
theorem comp_lip {f : ℝ → ℝ} (hf : ∀ s t, |f s - f t| ≤ |s - t|) (h2 : ∀ (x : ℝ) (m : ℤ), f (x + m * (2 * π)) = f x)
    (hb : ∀ s, |f s| ≤ 1) {r r' α β d : ℝ} (hr : 0 ≤ r) (hr' : 0 ≤ r') (m : ℤ) (hd : |r - r'| ≤ d)
    (h : min r r' * |α - β - m * (2 * π)| ≤ π * d) : |r * f α - r' * f β| ≤ (1 + π) * d := by
  have k : |f α - f β| ≤ |α - β - m * (2 * π)| := by
    rw [← h2 β m]
    refine (hf _ _).trans_eq ?_
    congr 1; ring
  rcases le_total r r' with hc | hc
  · rw [min_eq_left hc] at h
    have e : r * f α - r' * f β = (r - r') * f β + r * (f α - f β) := by ring
    have a1 := abs_add_le ((r - r') * f β) (r * (f α - f β))
    rw [abs_mul, abs_mul, abs_of_nonneg hr] at a1
    have a3 := mul_le_mul_of_nonneg_left k hr
    have a4 := mul_le_mul_of_nonneg_left (hb β) (abs_nonneg (r - r'))
    rw [e]; linarith
  · rw [min_eq_right hc] at h
    have e : r * f α - r' * f β = (r - r') * f α + r' * (f α - f β) := by ring
    have a1 := abs_add_le ((r - r') * f α) (r' * (f α - f β))
    rw [abs_mul, abs_mul, abs_of_nonneg hr'] at a1
    have a3 := mul_le_mul_of_nonneg_left k hr'
    have a4 := mul_le_mul_of_nonneg_left (hb α) (abs_nonneg (r - r'))
    rw [e]; linarith

/-- every point of the square as a place on the boundary of a concentric square -/
theorem place_exists (a b : ℝ) : ∃ r s, 0 ≤ r ∧ r = max |a| |b| ∧ -1 ≤ s ∧ s < 7 ∧ a = r * sideA s ∧ b = r * sideB s ∧
    sqX a b = r * cos (s * (π / 4)) ∧ sqY a b = r * sin (s * (π / 4)) := by
  have hp := pi_pos
  obtain ⟨r, t, hr, h1, h2, ex, ey⟩ := polar_exists (sqX a b) (sqY a b)
  have hm : r = max |a| |b| := by
    have := disk_radius a b
    rw [ex, ey, show (r * cos t) ^ 2 + (r * sin t) ^ 2 = r ^ 2 by nlinarith [sin_sq_add_cos_sq t]] at this
    exact (pow_left_inj₀ hr (le_max_of_le_left (abs_nonneg _)) two_ne_zero).mp this
  rcases eq_or_lt_of_le hr with h0 | h0
  · have ha : a = 0 := by
      have := le_max_left |a| |b|; rw [← hm, ← h0] at this; exact abs_nonpos_iff.mp this
    have hb : b = 0 := by
      have := le_max_right |a| |b|; rw [← hm, ← h0] at this; exact abs_nonpos_iff.mp this
    refine ⟨0, 0, le_rfl, by rw [h0]; exact hm, by norm_num, by norm_num, by rw [ha]; ring, by rw [hb]; ring, ?_, ?_⟩
    · rw [ex, ← h0]; ring
    · rw [ey, ← h0]; ring
  obtain ⟨w0, w1⟩ := wrap_mem h1 h2
  set φ := t + (if t < -(π / 4) then 2 * π else 0) with hφ
  have hd := disk2sq_sq a b
  rw [ex, ey, disk2sq_polar h0 h1 h2, ← hφ, wedge_side _ w0 w1] at hd
  have e1 := congrArg Prod.fst hd
  have e2 := congrArg Prod.snd hd
  simp only at e1 e2
  have eφ : 4 * φ / π * (π / 4) = φ := by field_simp
  refine ⟨r, 4 * φ / π, hr, hm, by rw [le_div_iff₀ hp]; linarith, by rw [div_lt_iff₀ hp]; linarith, e1.symm, e2.symm, ?_, ?_⟩
  · rw [eφ, ex, hφ]; split_ifs
    · rw [cos_add_two_pi]
    · rw [add_zero]
  · rw [eφ, ey, hφ]; split_ifs
    · rw [sin_add_two_pi]
    · rw [add_zero]

/-- the disk point of a square point -/
theorem sq_lip {a b a' b' d : ℝ} (ha : |a - a'| ≤ d) (hb : |b - b'| ≤ d) :
    |sqX a b - sqX a' b'| ≤ (1 + π) * d ∧ |sqY a b - sqY a' b'| ≤ (1 + π) * d ∧ |(max |a| |b|) - (max |a'| |b'|)| ≤ d := by
  have hp := pi_pos
  obtain ⟨r, s, hr, er, s0, s1, ea, eb, ex, ey⟩ := place_exists a b
  obtain ⟨r', s', hr', er', s0', s1', ea', eb', ex', ey'⟩ := place_exists a' b'
  have hd : |r - r'| ≤ d := by
    rw [er, er']
    refine (abs_max_sub_max_le_max _ _ _ _).trans (max_le ?_ ?_)
    · exact (abs_abs_sub_abs_le_abs_sub _ _).trans ha
    · exact (abs_abs_sub_abs_le_abs_sub _ _).trans hb
  have d0 : 0 ≤ d := (abs_nonneg _).trans hd
  have sq : ∀ {f : ℝ → ℝ}, (∀ s, |f s| ≤ 1) → |r * f s - r' * f s'| ≤ d → min r r' * |f s - f s'| ≤ 2 * d := by
    intro f hf h
    rcases le_total r r' with hc | hc
    · rw [min_eq_left hc, ← abs_of_nonneg hr, ← abs_mul]
      rw [show r * (f s - f s') = (r * f s - r' * f s') + (r' - r) * f s' by ring]
      have t1 := abs_add_le (r * f s - r' * f s') ((r' - r) * f s')
      rw [abs_mul, abs_sub_comm r' r] at t1
      have := mul_le_mul hd (hf s') (abs_nonneg _) d0
      linarith
    · rw [min_eq_right hc, ← abs_of_nonneg hr', ← abs_mul]
      rw [show r' * (f s - f s') = (r * f s - r' * f s') + (r' - r) * f s by ring]
      have t1 := abs_add_le (r * f s - r' * f s') ((r' - r) * f s)
      rw [abs_mul, abs_sub_comm r' r] at t1
      have := mul_le_mul hd (hf s) (abs_nonneg _) d0
      linarith
  have hA := sq sideA_le (by rw [← ea, ← ea']; exact ha)
  have hB := sq sideB_le (by rw [← eb, ← eb']; exact hb)
  obtain ⟨m, hm⟩ := side_inv s0 s1 s0' s1' (le_max_left |sideA s - sideA s'| |sideB s - sideB s'|)
    (le_max_right |sideA s - sideA s'| |sideB s - sideB s'|)
  have hmin : 0 ≤ min r r' := le_min hr hr'
  have hc : min r r' * max |sideA s - sideA s'| |sideB s - sideB s'| ≤ 2 * d := by
    rcases max_cases |sideA s - sideA s'| |sideB s - sideB s'| with ⟨e, _⟩ | ⟨e, _⟩ <;> rw [e] <;> assumption
  have hk : min r r' * |s * (π / 4) - s' * (π / 4) - m * (2 * π)| ≤ π * d := by
    have e : s * (π / 4) - s' * (π / 4) - m * (2 * π) = π / 4 * (s - s' - 8 * m) := by ring
    rw [e, abs_mul, abs_of_pos (by positivity)]
    have t := mul_le_mul_of_nonneg_left hm hmin
    have t2 : min r r' * |s - s' - 8 * m| ≤ 4 * d := by linarith
    have t3 := mul_le_mul_of_nonneg_left t2 (show 0 ≤ π / 4 by positivity)
    linarith
  refine ⟨?_, ?_, by rw [← er, ← er']; exact hd⟩
  · rw [ex, ex']
    exact comp_lip Fp.abs_cos_sub_le (fun x m => cos_add_int_mul_two_pi x m) abs_cos_le_one hr hr' m hd hk
  · rw [ey, ey']
    exact comp_lip Fp.abs_sin_sub_le (fun x m => sin_add_int_mul_two_pi x m) abs_sin_le_one hr hr' m hd hk

/-- the factor between disk and sphere -/
theorem lift_lip {r r' : ℝ} (h : 0 ≤ r) (h1 : r ≤ 1.0001) (h' : 0 ≤ r') (h1' : r' ≤ 1.0001) :
    |√(2 - r ^ 2) - √(2 - r' ^ 2)| ≤ 1.01 * |r - r'| ∧ √(2 - r ^ 2) ≤ 1.42 := by
  have s1 := sq_sqrt (show 0 ≤ 2 - r ^ 2 by nlinarith)
  have s2 := sq_sqrt (show 0 ≤ 2 - r' ^ 2 by nlinarith)
  have l1 : 0.999 ≤ √(2 - r ^ 2) := le_sqrt_of_sq_le (by nlinarith)
  have l2 : 0.999 ≤ √(2 - r' ^ 2) := le_sqrt_of_sq_le (by nlinarith)
  constructor
  · set a := √(2 - r ^ 2)
    set b := √(2 - r' ^ 2)
    have e : (a - b) * (a + b) = (r' - r) * (r' + r) := by linarith
    have e2 : |a - b| * (a + b) = |r - r'| * (r' + r) := by
      have k := congrArg abs e
      rw [abs_mul, abs_mul, abs_of_pos (show 0 < a + b by linarith), abs_of_nonneg (show 0 ≤ r' + r by linarith),
        abs_sub_comm r' r] at k
      exact k
    have e3 : |r - r'| * (r' + r) ≤ |r - r'| * (1.01 * (a + b)) := mul_le_mul_of_nonneg_left (by linarith) (abs_nonneg _)
    rw [← e2, show |r - r'| * (1.01 * (a + b)) = 1.01 * |r - r'| * (a + b) by ring] at e3
    exact le_of_mul_le_mul_right e3 (by linarith)
  · rw [sqrt_le_left (by norm_num)]; nlinarith

/-- the components of a direction by its point on the disk -/
theorem uv2xyz_disk (xsign : ℝ) (uv : ℝ × ℝ) :
    (uv2xyz xsign uv).x = xsign * hemi uv.1 * (sqX (2 * foldU uv.1 - 1) (2 * uv.2 - 1) *
      √(2 - (max |2 * foldU uv.1 - 1| |2 * uv.2 - 1|) ^ 2)) ∧
    (uv2xyz xsign uv).y = sqY (2 * foldU uv.1 - 1) (2 * uv.2 - 1) * √(2 - (max |2 * foldU uv.1 - 1| |2 * uv.2 - 1|) ^ 2) ∧
    (uv2xyz xsign uv).z = hemi uv.1 * (1 - (max |2 * foldU uv.1 - 1| |2 * uv.2 - 1|) ^ 2) := by
  have h : sqR (2 * foldU uv.1 - 1) (2 * uv.2 - 1) * sqR (2 * foldU uv.1 - 1) (2 * uv.2 - 1) =
      (max |2 * foldU uv.1 - 1| |2 * uv.2 - 1|) ^ 2 := by rw [← sqXY_sq, disk_radius]
  rw [← h]
  refine ⟨?_, ?_, rfl⟩
  · change xsign * hemi uv.1 * cos _ * sphterm _ = _
    unfold sphterm sqX; ring
  · change sin _ * sphterm _ = _
    unfold sphterm sqY; ring

/-- the direction of a point of one of the squares -/
noncomputable def onSquare (xsign h f v : ℝ) : V3 :=
  ⟨xsign * h * (sqX (2 * f - 1) (2 * v - 1) * √(2 - (max |2 * f - 1| |2 * v - 1|) ^ 2)),
   sqY (2 * f - 1) (2 * v - 1) * √(2 - (max |2 * f - 1| |2 * v - 1|) ^ 2), h * (1 - (max |2 * f - 1| |2 * v - 1|) ^ 2)⟩

theorem uv2xyz_square (xsign : ℝ) (uv : ℝ × ℝ) : uv2xyz xsign uv = onSquare xsign (hemi uv.1) (foldU uv.1) uv.2 := by
  obtain ⟨x1, y1, z1⟩ := uv2xyz_disk xsign uv
  exact V3.ext x1 y1 z1

/-- the two squares share the edge `u = 1` -/
theorem square_edge (xsign v : ℝ) (h0 : 0 ≤ v) (h1 : v ≤ 1) : onSquare xsign 1 1 v = onSquare xsign (-1) 0 v := by
  have hv : |2 * v - 1| ≤ 1 := abs_le.mpr ⟨by linarith, by linarith⟩
  obtain ⟨m1, m2⟩ := sq_mirror 1 (2 * v - 1)
  unfold onSquare
  rw [show (2 : ℝ) * 1 - 1 = 1 by norm_num, show (2 : ℝ) * 0 - 1 = -1 by norm_num, m1, m2, abs_neg, abs_one, max_eq_left hv]
  simp

theorem rect_max {f v : ℝ} (p : 0 ≤ f) (q : f ≤ 1) (r : 0 ≤ v) (s : v ≤ 1) : max |2 * f - 1| |2 * v - 1| ≤ 1 :=
  max_le (abs_le.mpr ⟨by linarith, by linarith⟩) (abs_le.mpr ⟨by linarith, by linarith⟩)

theorem square_lip (xsign h : ℝ) (hx : |xsign| = 1) (hn : |h| = 1) {f f' v v' d M : ℝ} (hM : M ≤ 1.0001)
    (f1 : max |2 * f - 1| |2 * v - 1| ≤ M) (f2 : max |2 * f' - 1| |2 * v' - 1| ≤ M) (h1 : |f - f'| ≤ d) (h2 : |v - v'| ≤ d) :
    |(onSquare xsign h f v).x - (onSquare xsign h f' v').x| ≤ 14 * d ∧
    |(onSquare xsign h f v).y - (onSquare xsign h f' v').y| ≤ 14 * d ∧
    |(onSquare xsign h f v).z - (onSquare xsign h f' v').z| ≤ 4 * M * d := by
  have hpi := pi_lt_d2
  have g1 : 0 ≤ max |2 * f - 1| |2 * v - 1| := le_max_of_le_left (abs_nonneg _)
  have g2 : 0 ≤ max |2 * f' - 1| |2 * v' - 1| := le_max_of_le_left (abs_nonneg _)
  have l := sq_lip (a := 2 * f - 1) (b := 2 * v - 1) (a' := 2 * f' - 1) (b' := 2 * v' - 1) (d := 2 * d)
    (by rw [show 2 * f - 1 - (2 * f' - 1) = 2 * (f - f') by ring, abs_mul, abs_two]; linarith)
    (by rw [show 2 * v - 1 - (2 * v' - 1) = 2 * (v - v') by ring, abs_mul, abs_two]; linarith)
  have r1 := disk_radius (2 * f' - 1) (2 * v' - 1)
  unfold onSquare
  simp only
  set R := max |2 * f - 1| |2 * v - 1|
  set R' := max |2 * f' - 1| |2 * v' - 1|
  obtain ⟨lx, ly, lr⟩ := l
  obtain ⟨m1, m2⟩ := lift_lip g1 (f1.trans hM) g2 (f2.trans hM)
  have d0 : 0 ≤ d := (abs_nonneg _).trans h1
  have small : ∀ x y : ℝ, x ^ 2 + y ^ 2 = R' ^ 2 → |x| ≤ 1.0001 := by
    intro x y h
    refine abs_le_of_sq_le_sq ?_ (by norm_num)
    nlinarith [sq_nonneg y, f2.trans hM]
  have bx := small _ _ r1
  have by' := small _ _ ((add_comm _ _).trans r1)
  have comp : ∀ {X X' : ℝ}, |X - X'| ≤ (1 + π) * (2 * d) → |X'| ≤ 1.0001 → |X * √(2 - R ^ 2) - X' * √(2 - R' ^ 2)| ≤ 14 * d := by
    intro X X' h h'
    rw [show X * √(2 - R ^ 2) - X' * √(2 - R' ^ 2) = (X - X') * √(2 - R ^ 2) + X' * (√(2 - R ^ 2) - √(2 - R' ^ 2)) by ring]
    refine (abs_add_le _ _).trans ?_
    rw [abs_mul, abs_mul, abs_of_nonneg (sqrt_nonneg (2 - R ^ 2))]
    have t1 := mul_le_mul h m2 (sqrt_nonneg _) (by positivity)
    have t2 := mul_le_mul h' (m1.trans (mul_le_mul_of_nonneg_left lr (by norm_num))) (abs_nonneg _) (by norm_num)
    have t3 := mul_le_mul_of_nonneg_right hpi.le d0
    nlinarith
  refine ⟨?_, comp ly by', ?_⟩
  · rw [← mul_sub, abs_mul, abs_mul, hn, hx, one_mul, one_mul]
    exact comp lx bx
  · rw [← mul_sub, abs_mul, hn, one_mul, show 1 - R ^ 2 - (1 - R' ^ 2) = -((R - R') * (R + R')) by ring, abs_neg, abs_mul,
      abs_of_nonneg (show 0 ≤ R + R' by linarith)]
    have := mul_le_mul lr (show R + R' ≤ 2 * M by linarith) (by linarith) (by linarith)
    linarith

/-- **C179** coordinates on the same square (the same hemisphere) that differ by at most `d` give directions whose
components differ by at most `14 d`: neighbouring cells are neighbouring directions. -/
theorem C179_back (xsign : ℝ) (hx : xsign = 1 ∨ xsign = -1) (p q : ℝ × ℝ) (d : ℝ)
    (hp : InRect p) (hq : InRect q) (hside : p.1 ≤ 1 ↔ q.1 ≤ 1) (h1 : |p.1 - q.1| ≤ d) (h2 : |p.2 - q.2| ≤ d) :
    |(uv2xyz xsign p).x - (uv2xyz xsign q).x| ≤ 14 * d ∧ |(uv2xyz xsign p).y - (uv2xyz xsign q).y| ≤ 14 * d ∧
    |(uv2xyz xsign p).z - (uv2xyz xsign q).z| ≤ 4 * d := by
  obtain ⟨p1, p2, p3, p4⟩ := hp
  obtain ⟨q1, q2, q3, q4⟩ := hq
  have hxs : |xsign| = 1 := by rcases hx with h | h <;> rw [h] <;> norm_num
  rw [uv2xyz_square, uv2xyz_square]
  by_cases c : p.1 ≤ 1
  · have c' := hside.mp c
    rw [show hemi p.1 = 1 by unfold hemi; rw [if_neg (not_lt.mpr c)], show hemi q.1 = 1 by unfold hemi; rw [if_neg (not_lt.mpr c')],
      show foldU p.1 = p.1 by unfold foldU; rw [if_neg (not_lt.mpr c)], show foldU q.1 = q.1 by unfold foldU; rw [if_neg (not_lt.mpr c')]]
    simpa using square_lip xsign 1 hxs (by norm_num) (by norm_num) (rect_max p1 c p3 p4) (rect_max q1 c' q3 q4) h1 h2
  · have c' := not_le.mp (fun h => c (hside.mpr h))
    have c := not_le.mp c
    rw [show hemi p.1 = -1 by unfold hemi; rw [if_pos c], show hemi q.1 = -1 by unfold hemi; rw [if_pos c'],
      show foldU p.1 = p.1 - 1 by unfold foldU; rw [if_pos c], show foldU q.1 = q.1 - 1 by unfold foldU; rw [if_pos c']]
    simpa using square_lip xsign (-1) hxs (by norm_num) (by norm_num) (rect_max (by linarith) (by linarith) p3 p4)
      (rect_max (by linarith) (by linarith) q3 q4) (by rw [show p.1 - 1 - (q.1 - 1) = p.1 - q.1 by ring]; exact h1) h2

/-- **C179** the same over the whole rectangle, with twice the factor: the two squares are joined without a seam at
`u = 1`, with either sign of the first component. -/
theorem C179_join (xsign : ℝ) (hx : xsign = 1 ∨ xsign = -1) (p q : ℝ × ℝ) (d : ℝ)
    (hp : InRect p) (hq : InRect q) (h1 : |p.1 - q.1| ≤ d) (h2 : |p.2 - q.2| ≤ d) :
    |(uv2xyz xsign p).x - (uv2xyz xsign q).x| ≤ 28 * d ∧ |(uv2xyz xsign p).y - (uv2xyz xsign q).y| ≤ 28 * d ∧
    |(uv2xyz xsign p).z - (uv2xyz xsign q).z| ≤ 8 * d := by
  have hxs : |xsign| = 1 := by rcases hx with h | h <;> rw [h] <;> norm_num
  have d0 : 0 ≤ d := (abs_nonneg _).trans h1
  have cross : ∀ p q : ℝ × ℝ, InRect p → InRect q → |p.1 - q.1| ≤ d → |p.2 - q.2| ≤ d → p.1 ≤ 1 → 1 < q.1 →
      |(uv2xyz xsign p).x - (uv2xyz xsign q).x| ≤ 28 * d ∧ |(uv2xyz xsign p).y - (uv2xyz xsign q).y| ≤ 28 * d ∧
      |(uv2xyz xsign p).z - (uv2xyz xsign q).z| ≤ 8 * d := by
    rintro p q ⟨p1, p2, p3, p4⟩ ⟨q1, q2, q3, q4⟩ h1 h2 c c'
    rw [uv2xyz_square, uv2xyz_square]
    rw [show hemi p.1 = 1 by unfold hemi; rw [if_neg (not_lt.mpr c)], show hemi q.1 = -1 by unfold hemi; rw [if_pos c'],
      show foldU p.1 = p.1 by unfold foldU; rw [if_neg (not_lt.mpr c)], show foldU q.1 = q.1 - 1 by unfold foldU; rw [if_pos c']]
    obtain ⟨b1, b2⟩ := abs_le.mp h1
    obtain ⟨a1, a2, a3⟩ := square_lip xsign 1 hxs (by norm_num) (d := d) (by norm_num) (rect_max p1 c p3 p4)
      (rect_max (f := 1) zero_le_one le_rfl p3 p4) (abs_le.mpr ⟨by linarith, by linarith⟩) (by rw [sub_self, abs_zero]; exact d0)
    obtain ⟨e1, e2, e3⟩ := square_lip xsign (-1) hxs (by norm_num) (d := d) (by norm_num)
      (rect_max (f := 0) le_rfl zero_le_one p3 p4) (rect_max (show 0 ≤ q.1 - 1 by linarith) (by linarith) q3 q4) (abs_le.mpr ⟨by linarith, by linarith⟩) h2
    rw [← square_edge xsign p.2 p3 p4] at e1 e2 e3
    refine ⟨?_, ?_, ?_⟩
    · have := abs_sub_le (onSquare xsign 1 p.1 p.2).x (onSquare xsign 1 1 p.2).x (onSquare xsign (-1) (q.1 - 1) q.2).x
      linarith
    · have := abs_sub_le (onSquare xsign 1 p.1 p.2).y (onSquare xsign 1 1 p.2).y (onSquare xsign (-1) (q.1 - 1) q.2).y
      linarith
    · have := abs_sub_le (onSquare xsign 1 p.1 p.2).z (onSquare xsign 1 1 p.2).z (onSquare xsign (-1) (q.1 - 1) q.2).z
      linarith
  by_cases c : p.1 ≤ 1 <;> by_cases c' : q.1 ≤ 1
  · obtain ⟨a1, a2, a3⟩ := C179_back xsign hx p q d hp hq (by tauto) h1 h2
    refine ⟨by linarith, by linarith, by linarith⟩
  · exact cross p q hp hq h1 h2 c (not_le.mp c')
  · rw [abs_sub_comm] at h1 h2
    obtain ⟨a1, a2, a3⟩ := cross q p hq hp h1 h2 c' (not_le.mp c)
    refine ⟨by rw [abs_sub_comm]; exact a1, by rw [abs_sub_comm]; exact a2, by rw [abs_sub_comm]; exact a3⟩
  · obtain ⟨a1, a2, a3⟩ := C179_back xsign hx p q d hp hq (by tauto) h1 h2
    refine ⟨by linarith, by linarith, by linarith⟩

/-- two cells of the lower square -/
example : InRect (5 / 4, 1 / 3) ∧ InRect (3 / 2, 2 / 3) ∧ (((5 / 4 : ℝ), (1 / 3 : ℝ)).1 ≤ 1 ↔ ((3 / 2 : ℝ), (2 / 3 : ℝ)).1 ≤ 1) := by
  refine ⟨by norm_num [InRect], by norm_num [InRect], by norm_num⟩

end Verif.Geo
