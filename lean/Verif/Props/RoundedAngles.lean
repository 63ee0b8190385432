import Verif.Model.RoundedAngles
import Verif.Props.RoundedAxis

/-! C210: spherical angles and altitude and azimuth, in rounded arithmetic. -/

namespace Verif.Fp
open Verif.Geo Real

/-- the remainder of a polar angle that does not wrap -/
theorem wrap_pol {A : Arith} (h : A.Ok) (ha : AboveπOk A) {t : ℝ} (h0' : 0 ≤ t) (h1 : t ≤ π - 1e-10) :
    |modF (A.add t A.pi) A.pi - t| ≤ 2e-15 ∧ 0 ≤ modF (A.add t A.pi) A.pi := by
  have hp := abs_le.mp (pi_near h)
  have hu := h.small
  have g2 := pi_lt_d2
  have g3 := pi_gt_three
  have hl := ha t h0'
  have hb : |A.add t A.pi - (t + A.pi)| ≤ 1.5e-15 := by
    refine (h.add t A.pi).trans ?_
    have hs : |t + A.pi| ≤ 6.31 := by rw [abs_le]; constructor <;> linarith
    have := mul_le_mul hu hs (abs_nonneg _) (by norm_num)
    linarith
  have hb2 := abs_le.mp hb
  have hpos : 0 < A.pi := by linarith
  have hf : ⌊A.add t A.pi / A.pi⌋ = 1 := by
    rw [Int.floor_eq_iff]
    constructor
    · rw [le_div_iff₀ hpos]; push_cast; linarith
    · rw [div_lt_iff₀ hpos]; push_cast; linarith
  unfold modF
  rw [hf, abs_le]
  push_cast
  refine ⟨⟨?_, ?_⟩, ?_⟩ <;> linarith

/-- the remainder of an azimuth, up to whole turns -/
theorem wrap_azi {A : Arith} (h : A.Ok) {f : ℝ} (h0 : |f| ≤ 10) :
    ∃ m : ℤ, |modF (A.add f (A.mul 2 A.pi)) (A.mul 2 A.pi) - (f + m * (2 * π))| ≤ 2e-14 ∧
      0 ≤ modF (A.add f (A.mul 2 A.pi)) (A.mul 2 A.pi) ∧ modF (A.add f (A.mul 2 A.pi)) (A.mul 2 A.pi) ≤ 6.31 := by
  have hp := abs_le.mp (pi_near h)
  have hu := h.small
  have g2 := pi_lt_d2
  have g3 := pi_gt_three
  have hm := h.mul 2 A.pi
  set b := A.mul 2 A.pi with hb
  have hm' : |b - 2 * A.pi| ≤ 1.5e-15 := by
    refine hm.trans ?_
    have : |2 * A.pi| ≤ 6.31 := by rw [abs_le]; constructor <;> linarith
    have := mul_le_mul hu this (abs_nonneg _) (by norm_num)
    linarith
  have hm2 := abs_le.mp hm'
  have h02 := abs_le.mp h0
  have hd' : |A.add f b - (f + b)| ≤ 4e-15 := by
    refine (h.add f b).trans ?_
    have : |f + b| ≤ 17 := by rw [abs_le]; constructor <;> linarith
    have := mul_le_mul hu this (abs_nonneg _) (by norm_num)
    linarith
  have hd2 := abs_le.mp hd'
  set a := A.add f b
  have hpos : 0 < b := by linarith
  have f1 := Int.floor_le (a / b)
  have f2 := Int.lt_floor_add_one (a / b)
  have n1 : -1 ≤ ⌊a / b⌋ := by
    rw [Int.le_floor, le_div_iff₀ hpos]; push_cast; linarith
  have n2 : ⌊a / b⌋ < 3 := by
    rw [Int.floor_lt, div_lt_iff₀ hpos]; push_cast; linarith
  rw [le_div_iff₀ hpos] at f1
  rw [div_lt_iff₀ hpos] at f2
  set n := ⌊a / b⌋
  refine ⟨1 - n, ?_, ?_, ?_⟩
  · have hn : |(1 - n : ℝ)| ≤ 2 := by
      have a1 : ((-1 : ℤ) : ℝ) ≤ n := by exact_mod_cast n1
      have a2 : (n : ℝ) ≤ ((2 : ℤ) : ℝ) := by exact_mod_cast (show n ≤ 2 by omega)
      push_cast at a1 a2
      rw [abs_le]; constructor <;> linarith
    have hb2 : |b - 2 * π| ≤ 3.2e-15 := by rw [abs_le]; constructor <;> linarith
    have hq := abs_le.mp (abs_mul_le hn hb2)
    unfold modF
    push_cast
    rw [show a - b * (n : ℝ) - (f + (1 - n) * (2 * π)) = (a - (f + b)) + (1 - n) * (b - 2 * π) by ring, abs_le]
    constructor <;> linarith
  · unfold modF; linarith
  · unfold modF; linarith

/-- a vector of almost unit length is almost its direction -/
theorem dir_self {d : V3} {e : ℝ} (h0 : d ≠ ⟨0, 0, 0⟩) (hl : |len2 d - 1| ≤ e) : Near (dir d) d e := by
  have hp := len_pos h0
  have hl' := abs_le.mp hl
  have e0 : 0 ≤ e := (abs_nonneg _).trans hl
  unfold len2 at hl'
  unfold dir
  have hs : √(d.x ^ 2 + d.y ^ 2 + d.z ^ 2) ^ 2 = d.x ^ 2 + d.y ^ 2 + d.z ^ 2 := sq_sqrt (by positivity)
  have hu := unit_of_len hp
  set T := √(d.x ^ 2 + d.y ^ 2 + d.z ^ 2)
  have hT : |T - 1| ≤ e := by
    rw [abs_le]
    constructor
    · by_contra hc
      push Not at hc
      nlinarith
    · by_contra hc
      push Not at hc
      nlinarith
  have k : ∀ t : ℝ, (t / T) ^ 2 ≤ 1 → |t / T - t| ≤ e := fun t ht => by
    have h1 : |t / T| ≤ 1 := abs_le_of_sq_le_sq (by linarith) (by norm_num)
    have h2 : t / T - t = t / T * -(T - 1) := by field_simp; ring
    rw [h2]
    have := abs_mul_le h1 ((abs_neg (T - 1)).le.trans hT)
    linarith
  have q1 := sq_nonneg (d.x / T)
  have q2 := sq_nonneg (d.y / T)
  have q3 := sq_nonneg (d.z / T)
  exact ⟨k _ (by linarith), k _ (by linarith), k _ (by linarith)⟩

/-- the normalised vector of one that is near a unit vector -/
theorem norm_of_near {A : Arith} (h : A.Ok) {s w : V3} {e : ℝ} (he : e ≤ 1e-3) (hw : len2 w = 1) (hn : Near s w e) :
    ∃ q, normF A s = some q ∧ Near q w (8 * e + 1.5e-15) := by
  have e0 : 0 ≤ e := (abs_nonneg _).trans hn.1
  have hb : ∀ t u : ℝ, t ^ 2 + u = 1 → 0 ≤ u → |t| ≤ 1 := fun t u h1 h2 =>
    abs_le_of_sq_le_sq (by linarith) (by norm_num)
  unfold len2 at hw
  have bx := hb w.x (w.y ^ 2 + w.z ^ 2) (by linarith) (by positivity)
  have bY := hb w.y (w.x ^ 2 + w.z ^ 2) (by linarith) (by positivity)
  have bz := hb w.z (w.x ^ 2 + w.y ^ 2) (by linarith) (by positivity)
  have k : ∀ a b : ℝ, |a - b| ≤ e → |b| ≤ 1 → |a ^ 2 - b ^ 2| ≤ 2.001 * e := fun a b h1 h2 => by
    rw [show a ^ 2 - b ^ 2 = (a - b) * (a - b + 2 * b) by ring]
    have : |a - b + 2 * b| ≤ 2.001 := by
      have := abs_add_le (a - b) (2 * b)
      rw [abs_mul, abs_two] at this
      linarith
    have := abs_mul_le h1 this
    linarith
  have kx := abs_le.mp (k _ _ hn.1 bx)
  have ky := abs_le.mp (k _ _ hn.2.1 bY)
  have kz := abs_le.mp (k _ _ hn.2.2 bz)
  have hl : |len2 s - 1| ≤ 7 * e := by
    unfold len2
    rw [abs_le]
    constructor <;> linarith
  have s0 : s ≠ ⟨0, 0, 0⟩ := by
    intro hs
    rw [hs] at hl
    unfold len2 at hl
    norm_num at hl
    linarith
  obtain ⟨g, ag, eg⟩ := nrmR h s
  have hnz : nrm A s ≠ 0 := by rw [eg]; exact (mul_pos (len_pos s0) (near_pos ag (by norm_num))).ne'
  have hs : normF A s = some _ := if_neg hnz
  refine ⟨_, hs, ?_⟩
  exact (((norm_dir h s0 hs).1.trans (dir_self s0 hl)).trans hn).mono (by linarith)

/-- the direction of computed angles -/
theorem sph_near {A : Arith} (h : A.Ok) {t f θ φ a b : ℝ} {m : ℤ} (h1 : |t - θ| ≤ a)
    (h2 : |f - (φ + m * (2 * π))| ≤ b) (ha : a ≤ 1) :
    Near (sphF A (t, f)) ⟨sin θ * cos φ, sin θ * sin φ, cos θ⟩ (3e-15 + a + 2 * b) := by
  have a0 := (abs_nonneg _).trans h1
  have b0 := (abs_nonneg _).trans h2
  have st := sinA h t
  have ct := cosA h t
  have sf := sinA h f
  have cf := cosA h f
  have s1 := (abs_sin_sub_le t θ).trans h1
  have c1 := (abs_cos_sub_le t θ).trans h1
  have s2 : |sin f - sin φ| ≤ b := by
    rw [← sin_add_int_mul_two_pi φ m]; exact (abs_sin_sub_le _ _).trans h2
  have c2 : |cos f - cos φ| ≤ b := by
    rw [← cos_add_int_mul_two_pi φ m]; exact (abs_cos_sub_le _ _).trans h2
  have k : ∀ x X x' y Y y' : ℝ, |x - X| ≤ 9.2e-16 → |X - x'| ≤ a → |y - Y| ≤ 9.2e-16 → |Y - y'| ≤ b → |X| ≤ 1 → |Y| ≤ 1 →
      |x'| ≤ 1 → |A.mul x y - x' * y'| ≤ 3e-15 + a + 2 * b := by
    intro x X x' y Y y' e1 e2 e3 e4 bX bY bx
    have q1 : |x * y - X * Y| ≤ 1.9e-15 := by
      rw [show x * y - X * Y = (x - X) * (y - Y) + (x - X) * Y + X * (y - Y) by ring]
      have := abs_mul_le e1 e3
      have := abs_mul_le e1 bY
      have := abs_mul_le bX e3
      have := abs_add_three ((x - X) * (y - Y)) ((x - X) * Y) (X * (y - Y))
      linarith
    have q2 : |X * Y - x' * y'| ≤ a + b := by
      rw [show X * Y - x' * y' = (X - x') * Y + x' * (Y - y') by ring]
      have := abs_mul_le e2 bY
      have := abs_mul_le bx e4
      have := abs_add_le ((X - x') * Y) (x' * (Y - y'))
      linarith
    have q3 : |x * y| ≤ 1.01 := by
      have := abs_mul_le bX bY
      have := abs_sub_abs_le_abs_sub (x * y) (X * Y)
      linarith
    have q4 : |A.mul x y - x * y| ≤ 3e-16 := by
      refine (h.mul x y).trans ?_
      have := mul_le_mul h.small q3 (abs_nonneg _) (by norm_num)
      linarith
    have := abs_sub_le (A.mul x y) (x * y) (x' * y')
    have := abs_sub_le (x * y) (X * Y) (x' * y')
    linarith
  refine ⟨k _ _ _ _ _ _ st s1 cf c2 (abs_sin_le_one _) (abs_cos_le_one _) (abs_sin_le_one _),
    k _ _ _ _ _ _ st s1 sf s2 (abs_sin_le_one _) (abs_sin_le_one _) (abs_sin_le_one _), ?_⟩
  have := abs_sub_le (A.cos t) (cos t) (cos θ)
  simp only [sphF]
  linarith

theorem len_sph (θ φ : ℝ) : len2 ⟨sin θ * cos φ, sin θ * sin φ, cos θ⟩ = 1 := by
  unfold len2
  simp only
  have a := sin_sq_add_cos_sq θ
  have b := sin_sq_add_cos_sq φ
  linear_combination a + sin θ ^ 2 * b

/-- the direction of spherical angles, from angles that are right up to whole turns of the azimuth -/
theorem tp2xyz_near {A : Arith} (h : A.Ok) (hab : AboveπOk A) {t f θ φ a b : ℝ} {m : ℤ} (h1 : |t - θ| ≤ a)
    (h2 : |f - (φ + m * (2 * π))| ≤ b) (ha : a ≤ 1e-4) (hb : b ≤ 1e-5) (h0 : 0 ≤ t) (ht : t ≤ π - 1e-10) (hf : |f| ≤ 10) :
    ∃ q, tp2xyzF A (t, f) = some q ∧ Near q ⟨sin θ * cos φ, sin θ * sin φ, cos θ⟩ (4e-13 + 8 * a + 16 * b) := by
  obtain ⟨w1, _⟩ := wrap_pol h hab h0 ht
  obtain ⟨n, w2, _, _⟩ := wrap_azi h hf
  have k1 : |modF (A.add t A.pi) A.pi - θ| ≤ 2e-15 + a := by
    have := abs_sub_le (modF (A.add t A.pi) A.pi) t θ
    linarith
  have k2 : |modF (A.add f (A.mul 2 A.pi)) (A.mul 2 A.pi) - (φ + ((m + n : ℤ) : ℝ) * (2 * π))| ≤ 2e-14 + b := by
    have := abs_sub_le (modF (A.add f (A.mul 2 A.pi)) (A.mul 2 A.pi)) (f + n * (2 * π)) (φ + ((m + n : ℤ) : ℝ) * (2 * π))
    rw [show f + n * (2 * π) - (φ + ((m + n : ℤ) : ℝ) * (2 * π)) = f - (φ + m * (2 * π)) by push_cast; ring] at this
    linarith
  have s := sph_near h k1 k2 (by linarith)
  obtain ⟨q, hq, nq⟩ := norm_of_near h (by linarith) (len_sph θ φ) s
  exact ⟨q, hq, nq.mono (by linarith)⟩

/-- the azimuth that goes with the computed one, and what it makes of the direction -/
theorem phi_pick {A : Arith} (h : A.Ok) {acos : ℝ → ℝ} (hc : AcosOk A acos) {p : V3} (hl : |len2 p - 1| ≤ 1e-14)
    (hz : |p.z| ≤ 1) (ho : -1 + 1e-9 ≤ p.z) :
    ∃ φ, |φ| ≤ π ∧ |phiF A acos p - φ| ≤ 3e-15 ∧
      Near ⟨sin (arccos p.z) * cos φ, sin (arccos p.z) * sin φ, cos (arccos p.z)⟩ p 1.1e-7 ∧
      (1e-3 ≤ √(p.x ^ 2 + p.y ^ 2) →
        Near ⟨sin (arccos p.z) * cos φ, sin (arccos p.z) * sin φ, cos (arccos p.z)⟩ p 1e-11) := by
  obtain ⟨h0, h1⟩ := abs_le.mp hz
  obtain ⟨s1, s2⟩ := sin_hyp hl h0 h1
  have s1' := abs_le.mp s1
  have hd : arccos p.z ≤ π - 4e-5 := arccos_off (by norm_num) h0 h1 (by norm_num at ho ⊢; linarith)
  have k := abs_le.mp (acos_near h hc h0 h1).1
  have hp := abs_le.mp (pi_near h)
  have g2 := pi_lt_d2
  have g3 := pi_gt_three
  have a0 := arccos_nonneg p.z
  have sl := sin_le a0
  by_cases c1 : isclose (acos p.z) 0 1e-10
  · have hphi : phiF A acos p = A.pi := by unfold phiF; rw [if_pos c1]
    unfold isclose at c1
    have c1' := abs_le.mp c1
    norm_num at c1'
    have hsm : sin (arccos p.z) ≤ 2e-10 := sl.trans (by linarith)
    have s0 := sin_nonneg_of_nonneg_of_le_pi a0 (arccos_le_pi p.z)
    have bx' := abs_le.mp (abs_le_sqrt (show p.x ^ 2 ≤ p.x ^ 2 + p.y ^ 2 by nlinarith [sq_nonneg p.y]))
    have bY' := abs_le.mp (abs_le_sqrt (show p.y ^ 2 ≤ p.x ^ 2 + p.y ^ 2 by nlinarith [sq_nonneg p.x]))
    refine ⟨π, (abs_of_pos pi_pos).le, by rw [hphi]; exact (pi_near h).trans (by norm_num), ?_, fun hr => by linarith⟩
    rw [cos_pi, sin_pi, cos_arccos h0 h1]
    refine ⟨?_, ?_, ?_⟩
    · rw [abs_le]; constructor <;> simp only <;> linarith
    · rw [abs_le]; constructor <;> simp only <;> linarith
    · simp only
      rw [sub_self, abs_zero]
      norm_num
  have c2 : ¬ isclose (acos p.z) A.pi 1e-10 := by
    intro c2
    unfold isclose at c2
    rw [abs_of_pos (by linarith : 0 < A.pi)] at c2
    have c2' := abs_le.mp c2
    linarith
  obtain ⟨m1, m2⟩ := arctan2_mem p.y p.x
  obtain ⟨e1, e2⟩ := arctan2_cos_sin p.x p.y
  have key : ∀ ε : ℝ, |sin (arccos p.z) - √(p.x ^ 2 + p.y ^ 2)| ≤ ε →
      Near ⟨sin (arccos p.z) * cos (arctan2 p.y p.x), sin (arccos p.z) * sin (arctan2 p.y p.x), cos (arccos p.z)⟩ p ε := by
    intro ε hε
    refine ⟨?_, ?_, ?_⟩
    · have := abs_mul_le hε (abs_cos_le_one (arctan2 p.y p.x))
      rw [sub_mul, e1] at this
      simpa using this
    · have := abs_mul_le hε (abs_sin_le_one (arctan2 p.y p.x))
      rw [sub_mul, e2] at this
      simpa using this
    · simp only
      rw [cos_arccos h0 h1, sub_self, abs_zero]
      exact (abs_nonneg _).trans hε
  refine ⟨arctan2 p.y p.x, abs_le.mpr ⟨m1.le, m2⟩, ?_, (key _ s1).mono (by norm_num),
    fun hr => (key _ (s2 1e-3 (by norm_num) hr)).mono (by norm_num)⟩
  unfold phiF
  rw [if_neg c1, if_neg c2]
  refine (h.atan2 _ _).trans ?_
  have := h.small
  have := h.u0
  have := abs_nonneg (arctan2 p.y p.x)
  have : |arctan2 p.y p.x| ≤ 3.15 := (abs_le.mpr ⟨m1.le, m2⟩).trans g2.le
  nlinarith

/-- **C210** `tp2xyz(xyz2tp(p))` is `p` to 2e-7 for unit vectors that are not within a hundredth of a degree of straight
down, and to 2e-11 off the vertical, in rounded arithmetic -/
theorem C210_tp_partial {A : Arith} (h : A.Ok) {acos : ℝ → ℝ} (hc : AcosOk A acos) (ha : AboveπOk A) {p : V3}
    (hl : |len2 p - 1| ≤ 1e-14) (hz : |p.z| ≤ 1) (ho : -1 + 1e-9 ≤ p.z) :
    ∃ q, tp2xyzF A (xyz2tpF A acos p) = some q ∧ Near q p 2e-7 ∧
      (1e-3 ≤ √(p.x ^ 2 + p.y ^ 2) → Near q p 2e-11) := by
  obtain ⟨h0, h1⟩ := abs_le.mp hz
  obtain ⟨φ, b1, b2, n1, n2⟩ := phi_pick h hc hl hz ho
  have hd : arccos p.z ≤ π - 4e-5 := arccos_off (by norm_num) h0 h1 (by norm_num at ho ⊢; linarith)
  have kt := pol_near h hc ha h0 h1 (by linarith)
  have kt' := abs_le.mp kt
  obtain ⟨m, ka, kb⟩ := azi_near h b1 b2
  obtain ⟨k1, k2⟩ := acos_near h hc h0 h1
  have k1' := abs_le.mp k1
  obtain ⟨_, t0⟩ := wrap_pol h ha k2 (by linarith)
  obtain ⟨q, hq, nq⟩ := tp2xyz_near h ha kt ka (by norm_num) (by norm_num) t0 (by linarith)
    (kb.trans (by norm_num))
  exact ⟨q, hq, (nq.trans n1).mono (by norm_num), fun hr => (nq.trans (n2 hr)).mono (by norm_num)⟩

/-- degrees of a computed angle -/
theorem deg_near {A : Arith} (h : A.Ok) {t : ℝ} (ht : |t| ≤ 13) :
    |degF A t - (π / 2 - t) * 180 / π| ≤ 1.2e-12 ∧ |radF A (degF A t) - t| ≤ 6e-14 := by
  have g2 := pi_lt_d2
  have g3 := pi_gt_three
  have pp := pi_pos
  have ht' := abs_le.mp ht
  obtain ⟨g1, a1, e1⟩ := piR h
  obtain ⟨g4, a4, e4⟩ := divR h A.pi (show (2 : ℝ) ≠ 0 by norm_num)
  have hH : |A.div A.pi 2 - π / 2| ≤ 8e-16 := by
    have q := near_mul a1 a4 (by norm_num)
    rw [e4, e1, show π * g1 / 2 * g4 - π / 2 = π / 2 * (g1 * g4 - 1) by ring]
    have := abs_mul_le (abs_of_pos (by positivity : 0 < π / 2)).le q
    nlinarith
  set H := A.div A.pi 2
  have hH' := abs_le.mp hH
  have hS : |A.sub H t - (π / 2 - t)| ≤ 4.3e-15 := by
    have b : |H - t| ≤ 14.6 := by rw [abs_le]; constructor <;> linarith
    have c := (h.sub H t).trans (mul_le_mul h.small b (abs_nonneg _) (by norm_num))
    have c' := abs_le.mp c
    rw [abs_le]; constructor <;> linarith
  set S := A.sub H t with hSd
  have hS' := abs_le.mp hS
  have bS : |S| ≤ 14.6 := by rw [abs_le]; constructor <;> linarith
  obtain ⟨g5, a5, e5⟩ := divR h A.pi (show (180 : ℝ) ≠ 0 by norm_num)
  have p1 := near_pos a1 (by norm_num)
  have p5 := near_pos a5 (by norm_num)
  have hD : A.div A.pi 180 ≠ 0 := by rw [e5, e1]; positivity
  obtain ⟨g6, a6, e6⟩ := divR h S hD
  have q15 := near_mul a1 a5 (by norm_num)
  have q := near_mul (near_inv q15 (by norm_num)) a6 (by norm_num)
  have hdeg : degF A t = S * 180 / π * (1 / (g1 * g5) * g6) := by
    show A.div S (A.div A.pi 180) = _
    rw [e6, e5, e1]
    field_simp
  set G := 1 / (g1 * g5) * g6
  have qG : |G - 1| ≤ 7.1e-16 := q.trans (by norm_num)
  constructor
  · have r1 := abs_mul_le bS qG
    have r1' := abs_le.mp r1
    rw [hdeg, show S * 180 / π * G - (π / 2 - t) * 180 / π = (S * (G - 1) + (S - (π / 2 - t))) * 180 / π by ring,
      abs_div, abs_mul, abs_of_pos pp, div_le_iff₀ pp]
    have r2 : |S * (G - 1) + (S - (π / 2 - t))| ≤ 1.47e-14 := by rw [abs_le]; constructor <;> linarith
    rw [show |(180 : ℝ)| = 180 by norm_num]
    linarith
  · obtain ⟨g7, a7, e7⟩ := mulR h (degF A t) A.pi
    obtain ⟨g8, a8, e8⟩ := divR h (A.mul (degF A t) A.pi) (show (180 : ℝ) ≠ 0 by norm_num)
    have hr : A.div (A.mul (degF A t) A.pi) 180 = S * (G * (g1 * (g7 * g8))) := by
      rw [e8, e7, hdeg, e1]
      field_simp
    have q2 := near_mul qG (near_mul a1 (near_mul a7 a8 (by norm_num)) (by norm_num)) (by norm_num)
    have q3 : |G * (g1 * (g7 * g8)) - 1| ≤ 1.5e-15 := q2.trans (by norm_num)
    have r1' := abs_le.mp (abs_mul_le bS q3)
    unfold radF
    rw [hr]
    set R := S * (G * (g1 * (g7 * g8))) with hR
    have r3 : |R - (π / 2 - t)| ≤ 2.7e-14 := by
      rw [show R - (π / 2 - t) = S * (G * (g1 * (g7 * g8)) - 1) + (S - (π / 2 - t)) by rw [hR]; ring, abs_le]
      constructor <;> linarith
    have r3' := abs_le.mp r3
    have b : |H - R| ≤ 13.1 := by rw [abs_le]; constructor <;> linarith
    have c := (h.sub H R).trans (mul_le_mul h.small b (abs_nonneg _) (by norm_num))
    have c' := abs_le.mp c
    rw [abs_le]; constructor <;> linarith

/-- **C210** the altitude of a unit vector is the arc sine of z in degrees, to 2e-12 degrees -/
theorem C210_altitude_partial {A : Arith} (h : A.Ok) {acos : ℝ → ℝ} (hc : AcosOk A acos) (ha : AboveπOk A) {p : V3}
    (hz : |p.z| ≤ 1) (ho : -1 + 1e-9 ≤ p.z) : |(xyz2aaF A acos p).1 - arcsin p.z * 180 / π| ≤ 2e-12 := by
  obtain ⟨h0, h1⟩ := abs_le.mp hz
  have hd : arccos p.z ≤ π - 4e-5 := arccos_off (by norm_num) h0 h1 (by norm_num at ho ⊢; linarith)
  have kt := abs_le.mp (pol_near h hc ha h0 h1 (by linarith))
  have g2 := pi_lt_d2
  have g3 := pi_gt_three
  have pp := pi_pos
  have a0 := arccos_nonneg p.z
  have e : arcsin p.z = π / 2 - arccos p.z := by rw [arccos]; ring
  have k := (deg_near h (t := polF A acos p) (by rw [abs_le]; constructor <;> linarith)).1
  have r : |(π / 2 - polF A acos p) * 180 / π - arcsin p.z * 180 / π| ≤ 4e-13 := by
    rw [e, show (π / 2 - polF A acos p) * 180 / π - (π / 2 - arccos p.z) * 180 / π =
      (arccos p.z - polF A acos p) * 180 / π by ring, abs_div, abs_of_pos pp, div_le_iff₀ pp, abs_le]
    constructor <;> linarith
  have := abs_sub_le (degF A (polF A acos p)) ((π / 2 - polF A acos p) * 180 / π) (arcsin p.z * 180 / π)
  show |degF A (polF A acos p) - _| ≤ _
  linarith

/-- **C210** `aa2xyz(xyz2aa(p))` is `p` to 2e-7 for unit vectors that are not within a hundredth of a degree of the
vertical, and to 2e-11 off the vertical, in rounded arithmetic -/
theorem C210_aa_partial {A : Arith} (h : A.Ok) {acos : ℝ → ℝ} (hc : AcosOk A acos) (ha : AboveπOk A) {p : V3}
    (hl : |len2 p - 1| ≤ 1e-14) (ho : |p.z| ≤ 1 - 1e-9) :
    ∃ q, aa2xyzF A (xyz2aaF A acos p) = some q ∧ Near q p 2e-7 ∧
      (1e-3 ≤ √(p.x ^ 2 + p.y ^ 2) → Near q p 2e-11) := by
  have hz : |p.z| ≤ 1 := by linarith
  obtain ⟨h0, h1⟩ := abs_le.mp hz
  obtain ⟨o0, o1⟩ := abs_le.mp ho
  obtain ⟨φ, b1, b2, n1, n2⟩ := phi_pick h hc hl hz (by linarith)
  have hd : arccos p.z ≤ π - 4e-5 := arccos_off (by norm_num) h0 h1 (by norm_num at o0 ⊢; linarith)
  have hd2 : 4e-5 ≤ arccos p.z := by
    have := arccos_off (c := -p.z) (δ := 4e-5) (by norm_num) (by linarith) (by linarith) (by norm_num at o1 ⊢; linarith)
    rw [arccos_neg] at this
    linarith
  have g2 := pi_lt_d2
  have g3 := pi_gt_three
  have kt := pol_near h hc ha h0 h1 (by linarith)
  have kt' := abs_le.mp kt
  obtain ⟨m, ka, kb⟩ := azi_near h b1 b2
  have kb' := abs_le.mp kb
  have ka' := abs_le.mp ka
  have hp := abs_le.mp (pi_near h)
  have d1 := abs_le.mp (deg_near h (t := polF A acos p) (by rw [abs_le]; constructor <;> linarith)).2
  have hs : |A.sub (aziF A acos p) A.pi - (aziF A acos p - A.pi)| ≤ 3e-15 := by
    have b : |aziF A acos p - A.pi| ≤ 12.7 := by rw [abs_le]; constructor <;> linarith
    have := (h.sub (aziF A acos p) A.pi).trans (mul_le_mul h.small b (abs_nonneg _) (by norm_num))
    linarith
  have hs' := abs_le.mp hs
  have d2 := abs_le.mp (deg_near h (t := A.sub (aziF A acos p) A.pi) (by rw [abs_le]; constructor <;> linarith)).2
  set R := radF A (degF A (A.sub (aziF A acos p) A.pi))
  have hf : |A.add R A.pi - aziF A acos p| ≤ 7e-14 := by
    have b : |R + A.pi| ≤ 9.6 := by rw [abs_le]; constructor <;> linarith
    have := (h.add R A.pi).trans (mul_le_mul h.small b (abs_nonneg _) (by norm_num))
    have := abs_le.mp this
    rw [abs_le]; constructor <;> linarith
  have hf' := abs_le.mp hf
  obtain ⟨q, hq, nq⟩ := tp2xyz_near h ha (t := radF A (degF A (polF A acos p))) (f := A.add R A.pi) (θ := arccos p.z)
    (φ := φ) (a := 7e-14) (b := 9e-14) (m := m) (by rw [abs_le]; constructor <;> linarith)
    (by rw [abs_le]; constructor <;> linarith) (by norm_num) (by norm_num) (by linarith) (by linarith)
    (by rw [abs_le]; constructor <;> linarith)
  exact ⟨q, hq, (nq.trans n1).mono (by norm_num), fun hr => (nq.trans (n2 hr)).mono (by norm_num)⟩

/-- **C210** in the arithmetic of doubles a vector with z = -1 comes back as straight up -/
theorem C210_nadir {acos : ℝ → ℝ} (hπ : acos (-1) = binary64.pi) {p : V3} (hz : p.z = -1) :
    ∃ q, tp2xyzF binary64 (xyz2tpF binary64 acos p) = some q ∧ Near q ⟨0, 0, 1⟩ 1e-12 := by
  have hpp := abs_le.mp (pi_near binary64_ok)
  have g3 := pi_gt_three
  have g2 := pi_lt_d2
  have hpos : 0 < binary64.pi := by linarith
  have e2 : binary64.add binary64.pi binary64.pi = 2 * binary64.pi := by
    show rnd (rnd π + rnd π) = 2 * rnd π
    have := rnd_scale (rnd π) 1
    rw [rnd_idem π pi_pos.le, zpow_one] at this
    rw [show rnd π + rnd π = rnd π * 2 by ring, this]
    ring
  have hpol : polF binary64 acos p = 0 := by
    unfold polF modF
    rw [hz, hπ, e2, mul_div_assoc, div_self hpos.ne']
    norm_num
    ring
  have hφ : |phiF binary64 acos p - π| ≤ 3e-15 := by
    have : phiF binary64 acos p = binary64.pi := by
      unfold phiF
      rw [hz, hπ, if_pos (show isclose binary64.pi binary64.pi 1e-10 by unfold isclose; rw [sub_self, abs_zero]; positivity),
        ite_self]
    rw [this]
    exact (pi_near binary64_ok).trans (by norm_num)
  obtain ⟨m, ka, kb⟩ := azi_near binary64_ok (abs_of_pos pi_pos).le hφ
  obtain ⟨q, hq, nq⟩ := tp2xyz_near binary64_ok binary64_above (t := polF binary64 acos p) (f := aziF binary64 acos p)
    (θ := 0) (φ := π) (a := 0) (b := 1e-14) (m := m) (by rw [hpol, sub_zero, abs_zero]) ka (by norm_num) (by norm_num)
    hpol.ge (by rw [hpol]; linarith) (kb.trans (by norm_num))
  refine ⟨q, hq, ?_⟩
  rw [sin_zero, zero_mul, zero_mul, cos_zero] at nq
  exact nq.mono (by norm_num)

/-- **C210** the property, in the arithmetic of doubles -/
def C210_statement : Prop :=
  ∀ (acos : ℝ → ℝ) (v p q : V3), AcosOk binary64 acos → acos (-1) = binary64.pi → v ≠ ⟨0, 0, 0⟩ → normF binary64 v = some p →
    tp2xyzF binary64 (xyz2tpF binary64 acos p) = some q → Near q p 2e-7

/-- **C210** is false also for a vector that is not exactly straight down: z is rounded to -1 -/
theorem C210_refuted : ¬ C210_statement := by
  intro hs
  have e26 : rnd ((2 : ℝ) ^ (-26 : ℤ)) = 2 ^ (-26 : ℤ) := rnd_pow _
  have rm : rnd (-1) = -1 := by simpa using rnd_whole (k := -1) (by norm_num)
  have e2 : normF binary64 ⟨2 ^ (-26 : ℤ), 0, -1⟩ = some ⟨2 ^ (-26 : ℤ), 0, -1⟩ := by
    unfold normF
    rw [down_norm, if_neg one_ne_zero]
    simp only [binary64, div_one, e26, rnd_zero, rm]
  obtain ⟨q, hq, nq⟩ := C210_nadir (acos := fun c => rnd (arccos c)) acos_rnd.2 (p := ⟨2 ^ (-26 : ℤ), 0, -1⟩) rfl
  have z1 := abs_le.mp (hs (fun c => rnd (arccos c)) _ _ q acos_rnd.1 acos_rnd.2 (by simp) e2 hq).2.2
  have z2 := abs_le.mp nq.2.2
  simp only at z1 z2
  linarith

/-- the hypotheses are met by the unit vector (3/5, 0, 4/5) -/
example : |len2 ⟨3 / 5, 0, 4 / 5⟩ - 1| ≤ 1e-14 ∧ |(4 / 5 : ℝ)| ≤ 1 - 1e-9 ∧ -1 + 1e-9 ≤ (4 / 5 : ℝ) ∧
    1e-3 ≤ √((3 / 5 : ℝ) ^ 2 + 0 ^ 2) ∧ AboveπOk binary64 ∧ ∃ acos, AcosOk binary64 acos ∧ acos (-1) = binary64.pi := by
  refine ⟨by unfold len2; norm_num, by norm_num, by norm_num, ?_, binary64_above, _, acos_rnd⟩
  rw [show ((3 / 5 : ℝ) ^ 2 + 0 ^ 2) = (3 / 5) ^ 2 by norm_num, sqrt_sq (by norm_num)]
  norm_num

end Verif.Fp
