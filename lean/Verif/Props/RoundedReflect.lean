import Verif.Model.RoundedReflect
import Verif.Props.RoundedBetween

/-! Property C223: reflection in double precision. -/

namespace Verif.Fp
open Verif.Geo Real

/-- specification: every coordinate is within `e` units of 2^-53 -/
def Within (e : ℝ) (p a : V3) : Prop := |p.x - a.x| ≤ e * 2⁻¹ ^ 53 ∧ |p.y - a.y| ≤ e * 2⁻¹ ^ 53 ∧ |p.z - a.z| ≤ e * 2⁻¹ ^ 53

/-- specification: the direction of a vector -/
noncomputable def direction (v : V3) : V3 :=
  ⟨v.x / √(v.x ^ 2 + v.y ^ 2 + v.z ^ 2), v.y / √(v.x ^ 2 + v.y ^ 2 + v.z ^ 2), v.z / √(v.x ^ 2 + v.y ^ 2 + v.z ^ 2)⟩

/-- specification: the mirror image of `a` in the plane with the unit normal `b` -/
def mirror (a b : V3) : V3 :=
  ⟨a.x - 2 * b.x * (a.x * b.x + a.y * b.y + a.z * b.z), a.y - 2 * b.y * (a.x * b.x + a.y * b.y + a.z * b.z),
    a.z - 2 * b.z * (a.x * b.x + a.y * b.y + a.z * b.z)⟩

/-- specification: a vector of length one -/
def Unit3 (a : V3) : Prop := a.x ^ 2 + a.y ^ 2 + a.z ^ 2 = 1

theorem direction_unit {v : V3} (h : v ≠ ⟨0, 0, 0⟩) : Unit3 (direction v) := by
  have l := len_pos h
  have s := sq_sqrt (show 0 ≤ v.x ^ 2 + v.y ^ 2 + v.z ^ 2 by positivity)
  unfold Unit3 direction
  simp only
  generalize √(v.x ^ 2 + v.y ^ 2 + v.z ^ 2) = n at *
  rw [div_pow, div_pow, div_pow, ← add_div, ← add_div, ← s, div_self (pow_pos l 2).ne']

theorem mirror_unit {a b : V3} (ha : Unit3 a) (hb : Unit3 b) : Unit3 (mirror a b) := by
  unfold Unit3 mirror at *
  simp only
  generalize hd : a.x * b.x + a.y * b.y + a.z * b.z = d
  have : (a.x - 2 * b.x * d) ^ 2 + (a.y - 2 * b.y * d) ^ 2 + (a.z - 2 * b.z * d) ^ 2 =
      (a.x ^ 2 + a.y ^ 2 + a.z ^ 2) - 4 * d * (a.x * b.x + a.y * b.y + a.z * b.z) + 4 * d ^ 2 * (b.x ^ 2 + b.y ^ 2 + b.z ^ 2) := by ring
  rw [this, ha, hb, hd]
  ring

theorem mirror_mirror {a b : V3} (hb : Unit3 b) : mirror (mirror a b) b = a := by
  unfold Unit3 at hb
  unfold mirror
  simp only
  generalize hd : a.x * b.x + a.y * b.y + a.z * b.z = d
  have : (a.x - 2 * b.x * d) * b.x + (a.y - 2 * b.y * d) * b.y + (a.z - 2 * b.z * d) * b.z = -d := by
    have : (a.x - 2 * b.x * d) * b.x + (a.y - 2 * b.y * d) * b.y + (a.z - 2 * b.z * d) * b.z =
        (a.x * b.x + a.y * b.y + a.z * b.z) - 2 * d * (b.x ^ 2 + b.y ^ 2 + b.z ^ 2) := by ring
    rw [this, hb, hd]
    ring
  rw [this]
  cases a
  simp only [V3.mk.injEq]
  refine ⟨?_, ?_, ?_⟩ <;> ring

theorem unit3_le {a : V3} (h : Unit3 a) : |a.x| ≤ 1 ∧ |a.y| ≤ 1 ∧ |a.z| ≤ 1 := by
  unfold Unit3 at h
  have hx := sq_nonneg a.x
  have hy := sq_nonneg a.y
  have hz := sq_nonneg a.z
  refine ⟨abs_le_of_sq_le_sq (by linarith) zero_le_one, abs_le_of_sq_le_sq (by linarith) zero_le_one,
    abs_le_of_sq_le_sq (by linarith) zero_le_one⟩

theorem unit3_dot {a b : V3} (ha : Unit3 a) (hb : Unit3 b) : |a.x * b.x + a.y * b.y + a.z * b.z| ≤ 1 := by
  unfold Unit3 at *
  rw [abs_le]
  constructor
  · linarith [sq_nonneg (a.x + b.x), sq_nonneg (a.y + b.y), sq_nonneg (a.z + b.z), add_sq a.x b.x, add_sq a.y b.y, add_sq a.z b.z]
  · linarith [sq_nonneg (a.x - b.x), sq_nonneg (a.y - b.y), sq_nonneg (a.z - b.z), sub_sq a.x b.x, sub_sq a.y b.y, sub_sq a.z b.z]

theorem norm_within {v p : V3} (h : v ≠ ⟨0, 0, 0⟩) (hp : normF binary64 v = some p) : Within 5 p (direction v) ∧
    rnd p.x = p.x ∧ rnd p.y = p.y ∧ rnd p.z = p.z := by
  have nv : nrm binary64 v ≠ 0 := (lt_of_lt_of_le (mul_pos (by norm_num) (len_pos h)) (nrm_rel v).1).ne'
  have e : p = ⟨rnd (v.x / nrm binary64 v), rnd (v.y / nrm binary64 v), rnd (v.z / nrm binary64 v)⟩ := by
    unfold normF at hp
    rw [if_neg nv] at hp
    exact (Option.some.inj hp).symm
  have d := div_nrm_rel h
  obtain ⟨u1, u2, u3⟩ := unit3_le (direction_unit h)
  subst e
  refine ⟨⟨(d v.x).trans ?_, (d v.y).trans ?_, (d v.z).trans ?_⟩, rnd_again _, rnd_again _, rnd_again _⟩
  · exact mul_le_of_le_one_right (by norm_num) u1
  · exact mul_le_of_le_one_right (by norm_num) u2
  · exact mul_le_of_le_one_right (by norm_num) u3

/-- one rounding -/
theorem rnd_within {s w e M : ℝ} (h : |s - w| ≤ e * 2⁻¹ ^ 53) (hs : |s| ≤ M) : |rnd s - w| ≤ (e + M) * 2⁻¹ ^ 53 := by
  have r := (rnd_near s).trans (mul_le_mul_of_nonneg_left hs (show (0 : ℝ) ≤ 2⁻¹ ^ 53 by norm_num))
  have t : |rnd s - w| ≤ |rnd s - s| + |s - w| := by simpa using abs_add_le (rnd s - s) (s - w)
  linarith

theorem small_of {x y e : ℝ} (h : |x - y| ≤ e * 2⁻¹ ^ 53) (he : e ≤ 10000) {M : ℝ} (hy : |y| ≤ M) : |x| ≤ M + 0.01 := by
  have : |x| ≤ |x - y| + |y| := by simpa using abs_add_le (x - y) y
  have : e * 2⁻¹ ^ 53 ≤ (0.01 : ℝ) := by
    refine (mul_le_mul_of_nonneg_right he (by norm_num)).trans (by norm_num)
  linarith

theorem mul_within {p a n b e : ℝ} (hp : |p - a| ≤ e * 2⁻¹ ^ 53) (hn : |n - b| ≤ 5 * 2⁻¹ ^ 53) (ha : |a| ≤ 1) (hb : |b| ≤ 1) (e0 : 0 ≤ e) :
    |p * n - a * b| ≤ (1.01 * e + 5) * 2⁻¹ ^ 53 := by
  have n1 : |n| ≤ 1.01 := (small_of hn (by norm_num) hb).trans (by norm_num)
  have : p * n - a * b = (p - a) * n + a * (n - b) := by ring
  rw [this]
  refine (abs_add_le _ _).trans ?_
  rw [abs_mul, abs_mul]
  have h1 := mul_le_mul hp n1 (abs_nonneg _) (mul_nonneg e0 (by norm_num))
  have h2 := mul_le_mul ha hn (abs_nonneg _) zero_le_one
  linarith

theorem dot_within {p n a b : V3} {e : ℝ} (hp : Within e p a) (hn : Within 5 n b) (ha : Unit3 a) (hb : Unit3 b) (e0 : 0 ≤ e) (e1 : e ≤ 200) :
    |binary64.dot3 p n - (a.x * b.x + a.y * b.y + a.z * b.z)| ≤ (3.1 * e + 25) * 2⁻¹ ^ 53 := by
  obtain ⟨px, py, pz⟩ := hp
  obtain ⟨nx, ny, nz⟩ := hn
  obtain ⟨ax, ay, az⟩ := unit3_le ha
  obtain ⟨bx, bY, bz⟩ := unit3_le hb
  change |rnd (rnd (rnd (p.x * n.x) + rnd (p.y * n.y)) + rnd (p.z * n.z)) - _| ≤ _
  have one : ∀ {p a n b : ℝ}, |p - a| ≤ e * 2⁻¹ ^ 53 → |n - b| ≤ 5 * 2⁻¹ ^ 53 → |a| ≤ 1 → |b| ≤ 1 →
      |rnd (p * n) - a * b| ≤ (1.01 * e + 5 + 1.1) * 2⁻¹ ^ 53 ∧ |rnd (p * n)| ≤ 1.02 := by
    intro p a n b h1 h2 h3 h4
    have m := mul_within h1 h2 h3 h4 e0
    have ab : |a * b| ≤ 1 := by rw [abs_mul]; exact mul_le_one₀ h3 (abs_nonneg _) h4
    have r := rnd_within m ((small_of m (by linarith) ab).trans (by norm_num : (1 + 0.01 : ℝ) ≤ 1.1))
    exact ⟨r, (small_of r (by linarith) ab).trans (by norm_num)⟩
  obtain ⟨X, X'⟩ := one px nx ax bx
  obtain ⟨Y, Y'⟩ := one py ny ay bY
  obtain ⟨Z, Z'⟩ := one pz nz az bz
  generalize rnd (p.x * n.x) = P at *
  generalize rnd (p.y * n.y) = Q at *
  generalize rnd (p.z * n.z) = R at *
  have S : |rnd (P + Q) - (a.x * b.x + a.y * b.y)| ≤ (2.02 * e + 12.2 + 2.1) * 2⁻¹ ^ 53 := by
    refine rnd_within ?_ ((abs_add_le _ _).trans (by linarith))
    rw [show P + Q - (a.x * b.x + a.y * b.y) = (P - a.x * b.x) + (Q - a.y * b.y) by ring]
    refine (abs_add_le _ _).trans ?_
    linarith
  have S' : |rnd (P + Q)| ≤ 2.1 := by
    have r := rnd_near (P + Q)
    have : |P + Q| ≤ 2.04 := (abs_add_le _ _).trans (by linarith)
    have k := mul_le_mul_of_nonneg_left this (show (0 : ℝ) ≤ 2⁻¹ ^ 53 by norm_num)
    have t : |rnd (P + Q)| ≤ |rnd (P + Q) - (P + Q)| + |P + Q| := by simpa using abs_add_le (rnd (P + Q) - (P + Q)) (P + Q)
    norm_num at r k t ⊢
    linarith
  generalize rnd (P + Q) = T at *
  have U : |rnd (T + R) - (a.x * b.x + a.y * b.y + a.z * b.z)| ≤ (3.03 * e + 20.4 + 3.2) * 2⁻¹ ^ 53 := by
    refine rnd_within ?_ ((abs_add_le _ _).trans (by linarith))
    rw [show T + R - (a.x * b.x + a.y * b.y + a.z * b.z) = (T - (a.x * b.x + a.y * b.y)) + (R - a.z * b.z) by ring]
    refine (abs_add_le _ _).trans ?_
    linarith
  refine U.trans (mul_le_mul_of_nonneg_right (by linarith) (by norm_num))

theorem coord_within {r a n b c d e : ℝ} (hr : |r - a| ≤ e * 2⁻¹ ^ 53) (hn : |n - b| ≤ 5 * 2⁻¹ ^ 53) (hc : |c - d| ≤ (3.1 * e + 25) * 2⁻¹ ^ 53)
    (ha : |a| ≤ 1) (hb : |b| ≤ 1) (hd : |d| ≤ 1) (fn : rnd n = n) (e0 : 0 ≤ e) (e1 : e ≤ 200) :
    |reflCoord binary64 r n c - (a - 2 * b * d)| ≤ (8 * e + 70) * 2⁻¹ ^ 53 := by
  change |rnd (r - rnd (rnd (2 * n) * c)) - _| ≤ _
  rw [rnd_twice, fn]
  have m := mul_within hc hn hd hb (by linarith)
  have bd : |d * b| ≤ 1 := by rw [abs_mul]; exact mul_le_one₀ hd (abs_nonneg _) hb
  have m2 : |2 * n * c - 2 * b * d| ≤ (2 * (1.01 * (3.1 * e + 25) + 5)) * 2⁻¹ ^ 53 := by
    rw [show 2 * n * c - 2 * b * d = 2 * (c * n - d * b) by ring, abs_mul, abs_two]
    linarith
  have b2 : |2 * b * d| ≤ 2 := by
    rw [show 2 * b * d = 2 * (d * b) by ring, abs_mul, abs_two]
    linarith
  have T := rnd_within m2 ((small_of m2 (by linarith) b2).trans (by norm_num : (2 + 0.01 : ℝ) ≤ 2.1))
  have T' := small_of T (by linarith) b2
  have r1 := small_of hr (by linarith) ha
  generalize rnd (2 * n * c) = t at *
  have := rnd_within (s := r - t) (w := a - 2 * b * d) (e := e + (2 * (1.01 * (3.1 * e + 25) + 5) + 2.1)) (M := 3.1) (by
    rw [show r - t - (a - 2 * b * d) = (r - a) - (t - 2 * b * d) by ring]
    refine (abs_sub _ _).trans ?_
    linarith) ((abs_sub _ _).trans (by linarith))
  refine this.trans (mul_le_mul_of_nonneg_right (by linarith) (by norm_num))

theorem reflect_within {p n a b : V3} {e : ℝ} (hp : Within e p a) (hn : Within 5 n b) (ha : Unit3 a) (hb : Unit3 b)
    (fn : rnd n.x = n.x ∧ rnd n.y = n.y ∧ rnd n.z = n.z) (e0 : 0 ≤ e) (e1 : e ≤ 200) :
    Within (8 * e + 70) (reflectF binary64 p n) (mirror a b) := by
  have c := dot_within hp hn ha hb e0 e1
  obtain ⟨px, py, pz⟩ := hp
  obtain ⟨nx, ny, nz⟩ := hn
  obtain ⟨ax, ay, az⟩ := unit3_le ha
  obtain ⟨bx, bY, bz⟩ := unit3_le hb
  have d := unit3_dot ha hb
  exact ⟨coord_within px nx c ax bx d fn.1 e0 e1, coord_within py ny c ay bY d fn.2.1 e0 e1, coord_within pz nz c az bz d fn.2.2 e0 e1⟩

/-- **C223** the reflection of a normalised ray at a normalised normal is the mirror image, to 110 units of 2^-53 in every
coordinate -/
theorem C223_mirror {v w p n : V3} (hv : v ≠ ⟨0, 0, 0⟩) (hw : w ≠ ⟨0, 0, 0⟩) (hp : normF binary64 v = some p) (hn : normF binary64 w = some n) :
    Within 110 (reflectF binary64 p n) (mirror (direction v) (direction w)) := by
  obtain ⟨a, -⟩ := norm_within hv hp
  obtain ⟨b, f⟩ := norm_within hw hn
  have := reflect_within a b (direction_unit hv) (direction_unit hw) f (by norm_num) (by norm_num)
  norm_num at this
  exact this

/-- **C223** reflecting twice gives the ray back -/
theorem C223_back {v w p n : V3} (hv : v ≠ ⟨0, 0, 0⟩) (hw : w ≠ ⟨0, 0, 0⟩) (hp : normF binary64 v = some p) (hn : normF binary64 w = some n) :
    Within 950 (reflectF binary64 (reflectF binary64 p n) n) (direction v) := by
  obtain ⟨b, f⟩ := norm_within hw hn
  have := reflect_within (C223_mirror hv hw hp hn) b (mirror_unit (direction_unit hv) (direction_unit hw)) (direction_unit hw) f (by norm_num)
    (by norm_num)
  rw [mirror_mirror (direction_unit hw)] at this
  norm_num at this
  exact this

/-- **C223** rounding never masks the reflection of a normalised ray at a normalised normal -/
theorem C223_mask {v w p n : V3} (hv : v ≠ ⟨0, 0, 0⟩) (hw : w ≠ ⟨0, 0, 0⟩) (hp : normF binary64 v = some p) (hn : normF binary64 w = some n) :
    reflMaskF binary64 p n := by
  obtain ⟨x, y, z⟩ := C223_mirror hv hw hp hn
  have u := mirror_unit (direction_unit hv) (direction_unit hw)
  obtain ⟨ux, uy, uz⟩ := unit3_le u
  unfold Unit3 at u
  unfold reflMaskF isclose
  generalize mirror (direction v) (direction w) = m at *
  generalize reflectF binary64 p n = r at *
  obtain ⟨lo, hi⟩ := nrm_rel r
  have q : ∀ {r m : ℝ}, |r - m| ≤ 110 * 2⁻¹ ^ 53 → |m| ≤ 1 → |r ^ 2 - m ^ 2| ≤ 1e-7 := by
    intro r m h hm
    have hr := small_of h (by norm_num) hm
    rw [show r ^ 2 - m ^ 2 = (r - m) * (r + m) by ring, abs_mul]
    have := mul_le_mul h ((abs_add_le r m).trans (add_le_add hr hm)) (abs_nonneg _) (by norm_num)
    refine this.trans (by norm_num)
  have X := abs_le.mp (q x ux)
  have Y := abs_le.mp (q y uy)
  have Z := abs_le.mp (q z uz)
  have l : (1 : ℝ) - 1e-6 ≤ √(r.x ^ 2 + r.y ^ 2 + r.z ^ 2) := by
    refine le_sqrt_of_sq_le ?_
    norm_num at X Y Z ⊢
    linarith [X.1, Y.1, Z.1]
  have h : √(r.x ^ 2 + r.y ^ 2 + r.z ^ 2) ≤ (1 : ℝ) + 1e-6 := by
    refine sqrt_le_iff.mpr ⟨by norm_num, ?_⟩
    norm_num at X Y Z ⊢
    linarith [X.2, Y.2, Z.2]
  generalize √(r.x ^ 2 + r.y ^ 2 + r.z ^ 2) = s at *
  rw [abs_one, abs_le]
  have l2 := mul_le_mul_of_nonneg_left l (show (0 : ℝ) ≤ 1 - 3 * 2⁻¹ ^ 53 by norm_num)
  have h2 := mul_le_mul_of_nonneg_left h (show (0 : ℝ) ≤ 1 + 3 * 2⁻¹ ^ 53 by norm_num)
  have l3 := l2.trans lo
  have h3 := hi.trans h2
  norm_num at l3 h3 ⊢
  constructor <;> linarith

/-- the hypotheses are met by a slanted ray and a normal that are not of length one -/
example : ∃ p n, (⟨3, 4, 0⟩ : V3) ≠ ⟨0, 0, 0⟩ ∧ (⟨0, 0, 2⟩ : V3) ≠ ⟨0, 0, 0⟩ ∧ normF binary64 ⟨3, 4, 0⟩ = some p ∧ normF binary64 ⟨0, 0, 2⟩ = some n := by
  have h1 : (⟨3, 4, 0⟩ : V3) ≠ ⟨0, 0, 0⟩ := fun h => by simp at h
  have h2 : (⟨0, 0, 2⟩ : V3) ≠ ⟨0, 0, 0⟩ := fun h => by simp at h
  obtain ⟨p, q, -, hp, hq, -⟩ := C222_error_partial h1 h2
  exact ⟨p, q, h1, h2, hp, hq⟩

end Verif.Fp
