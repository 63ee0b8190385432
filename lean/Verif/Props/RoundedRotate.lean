import Verif.Model.RoundedRotate
import Verif.Props.RoundedReflect
import Mathlib.Analysis.SpecialFunctions.Trigonometric.Bounds

/-! Property C224: rotations about an axis in double precision. -/

namespace Verif.Fp
open Verif.Geo Real

/-- specification: `v` turned by `t` radians about a coordinate axis, counterclockwise -/
noncomputable def turned (axis : Fin 3) (t : ℝ) (v : V3) : V3 :=
  match axis with
  | 0 => ⟨v.x, v.y * cos t - v.z * sin t, v.y * sin t + v.z * cos t⟩
  | 1 => ⟨v.z * sin t + v.x * cos t, v.y, v.z * cos t - v.x * sin t⟩
  | 2 => ⟨v.x * cos t - v.y * sin t, v.x * sin t + v.y * cos t, v.z⟩

/-- specification: the angle in radians -/
noncomputable def radians (degrees : Bool) (t : ℝ) : ℝ := if degrees then t * π / 180 else t

/-- specification: coordinate along an axis -/
def along (axis : Fin 3) (v : V3) : ℝ := match axis with | 0 => v.x | 1 => v.y | 2 => v.z

/-- specification: sum of the absolute coordinates -/
def size3 (v : V3) : ℝ := |v.x| + |v.y| + |v.z|

theorem turnAngleF_near (dg : Bool) (t : ℝ) : |turnAngleF dg t - radians dg t| ≤ 4 * |radians dg t| * 2⁻¹ ^ 53 := by
  cases dg
  · simp only [turnAngleF, radians, Bool.false_eq_true, if_false, sub_self, abs_zero]
    positivity
  · simp only [turnAngleF, radians, if_true]
    obtain ⟨a, ha, la⟩ := rnd_fac π
    obtain ⟨b, hb, lb⟩ := rnd_fac (t * rnd π)
    obtain ⟨c, hc, lc⟩ := rnd_fac (rnd (t * rnd π) / 180)
    rw [hc, hb, ha, show t * (π * (1 + a)) * (1 + b) / 180 * (1 + c) - t * π / 180 = t * π / 180 * (a + b + c + a * b + a * c + b * c + a * b * c) by ring,
      abs_mul]
    have m : ∀ {x y X Y : ℝ}, |x| ≤ X → |y| ≤ Y → |x * y| ≤ X * Y := fun h k => by
      rw [abs_mul]; exact mul_le_mul h k (abs_nonneg _) ((abs_nonneg _).trans h)
    have h1 := m la lb
    have h2 := m la lc
    have h3 := m lb lc
    have h4 := m h1 lc
    have : |a + b + c + a * b + a * c + b * c + a * b * c| ≤ 4 * 2⁻¹ ^ 53 := by
      rw [abs_le] at *
      constructor
      · norm_num at *; linarith [la.1, lb.1, lc.1, h1.1, h2.1, h3.1, h4.1]
      · norm_num at *; linarith [la.2, lb.2, lc.2, h1.2, h2.2, h3.2, h4.2]
    have := mul_le_mul_of_nonneg_left this (abs_nonneg (t * π / 180))
    linarith

theorem entry_near {f : ℝ → ℝ} (lip : ∀ x y, |f x - f y| ≤ |x - y|) (one : ∀ x, |f x| ≤ 1) (dg : Bool) (t : ℝ) :
    |rnd (f (turnAngleF dg t)) - f (radians dg t)| ≤ (4 * |radians dg t| + 1) * 2⁻¹ ^ 53 :=
  rnd_within ((lip _ _).trans (turnAngleF_near dg t)) (one _)

theorem cos_near (dg : Bool) (t : ℝ) : |rnd (cos (turnAngleF dg t)) - cos (radians dg t)| ≤ (4 * |radians dg t| + 1) * 2⁻¹ ^ 53 :=
  entry_near (fun x y => abs_cos_sub_cos_le x y) abs_cos_le_one dg t

theorem sin_near (dg : Bool) (t : ℝ) : |rnd (sin (turnAngleF dg t)) - sin (radians dg t)| ≤ (4 * |radians dg t| + 1) * 2⁻¹ ^ 53 :=
  entry_near (fun x y => abs_sin_sub_sin_le x y) abs_sin_le_one dg t

theorem rnd_small {x : ℝ} (h : |x| ≤ 1) : |rnd x| ≤ 1.01 := by
  have := rnd_near x
  have t : |rnd x| ≤ |rnd x - x| + |x| := by simpa using abs_add_le (rnd x - x) x
  norm_num at *
  linarith

/-- two products and a sum -/
theorem mix_near {p q a b x y e : ℝ} (hp : |p - a| ≤ e * 2⁻¹ ^ 53) (hq : |q - b| ≤ e * 2⁻¹ ^ 53) (p1 : |p| ≤ 1.01) (q1 : |q| ≤ 1.01) :
    |rnd (rnd (p * x) + rnd (q * y)) - (a * x + b * y)| ≤ (e + 4) * 2⁻¹ ^ 53 * (|x| + |y|) := by
  have k : ∀ {p a x : ℝ}, |p - a| ≤ e * 2⁻¹ ^ 53 → |p| ≤ 1.01 → |rnd (p * x) - a * x| ≤ (e + 1.01) * 2⁻¹ ^ 53 * |x| ∧ |rnd (p * x)| ≤ 1.02 * |x| := by
    intro p a x h h1
    have r := rnd_near (p * x)
    rw [abs_mul] at r
    have u := mul_le_mul_of_nonneg_right h1 (abs_nonneg x)
    have w := mul_le_mul_of_nonneg_right h (abs_nonneg x)
    rw [← abs_mul] at w
    have t : |rnd (p * x) - a * x| ≤ |rnd (p * x) - p * x| + |(p - a) * x| := by
      have := abs_add_le (rnd (p * x) - p * x) ((p - a) * x)
      rwa [show rnd (p * x) - p * x + (p - a) * x = rnd (p * x) - a * x by ring] at this
    have t' : |rnd (p * x)| ≤ |rnd (p * x) - p * x| + |p| * |x| := by
      rw [← abs_mul]; simpa using abs_add_le (rnd (p * x) - p * x) (p * x)
    constructor
    · norm_num at *; linarith
    · norm_num at *; linarith [abs_nonneg x]
  obtain ⟨X, X'⟩ := k (x := x) hp p1
  obtain ⟨Y, Y'⟩ := k (x := y) hq q1
  have r := rnd_near (rnd (p * x) + rnd (q * y))
  generalize rnd (p * x) = P at *
  generalize rnd (q * y) = Q at *
  have s : |P + Q| ≤ 1.02 * (|x| + |y|) := (abs_add_le _ _).trans (by linarith)
  have t : |rnd (P + Q) - (a * x + b * y)| ≤ |rnd (P + Q) - (P + Q)| + (|P - a * x| + |Q - b * y|) := by
    have := abs_add_le (rnd (P + Q) - (P + Q)) ((P - a * x) + (Q - b * y))
    have h := abs_add_le (P - a * x) (Q - b * y)
    rw [show rnd (P + Q) - (P + Q) + ((P - a * x) + (Q - b * y)) = rnd (P + Q) - (a * x + b * y) by ring] at this
    linarith
  norm_num at *
  linarith [abs_nonneg x, abs_nonneg y]

theorem dot_mix (p q x y z : ℝ) :
    binary64.dot3 ⟨p, q, 0⟩ ⟨x, y, z⟩ = rnd (rnd (p * x) + rnd (q * y)) ∧
    binary64.dot3 ⟨p, 0, q⟩ ⟨x, z, y⟩ = rnd (rnd (p * x) + rnd (q * y)) ∧
    binary64.dot3 ⟨0, p, q⟩ ⟨z, x, y⟩ = rnd (rnd (p * x) + rnd (q * y)) := by
  refine ⟨?_, ?_, ?_⟩
  · change rnd (rnd (rnd (p * x) + rnd (q * y)) + rnd (0 * z)) = _
    rw [zero_mul, rnd_zero, add_zero, rnd_again]
  · change rnd (rnd (rnd (p * x) + rnd (0 * z)) + rnd (q * y)) = _
    rw [zero_mul, rnd_zero, add_zero, rnd_again]
  · change rnd (rnd (rnd (0 * z) + rnd (p * x)) + rnd (q * y)) = _
    rw [zero_mul, rnd_zero, zero_add, rnd_again]

theorem dot_axis (x y z : ℝ) :
    binary64.dot3 ⟨0, 0, 1⟩ ⟨x, y, z⟩ = rnd z ∧ binary64.dot3 ⟨0, 1, 0⟩ ⟨x, z, y⟩ = rnd z ∧ binary64.dot3 ⟨1, 0, 0⟩ ⟨z, x, y⟩ = rnd z := by
  refine ⟨?_, ?_, ?_⟩
  · change rnd (rnd (rnd (0 * x) + rnd (0 * y)) + rnd (1 * z)) = _
    simp [rnd_zero, rnd_again]
  · change rnd (rnd (rnd (0 * x) + rnd (1 * z)) + rnd (0 * y)) = _
    simp [rnd_zero, rnd_again]
  · change rnd (rnd (rnd (1 * z) + rnd (0 * x)) + rnd (0 * y)) = _
    simp [rnd_zero, rnd_again]

/-- the rounded rotation, coordinate by coordinate -/
theorem rotateElemF_eq (dg : Bool) (t : ℝ) (v : V3) (c s : ℝ) (hc : c = rnd (cos (turnAngleF dg t))) (hs : s = rnd (sin (turnAngleF dg t))) :
    rotateElemF dg 0 t v = ⟨rnd v.x, rnd (rnd (c * v.y) + rnd (-s * v.z)), rnd (rnd (s * v.y) + rnd (c * v.z))⟩ ∧
    rotateElemF dg 1 t v = ⟨rnd (rnd (c * v.x) + rnd (s * v.z)), rnd v.y, rnd (rnd (-s * v.x) + rnd (c * v.z))⟩ ∧
    rotateElemF dg 2 t v = ⟨rnd (rnd (c * v.x) + rnd (-s * v.y)), rnd (rnd (s * v.x) + rnd (c * v.y)), rnd v.z⟩ := by
  obtain ⟨x, y, z⟩ := v
  refine ⟨?_, ?_, ?_⟩
  · rw [← (dot_axis y z x).2.2, ← (dot_mix c (-s) y z x).2.2, ← (dot_mix s c y z x).2.2, hc, hs]
    rfl
  · rw [← (dot_axis x z y).2.1, ← (dot_mix c s x z y).2.1, ← (dot_mix (-s) c x z y).2.1, hc, hs]
    rfl
  · rw [← (dot_axis x y z).1, ← (dot_mix c (-s) x y z).1, ← (dot_mix s c x y z).1, hc, hs]
    rfl

/-- C224: the coordinate along the axis is kept bit for bit -/
theorem C224_axis (dg : Bool) (axis : Fin 3) (t : ℝ) (v : V3) (h : rnd (along axis v) = along axis v) :
    along axis (rotateElemF dg axis t v) = along axis v := by
  obtain ⟨h0, h1, h2⟩ := rotateElemF_eq dg t v _ _ rfl rfl
  fin_cases axis
  · exact (congrArg V3.x h0).trans h
  · exact (congrArg V3.y h1).trans h
  · exact (congrArg V3.z h2).trans h

/-- C224: the rotation is right up to rounding, for every angle -/
theorem C224_error (dg : Bool) (axis : Fin 3) (t : ℝ) (v : V3) :
    Within ((4 * |radians dg t| + 5) * size3 v) (rotateElemF dg axis t v) (turned axis (radians dg t) v) := by
  obtain ⟨h0, h1, h2⟩ := rotateElemF_eq dg t v _ _ rfl rfl
  have c := cos_near dg t
  have s := sin_near dg t
  have c1 := rnd_small (abs_cos_le_one (turnAngleF dg t))
  have s1 := rnd_small (abs_sin_le_one (turnAngleF dg t))
  have n : |-rnd (sin (turnAngleF dg t)) - -sin (radians dg t)| ≤ (4 * |radians dg t| + 1) * 2⁻¹ ^ 53 := by
    rw [← neg_sub', abs_neg]; exact s
  have n1 : |-rnd (sin (turnAngleF dg t))| ≤ 1.01 := by rw [abs_neg]; exact s1
  have r0 := abs_nonneg (radians dg t)
  have x0 := abs_nonneg v.x
  have y0 := abs_nonneg v.y
  have z0 := abs_nonneg v.z
  have up : ∀ {d w : ℝ}, d ≤ (4 * |radians dg t| + 1 + 4) * 2⁻¹ ^ 53 * w → w ≤ size3 v → d ≤ (4 * |radians dg t| + 5) * size3 v * 2⁻¹ ^ 53 := by
    intro d w h k
    have := mul_le_mul_of_nonneg_left k (show 0 ≤ (4 * |radians dg t| + 1 + 4) * 2⁻¹ ^ 53 by positivity)
    refine (h.trans this).trans (le_of_eq ?_)
    ring
  have one : ∀ w, |rnd w - w| ≤ (4 * |radians dg t| + 1 + 4) * 2⁻¹ ^ 53 * |w| := by
    intro w
    refine (rnd_near w).trans (mul_le_mul_of_nonneg_right ?_ (abs_nonneg _))
    norm_num
    linarith
  fin_cases axis
  · change Within _ (rotateElemF dg 0 t v) _
    rw [h0]
    refine ⟨up (one _) (by unfold size3; linarith), up ?_ (show |v.y| + |v.z| ≤ _ by unfold size3; linarith), up ?_ (show |v.y| + |v.z| ≤ _ by unfold size3; linarith)⟩
    · convert mix_near (x := v.y) (y := v.z) c n c1 n1 using 2
      simp only [turned]; ring
    · convert mix_near (x := v.y) (y := v.z) s c s1 c1 using 2
      simp only [turned]; ring
  · change Within _ (rotateElemF dg 1 t v) _
    rw [h1]
    refine ⟨up ?_ (show |v.x| + |v.z| ≤ _ by unfold size3; linarith), up (one _) (by unfold size3; linarith), up ?_ (show |v.x| + |v.z| ≤ _ by unfold size3; linarith)⟩
    · convert mix_near (x := v.x) (y := v.z) c s c1 s1 using 2
      simp only [turned]; ring
    · convert mix_near (x := v.x) (y := v.z) n c n1 c1 using 2
      simp only [turned]; ring
  · change Within _ (rotateElemF dg 2 t v) _
    rw [h2]
    refine ⟨up ?_ (show |v.x| + |v.y| ≤ _ by unfold size3; linarith), up ?_ (show |v.x| + |v.y| ≤ _ by unfold size3; linarith), up (one _) (by unfold size3; linarith)⟩
    · convert mix_near (x := v.x) (y := v.y) c n c1 n1 using 2
      simp only [turned]; ring
    · convert mix_near (x := v.x) (y := v.y) s c s1 c1 using 2
      simp only [turned]; ring

theorem turned_le (axis : Fin 3) (t : ℝ) (v : V3) :
    |(turned axis t v).x| ≤ size3 v ∧ |(turned axis t v).y| ≤ size3 v ∧ |(turned axis t v).z| ≤ size3 v := by
  have k : ∀ x {c : ℝ}, |c| ≤ 1 → |x * c| ≤ |x| := fun x c h => by
    rw [abs_mul]; exact mul_le_of_le_one_right (abs_nonneg _) h
  have c := fun x => k x (abs_cos_le_one t)
  have s := fun x => k x (abs_sin_le_one t)
  have x0 := abs_nonneg v.x
  have y0 := abs_nonneg v.y
  have z0 := abs_nonneg v.z
  unfold size3
  fin_cases axis
  · exact ⟨by simp only [turned]; linarith, (abs_sub _ _).trans (by linarith [c v.y, s v.z]), (abs_add_le _ _).trans (by linarith [s v.y, c v.z])⟩
  · exact ⟨(abs_add_le _ _).trans (by linarith [s v.z, c v.x]), by simp only [turned]; linarith, (abs_sub _ _).trans (by linarith [c v.z, s v.x])⟩
  · exact ⟨(abs_sub _ _).trans (by linarith [c v.x, s v.y]), (abs_add_le _ _).trans (by linarith [s v.x, c v.y]), by simp only [turned]; linarith⟩

theorem turned_sub (axis : Fin 3) (t : ℝ) (v w : V3) :
    turned axis t ⟨v.x - w.x, v.y - w.y, v.z - w.z⟩ =
      ⟨(turned axis t v).x - (turned axis t w).x, (turned axis t v).y - (turned axis t w).y, (turned axis t v).z - (turned axis t w).z⟩ := by
  fin_cases axis <;> simp only [turned, V3.mk.injEq, true_and, and_true] <;> constructor <;> ring

theorem turned_add (axis : Fin 3) (s t : ℝ) (v : V3) : turned axis s (turned axis t v) = turned axis (s + t) v := by
  obtain ⟨x, y, z⟩ := v
  fin_cases axis <;> simp only [turned, cos_add, sin_add, V3.mk.injEq, true_and, and_true] <;> constructor <;> ring

theorem turned_length (axis : Fin 3) (t : ℝ) (v : V3) :
    (turned axis t v).x ^ 2 + (turned axis t v).y ^ 2 + (turned axis t v).z ^ 2 = v.x ^ 2 + v.y ^ 2 + v.z ^ 2 := by
  have h := sin_sq_add_cos_sq t
  fin_cases axis <;> simp only [turned]
  · linear_combination (v.y ^ 2 + v.z ^ 2) * h
  · linear_combination (v.x ^ 2 + v.z ^ 2) * h
  · linear_combination (v.x ^ 2 + v.y ^ 2) * h

theorem close_le {t : ℝ} {v w a : V3} (ht : t ≤ 10 ^ 6) (e : Within ((4 * t + 5) * size3 v) w a)
    (l : |a.x| ≤ size3 v ∧ |a.y| ≤ size3 v ∧ |a.z| ≤ size3 v) :
    |w.x| ≤ 1.01 * size3 v ∧ |w.y| ≤ 1.01 * size3 v ∧ |w.z| ≤ 1.01 * size3 v := by
  have s0 : 0 ≤ size3 v := by unfold size3; positivity
  have small : (4 * t + 5) * size3 v * 2⁻¹ ^ 53 ≤ 0.01 * size3 v := by
    have : (4 * t + 5) * 2⁻¹ ^ 53 ≤ (0.01 : ℝ) := by norm_num at *; linarith
    have := mul_le_mul_of_nonneg_right this s0
    linarith
  have tri : ∀ {p q : ℝ}, |p - q| ≤ (4 * t + 5) * size3 v * 2⁻¹ ^ 53 → |q| ≤ size3 v → |p| ≤ 1.01 * size3 v := by
    intro p q h k
    have : |p| ≤ |p - q| + |q| := by simpa using abs_add_le (p - q) q
    linarith
  exact ⟨tri e.1 l.1, tri e.2.1 l.2.1, tri e.2.2 l.2.2⟩

/-- C224: turning twice about one axis is turning by the sum of the angles, up to rounding -/
theorem C224_compose (dg : Bool) (axis : Fin 3) (s t : ℝ) (v : V3) (ht : |radians dg t| ≤ 10 ^ 6) :
    Within ((3.03 * (4 * |radians dg s| + 5) + 3 * (4 * |radians dg t| + 5)) * size3 v)
      (rotateElemF dg axis s (rotateElemF dg axis t v)) (turned axis (radians dg s + radians dg t) v) := by
  have e1 := C224_error dg axis t v
  have e2 := C224_error dg axis s (rotateElemF dg axis t v)
  obtain ⟨w1, w2, w3⟩ := close_le ht e1 (turned_le axis (radians dg t) v)
  generalize rotateElemF dg axis t v = w at *
  have b := turned_le axis (radians dg s) ⟨w.x - (turned axis (radians dg t) v).x, w.y - (turned axis (radians dg t) v).y, w.z - (turned axis (radians dg t) v).z⟩
  rw [turned_sub, turned_add] at b
  have D : size3 ⟨w.x - (turned axis (radians dg t) v).x, w.y - (turned axis (radians dg t) v).y, w.z - (turned axis (radians dg t) v).z⟩ ≤
      3 * ((4 * |radians dg t| + 5) * size3 v) * 2⁻¹ ^ 53 := by
    obtain ⟨a1, a2, a3⟩ := e1
    unfold size3 at *
    simp only
    linarith
  have sw : size3 w ≤ 3.03 * size3 v := by
    change |w.x| + |w.y| + |w.z| ≤ _
    linarith
  have r0 := abs_nonneg (radians dg s)
  have E := mul_le_mul_of_nonneg_left sw (show 0 ≤ (4 * |radians dg s| + 5) * 2⁻¹ ^ 53 by positivity)
  have fin : ∀ {p q y : ℝ}, |p - q| ≤ (4 * |radians dg s| + 5) * size3 w * 2⁻¹ ^ 53 →
      |q - y| ≤ size3 ⟨w.x - (turned axis (radians dg t) v).x, w.y - (turned axis (radians dg t) v).y, w.z - (turned axis (radians dg t) v).z⟩ →
      |p - y| ≤ (3.03 * (4 * |radians dg s| + 5) + 3 * (4 * |radians dg t| + 5)) * size3 v * 2⁻¹ ^ 53 := by
    intro p q y h k
    have : |p - y| ≤ |p - q| + |q - y| := by simpa using abs_add_le (p - q) (q - y)
    linarith
  obtain ⟨c1, c2, c3⟩ := e2
  exact ⟨fin c1 b.1, fin c2 b.2.1, fin c3 b.2.2⟩

/-- C224: turning back by the opposite angle returns the vector up to rounding -/
theorem C224_back (dg : Bool) (axis : Fin 3) (t : ℝ) (v : V3) (ht : |radians dg t| ≤ 10 ^ 6) :
    Within (7 * ((4 * |radians dg t| + 5) * size3 v)) (rotateElemF dg axis (-t) (rotateElemF dg axis t v)) v := by
  have neg : radians dg (-t) = -radians dg t := by
    cases dg <;> simp [radians]; ring
  have c := C224_compose dg axis (-t) t v ht
  have f : turned axis 0 v = v := by
    fin_cases axis <;> simp [turned]
  rw [neg, abs_neg, neg_add_cancel, f] at c
  have p : 0 ≤ (4 * |radians dg t| + 5) * size3 v * 2⁻¹ ^ 53 := by unfold size3; positivity
  exact ⟨c.1.trans (by linarith), c.2.1.trans (by linarith), c.2.2.trans (by linarith)⟩

/-- C224: the squared length is kept up to rounding -/
theorem C224_length (dg : Bool) (axis : Fin 3) (t : ℝ) (v w : V3) (ht : |radians dg t| ≤ 10 ^ 6) (hw : w = rotateElemF dg axis t v) :
    |w.x ^ 2 + w.y ^ 2 + w.z ^ 2 - (v.x ^ 2 + v.y ^ 2 + v.z ^ 2)| ≤ 6.1 * (4 * |radians dg t| + 5) * (|v.x| + |v.y| + |v.z|) ^ 2 * 2⁻¹ ^ 53 := by
  have e := C224_error dg axis t v
  rw [← hw] at e
  have l := turned_le axis (radians dg t) v
  have c := close_le ht e l
  rw [← turned_length axis (radians dg t) v]
  change _ ≤ 6.1 * (4 * |radians dg t| + 5) * size3 v ^ 2 * 2⁻¹ ^ 53
  have s0 : 0 ≤ size3 v := by unfold size3; positivity
  have r0 := abs_nonneg (radians dg t)
  generalize turned axis (radians dg t) v = a at *
  have k : ∀ {p q : ℝ}, |p - q| ≤ (4 * |radians dg t| + 5) * size3 v * 2⁻¹ ^ 53 → |p| ≤ 1.01 * size3 v → |q| ≤ size3 v →
      |p ^ 2 - q ^ 2| ≤ 2.01 * (4 * |radians dg t| + 5) * size3 v ^ 2 * 2⁻¹ ^ 53 := by
    intro p q h h1 h2
    have : |p + q| ≤ 2.01 * size3 v := (abs_add_le _ _).trans (by linarith)
    have m := mul_le_mul h this (abs_nonneg _) (by positivity)
    rw [← abs_mul, show (p - q) * (p + q) = p ^ 2 - q ^ 2 by ring] at m
    refine m.trans (le_of_eq ?_)
    ring
  have x := k e.1 c.1 l.1
  have y := k e.2.1 c.2.1 l.2.1
  have z := k e.2.2 c.2.2 l.2.2
  have p : 0 ≤ (4 * |radians dg t| + 5) * size3 v ^ 2 * 2⁻¹ ^ 53 := by positivity
  rw [show w.x ^ 2 + w.y ^ 2 + w.z ^ 2 - (a.x ^ 2 + a.y ^ 2 + a.z ^ 2) = (w.x ^ 2 - a.x ^ 2) + (w.y ^ 2 - a.y ^ 2) + (w.z ^ 2 - a.z ^ 2) by ring]
  have := abs_add_three (w.x ^ 2 - a.x ^ 2) (w.y ^ 2 - a.y ^ 2) (w.z ^ 2 - a.z ^ 2)
  linarith

/-- C224: a full turn in degrees returns the vector up to rounding -/
theorem C224_full (axis : Fin 3) (v : V3) : Within (31 * size3 v) (rotateElemF true axis 360 v) v := by
  have e := C224_error true axis 360 v
  have r : radians true 360 = 2 * π := by simp only [radians, if_true]; ring
  have f : turned axis (2 * π) v = v := by
    fin_cases axis <;> simp [turned]
  rw [r, f, abs_of_pos two_pi_pos] at e
  have s0 : 0 ≤ size3 v := by unfold size3; positivity
  have k : (4 * (2 * π) + 5) * size3 v * 2⁻¹ ^ 53 ≤ 31 * size3 v * 2⁻¹ ^ 53 := by
    have := mul_le_mul_of_nonneg_right (show 4 * (2 * π) + 5 ≤ 31 by linarith [pi_lt_d2]) s0
    exact mul_le_mul_of_nonneg_right this (by norm_num)
  exact ⟨e.1.trans k, e.2.1.trans k, e.2.2.trans k⟩

/-- the hypotheses are met: a right angle about z, and a coordinate that is a double -/
example : |radians true 90| ≤ 10 ^ 6 ∧ rnd (along 2 ⟨1, 2, 0⟩) = along 2 ⟨1, 2, 0⟩ ∧ turned 2 (radians true 90) ⟨1, 0, 0⟩ = ⟨0, 1, 0⟩ := by
  have : radians true 90 = π / 2 := by simp only [radians, if_true]; ring
  refine ⟨?_, ?_, ?_⟩
  · rw [this, abs_of_pos (by positivity)]; linarith [pi_lt_d2]
  · simp [along, rnd_zero]
  · rw [this]; simp [turned]

end Verif.Fp
