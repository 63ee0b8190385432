import Verif.Props.RoundedRotate
import Verif.Props.ReflectExact

/-! Property C229: what rotations in double precision keep bit for bit. -/

namespace Verif.Fp
open Verif.Geo Real

theorem turnAngleF_neg (dg : Bool) (t : ℝ) : turnAngleF dg (-t) = -turnAngleF dg t := by
  cases dg
  · rfl
  · simp only [turnAngleF, if_true, neg_mul, rnd_neg, neg_div]

/-- C229: the opposite vector is turned to the opposite result, bit for bit -/
theorem C229_opposite (dg : Bool) (axis : Fin 3) (t : ℝ) (v : V3) :
    rotateElemF dg axis t (flip3 v) = flip3 (rotateElemF dg axis t v) := by
  have e := fun v => rotateElemF_eq dg t v _ _ rfl rfl
  fin_cases axis
  · change rotateElemF dg 0 t _ = flip3 (rotateElemF dg 0 t v)
    rw [(e _).1, (e _).1]
    simp only [flip3, mul_neg, rnd_neg, ← neg_add]
  · change rotateElemF dg 1 t _ = flip3 (rotateElemF dg 1 t v)
    rw [(e _).2.1, (e _).2.1]
    simp only [flip3, mul_neg, rnd_neg, ← neg_add]
  · change rotateElemF dg 2 t _ = flip3 (rotateElemF dg 2 t v)
    rw [(e _).2.2, (e _).2.2]
    simp only [flip3, mul_neg, rnd_neg, ← neg_add]

/-- C229: a factor that is a power of two goes through a turn, bit for bit -/
theorem C229_binary_scale (dg : Bool) (axis : Fin 3) (t : ℝ) (v : V3) (j : ℤ) :
    rotateElemF dg axis t ⟨v.x * 2 ^ j, v.y * 2 ^ j, v.z * 2 ^ j⟩ =
      ⟨(rotateElemF dg axis t v).x * 2 ^ j, (rotateElemF dg axis t v).y * 2 ^ j, (rotateElemF dg axis t v).z * 2 ^ j⟩ := by
  have e := fun v => rotateElemF_eq dg t v _ _ rfl rfl
  fin_cases axis
  · exact (e _).1.trans ((e v).1 ▸ by simp only [← mul_assoc, rnd_scale, ← add_mul])
  · exact (e _).2.1.trans ((e v).2.1 ▸ by simp only [← mul_assoc, rnd_scale, ← add_mul])
  · exact (e _).2.2.trans ((e v).2.2 ▸ by simp only [← mul_assoc, rnd_scale, ← add_mul])

/-- C229: turning the other way is turning in a mirror that contains the axis, bit for bit -/
theorem C229_mirror (dg : Bool) (axis other : Fin 3) (h : other ≠ axis) (t : ℝ) (v : V3) :
    rotateElemF dg axis (-t) v = mirrored other (rotateElemF dg axis t (mirrored other v)) := by
  have e := fun v => rotateElemF_eq dg t v _ _ rfl rfl
  have m := rotateElemF_eq dg (-t) v _ _ rfl rfl
  rw [turnAngleF_neg, cos_neg, sin_neg, rnd_neg, neg_neg] at m
  have n1 : ∀ a b : ℝ, rnd (-a + b) = -rnd (a + -b) := fun a b => by rw [← rnd_neg (a + -b)]; congr 1; ring
  have n2 : ∀ a b : ℝ, rnd (a + b) = -rnd (-a + -b) := fun a b => by rw [← rnd_neg (-a + -b)]; congr 1; ring
  have n3 : ∀ a b : ℝ, rnd (a + -b) = -rnd (-a + b) := fun a b => by rw [← rnd_neg (-a + b)]; congr 1; ring
  fin_cases axis
  · refine m.1.trans ?_
    change _ = mirrored other (rotateElemF dg 0 t _)
    rw [(e _).1]
    fin_cases other
    · exact absurd rfl h
    · simp only [mirrored, mul_neg, neg_mul, rnd_neg, V3.mk.injEq, true_and, and_true, neg_neg]
      with_reducible first | exact n1 _ _ | exact n2 _ _ | exact n3 _ _
    · simp only [mirrored, mul_neg, neg_mul, rnd_neg, V3.mk.injEq, true_and, and_true, neg_neg]
      with_reducible first | exact n1 _ _ | exact n2 _ _ | exact n3 _ _
  · refine m.2.1.trans ?_
    change _ = mirrored other (rotateElemF dg 1 t _)
    rw [(e _).2.1]
    fin_cases other
    · simp only [mirrored, mul_neg, neg_mul, rnd_neg, V3.mk.injEq, true_and, and_true, neg_neg]
      with_reducible first | exact n1 _ _ | exact n2 _ _ | exact n3 _ _
    · exact absurd rfl h
    · simp only [mirrored, mul_neg, neg_mul, rnd_neg, V3.mk.injEq, true_and, and_true, neg_neg]
      with_reducible first | exact n1 _ _ | exact n2 _ _ | exact n3 _ _
  · refine m.2.2.trans ?_
    change _ = mirrored other (rotateElemF dg 2 t _)
    rw [(e _).2.2]
    fin_cases other
    · simp only [mirrored, mul_neg, neg_mul, rnd_neg, V3.mk.injEq, true_and, and_true, neg_neg]
      with_reducible first | exact n1 _ _ | exact n2 _ _ | exact n3 _ _
    · simp only [mirrored, mul_neg, neg_mul, rnd_neg, V3.mk.injEq, true_and, and_true, neg_neg]
      with_reducible first | exact n1 _ _ | exact n2 _ _ | exact n3 _ _
    · exact absurd rfl h

/-- C229: turning by zero changes nothing, bit for bit -/
theorem C229_zero (dg : Bool) (axis : Fin 3) (v : V3) (hx : rnd v.x = v.x) (hy : rnd v.y = v.y) (hz : rnd v.z = v.z) :
    rotateElemF dg axis 0 v = v := by
  have a : turnAngleF dg 0 = 0 := by cases dg <;> simp [turnAngleF, rnd_zero]
  have one : rnd 1 = 1 := by simpa using rnd_pow 0
  have e := rotateElemF_eq dg 0 v _ _ rfl rfl
  rw [a, cos_zero, sin_zero, one, rnd_zero] at e
  simp only [neg_zero, zero_mul, one_mul, rnd_zero, add_zero, zero_add, rnd_again, hx, hy, hz] at e
  fin_cases axis
  · exact e.1
  · exact e.2.1
  · exact e.2.2

/-- the hypotheses are met -/
example : (0 : Fin 3) ≠ 2 ∧ rnd 1 = 1 ∧ mirrored 0 ⟨1, 2, 3⟩ = ⟨-1, 2, 3⟩ :=
  ⟨by decide, by simpa using rnd_pow 0, rfl⟩

end Verif.Fp
