import Verif.Props.RoundedReflect

/-! Property C228: what reflection in double precision keeps bit for bit. -/

namespace Verif.Fp
open Verif.Geo Real

/-- specification: the vector on the other side of the origin -/
def flip3 (v : V3) : V3 := ⟨-v.x, -v.y, -v.z⟩

/-- specification: a unit vector along a coordinate axis, of either sign -/
def axisOf (axis : Fin 3) (s : ℝ) : V3 := match axis with | 0 => ⟨s, 0, 0⟩ | 1 => ⟨0, s, 0⟩ | 2 => ⟨0, 0, s⟩

/-- specification: the sign of one coordinate changed -/
def mirrored (axis : Fin 3) (v : V3) : V3 := match axis with | 0 => ⟨-v.x, v.y, v.z⟩ | 1 => ⟨v.x, -v.y, v.z⟩ | 2 => ⟨v.x, v.y, -v.z⟩

theorem dot_flip_left (a b : V3) : binary64.dot3 (flip3 a) b = -binary64.dot3 a b := by
  change rnd (rnd (rnd (-a.x * b.x) + rnd (-a.y * b.y)) + rnd (-a.z * b.z)) = -rnd (rnd (rnd (a.x * b.x) + rnd (a.y * b.y)) + rnd (a.z * b.z))
  rw [neg_mul, neg_mul, neg_mul, rnd_neg, rnd_neg, rnd_neg, ← neg_add, rnd_neg, ← neg_add, rnd_neg]

theorem dot_flip_right (a b : V3) : binary64.dot3 a (flip3 b) = -binary64.dot3 a b := by
  change rnd (rnd (rnd (a.x * -b.x) + rnd (a.y * -b.y)) + rnd (a.z * -b.z)) = -rnd (rnd (rnd (a.x * b.x) + rnd (a.y * b.y)) + rnd (a.z * b.z))
  rw [mul_neg, mul_neg, mul_neg, rnd_neg, rnd_neg, rnd_neg, ← neg_add, rnd_neg, ← neg_add, rnd_neg]

theorem reflCoord_eq (r n c : ℝ) : reflCoord binary64 r n c = rnd (r - rnd (rnd (2 * n) * c)) := rfl

/-- C228: both sides of a mirror reflect alike, bit for bit -/
theorem C228_side (ray n : V3) : reflectF binary64 ray (flip3 n) = reflectF binary64 ray n := by
  have k : ∀ r m c : ℝ, reflCoord binary64 r (-m) (-c) = reflCoord binary64 r m c := by
    intro r m c
    rw [reflCoord_eq, reflCoord_eq, show (2 : ℝ) * -m = -(2 * m) by ring, rnd_neg, neg_mul_neg]
  unfold reflectF
  rw [dot_flip_right]
  simp only [flip3, k]

/-- C228: the opposite ray is reflected to the opposite direction, bit for bit -/
theorem C228_opposite (ray n : V3) : reflectF binary64 (flip3 ray) n = flip3 (reflectF binary64 ray n) := by
  have k : ∀ r m c : ℝ, reflCoord binary64 (-r) m (-c) = -reflCoord binary64 r m c := by
    intro r m c
    rw [reflCoord_eq, reflCoord_eq, mul_neg, rnd_neg (rnd (2 * m) * c), ← rnd_neg (r - _)]
    congr 1
    ring
  unfold reflectF
  rw [dot_flip_left]
  simp only [flip3, k]

/-- C228: a factor that is a power of two goes through reflection, bit for bit -/
theorem C228_binary_scale (ray n : V3) (j : ℤ) :
    reflectF binary64 ⟨ray.x * 2 ^ j, ray.y * 2 ^ j, ray.z * 2 ^ j⟩ n =
      ⟨(reflectF binary64 ray n).x * 2 ^ j, (reflectF binary64 ray n).y * 2 ^ j, (reflectF binary64 ray n).z * 2 ^ j⟩ := by
  have d : binary64.dot3 ⟨ray.x * 2 ^ j, ray.y * 2 ^ j, ray.z * 2 ^ j⟩ n = binary64.dot3 ray n * 2 ^ j := by
    change rnd (rnd (rnd (ray.x * 2 ^ j * n.x) + rnd (ray.y * 2 ^ j * n.y)) + rnd (ray.z * 2 ^ j * n.z)) =
      rnd (rnd (rnd (ray.x * n.x) + rnd (ray.y * n.y)) + rnd (ray.z * n.z)) * 2 ^ j
    rw [mul_right_comm, mul_right_comm ray.y, mul_right_comm ray.z, rnd_scale, rnd_scale, rnd_scale, ← add_mul, rnd_scale, ← add_mul, rnd_scale]
  have k : ∀ r m c : ℝ, reflCoord binary64 (r * 2 ^ j) m (c * 2 ^ j) = reflCoord binary64 r m c * 2 ^ j := by
    intro r m c
    rw [reflCoord_eq, reflCoord_eq, ← mul_assoc, rnd_scale, ← sub_mul, rnd_scale]
  unfold reflectF
  rw [d]
  simp only [k]

/-- C228: a mirror across a coordinate axis changes the sign of one coordinate and nothing else, bit for bit -/
theorem C228_axis (axis : Fin 3) (s : ℝ) (hs : s = 1 ∨ s = -1) (ray : V3) (hx : rnd ray.x = ray.x) (hy : rnd ray.y = ray.y) (hz : rnd ray.z = ray.z) :
    reflectF binary64 ray (axisOf axis s) = mirrored axis ray := by
  have two : rnd 2 = 2 := by simpa using rnd_pow 1
  have zero : ∀ r c : ℝ, rnd r = r → reflCoord binary64 r 0 c = r := by
    intro r c h
    rw [reflCoord_eq, mul_zero, rnd_zero, zero_mul, rnd_zero, sub_zero, h]
  have one : ∀ r : ℝ, rnd r = r → reflCoord binary64 r 1 r = -r := by
    intro r h
    rw [reflCoord_eq, mul_one, two, rnd_twice, h, show r - 2 * r = -r by ring, rnd_neg, h]
  have plus : reflectF binary64 ray (axisOf axis 1) = mirrored axis ray := by
    have d : binary64.dot3 ray (axisOf axis 1) = match axis with | 0 => ray.x | 1 => ray.y | 2 => ray.z := by
      fin_cases axis
      · change rnd (rnd (rnd (ray.x * 1) + rnd (ray.y * 0)) + rnd (ray.z * 0)) = ray.x
        simp [rnd_zero, hx]
      · change rnd (rnd (rnd (ray.x * 0) + rnd (ray.y * 1)) + rnd (ray.z * 0)) = ray.y
        simp [rnd_zero, hy]
      · change rnd (rnd (rnd (ray.x * 0) + rnd (ray.y * 0)) + rnd (ray.z * 1)) = ray.z
        simp [rnd_zero, hz]
    unfold reflectF
    rw [d]
    fin_cases axis <;> simp [axisOf, mirrored, zero, one, hx, hy, hz]
  rcases hs with rfl | rfl
  · exact plus
  · have f : axisOf axis (-1) = flip3 (axisOf axis 1) := by fin_cases axis <;> simp [axisOf, flip3]
    rw [f, C228_side, plus]

/-- C228: such a mirror undoes itself, bit for bit -/
theorem C228_twice (axis : Fin 3) (s : ℝ) (hs : s = 1 ∨ s = -1) (ray : V3) (hx : rnd ray.x = ray.x) (hy : rnd ray.y = ray.y) (hz : rnd ray.z = ray.z) :
    reflectF binary64 (reflectF binary64 ray (axisOf axis s)) (axisOf axis s) = ray := by
  rw [C228_axis axis s hs ray hx hy hz]
  obtain ⟨x, y, z⟩ := ray
  rw [C228_axis axis s hs] <;> fin_cases axis <;> simp [mirrored, rnd_neg] <;> assumption

/-- the hypotheses are met: the floor reflects (1, 2, -3) -/
example : reflectF binary64 ⟨1, 2, -3⟩ (axisOf 2 1) = ⟨1, 2, 3⟩ := by
  rw [C228_axis 2 1 (Or.inl rfl)]
  · simp [mirrored]
  · simpa using rnd_float (k := 1) 0 (by norm_num)
  · simpa using rnd_float (k := 2) 0 (by norm_num)
  · simpa using rnd_float (k := -3) 0 (by norm_num)

end Verif.Fp
