import Verif.Props.RoundedRotate
import Mathlib.Analysis.InnerProductSpace.PiL2

/-! Property C226: many turns in double precision. -/

namespace Verif.Fp
open Verif.Geo Real

/-- specification: the distance of two points -/
noncomputable def gap3 (u v : V3) : ℝ := √((u.x - v.x) ^ 2 + (u.y - v.y) ^ 2 + (u.z - v.z) ^ 2)

/-- specification: the distance from the origin -/
noncomputable def reach (v : V3) : ℝ := √(v.x ^ 2 + v.y ^ 2 + v.z ^ 2)

/-- specification: the relative error of one turn -/
noncomputable def turnEps (r : ℝ) : ℝ := 4 * (4 * |r| + 5) * 2⁻¹ ^ 53

theorem gap3_dist (u v : V3) : gap3 u v = dist (!₂[u.x, u.y, u.z] : EuclideanSpace ℝ (Fin 3)) !₂[v.x, v.y, v.z] := by
  rw [EuclideanSpace.dist_eq, Fin.sum_univ_three]
  simp [gap3, Real.dist_eq, sq_abs]

theorem gap3_triangle (u v w : V3) : gap3 u w ≤ gap3 u v + gap3 v w := by
  simp only [gap3_dist]
  exact dist_triangle _ _ _

theorem reach_gap (v : V3) : reach v = gap3 v ⟨0, 0, 0⟩ := by simp [reach, gap3]

theorem gap3_comm (u v : V3) : gap3 u v = gap3 v u := by
  simp only [gap3_dist]
  exact dist_comm _ _

theorem gap3_turned (axis : Fin 3) (t : ℝ) (u v : V3) : gap3 (turned axis t u) (turned axis t v) = gap3 u v := by
  have h := turned_length axis t ⟨u.x - v.x, u.y - v.y, u.z - v.z⟩
  rw [turned_sub] at h
  exact congrArg sqrt h

theorem reach_turned (axis : Fin 3) (t : ℝ) (v : V3) : reach (turned axis t v) = reach v :=
  congrArg sqrt (turned_length axis t v)

theorem gap3_within {e : ℝ} {p a : V3} (e0 : 0 ≤ e) (h : Within e p a) : gap3 p a ≤ 1.75 * e * 2⁻¹ ^ 53 := by
  have k : ∀ {x : ℝ}, |x| ≤ e * 2⁻¹ ^ 53 → x ^ 2 ≤ (e * 2⁻¹ ^ 53) ^ 2 := fun h => by
    rw [← sq_abs]; exact pow_le_pow_left₀ (abs_nonneg _) h 2
  refine sqrt_le_iff.mpr ⟨by positivity, ?_⟩
  have x := k h.1
  have y := k h.2.1
  have z := k h.2.2
  rw [show (1.75 * e * 2⁻¹ ^ 53) ^ 2 = 3.0625 * (e * 2⁻¹ ^ 53) ^ 2 by ring]
  have := sq_nonneg (e * 2⁻¹ ^ 53)
  linarith

theorem size3_reach (v : V3) : size3 v ≤ 1.75 * reach v := by
  have h : size3 v ≤ √(3 * (v.x ^ 2 + v.y ^ 2 + v.z ^ 2)) := by
    refine le_sqrt_of_sq_le ?_
    unfold size3
    rw [← sq_abs v.x, ← sq_abs v.y, ← sq_abs v.z]
    linarith [sq_nonneg (|v.x| - |v.y|), sq_nonneg (|v.y| - |v.z|), sq_nonneg (|v.x| - |v.z|)]
  refine h.trans (sqrt_le_iff.mpr ⟨by unfold reach; positivity, ?_⟩)
  have s := sq_sqrt (show 0 ≤ v.x ^ 2 + v.y ^ 2 + v.z ^ 2 by positivity)
  rw [mul_pow, reach, s]
  linarith [sq_nonneg v.x, sq_nonneg v.y, sq_nonneg v.z]

/-- one turn -/
theorem turn_gap (dg : Bool) (axis : Fin 3) (t : ℝ) (v : V3) :
    gap3 (rotateElemF dg axis t v) (turned axis (radians dg t) v) ≤ turnEps (radians dg t) * reach v := by
  have s0 : 0 ≤ size3 v := by unfold size3; positivity
  have g := gap3_within (by positivity) (C224_error dg axis t v)
  have k := mul_le_mul_of_nonneg_left (size3_reach v) (show 0 ≤ 1.75 * (4 * |radians dg t| + 5) * 2⁻¹ ^ 53 by positivity)
  have p : 0 ≤ (4 * |radians dg t| + 5) * 2⁻¹ ^ 53 * reach v := by unfold reach; positivity
  unfold turnEps
  linarith

/-- C226: after any number of turns by any angles the error is at most the product of the single errors -/
theorem C226_drift (dg : Bool) (axis : Fin 3) (ts : List ℝ) (v : V3) :
    gap3 (ts.foldl (fun w t => rotateElemF dg axis t w) v) (turned axis (ts.map (radians dg)).sum v) ≤
      ((ts.map fun t => 1 + turnEps (radians dg t)).prod - 1) * reach v := by
  induction ts using List.reverseRecOn with
  | nil =>
    have f : turned axis 0 v = v := by fin_cases axis <;> simp [turned]
    simp [f, gap3]
  | append_singleton ts t ih =>
    rw [List.foldl_append, List.map_append, List.sum_append, List.map_append, List.prod_append]
    simp only [List.foldl_cons, List.foldl_nil, List.map_cons, List.map_nil, List.sum_cons, List.sum_nil, List.prod_cons, List.prod_nil,
      add_zero, mul_one]
    generalize ts.foldl (fun w t => rotateElemF dg axis t w) v = w at *
    generalize (ts.map (radians dg)).sum = a at *
    generalize (ts.map fun t => 1 + turnEps (radians dg t)).prod = P at *
    have g := turn_gap dg axis t w
    have e0 : 0 ≤ turnEps (radians dg t) := by unfold turnEps; positivity
    have tri := gap3_triangle (rotateElemF dg axis t w) (turned axis (radians dg t) w) (turned axis (radians dg t) (turned axis a v))
    rw [gap3_turned, turned_add, add_comm (radians dg t) a] at tri
    have rw' : reach w ≤ P * reach v := by
      have := gap3_triangle w (turned axis a v) ⟨0, 0, 0⟩
      rw [← reach_gap, ← reach_gap, reach_turned] at this
      linarith
    have := mul_le_mul_of_nonneg_left rw' e0
    linarith

/-- C226: `n` turns by one angle -/
theorem C226_repeat (dg : Bool) (axis : Fin 3) (t : ℝ) (n : ℕ) (v : V3) :
    gap3 ((rotateElemF dg axis t)^[n] v) (turned axis (n * radians dg t) v) ≤ ((1 + turnEps (radians dg t)) ^ n - 1) * reach v := by
  have h := C226_drift dg axis (List.replicate n t) v
  have f : (List.replicate n t).foldl (fun w t => rotateElemF dg axis t w) v = (rotateElemF dg axis t)^[n] v := by
    clear h
    induction n generalizing v with
    | zero => rfl
    | succ n ih => rw [List.replicate_succ, List.foldl_cons, ih, Function.iterate_succ_apply]
  rw [f] at h
  simpa using h

/-- C226: 360 turns by one degree come back to the vector to 12 digits -/
theorem C226_circle (axis : Fin 3) (v : V3) : gap3 ((rotateElemF true axis 1)^[360] v) v ≤ 1e-12 * reach v := by
  have h := C226_repeat true axis 1 360 v
  have r : radians true 1 = π / 180 := by simp [radians]
  have f : turned axis ((360 : ℕ) * (π / 180)) v = v := by
    rw [show ((360 : ℕ) : ℝ) * (π / 180) = 2 * π by push_cast; ring]
    fin_cases axis <;> simp [turned]
  rw [r, f] at h
  refine h.trans (mul_le_mul_of_nonneg_right ?_ (sqrt_nonneg _))
  have e : turnEps (π / 180) ≤ 2.3e-15 := by
    unfold turnEps
    rw [abs_of_pos (by positivity)]
    have := pi_lt_d2
    norm_num at this ⊢
    linarith
  have e0 : 0 ≤ turnEps (π / 180) := by unfold turnEps; positivity
  have := pow_le_pow_left₀ (by linarith) (show 1 + turnEps (π / 180) ≤ 1 + 2.3e-15 by linarith) 360
  have a : (1 + 2.3e-15 : ℝ) ^ 20 ≤ 1 + 4.7e-14 := by norm_num
  have b : ((1 + 2.3e-15 : ℝ) ^ 20) ^ 18 ≤ (1 + 4.7e-14) ^ 18 := pow_le_pow_left₀ (by positivity) a 18
  have c : (1 + 4.7e-14 : ℝ) ^ 18 ≤ 1 + 1e-12 := by norm_num
  rw [← pow_mul] at b
  exact (sub_le_sub_right (this.trans (b.trans c)) 1).trans (by norm_num)

/-- the bound says something: the unit vector has length one -/
example : reach ⟨0, 1, 0⟩ = 1 ∧ gap3 ⟨1, 0, 0⟩ ⟨-1, 0, 0⟩ = 2 := by
  constructor
  · simp [reach]
  · simp only [gap3]
    norm_num
    rw [show (4 : ℝ) = 2 ^ 2 by norm_num, sqrt_sq (by norm_num)]

end Verif.Fp
