import Verif.Props.Angles

/-! Properties C35-C37: elementary rotations, the look-at rotation and reflection. -/

namespace Verif.Geo
open Real

/-! ### C35 -/

/-- a rotation matrix: orthogonal with determinant one -/
def IsRot (M : M3) : Prop := M.transpose * M = 1 ∧ M * M.transpose = 1 ∧ M.det = 1

theorem rmtx0 (dg : Bool) (t : ℝ) : rmtxElem dg 0 t
    = !![1, 0, 0; 0, cos (angleOf dg t), -sin (angleOf dg t); 0, sin (angleOf dg t), cos (angleOf dg t)] := by
  ext i j
  fin_cases i <;> fin_cases j <;> rfl
theorem rmtx1 (dg : Bool) (t : ℝ) : rmtxElem dg 1 t
    = !![cos (angleOf dg t), 0, sin (angleOf dg t); 0, 1, 0; -sin (angleOf dg t), 0, cos (angleOf dg t)] := by
  ext i j
  fin_cases i <;> fin_cases j <;> rfl
theorem rmtx2 (dg : Bool) (t : ℝ) : rmtxElem dg 2 t
    = !![cos (angleOf dg t), -sin (angleOf dg t), 0; sin (angleOf dg t), cos (angleOf dg t), 0; 0, 0, 1] := by
  ext i j
  fin_cases i <;> fin_cases j <;> rfl

theorem rot0 (dg : Bool) (t : ℝ) (v : V3) : rotateElem dg 0 t v
    = ⟨v.x, cos (angleOf dg t) * v.y - sin (angleOf dg t) * v.z,
        sin (angleOf dg t) * v.y + cos (angleOf dg t) * v.z⟩ := by
  unfold rotateElem; rw [rmtx0]; unfold M3.app; simp [sub_eq_add_neg]
theorem rot1 (dg : Bool) (t : ℝ) (v : V3) : rotateElem dg 1 t v
    = ⟨cos (angleOf dg t) * v.x + sin (angleOf dg t) * v.z, v.y,
        -sin (angleOf dg t) * v.x + cos (angleOf dg t) * v.z⟩ := by
  unfold rotateElem; rw [rmtx1]; unfold M3.app; simp
theorem rot2 (dg : Bool) (t : ℝ) (v : V3) : rotateElem dg 2 t v
    = ⟨cos (angleOf dg t) * v.x - sin (angleOf dg t) * v.y,
        sin (angleOf dg t) * v.x + cos (angleOf dg t) * v.y, v.z⟩ := by
  unfold rotateElem; rw [rmtx2]; unfold M3.app; simp [sub_eq_add_neg]

/-- **C35** length and the axis component are kept, for each axis and every angle. -/
theorem C35_preserves (dg : Bool) (axis : Fin 3) (t : ℝ) (v : V3) :
    (rotateElem dg axis t v).normSq = v.normSq ∧ (rotateElem dg axis t v).get axis = v.get axis := by
  have h := sin_sq_add_cos_sq (angleOf dg t)
  fin_cases axis <;> constructor
  · simp only [Fin.zero_eta]; rw [rot0]; unfold V3.normSq; simp only
    linear_combination (v.y ^ 2 + v.z ^ 2) * h
  · simp only [Fin.zero_eta]; rw [rot0]; rfl
  · simp only [Fin.mk_one]; rw [rot1]; unfold V3.normSq; simp only
    linear_combination (v.x ^ 2 + v.z ^ 2) * h
  · simp only [Fin.mk_one]; rw [rot1]; rfl
  · simp only [Fin.reduceFinMk]; rw [rot2]; unfold V3.normSq; simp only
    linear_combination (v.x ^ 2 + v.y ^ 2) * h
  · simp only [Fin.reduceFinMk]; rw [rot2]; rfl

theorem angleOf_add (dg : Bool) (s t : ℝ) : angleOf dg (s + t) = angleOf dg s + angleOf dg t := by
  cases dg <;> simp [angleOf]; ring
theorem angleOf_neg (dg : Bool) (s : ℝ) : angleOf dg (-s) = -angleOf dg s := by
  cases dg <;> simp [angleOf]; ring

/-- **C35** rotations about one axis compose by adding angles. -/
theorem C35_compose (dg : Bool) (axis : Fin 3) (s t : ℝ) (v : V3) :
    rotateElem dg axis s (rotateElem dg axis t v) = rotateElem dg axis (s + t) v := by
  fin_cases axis
  · simp only [Fin.zero_eta, rot0, angleOf_add, cos_add, sin_add]; apply V3.ext <;> simp only <;> ring
  · simp only [Fin.mk_one, rot1, angleOf_add, cos_add, sin_add]; apply V3.ext <;> simp only <;> ring
  · simp only [Fin.reduceFinMk, rot2, angleOf_add, cos_add, sin_add]; apply V3.ext <;> simp only <;> ring

/-- **C35** no angle and a full turn are the identity. -/
theorem C35_full_turn (axis : Fin 3) (dg : Bool) (v : V3) :
    rotateElem dg axis 0 v = v ∧ rotateElem true axis 360 v = v ∧ rotateElem false axis (2 * π) v = v := by
  have h0 : angleOf dg 0 = 0 := by cases dg <;> simp [angleOf]
  have h1 : angleOf true 360 = 2 * π := by simp [angleOf]; ring
  have h2 : angleOf false (2 * π) = 2 * π := by simp [angleOf]
  fin_cases axis
  · simp only [Fin.zero_eta, rot0, h0, h1, h2, cos_two_pi, sin_two_pi, cos_zero, sin_zero]
    refine ⟨?_, ?_, ?_⟩ <;> apply V3.ext <;> simp
  · simp only [Fin.mk_one, rot1, h0, h1, h2, cos_two_pi, sin_two_pi, cos_zero, sin_zero]
    refine ⟨?_, ?_, ?_⟩ <;> apply V3.ext <;> simp
  · simp only [Fin.reduceFinMk, rot2, h0, h1, h2, cos_two_pi, sin_two_pi, cos_zero, sin_zero]
    refine ⟨?_, ?_, ?_⟩ <;> apply V3.ext <;> simp

/-- **C35** the opposite angle undoes a rotation. -/
theorem C35_inverse (dg : Bool) (axis : Fin 3) (t : ℝ) (v : V3) :
    rotateElem dg axis (-t) (rotateElem dg axis t v) = v := by
  rw [C35_compose, neg_add_cancel]; exact (C35_full_turn axis dg v).1

/-- **C35** a quarter turn takes each axis to the next one (fixes the sense of rotation). -/
theorem C35_quarter_turn :
    rotateElem true 0 90 ⟨0, 1, 0⟩ = ⟨0, 0, 1⟩ ∧ rotateElem true 1 90 ⟨0, 0, 1⟩ = ⟨1, 0, 0⟩ ∧
    rotateElem true 2 90 ⟨1, 0, 0⟩ = ⟨0, 1, 0⟩ := by
  have h : angleOf true 90 = π / 2 := by simp [angleOf]; ring
  simp [rot0, rot1, rot2, h]

/-- **C35** the matrices are rotations: orthogonal with determinant one. -/
theorem C35_is_rotation (dg : Bool) (axis : Fin 3) (t : ℝ) : IsRot (rmtxElem dg axis t) := by
  have h := sin_sq_add_cos_sq (angleOf dg t)
  have h1 : cos (angleOf dg t) * cos (angleOf dg t) + sin (angleOf dg t) * sin (angleOf dg t) = 1 := by
    nlinarith
  have h2 : sin (angleOf dg t) * sin (angleOf dg t) + cos (angleOf dg t) * cos (angleOf dg t) = 1 := by
    nlinarith
  unfold IsRot
  fin_cases axis
  · simp only [Fin.zero_eta]; rw [rmtx0]
    generalize cos (angleOf dg t) = c at *
    generalize sin (angleOf dg t) = s at *
    refine ⟨?_, ?_, ?_⟩
    · ext i j; fin_cases i <;> fin_cases j <;> simp [Matrix.mul_apply, Fin.sum_univ_three] <;> linarith
    · ext i j; fin_cases i <;> fin_cases j <;> simp [Matrix.mul_apply, Fin.sum_univ_three] <;> linarith
    · rw [Matrix.det_fin_three]; simp; linarith
  · simp only [Fin.mk_one]; rw [rmtx1]
    generalize cos (angleOf dg t) = c at *
    generalize sin (angleOf dg t) = s at *
    refine ⟨?_, ?_, ?_⟩
    · ext i j; fin_cases i <;> fin_cases j <;> simp [Matrix.mul_apply, Fin.sum_univ_three] <;> linarith
    · ext i j; fin_cases i <;> fin_cases j <;> simp [Matrix.mul_apply, Fin.sum_univ_three] <;> linarith
    · rw [Matrix.det_fin_three]; simp; linarith
  · simp only [Fin.reduceFinMk]; rw [rmtx2]
    generalize cos (angleOf dg t) = c at *
    generalize sin (angleOf dg t) = s at *
    refine ⟨?_, ?_, ?_⟩
    · ext i j; fin_cases i <;> fin_cases j <;> simp [Matrix.mul_apply, Fin.sum_univ_three] <;> linarith
    · ext i j; fin_cases i <;> fin_cases j <;> simp [Matrix.mul_apply, Fin.sum_univ_three] <;> linarith
    · rw [Matrix.det_fin_three]; simp; linarith

example : rotateElem true 2 90 ⟨1, 0, 0⟩ = ⟨0, 1, 0⟩ := C35_quarter_turn.2.2

/-! ### C36 -/

theorem isRot_yaw (y : ℝ) : IsRot (yawM y) := by
  have : rmtxElem false 2 y = yawM y := by rw [rmtx2]; rfl
  rw [← this]; exact C35_is_rotation false 2 y

theorem isRot_pitch (p : ℝ) : IsRot (pitchM p) := by
  have : rmtxElem false 0 p = pitchM p := by rw [rmtx0]; rfl
  rw [← this]; exact C35_is_rotation false 0 p

theorem isRot_diag {a b c : ℝ} (ha : a * a = 1) (hb : b * b = 1) (hc : c * c = 1) (h : a * b * c = 1) :
    IsRot !![a, 0, 0; 0, b, 0; 0, 0, c] := by
  refine ⟨?_, ?_, ?_⟩
  · ext i j; fin_cases i <;> fin_cases j <;> simp [Matrix.mul_apply, Fin.sum_univ_three] <;> linarith
  · ext i j; fin_cases i <;> fin_cases j <;> simp [Matrix.mul_apply, Fin.sum_univ_three] <;> linarith
  · rw [Matrix.det_fin_three]; simp; linarith

/-- **C36** both matrices are rotations, for every input vector. -/
theorem C36_rotations (v : V3) : IsRot (ymtx v) ∧ IsRot (pmtx v) := by
  unfold ymtx pmtx
  constructor
  · split_ifs
    · exact isRot_diag (by norm_num) (by norm_num) (by norm_num) (by norm_num)
    · exact isRot_diag (by norm_num) (by norm_num) (by norm_num) (by norm_num)
    · exact isRot_yaw _
  · split_ifs
    · exact isRot_diag (by norm_num) (by norm_num) (by norm_num) (by norm_num)
    · exact isRot_diag (by norm_num) (by norm_num) (by norm_num) (by norm_num)
    · exact isRot_pitch _

theorem app_mul (M N : M3) (v : V3) : M3.app M (M3.app N v) = M3.app (M * N) v := by
  unfold M3.app
  simp only [Matrix.mul_apply, Fin.sum_univ_three]
  apply V3.ext <;> simp only <;> ring

theorem app_one (v : V3) : M3.app 1 v = v := by
  unfold M3.app
  apply V3.ext <;> simp

theorem app_dot {M : M3} (h : IsRot M) (v w : V3) : (M3.app M v).dot (M3.app M w) = v.dot w := by
  have h1 := h.1
  have e : ∀ i j, (M.transpose * M) i j = (1 : M3) i j := fun i j => by rw [h1]
  have e00 := e 0 0; have e01 := e 0 1; have e02 := e 0 2
  have e11 := e 1 1; have e12 := e 1 2; have e22 := e 2 2
  simp [Matrix.mul_apply, Fin.sum_univ_three] at e00 e01 e02 e11 e12 e22
  unfold M3.app V3.dot
  simp only
  linear_combination v.x * w.x * e00 + v.y * w.y * e11 + v.z * w.z * e22 + (v.x * w.y + v.y * w.x) * e01
    + (v.x * w.z + v.z * w.x) * e02 + (v.y * w.z + v.z * w.y) * e12

theorem app_normSq {M : M3} (h : IsRot M) (v : V3) : (M3.app M v).normSq = v.normSq := by
  have := app_dot h v v
  unfold V3.dot at this
  unfold V3.normSq
  nlinarith

/-- **C36** the backward transform undoes the forward one and conversely; both keep dot products. -/
theorem C36_inverse (v p q : V3) : bwd v (fwd v p) = p ∧ fwd v (bwd v p) = p ∧
    (fwd v p).dot (fwd v q) = p.dot q ∧ (bwd v p).dot (bwd v q) = p.dot q := by
  obtain ⟨hy, hp⟩ := C36_rotations v
  have h1 : ∀ p, bwd v (fwd v p) = p := by
    intro p
    unfold bwd fwd
    rw [app_mul (pmtx v).transpose, hp.1, app_one, app_mul, hy.1, app_one]
  have h2 : ∀ p, fwd v (bwd v p) = p := by
    intro p
    unfold bwd fwd
    rw [app_mul (ymtx v), hy.2.1, app_one, app_mul, hp.2.1, app_one]
  have h3 : ∀ p q, (fwd v p).dot (fwd v q) = p.dot q := by
    intro p q; unfold fwd; rw [app_dot hp, app_dot hy]
  exact ⟨h1 p, h2 p, h3 p q, by rw [← h3 (bwd v p), h2, h2]⟩

theorem yaw_app (ph : ℝ) (p : V3) : M3.app (yawM (3 * π / 2 - ph)) p
    = ⟨-sin ph * p.x + cos ph * p.y, -cos ph * p.x - sin ph * p.y, p.z⟩ := by
  have e1 : cos (3 * π / 2 - ph) = -sin ph := by
    rw [show 3 * π / 2 - ph = π + (π / 2 - ph) by ring, cos_add, cos_pi, sin_pi, cos_pi_div_two_sub]; ring
  have e2 : sin (3 * π / 2 - ph) = -cos ph := by
    rw [show 3 * π / 2 - ph = π + (π / 2 - ph) by ring, sin_add, cos_pi, sin_pi, sin_pi_div_two_sub]; ring
  unfold M3.app yawM
  apply V3.ext <;> simp [e1, e2]; ring

theorem pitch_app (t : ℝ) (p : V3) : M3.app (pitchM (-t)) p
    = ⟨p.x, cos t * p.y + sin t * p.z, -sin t * p.y + cos t * p.z⟩ := by
  unfold M3.app pitchM
  apply V3.ext <;> simp

/-- **C36** world up is mapped into the plane `x = 0` with `y >= 0`, for every input vector. -/
theorem C36_up (v : V3) : (fwd v ⟨0, 0, 1⟩).x = 0 ∧ 0 ≤ (fwd v ⟨0, 0, 1⟩).y := by
  unfold fwd ymtx pmtx
  split_ifs with h1 h2
  · unfold M3.app; simp
  · unfold M3.app; simp
  · rw [yaw_app, pitch_app]
    simp only [mul_zero, add_zero, zero_add, mul_one, true_and, sub_zero]
    have := C32_tpnorm_range (arccos (norm v).z, tpPhi (arccos (norm v).z) (norm v).x (norm v).y)
    exact sin_nonneg_of_nonneg_of_le_pi this.1 this.2.1.le

/-- the vectors `rmtx_yp` treats as exactly up / exactly down, and the caps of `xyz2tp` -/
def NearUp (v : V3) : Prop := allClose (norm v) ⟨0, 0, 1⟩
def NearDown (v : V3) : Prop := allClose (norm v) ⟨0, 0, -1⟩

/-- forward image of the view direction outside the special cases -/
theorem fwd_generic (v : V3) (hu : ¬ NearUp v) (hd : ¬ NearDown v) (p : V3) :
    fwd v p = M3.app (pitchM (-(xyz2tp (norm v)).1)) (M3.app (yawM (3 * π / 2 - (xyz2tp (norm v)).2)) p) := by
  unfold fwd ymtx pmtx
  unfold NearUp at hu
  unfold NearDown at hd
  rw [if_neg hd, if_neg hd, if_neg hu, if_neg hu]

theorem pitch_yaw_sph (t ph : ℝ) :
    M3.app (pitchM (-t)) (M3.app (yawM (3 * π / 2 - ph)) (sph (t, ph))) = ⟨0, 0, 1⟩ := by
  have h1 := sin_sq_add_cos_sq t
  have h2 := sin_sq_add_cos_sq ph
  rw [yaw_app, pitch_app]
  unfold sph
  apply V3.ext <;> simp only
  · ring
  · linear_combination -sin t * cos t * h2
  · linear_combination sin t ^ 2 * h2 + h1

/-- near the pole the code's azimuth π agrees with the north cap being inside `NearUp` -/
theorem north_near_up {v : V3} (hv : v ≠ V3.zero) (hn : NorthCap (arccos (norm v).z)) : NearUp v := by
  have hp := normSq_norm hv
  obtain ⟨a, b, c⟩ := unit_polar hp
  unfold NorthCap at hn
  have hs : sin (arccos (norm v).z) ≤ 1e-10 := (sin_le a).trans hn
  have hs0 : 0 ≤ sin (arccos (norm v).z) := sin_nonneg_of_nonneg_of_le_pi a b
  unfold V3.normSq at hp
  have hz2 : (norm v).z ≤ 1 := by nlinarith [sq_nonneg (norm v).x, sq_nonneg (norm v).y]
  have hz1 : -1 ≤ (norm v).z := by nlinarith [sq_nonneg (norm v).x, sq_nonneg (norm v).y]
  have hcs : cos (arccos (norm v).z) = (norm v).z := cos_arccos hz1 hz2
  have hx : (norm v).x ^ 2 + (norm v).y ^ 2 = sin (arccos (norm v).z) ^ 2 := by
    have := sin_sq_add_cos_sq (arccos (norm v).z)
    rw [hcs] at this; linarith
  have hzpos : 0 ≤ (norm v).z := by
    rw [← hcs]
    apply cos_nonneg_of_neg_pi_div_two_le_of_le
    · linarith [pi_pos]
    · have := pi_gt_three; norm_num at hn; linarith
  have hsq : sin (arccos (norm v).z) ^ 2 ≤ 1e-10 ^ 2 := pow_le_pow_left₀ hs0 hs 2
  have bx : |(norm v).x| ≤ 1e-8 := by
    apply abs_le_of_sq_le_sq _ (by norm_num)
    nlinarith [sq_nonneg (norm v).y]
  have by' : |(norm v).y| ≤ 1e-8 := by
    apply abs_le_of_sq_le_sq _ (by norm_num)
    nlinarith [sq_nonneg (norm v).x]
  unfold NearUp allClose isclose
  refine ⟨?_, ?_, ?_⟩
  · simp only [sub_zero, abs_zero, mul_zero, add_zero]; exact bx
  · simp only [sub_zero, abs_zero, mul_zero, add_zero]; exact by'
  · simp only
    rw [abs_le, abs_one]
    constructor
    · nlinarith
    · norm_num; linarith

/-- The full statement of C36. -/
def C36_statement : Prop :=
  ∀ v : V3, v ≠ V3.zero → IsRot (ymtx v) ∧ IsRot (pmtx v) ∧ fwd v (norm v) = ⟨0, 0, 1⟩ ∧
    (fwd v ⟨0, 0, 1⟩).x = 0 ∧ 0 ≤ (fwd v ⟨0, 0, 1⟩).y ∧ ∀ p, bwd v (fwd v p) = p

/-- **C36** the view direction is taken exactly to `+z` unless it is within `isclose` of straight up or within
the lower cap of straight down; straight up and straight down themselves are exact. Missing for the full claim:
the rest of those two caps (`C36_cap_error`, `C36_refuted`). -/
theorem C36_look_at_partial (v : V3) (hv : v ≠ V3.zero)
    (h : (¬ NearUp v ∧ ¬ NearDown v ∧ ¬ SouthCap (arccos (norm v).z)) ∨ norm v = ⟨0, 0, 1⟩ ∨ norm v = ⟨0, 0, -1⟩) :
    fwd v (norm v) = ⟨0, 0, 1⟩ ∧ bwd v ⟨0, 0, 1⟩ = norm v := by
  have key : fwd v (norm v) = ⟨0, 0, 1⟩ := by
    rcases h with ⟨hu, hd, hs⟩ | h | h
    · have hp := normSq_norm hv
      obtain ⟨a, b, c⟩ := unit_polar hp
      have hn : ¬ NorthCap (arccos (norm v).z) := fun h => hu (north_near_up hv h)
      rw [fwd_generic v hu hd]
      have := C30_xyz_tp_xyz_partial _ hp hn hs
      rw [tp2xyz_eq] at this
      simp only [if_true] at this
      have hr := C32_tpnorm_range (arccos (norm v).z, tpPhi (arccos (norm v).z) (norm v).x (norm v).y)
      have h2 : sph (xyz2tp (norm v)) = norm v := by
        have := sph_tpnorm (t := (xyz2tp (norm v)).1) hr.1 hr.2.1 (xyz2tp (norm v)).2
        rw [Prod.mk.eta] at this
        rw [← this]; assumption
      have h3 := pitch_yaw_sph (xyz2tp (norm v)).1 (xyz2tp (norm v)).2
      rw [Prod.mk.eta, h2] at h3
      exact h3
    · have hu : allClose (norm v) ⟨0, 0, 1⟩ := by
        rw [h]; unfold allClose isclose; norm_num
      have hd : ¬ allClose (norm v) ⟨0, 0, -1⟩ := by
        rw [h]; unfold allClose isclose; norm_num
      unfold fwd ymtx pmtx
      rw [if_neg hd, if_neg hd, if_pos hu, if_pos hu, h]
      unfold M3.app; simp
    · have hd : allClose (norm v) ⟨0, 0, -1⟩ := by
        rw [h]; unfold allClose isclose; norm_num
      unfold fwd ymtx pmtx
      rw [if_pos hd, if_pos hd, h]
      unfold M3.app; simp
  refine ⟨key, ?_⟩
  rw [← key]; exact (C36_inverse v (norm v) (norm v)).1

/-- **C36** in every case the view direction ends within `6.5e-5` of `+z`. -/
theorem C36_cap_error (v : V3) (hv : v ≠ V3.zero) :
    ((fwd v (norm v)).sub ⟨0, 0, 1⟩).normSq ≤ 6.5e-5 ^ 2 := by
  have hp := normSq_norm hv
  have hsum : (norm v).x ^ 2 + (norm v).y ^ 2 + (norm v).z ^ 2 = 1 := hp
  by_cases hd : NearDown v
  · have hd' : allClose (norm v) ⟨0, 0, -1⟩ := hd
    unfold fwd ymtx pmtx
    rw [if_pos hd', if_pos hd']
    obtain ⟨h1, h2, h3⟩ := hd
    unfold isclose at h1 h2 h3
    simp only [sub_zero, abs_zero, mul_zero, add_zero, abs_neg, abs_one, mul_one, sub_neg_eq_add] at h1 h2 h3
    unfold M3.app V3.sub V3.normSq
    rw [abs_le] at h1 h2 h3
    have hz : (norm v).z < 0 := by norm_num at h3; linarith
    simp
    have hx2 : (norm v).x ^ 2 ≤ 1e-8 ^ 2 := sq_le_sq' (by linarith [h1.1]) h1.2
    have hy2 : (norm v).y ^ 2 ≤ 1e-8 ^ 2 := sq_le_sq' (by linarith [h2.1]) h2.2
    have hb : 0 ≤ (norm v).z + 1 := by nlinarith [sq_nonneg (norm v).x, sq_nonneg (norm v).y]
    have hb2 : (norm v).z + 1 ≤ 2e-16 := by nlinarith
    have : (-(norm v).z - 1) ^ 2 ≤ 2e-16 ^ 2 := by
      rw [show (-(norm v).z - 1) ^ 2 = ((norm v).z + 1) ^ 2 by ring]
      exact pow_le_pow_left₀ hb hb2 2
    norm_num at *; linarith
  · by_cases hu : NearUp v
    · have hd' : ¬ allClose (norm v) ⟨0, 0, -1⟩ := hd
      have hu' : allClose (norm v) ⟨0, 0, 1⟩ := hu
      unfold fwd ymtx pmtx
      rw [if_neg hd', if_neg hd', if_pos hu', if_pos hu']
      obtain ⟨h1, h2, h3⟩ := hu
      unfold isclose at h1 h2 h3
      simp only [sub_zero, abs_zero, mul_zero, add_zero, abs_one, mul_one] at h1 h2 h3
      unfold M3.app V3.sub V3.normSq
      rw [abs_le] at h1 h2 h3
      have hz : 0 < (norm v).z := by norm_num at h3; linarith
      simp
      have hx2 : (norm v).x ^ 2 ≤ 1e-8 ^ 2 := sq_le_sq' (by linarith [h1.1]) h1.2
      have hy2 : (norm v).y ^ 2 ≤ 1e-8 ^ 2 := sq_le_sq' (by linarith [h2.1]) h2.2
      have hb : 0 ≤ 1 - (norm v).z := by nlinarith [sq_nonneg (norm v).x, sq_nonneg (norm v).y]
      have hb2 : 1 - (norm v).z ≤ 2e-16 := by nlinarith
      have : ((norm v).z - 1) ^ 2 ≤ 2e-16 ^ 2 := by
        rw [show ((norm v).z - 1) ^ 2 = (1 - (norm v).z) ^ 2 by ring]
        exact pow_le_pow_left₀ hb hb2 2
      norm_num at *; linarith
    · by_cases hs : SouthCap (arccos (norm v).z)
      · -- the azimuth is replaced by π: compare with the image of the code's own direction
        have hne : norm v ≠ ⟨0, 0, -1⟩ := by
          intro h
          apply hd
          unfold NearDown
          rw [h]; unfold allClose isclose; norm_num
        have herr := C30_cap_error _ hp hne
        have hr := C32_tpnorm_range (arccos (norm v).z, tpPhi (arccos (norm v).z) (norm v).x (norm v).y)
        have e1 : tp2xyz true (xyz2tp (norm v)) = sph (xyz2tp (norm v)) := by
          rw [tp2xyz_eq]
          simp only [if_true]
          have := sph_tpnorm (t := (xyz2tp (norm v)).1) hr.1 hr.2.1 (xyz2tp (norm v)).2
          rwa [Prod.mk.eta] at this
        rw [e1] at herr
        have e2 : fwd v (sph (xyz2tp (norm v))) = ⟨0, 0, 1⟩ := by
          rw [fwd_generic v hu hd]
          have := pitch_yaw_sph (xyz2tp (norm v)).1 (xyz2tp (norm v)).2
          rwa [Prod.mk.eta] at this
        have e3 : ((fwd v (norm v)).sub (fwd v (sph (xyz2tp (norm v))))).normSq
            = ((sph (xyz2tp (norm v))).sub (norm v)).normSq := by
          rw [sub_normSq, sub_normSq, (C36_inverse v _ _).2.2.1]
          have n1 : ∀ p, (fwd v p).normSq = p.normSq := by
            intro p
            unfold fwd; rw [app_normSq (C36_rotations v).2, app_normSq (C36_rotations v).1]
          rw [n1, n1]
          have : (norm v).dot (sph (xyz2tp (norm v))) = (sph (xyz2tp (norm v))).dot (norm v) := by
            unfold V3.dot; ring
          rw [this]; ring
        rw [e2] at e3
        rw [e3]
        refine herr.trans ?_
        norm_num
      · rw [(C36_look_at_partial v hv (Or.inl ⟨hu, hd, hs⟩)).1]
        unfold V3.sub V3.normSq; norm_num

/-- **C36** is false inside the upper cap: a direction `2e-9` away from straight up is treated as straight up. -/
theorem C36_refuted : ¬ C36_statement := by
  intro h
  have hn : (⟨2e-9 / (1 + 1e-18), 0, (1 - 1e-18) / (1 + 1e-18)⟩ : V3).normSq = 1 := by
    unfold V3.normSq; norm_num
  have hv : (⟨2e-9 / (1 + 1e-18), 0, (1 - 1e-18) / (1 + 1e-18)⟩ : V3) ≠ V3.zero := by
    intro h0; rw [h0] at hn; norm_num [V3.normSq, V3.zero] at hn
  have h3 := (h _ hv).2.2.1
  have hu : allClose (⟨2e-9 / (1 + 1e-18), 0, (1 - 1e-18) / (1 + 1e-18)⟩ : V3) ⟨0, 0, 1⟩ := by
    unfold allClose isclose
    refine ⟨?_, ?_, ?_⟩ <;> simp only <;> rw [abs_le] <;> norm_num
  have hd : ¬ allClose (⟨2e-9 / (1 + 1e-18), 0, (1 - 1e-18) / (1 + 1e-18)⟩ : V3) ⟨0, 0, -1⟩ := by
    unfold allClose isclose
    rintro ⟨_, _, h⟩
    simp only at h
    rw [abs_le] at h
    norm_num at h
  have hx := congrArg V3.x h3
  unfold fwd ymtx pmtx at hx
  rw [norm_of_unit hn] at hx
  rw [if_neg hd, if_neg hd, if_pos hu, if_pos hu] at hx
  unfold M3.app at hx
  simp at hx
  norm_num at hx

example : ¬ NearUp ⟨3 / 5, 4 / 5, 0⟩ ∧ ¬ NearDown ⟨3 / 5, 4 / 5, 0⟩ := by
  have hn : norm ⟨3 / 5, 4 / 5, 0⟩ = ⟨3 / 5, 4 / 5, 0⟩ := norm_of_unit (by norm_num [V3.normSq])
  unfold NearUp NearDown allClose isclose
  rw [hn]
  constructor <;> rintro ⟨h, _, _⟩ <;> simp only at h <;> rw [abs_le] at h <;> norm_num at h

/-! ### C37 -/

/-- **C37** reflection at a unit normal keeps lengths, reverses the normal component, keeps every tangential
component, and is an involution. -/
theorem C37_reflect (r n : V3) (hn : n.normSq = 1) :
    (reflect r n).normSq = r.normSq ∧ (reflect r n).dot n = -r.dot n ∧
    (∀ t : V3, t.dot n = 0 → (reflect r n).dot t = r.dot t) ∧ reflect (reflect r n) n = r := by
  unfold V3.normSq at hn
  refine ⟨?_, ?_, ?_, ?_⟩
  · unfold reflect V3.normSq V3.dot
    simp only
    linear_combination 4 * (r.x * n.x + r.y * n.y + r.z * n.z) ^ 2 * hn
  · unfold reflect V3.dot
    simp only
    linear_combination -2 * (r.x * n.x + r.y * n.y + r.z * n.z) * hn
  · intro t ht
    unfold reflect V3.dot at *
    simp only
    linear_combination -2 * (r.x * n.x + r.y * n.y + r.z * n.z) * ht
  · unfold reflect V3.dot
    apply V3.ext <;> simp only
    · linear_combination 4 * n.x * (r.x * n.x + r.y * n.y + r.z * n.z) * hn
    · linear_combination 4 * n.y * (r.x * n.x + r.y * n.y + r.z * n.z) * hn
    · linear_combination 4 * n.z * (r.x * n.x + r.y * n.y + r.z * n.z) * hn

/-- **C37** the mask depends only on the length of the incoming ray: within `1e-8 + 1e-5` of one. -/
theorem C37_mask (r n : V3) (hn : n.normSq = 1) : reflMask r n ↔ |r.len - 1| ≤ 1e-8 + 1e-5 := by
  have : (reflect r n).len = r.len := by unfold V3.len; rw [(C37_reflect r n hn).1]
  unfold reflMask isclose
  rw [this, abs_one, mul_one]

/-- **C37** batches: entry `[i][k]` is ray `i` reflected at normal `k`. -/
theorem C37_batch (rays normals : List V3) (i k : ℕ) (hi : i < rays.length) (hk : k < normals.length) :
    ((reflectAll rays normals)[i]'(by simpa [reflectAll] using hi))[k]'(by simpa [reflectAll] using hk)
      = reflect rays[i] normals[k] := by
  simp [reflectAll]

example : reflect ⟨1, 2, -3⟩ ⟨0, 0, 1⟩ = ⟨1, 2, 3⟩ ∧ (⟨0, 0, 1⟩ : V3).normSq = 1 := by
  norm_num [reflect, V3.dot, V3.normSq]

end Verif.Geo
