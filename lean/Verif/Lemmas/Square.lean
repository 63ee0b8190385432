import Verif.Model.Square

namespace Verif.Geo
open Real

/-- the disk point of a centred square point -/
noncomputable def sqX (a b : ℝ) : ℝ := cos (sqPhi a b) * sqR a b
noncomputable def sqY (a b : ℝ) : ℝ := sin (sqPhi a b) * sqR a b

theorem arctan2_polar {r t : ℝ} (hr : 0 < r) (h1 : -π < t) (h2 : t ≤ π) :
    arctan2 (r * sin t) (r * cos t) = t := by
  have := Complex.arg_mul_cos_add_sin_mul_I hr (θ := t) ⟨h1, h2⟩
  unfold arctan2
  have e : (⟨r * cos t, r * sin t⟩ : ℂ) = (r : ℂ) * (Complex.cos t + Complex.sin t * Complex.I) := by
    apply Complex.ext
    · simp [← Complex.ofReal_cos, ← Complex.ofReal_sin]
    · simp [← Complex.ofReal_cos, ← Complex.ofReal_sin]
  rw [e]; exact this

theorem arctan2_zero : arctan2 0 0 = 0 := by
  unfold arctan2
  have : (⟨0, 0⟩ : ℂ) = 0 := rfl
  rw [this, Complex.arg_zero]

theorem arctan2_mem (y x : ℝ) : -π < arctan2 y x ∧ arctan2 y x ≤ π :=
  ⟨Complex.neg_pi_lt_arg _, Complex.arg_le_pi _⟩

theorem polar_exists (x y : ℝ) : ∃ r t, 0 ≤ r ∧ -π < t ∧ t ≤ π ∧ x = r * cos t ∧ y = r * sin t := by
  refine ⟨‖(⟨x, y⟩ : ℂ)‖, arctan2 y x, norm_nonneg _, (arctan2_mem y x).1, (arctan2_mem y x).2, ?_, ?_⟩
  · exact (Complex.norm_mul_cos_arg ⟨x, y⟩).symm
  · exact (Complex.norm_mul_sin_arg ⟨x, y⟩).symm

theorem sqrt_polar {r : ℝ} (hr : 0 ≤ r) (t : ℝ) : √((r * cos t) ^ 2 + (r * sin t) ^ 2) = r := by
  have : (r * cos t) ^ 2 + (r * sin t) ^ 2 = r ^ 2 := by nlinarith [sin_sq_add_cos_sq t]
  rw [this, sqrt_sq hr]

theorem disk2sq_polar {r t : ℝ} (hr : 0 < r) (h1 : -π < t) (h2 : t ≤ π) :
    disk2sq (r * cos t) (r * sin t) = wedge r (t + if t < -(π / 4) then 2 * π else 0) := by
  unfold disk2sq wrapPhi
  rw [sqrt_polar hr.le, arctan2_polar hr h1 h2]

theorem disk2sq_zero : disk2sq 0 0 = (0, 0) := by
  unfold disk2sq wrapPhi
  rw [arctan2_zero]
  have hp := pi_pos
  have : ¬ (0 : ℝ) < -(π / 4) := by linarith
  have h3 : (0 : ℝ) < π / 4 := by linarith
  simp [this, wedge, h3]

/-- quotient bound used in all branches -/
theorem div_bounds {a b : ℝ} (h : ¬ a * a > b * b) (hb : b ≠ 0) : -1 ≤ a / b ∧ a / b ≤ 1 := by
  have : |a| ≤ |b| := by
    rw [← abs_mul_abs_self a, ← abs_mul_abs_self b, not_lt] at h
    nlinarith [abs_nonneg a, abs_nonneg b]
  have h2 : |a / b| ≤ 1 := by
    rw [abs_div]; exact (div_le_one (abs_pos.mpr hb)).mpr this
  exact abs_le.mp h2

theorem div_bounds_lt {a b : ℝ} (h : a * a > b * b) : a ≠ 0 ∧ -1 < b / a ∧ b / a < 1 := by
  have ha : a ≠ 0 := by rintro rfl; nlinarith [mul_self_nonneg b]
  have : |b| < |a| := by
    rw [← abs_mul_abs_self a, ← abs_mul_abs_self b] at h
    nlinarith [abs_nonneg a, abs_nonneg b]
  have h2 : |b / a| < 1 := by
    rw [abs_div]; exact (div_lt_one (abs_pos.mpr ha)).mpr this
  exact ⟨ha, abs_lt.mp h2⟩

/-- square → disk → square is the identity on the whole plane -/
theorem disk2sq_sq (a b : ℝ) : disk2sq (sqX a b) (sqY a b) = (a, b) := by
  have hp := pi_pos
  have hp4 : (π / 4) ≠ 0 := by positivity
  unfold sqX sqY sqPhi sqR
  by_cases hc : a * a > b * b
  · obtain ⟨ha, hl, hu⟩ := div_bounds_lt hc
    simp only [if_pos hc]
    set t := b / (2 * a) * π / 2 with ht
    have ht' : t = (b / a) * (π / 4) := by rw [ht]; field_simp; ring
    have t1 : -(π / 4) < t := by rw [ht']; nlinarith
    have t2 : t < π / 4 := by rw [ht']; nlinarith
    have htb : t * a = b * (π / 4) := by rw [ht']; field_simp
    rcases lt_or_gt_of_ne ha with h | h
    · have e1 : cos t * a = (-a) * cos (t + π) := by rw [cos_add_pi]; ring
      have e2 : sin t * a = (-a) * sin (t + π) := by rw [sin_add_pi]; ring
      rcases le_or_gt t 0 with h0 | h0
      · rw [e1, e2, disk2sq_polar (by linarith) (by linarith) (by linarith)]
        rw [if_neg (by linarith), wedge, if_neg (by linarith), if_neg (by linarith), if_pos (by linarith)]
        refine Prod.ext (by simp) ?_
        simp only
        rw [div_eq_iff hp4]; linarith
      · have e3 : cos (t + π) = cos (t - π) := by rw [cos_add_pi, cos_sub_pi]
        have e4 : sin (t + π) = sin (t - π) := by rw [sin_add_pi, sin_sub_pi]
        rw [e1, e2, e3, e4, disk2sq_polar (by linarith) (by linarith) (by linarith)]
        rw [if_pos (by linarith), wedge, if_neg (by linarith), if_neg (by linarith), if_pos (by linarith)]
        refine Prod.ext (by simp) ?_
        simp only
        rw [div_eq_iff hp4]; linarith
    · rw [mul_comm (cos t), mul_comm (sin t), disk2sq_polar h (by linarith) (by linarith)]
      rw [if_neg (by linarith), wedge, if_pos (by linarith)]
      refine Prod.ext (by simp) ?_
      simp only
      rw [div_eq_iff hp4]; linarith
  · simp only [if_neg hc]
    by_cases hb : b = 0
    · subst hb
      have ha : a = 0 := by nlinarith [mul_self_nonneg a]
      subst ha
      simpa using disk2sq_zero
    · simp only [if_neg hb]
      obtain ⟨hl, hu⟩ := div_bounds hc hb
      set t := (1 - a / (2 * b)) * π / 2 with ht
      have ht' : t = π / 2 - (a / b) * (π / 4) := by rw [ht]; field_simp; ring
      have t1 : π / 4 ≤ t := by rw [ht']; nlinarith
      have t2 : t ≤ 3 * (π / 4) := by rw [ht']; nlinarith
      have htb : (t - π / 2) * b = -a * (π / 4) := by rw [ht']; field_simp; ring
      rcases lt_or_gt_of_ne hb with h | h
      · have e1 : cos t * b = (-b) * cos (t - π) := by rw [cos_sub_pi]; ring
        have e2 : sin t * b = (-b) * sin (t - π) := by rw [sin_sub_pi]; ring
        rw [e1, e2, disk2sq_polar (by linarith) (by linarith) (by linarith)]
        rcases lt_or_eq_of_le t2 with h3 | h3
        · rw [if_pos (by linarith), wedge, if_neg (by linarith), if_neg (by linarith), if_neg (by linarith)]
          refine Prod.ext ?_ (by simp)
          simp only
          rw [div_eq_iff hp4]; linarith
        · rw [if_neg (by linarith), wedge, if_pos (by linarith)]
          have : a = -b := by
            have : (π / 4) * (a + b) = 0 := by rw [h3] at htb; linarith
            rcases mul_eq_zero.mp this with h5 | h5
            · exact absurd h5 hp4
            · linarith
          refine Prod.ext (by simp [this]) ?_
          simp only
          rw [div_eq_iff hp4, h3]; linarith
      · rw [mul_comm (cos t), mul_comm (sin t), disk2sq_polar h (by linarith) (by linarith)]
        rcases lt_or_eq_of_le t2 with h3 | h3
        · rw [if_neg (by linarith), wedge, if_neg (by linarith), if_pos (by linarith)]
          refine Prod.ext ?_ (by simp)
          simp only
          rw [div_eq_iff hp4]; linarith
        · have : a = -b := by
            have : (π / 4) * (a + b) = 0 := by rw [h3] at htb; linarith
            rcases mul_eq_zero.mp this with h5 | h5
            · exact absurd h5 hp4
            · linarith
          rw [if_neg (by linarith), wedge, if_neg (by linarith), if_neg (by linarith), if_pos (by linarith)]
          refine Prod.ext (by simp [this]) ?_
          simp only
          rw [div_eq_iff hp4, h3]; linarith

theorem sq_horiz {r s : ℝ} (hr : r ≠ 0) (h1 : -(π / 4) < s) (h2 : s < π / 4) :
    sqX r (s * r / (π / 4)) = r * cos s ∧ sqY r (s * r / (π / 4)) = r * sin s := by
  have hp := pi_pos
  have hq : |s / (π / 4)| < 1 := by
    rw [abs_div, abs_of_pos (show (0:ℝ) < π / 4 by positivity), div_lt_one (by positivity)]
    exact abs_lt.mpr ⟨h1, h2⟩
  have hc : r * r > (s * r / (π / 4)) * (s * r / (π / 4)) := by
    have e : s * r / (π / 4) = (s / (π / 4)) * r := by ring
    rw [e]
    have h4 : (s / (π / 4)) ^ 2 < 1 := by
      rw [← sq_abs]; nlinarith [abs_nonneg (s / (π / 4))]
    have : 0 < r * r := mul_self_pos.mpr hr
    nlinarith
  unfold sqX sqY sqPhi sqR
  simp only [if_pos hc]
  have : s * r / (π / 4) / (2 * r) * π / 2 = s := by field_simp; ring
  rw [this]
  exact ⟨mul_comm _ _, mul_comm _ _⟩

theorem sq_vert {r s : ℝ} (hr : r ≠ 0) (h1 : -(π / 4) ≤ s) (h2 : s ≤ π / 4) :
    sqX (-s * r / (π / 4)) r = r * cos (π / 2 + s) ∧ sqY (-s * r / (π / 4)) r = r * sin (π / 2 + s) := by
  have hp := pi_pos
  have hq : |s / (π / 4)| ≤ 1 := by
    rw [abs_div, abs_of_pos (show (0:ℝ) < π / 4 by positivity), div_le_one (by positivity)]
    exact abs_le.mpr ⟨h1, h2⟩
  have hc : ¬ (-s * r / (π / 4)) * (-s * r / (π / 4)) > r * r := by
    have e : -s * r / (π / 4) = -(s / (π / 4)) * r := by ring
    rw [e]
    have h4 : (s / (π / 4)) ^ 2 ≤ 1 := by
      rw [← sq_abs]; nlinarith [abs_nonneg (s / (π / 4))]
    have : 0 < r * r := mul_self_pos.mpr hr
    nlinarith
  unfold sqX sqY sqPhi sqR
  simp only [if_neg hc, if_neg hr]
  have : (1 - -s * r / (π / 4) / (2 * r)) * π / 2 = π / 2 + s := by field_simp; ring
  rw [this]
  exact ⟨mul_comm _ _, mul_comm _ _⟩

theorem sq_zero : sqX 0 0 = 0 ∧ sqY 0 0 = 0 := by simp [sqX, sqY, sqR]

theorem sq_wedge {r t : ℝ} (hr : 0 < r) (h1 : -(π / 4) ≤ t) (h2 : t < 7 * (π / 4)) :
    sqX (wedge r t).1 (wedge r t).2 = r * cos t ∧ sqY (wedge r t).1 (wedge r t).2 = r * sin t := by
  have hp := pi_pos
  unfold wedge
  by_cases c1 : t < π / 4
  · simp only [if_pos c1]
    rcases lt_or_eq_of_le h1 with h | h
    · exact sq_horiz hr.ne' h c1
    · have := @sq_vert (-r) (π / 4) (by linarith) (by linarith) le_rfl
      have e : -(π / 4) * -r / (π / 4) = r := by field_simp
      have e2 : t * r / (π / 4) = -r := by rw [← h]; field_simp
      rw [e] at this
      rw [e2, this.1, this.2, ← h]
      have e3 : π / 2 + π / 4 = -(π / 4) + π := by ring
      rw [e3, cos_add_pi, sin_add_pi]
      constructor <;> ring
  · simp only [if_neg c1]
    by_cases c2 : t < 3 * (π / 4)
    · simp only [if_pos c2]
      have := @sq_vert r (t - π / 2) hr.ne' (by linarith) (by linarith)
      simpa using this
    · simp only [if_neg c2]
      by_cases c3 : t < 5 * (π / 4)
      · simp only [if_pos c3]
        rcases lt_or_eq_of_le (not_lt.mp c2) with h | h
        · have := @sq_horiz (-r) (t - π) (by linarith) (by linarith) (by linarith)
          have e : -(t - π) * r / (π / 4) = (t - π) * -r / (π / 4) := by ring
          rw [e, this.1, this.2, cos_sub_pi, sin_sub_pi]
          constructor <;> ring
        · have := @sq_vert r (π / 4) hr.ne' (by linarith) le_rfl
          have e : -(π / 4) * r / (π / 4) = -r := by field_simp
          have e2 : -(t - π) * r / (π / 4) = r := by rw [← h]; field_simp; ring
          rw [e] at this
          rw [e2, this.1, this.2, ← h]
          have e3 : π / 2 + π / 4 = 3 * (π / 4) := by ring
          rw [e3]; exact ⟨rfl, rfl⟩
      · simp only [if_neg c3]
        have := @sq_vert (-r) (t - 3 * π / 2) (by linarith) (by linarith) (by linarith)
        have e : -(t - 3 * π / 2) * -r / (π / 4) = (t - 3 * π / 2) * r / (π / 4) := by ring
        rw [e] at this
        rw [this.1, this.2]
        have e3 : π / 2 + (t - 3 * π / 2) = t - π := by ring
        rw [e3, cos_sub_pi, sin_sub_pi]
        constructor <;> ring

/-- disk → square → disk is the identity on the whole plane -/
theorem sq_disk2sq (x y : ℝ) :
    sqX (disk2sq x y).1 (disk2sq x y).2 = x ∧ sqY (disk2sq x y).1 (disk2sq x y).2 = y := by
  have hp := pi_pos
  obtain ⟨r, t, hr, h1, h2, rfl, rfl⟩ := polar_exists x y
  rcases hr.eq_or_lt with h | h
  · subst h; simp only [zero_mul, disk2sq_zero]; exact sq_zero
  · rw [disk2sq_polar h h1 h2]
    split_ifs with hc
    · have := sq_wedge h (t := t + 2 * π) (by linarith) (by linarith)
      rwa [cos_add_two_pi, sin_add_two_pi] at this
    · rw [add_zero]
      exact sq_wedge h (by linarith) (by linarith)

theorem sqR_sq (a b : ℝ) : sqR a b * sqR a b = max (a * a) (b * b) := by
  unfold sqR
  split_ifs with h h2
  · rw [max_eq_left h.le]
  · subst h2; rw [max_eq_right (not_lt.mp h)]
  · rw [max_eq_right (not_lt.mp h)]

theorem sqXY_sq (a b : ℝ) : sqX a b ^ 2 + sqY a b ^ 2 = sqR a b * sqR a b := by
  unfold sqX sqY; nlinarith [sin_sq_add_cos_sq (sqPhi a b)]

/-- the disk radius of a square point is its max norm -/
theorem disk_radius (a b : ℝ) : sqX a b ^ 2 + sqY a b ^ 2 = max |a| |b| ^ 2 := by
  rw [sqXY_sq, sqR_sq]
  rcases le_total |a| |b| with h | h
  · rw [max_eq_right h, max_eq_right (by
      rw [← abs_mul_abs_self a, ← abs_mul_abs_self b]; nlinarith [abs_nonneg a]), sq_abs, sq]
  · rw [max_eq_left h, max_eq_left (by
      rw [← abs_mul_abs_self a, ← abs_mul_abs_self b]; nlinarith [abs_nonneg b]), sq_abs, sq]

/-- mirror symmetry of the concentric map -/
theorem sq_mirror (a b : ℝ) : sqX (-a) b = -sqX a b ∧ sqY (-a) b = sqY a b := by
  unfold sqX sqY sqPhi sqR
  simp only [neg_mul_neg]
  split_ifs with h h2
  · have : b / (2 * -a) * π / 2 = -(b / (2 * a) * π / 2) := by
      rw [mul_neg, div_neg]; ring
    rw [this, cos_neg, sin_neg]; constructor <;> ring
  · simp
  · have : (1 - -a / (2 * b)) * π / 2 = π - (1 - a / (2 * b)) * π / 2 := by ring
    rw [this, cos_pi_sub, sin_pi_sub]; constructor <;> ring

theorem disk2sq_mirror (x y : ℝ) : disk2sq (-x) y = (-(disk2sq x y).1, (disk2sq x y).2) := by
  obtain ⟨h1, h2⟩ := sq_disk2sq x y
  obtain ⟨h3, h4⟩ := sq_mirror (disk2sq x y).1 (disk2sq x y).2
  have := disk2sq_sq (-(disk2sq x y).1) (disk2sq x y).2
  rwa [h3, h4, h1, h2] at this

/-- the max norm of the square point is the disk radius -/
theorem disk2sq_max (x y : ℝ) : max |(disk2sq x y).1| |(disk2sq x y).2| ^ 2 = x ^ 2 + y ^ 2 := by
  have := disk_radius (disk2sq x y).1 (disk2sq x y).2
  rw [(sq_disk2sq x y).1, (sq_disk2sq x y).2] at this
  exact this.symm

/-! get/set -/

theorem V3.get_set_self (v : V3) (i : Fin 3) (a : ℝ) : (v.set i a).get i = a := by
  fin_cases i <;> rfl
theorem V3.get_set_ne (v : V3) {i j : Fin 3} (h : j ≠ i) (a : ℝ) : (v.set i a).get j = v.get j := by
  fin_cases i <;> fin_cases j <;> first | rfl | exact absurd rfl h

/-- the axes tuple is a permutation -/
structure Axes.Ok (ax : Axes) : Prop where
  h01 : ax.a0 ≠ ax.a1
  h02 : ax.a0 ≠ ax.a2
  h12 : ax.a1 ≠ ax.a2

theorem Axes.std_ok : Axes.std.Ok := ⟨by decide, by decide, by decide⟩

theorem V3.ext_axes {ax : Axes} (h : ax.Ok) {p q : V3} (h0 : p.get ax.a0 = q.get ax.a0)
    (h1 : p.get ax.a1 = q.get ax.a1) (h2 : p.get ax.a2 = q.get ax.a2) : p = q := by
  obtain ⟨a, b, c⟩ := ax
  obtain ⟨h01, h02, h12⟩ := h
  dsimp only at *
  fin_cases a <;> fin_cases b <;> fin_cases c <;> first
    | exact absurd rfl h01 | exact absurd rfl h02 | exact absurd rfl h12
    | (apply V3.ext <;> assumption)

theorem V3.normSq_axes {ax : Axes} (h : ax.Ok) (p : V3) :
    p.normSq = p.get ax.a0 ^ 2 + p.get ax.a1 ^ 2 + p.get ax.a2 ^ 2 := by
  obtain ⟨a, b, c⟩ := ax
  obtain ⟨h01, h02, h12⟩ := h
  dsimp only at *
  unfold V3.normSq
  fin_cases a <;> fin_cases b <;> fin_cases c <;> first
    | exact absurd rfl h01 | exact absurd rfl h02 | exact absurd rfl h12
    | (simp [V3.get]; try ring)

section comp
variable (e : V3) {ax : Axes} (h : ax.Ok) (xs : ℝ) (uv : ℝ × ℝ)
include h

theorem uv2xyz_c0 : (uv2xyzOn e ax xs uv).get ax.a0
    = xs * hemi uv.1 * sqX (2 * foldU uv.1 - 1) (2 * uv.2 - 1)
      * √(2 - sqR (2 * foldU uv.1 - 1) (2 * uv.2 - 1) * sqR (2 * foldU uv.1 - 1) (2 * uv.2 - 1)) := by
  unfold uv2xyzOn
  rw [V3.get_set_ne _ h.h02, V3.get_set_ne _ h.h01, V3.get_set_self]
  unfold sphterm sqX; ring

theorem uv2xyz_c1 : (uv2xyzOn e ax xs uv).get ax.a1
    = sqY (2 * foldU uv.1 - 1) (2 * uv.2 - 1)
      * √(2 - sqR (2 * foldU uv.1 - 1) (2 * uv.2 - 1) * sqR (2 * foldU uv.1 - 1) (2 * uv.2 - 1)) := by
  unfold uv2xyzOn
  rw [V3.get_set_ne _ h.h12, V3.get_set_self]
  unfold sphterm sqY; ring

theorem uv2xyz_c2 : (uv2xyzOn e ax xs uv).get ax.a2
    = hemi uv.1 * (1 - sqR (2 * foldU uv.1 - 1) (2 * uv.2 - 1) * sqR (2 * foldU uv.1 - 1) (2 * uv.2 - 1)) := by
  unfold uv2xyzOn
  rw [V3.get_set_self]

/-- the uninitialised row is fully overwritten -/
theorem uv2xyzOn_irrel (e' : V3) : uv2xyzOn e ax xs uv = uv2xyzOn e' ax xs uv := by
  apply V3.ext_axes h
  · rw [uv2xyz_c0 _ h, uv2xyz_c0 _ h]
  · rw [uv2xyz_c1 _ h, uv2xyz_c1 _ h]
  · rw [uv2xyz_c2 _ h, uv2xyz_c2 _ h]
end comp

theorem hemi_sq (u : ℝ) : hemi u * hemi u = 1 := by unfold hemi; split_ifs <;> norm_num
theorem zsign_sq (u : ℝ) : zsign u * zsign u = 1 := by unfold zsign; split_ifs <;> norm_num
theorem zsign_mul (z : ℝ) : zsign z * z = |z| := by
  unfold zsign; split_ifs with h
  · rw [abs_of_neg h]; ring
  · rw [abs_of_nonneg (not_lt.mp h)]; ring

/-- centred square coordinates of a point of the uv rectangle are in [-1,1] -/
theorem fold_bounds {u v : ℝ} (hu0 : 0 ≤ u) (hu2 : u ≤ 2) (hv0 : 0 ≤ v) (hv1 : v ≤ 1) :
    |2 * foldU u - 1| ≤ 1 ∧ |2 * v - 1| ≤ 1 := by
  unfold foldU
  constructor
  · split_ifs with h <;> rw [abs_le] <;> constructor <;> linarith
  · rw [abs_le]; constructor <;> linarith

theorem sqR_le {a b : ℝ} (ha : |a| ≤ 1) (hb : |b| ≤ 1) : sqR a b * sqR a b ≤ 1 := by
  rw [sqR_sq, max_le_iff]
  rw [← abs_mul_abs_self a, ← abs_mul_abs_self b]
  constructor <;> nlinarith [abs_nonneg a, abs_nonneg b]

end Verif.Geo
