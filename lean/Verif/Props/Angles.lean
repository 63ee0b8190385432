import Verif.Props.Square
import Verif.Model.Angles
import Mathlib.Analysis.Real.Pi.Bounds

/-! Properties C30-C34, C85: angular coordinates, chords and angles. -/

namespace Verif.Geo
open Real

/-! ### floored modulus -/

theorem fmod_range (x : ℝ) {m : ℝ} (hm : 0 < m) : 0 ≤ fmod x m ∧ fmod x m < m := by
  unfold fmod
  have h1 := Int.floor_le (x / m)
  have h2 := Int.lt_floor_add_one (x / m)
  rw [le_div_iff₀ hm] at h1
  rw [div_lt_iff₀ hm] at h2
  constructor <;> nlinarith

theorem fmod_add_self (x : ℝ) {m : ℝ} (hm : 0 < m) : fmod (x + m) m = fmod x m := by
  unfold fmod
  rw [add_div, div_self hm.ne', Int.floor_add_one]
  push_cast; ring

theorem fmod_eq_self {x m : ℝ} (hm : 0 < m) (h0 : 0 ≤ x) (h1 : x < m) : fmod x m = x := by
  unfold fmod
  have : ⌊x / m⌋ = 0 := by
    rw [Int.floor_eq_zero_iff]
    exact ⟨by positivity, (div_lt_one hm).mpr h1⟩
  rw [this]; simp

/-! ### C32 -/

theorem sph_normSq (tp : ℝ × ℝ) : (sph tp).normSq = 1 := by
  unfold sph V3.normSq
  simp only
  have h1 := sin_sq_add_cos_sq tp.1
  have h2 := sin_sq_add_cos_sq tp.2
  have : (sin tp.1 * cos tp.2) ^ 2 + (sin tp.1 * sin tp.2) ^ 2 + cos tp.1 ^ 2
    = sin tp.1 ^ 2 * (sin tp.2 ^ 2 + cos tp.2 ^ 2) + cos tp.1 ^ 2 := by ring
  rw [this, h2, mul_one, h1]

theorem norm_of_unit {v : V3} (h : v.normSq = 1) : norm v = v :=
  norm_of_len_one (by unfold V3.len; rw [h, sqrt_one])

theorem tp2xyz_eq (nz : Bool) (tp : ℝ × ℝ) : tp2xyz nz tp = sph (if nz then tpnorm tp else tp) :=
  norm_of_unit (sph_normSq _)

/-- **C32** the reduced angles are always in `[0, π) x [0, 2π)`. -/
theorem C32_tpnorm_range (tp : ℝ × ℝ) :
    0 ≤ (tpnorm tp).1 ∧ (tpnorm tp).1 < π ∧ 0 ≤ (tpnorm tp).2 ∧ (tpnorm tp).2 < 2 * π := by
  have a := fmod_range (tp.1 + π) pi_pos
  have b := fmod_range (tp.2 + 2 * π) (show 0 < 2 * π by positivity)
  exact ⟨a.1, a.2, b.1, b.2⟩

/-- **C32** the direction after reduction is the original one times `(-1)^⌊theta/π⌋`. -/
theorem C32_tpnorm_direction (tp : ℝ × ℝ) :
    sph (tpnorm tp) = V3.smul ((-1) ^ ⌊tp.1 / π⌋) (sph tp) := by
  have e1 : (tpnorm tp).1 = tp.1 - (⌊tp.1 / π⌋ : ℤ) * π := by
    unfold tpnorm; simp only; rw [fmod_add_self _ pi_pos]; unfold fmod; ring
  have e2 : (tpnorm tp).2 = tp.2 - (⌊tp.2 / (2 * π)⌋ : ℤ) * (2 * π) := by
    unfold tpnorm; simp only; rw [fmod_add_self _ (by positivity)]; unfold fmod; ring
  unfold sph V3.smul
  rw [e1, e2, sin_sub_int_mul_pi, cos_sub_int_mul_pi, sin_sub_int_mul_two_pi, cos_sub_int_mul_two_pi]
  apply V3.ext <;> simp only <;> ring

/-- The full statement of C32. -/
def C32_statement : Prop :=
  ∀ tp : ℝ × ℝ, 0 ≤ (tpnorm tp).1 ∧ (tpnorm tp).1 ≤ π ∧ 0 ≤ (tpnorm tp).2 ∧ (tpnorm tp).2 < 2 * π ∧
    sph (tpnorm tp) = sph tp

/-- **C32** the direction is kept exactly when `⌊theta/π⌋` is even, in particular for `theta` in `[0, π)` and
every `phi`. Missing for the full claim: `theta` outside, where the direction is reversed (`C32_refuted`). -/
theorem C32_tpnorm_partial (tp : ℝ × ℝ) : sph (tpnorm tp) = sph tp ↔ Even ⌊tp.1 / π⌋ := by
  rw [C32_tpnorm_direction]
  constructor
  · intro h
    by_contra hn
    rw [Int.not_even_iff_odd] at hn
    rw [hn.neg_one_zpow] at h
    have hs := sph_normSq tp
    have hx := congrArg V3.x h
    have hy := congrArg V3.y h
    have hz := congrArg V3.z h
    unfold V3.smul at hx hy hz
    unfold V3.normSq at hs
    simp only at hx hy hz
    have : (sph tp).x = 0 := by linarith
    have h2 : (sph tp).y = 0 := by linarith
    have h3 : (sph tp).z = 0 := by linarith
    rw [this, h2, h3] at hs
    norm_num at hs
  · intro h
    rw [h.neg_one_zpow]
    unfold V3.smul
    apply V3.ext <;> simp

theorem floor_div_pi_zero {t : ℝ} (h0 : 0 ≤ t) (h1 : t < π) : ⌊t / π⌋ = 0 := by
  rw [Int.floor_eq_zero_iff]
  exact ⟨div_nonneg h0 pi_pos.le, (div_lt_one pi_pos).mpr h1⟩

theorem sph_tpnorm {t : ℝ} (h0 : 0 ≤ t) (h1 : t < π) (p : ℝ) : sph (tpnorm (t, p)) = sph (t, p) := by
  rw [C32_tpnorm_partial]; simp only; rw [floor_div_pi_zero h0 h1]; exact Even.zero

theorem tpnorm_pi (p : ℝ) : (tpnorm (π, p)).1 = 0 := by
  unfold tpnorm; simp only; rw [fmod_add_self _ pi_pos]; unfold fmod
  rw [div_self pi_pos.ne']; simp

/-- **C32** is false: `theta = π` (straight down) is reduced to `theta = 0` (straight up). -/
theorem C32_refuted : ¬ C32_statement := by
  intro h
  obtain ⟨_, _, _, _, h5⟩ := h (π, 0)
  rw [C32_tpnorm_partial] at h5
  simp only [div_self pi_pos.ne', Int.floor_one] at h5
  exact absurd h5 (by decide)

/-! ### C30 -/

/-- the two caps in which `xyz2tp` replaces the azimuth by π -/
def NorthCap (t : ℝ) : Prop := t ≤ 1e-10
def SouthCap (t : ℝ) : Prop := π - t ≤ 1e-10 + 1e-5 * π

theorem isclose_north {t : ℝ} (h : 0 ≤ t) : isclose t 0 1e-10 ↔ NorthCap t := by
  unfold isclose NorthCap
  rw [sub_zero, abs_of_nonneg h, abs_zero, mul_zero, add_zero]

theorem isclose_south {t : ℝ} (h : t ≤ π) : isclose t π 1e-10 ↔ SouthCap t := by
  unfold isclose SouthCap
  rw [abs_sub_comm, abs_of_nonneg (sub_nonneg.mpr h), abs_of_pos pi_pos]

theorem cap_small : (1e-10 + 1e-5 * π : ℝ) < 3.2e-5 := by
  have := pi_lt_d2; norm_num at *; linarith

/-- **C30** angles → direction → angles, for every azimuth and every polar angle outside the caps. -/
theorem C30_tp_xyz_tp (t p : ℝ) (h0 : 0 ≤ t) (h1 : t ≤ π) (hn : ¬ NorthCap t) (hs : ¬ SouthCap t)
    (hp0 : 0 ≤ p) (hp1 : p < 2 * π) : xyz2tp (tp2xyz true (t, p)) = (t, p) := by
  have hpi := pi_pos
  have ht1 : t < π := by
    unfold SouthCap at hs; push Not at hs
    have : (0 : ℝ) < 1e-10 + 1e-5 * π := by positivity
    linarith
  have ht0 : 0 < t := by unfold NorthCap at hn; push Not at hn; norm_num at hn; linarith
  have hsin : 0 < sin t := sin_pos_of_pos_of_lt_pi ht0 ht1
  have e : tp2xyz true (t, p) = sph (t, p) := by
    rw [tp2xyz_eq]; exact sph_tpnorm h0 ht1 p
  rw [e]
  unfold xyz2tp
  have hz : (sph (t, p)).z = cos t := rfl
  rw [hz, arccos_cos h0 h1]
  unfold tpPhi
  rw [if_neg (by rwa [isclose_north h0]), if_neg (by rwa [isclose_south h1])]
  have hx : (sph (t, p)).x = sin t * cos p := rfl
  have hy : (sph (t, p)).y = sin t * sin p := rfl
  rw [hx, hy]
  have hfst : ∀ q, (tpnorm (t, q)).1 = t := by
    intro q; unfold tpnorm; simp only; rw [fmod_add_self _ pi_pos, fmod_eq_self pi_pos h0 ht1]
  refine Prod.ext (hfst _) ?_
  rcases le_or_gt p π with hle | hgt
  · rw [arctan2_polar hsin (by linarith) hle]
    unfold tpnorm; simp only
    rw [fmod_add_self _ (by positivity), fmod_eq_self (by positivity) hp0 hp1]
  · rw [← cos_sub_two_pi p, ← sin_sub_two_pi p, arctan2_polar hsin (by linarith) (by linarith)]
    unfold tpnorm; simp only
    rw [sub_add_cancel, fmod_eq_self (by positivity) hp0 hp1]

/-- polar form of a unit vector -/
theorem unit_polar {p : V3} (hp : p.normSq = 1) :
    0 ≤ arccos p.z ∧ arccos p.z ≤ π ∧ p = sph (arccos p.z, arctan2 p.y p.x) := by
  refine ⟨arccos_nonneg _, arccos_le_pi _, ?_⟩
  unfold V3.normSq at hp
  have hz1 : -1 ≤ p.z := by nlinarith [sq_nonneg p.x, sq_nonneg p.y]
  have hz2 : p.z ≤ 1 := by nlinarith [sq_nonneg p.x, sq_nonneg p.y]
  have hs : sin (arccos p.z) = ‖(⟨p.x, p.y⟩ : ℂ)‖ := by
    rw [sin_arccos, Complex.norm_def, Complex.normSq_mk]
    congr 1; nlinarith
  unfold sph
  apply V3.ext
  · simp only; rw [hs]; exact (Complex.norm_mul_cos_arg ⟨p.x, p.y⟩).symm
  · simp only; rw [hs]; exact (Complex.norm_mul_sin_arg ⟨p.x, p.y⟩).symm
  · simp only; rw [cos_arccos hz1 hz2]

/-- The full statement of C30. -/
def C30_statement : Prop :=
  (∀ t p : ℝ, 0 < t → t < π → 0 ≤ p → p < 2 * π → xyz2tp (tp2xyz true (t, p)) = (t, p)) ∧
  (∀ p : V3, p.normSq = 1 → tp2xyz true (xyz2tp p) = p)

/-- the azimuth used by the code -/
theorem xyz2tp_sph {p : V3} (hp : p.normSq = 1) (hlt : arccos p.z < π) :
    tp2xyz true (xyz2tp p) = sph (arccos p.z, tpPhi (arccos p.z) p.x p.y) := by
  obtain ⟨a, _, _⟩ := unit_polar hp
  rw [tp2xyz_eq]
  unfold xyz2tp
  simp only [if_true]
  have h1 : (tpnorm (arccos p.z, tpPhi (arccos p.z) p.x p.y)).1 = arccos p.z := by
    unfold tpnorm; simp only; rw [fmod_add_self _ pi_pos, fmod_eq_self pi_pos a hlt]
  have : tpnorm (arccos p.z, tpPhi (arccos p.z) p.x p.y)
      = (arccos p.z, (tpnorm (arccos p.z, tpPhi (arccos p.z) p.x p.y)).2) := Prod.ext h1 rfl
  rw [this, sph_tpnorm a hlt, ← this, sph_tpnorm a hlt]

/-- **C30** direction → angles → direction is exact for unit vectors outside the two polar caps
(`theta <= 1e-10`, `π - theta <= 1e-10 + 1e-5 π`). Missing for the full claim: the caps, see `C30_cap_error`
and `C30_nadir`. -/
theorem C30_xyz_tp_xyz_partial (p : V3) (hp : p.normSq = 1) (hn : ¬ NorthCap (arccos p.z))
    (hs : ¬ SouthCap (arccos p.z)) : tp2xyz true (xyz2tp p) = p := by
  obtain ⟨a, b, c⟩ := unit_polar hp
  have hlt : arccos p.z < π := by
    unfold SouthCap at hs; push Not at hs
    have : (0 : ℝ) < 1e-10 + 1e-5 * π := by have := pi_pos; positivity
    linarith
  rw [xyz2tp_sph hp hlt]
  unfold tpPhi
  rw [if_neg (by rwa [isclose_north a]), if_neg (by rwa [isclose_south b]), ← c]

/-- **C30** inside the caps (but not exactly straight down) the azimuth is lost, at a cost below `6.4e-5`. -/
theorem C30_cap_error (p : V3) (hp : p.normSq = 1) (hne : p ≠ ⟨0, 0, -1⟩) :
    ((tp2xyz true (xyz2tp p)).sub p).normSq ≤ 6.4e-5 ^ 2 := by
  obtain ⟨a, b, c⟩ := unit_polar hp
  have hlt : arccos p.z < π := by
    rcases b.lt_or_eq with h | h
    · exact h
    · exfalso; apply hne
      rw [c, h]; unfold sph; apply V3.ext <;> simp
  have key : ∀ d : ℝ, sin (arccos p.z) ≤ d → 0 ≤ sin (arccos p.z) → d ≤ 3.2e-5 →
      ((sph (arccos p.z, π)).sub p).normSq ≤ 6.4e-5 ^ 2 := by
    intro d h1 h2 h3
    conv_lhs => rw [c]
    have hz : (sph (arccos p.z, arctan2 p.y p.x)).z = p.z := by rw [← c]
    rw [hz]
    unfold sph V3.sub V3.normSq
    simp only [cos_pi, sin_pi]
    have hh := sin_sq_add_cos_sq (arctan2 p.y p.x)
    have hc : cos (arctan2 p.y p.x) ≤ 1 := cos_le_one _
    have e : (sin (arccos p.z) * -1 - sin (arccos p.z) * cos (arctan2 p.y p.x)) ^ 2
        + (sin (arccos p.z) * 0 - sin (arccos p.z) * sin (arctan2 p.y p.x)) ^ 2
        + (cos (arccos p.z) - cos (arccos p.z)) ^ 2
        = sin (arccos p.z) ^ 2 * (2 + 2 * cos (arctan2 p.y p.x)) := by
      linear_combination (sin (arccos p.z)) ^ 2 * hh
    rw [e]
    have : sin (arccos p.z) ^ 2 ≤ 3.2e-5 ^ 2 := by
      apply pow_le_pow_left₀ h2; linarith
    nlinarith [sq_nonneg (sin (arccos p.z))]
  by_cases hn : NorthCap (arccos p.z)
  · rw [xyz2tp_sph hp hlt]
    unfold tpPhi
    rw [if_pos ((isclose_north a).mpr hn)]
    refine key _ (sin_le a) (sin_nonneg_of_nonneg_of_le_pi a b) ?_
    unfold NorthCap at hn; norm_num at *; linarith
  · by_cases hs : SouthCap (arccos p.z)
    · rw [xyz2tp_sph hp hlt]
      unfold tpPhi
      rw [if_neg (by rwa [isclose_north a]), if_pos ((isclose_south b).mpr hs)]
      refine key (π - arccos p.z) ?_ (sin_nonneg_of_nonneg_of_le_pi a b) ?_
      · rw [← sin_pi_sub]; exact sin_le (by linarith)
      · unfold SouthCap at hs; have := cap_small; linarith
    · rw [C30_xyz_tp_xyz_partial p hp hn hs]
      unfold V3.sub V3.normSq; norm_num

/-- **C30** straight down comes back as straight up. -/
theorem C30_nadir : tp2xyz true (xyz2tp ⟨0, 0, -1⟩) = ⟨0, 0, 1⟩ ∧ (xyz2tp ⟨0, 0, -1⟩).1 = 0 := by
  have h1 : (xyz2tp ⟨0, 0, -1⟩).1 = 0 := by
    unfold xyz2tp; simp only [arccos_neg_one]; exact tpnorm_pi _
  refine ⟨?_, h1⟩
  rw [tp2xyz_eq]
  simp only [if_true]
  have : (xyz2tp ⟨0, 0, -1⟩) = (0, (xyz2tp ⟨0, 0, -1⟩).2) := Prod.ext h1 rfl
  rw [this, sph_tpnorm le_rfl pi_pos]
  unfold sph; simp

/-- **C30** is false. -/
theorem C30_refuted : ¬ C30_statement := by
  intro h
  have hz := h.2 ⟨0, 0, -1⟩ (by norm_num [V3.normSq])
  rw [C30_nadir.1] at hz
  have := congrArg V3.z hz
  norm_num at this

example : ¬ NorthCap (arccos ((⟨3 / 5, 4 / 5, 0⟩ : V3).z)) ∧ ¬ SouthCap (arccos ((⟨3 / 5, 4 / 5, 0⟩ : V3).z)) ∧
    (⟨3 / 5, 4 / 5, 0⟩ : V3).normSq = 1 := by
  have h3 := pi_gt_three
  have h4 := pi_lt_d2
  simp only [arccos_zero]
  refine ⟨?_, ?_, by norm_num [V3.normSq]⟩
  · unfold NorthCap; norm_num; linarith
  · unfold SouthCap; norm_num at *; linarith

/-! ### C31 -/

/-- The full statement of C31. -/
def C31_statement : Prop :=
  ∀ p : V3, p.normSq = 1 → aa2xyz (xyz2aa p) = p ∧ (xyz2aa p).1 = arcsin p.z * 180 / π ∧
    -180 ≤ (xyz2aa p).2 ∧ (xyz2aa p).2 ≤ 180

theorem aa_tp (p : V3) : aa2xyz (xyz2aa p) = tp2xyz true (xyz2tp p) := by
  have hp := pi_pos
  unfold aa2xyz xyz2aa
  congr 1
  refine Prod.ext ?_ ?_ <;> simp only <;> field_simp <;> ring

/-- **C31** outside the polar caps the round trip is exact; the altitude is `arcsin(z)` in degrees for every
unit vector except straight down; the azimuth lies in `(-90, 270]` (and not in [-180,180], `C31_azimuth`).
Missing for the full claim: caps, nadir and the azimuth range, all refuted. -/
theorem C31_aa_partial (p : V3) (hp : p.normSq = 1) :
    (¬ NorthCap (arccos p.z) → ¬ SouthCap (arccos p.z) → aa2xyz (xyz2aa p) = p) ∧
    (p ≠ ⟨0, 0, -1⟩ → (xyz2aa p).1 = arcsin p.z * 180 / π ∧ ((aa2xyz (xyz2aa p)).sub p).normSq ≤ 6.4e-5 ^ 2) ∧
    -90 < (xyz2aa p).2 ∧ (xyz2aa p).2 ≤ 270 := by
  have hpi := pi_pos
  obtain ⟨a, b, c⟩ := unit_polar hp
  refine ⟨fun h1 h2 => ?_, fun hne => ⟨?_, ?_⟩, ?_, ?_⟩
  · rw [aa_tp]; exact C30_xyz_tp_xyz_partial p hp h1 h2
  · have hlt : arccos p.z < π := by
      rcases b.lt_or_eq with h | h
      · exact h
      · exfalso; apply hne
        rw [c, h]; unfold sph; apply V3.ext <;> simp
    unfold xyz2aa xyz2tp tpnorm
    simp only
    rw [fmod_add_self _ pi_pos, fmod_eq_self pi_pos a hlt, ← arcsin_eq_pi_div_two_sub_arccos]
    field_simp
  · rw [aa_tp]; exact C30_cap_error p hp hne
  · have := (C32_tpnorm_range (arccos p.z, tpPhi (arccos p.z) p.x p.y)).2.2.2
    unfold xyz2aa xyz2tp
    simp only
    rw [lt_div_iff₀ (by positivity)]
    linarith
  · have := (C32_tpnorm_range (arccos p.z, tpPhi (arccos p.z) p.x p.y)).2.2.1
    unfold xyz2aa xyz2tp
    simp only
    rw [div_le_iff₀ (by positivity)]
    linarith

/-- the azimuth of `+x` is 270 degrees -/
theorem C31_azimuth : (xyz2aa ⟨1, 0, 0⟩).2 = 270 := by
  have hpi := pi_pos
  have h3 := pi_gt_three
  have h4 := pi_lt_d2
  unfold xyz2aa xyz2tp
  simp only [arccos_zero]
  have : tpPhi (π / 2) 1 0 = 0 := by
    unfold tpPhi
    rw [if_neg, if_neg]
    · unfold arctan2
      have : (⟨1, 0⟩ : ℂ) = 1 := rfl
      rw [this, Complex.arg_one]
    · rw [isclose_south (by linarith)]; unfold SouthCap; norm_num at *; linarith
    · rw [isclose_north (by linarith)]; unfold NorthCap; norm_num; linarith
  rw [this]
  unfold tpnorm
  simp only
  rw [fmod_add_self _ (by positivity), fmod_eq_self (by positivity) le_rfl (by positivity)]
  field_simp; ring

/-- **C31** is false (also at nadir, through C30). -/
theorem C31_refuted : ¬ C31_statement := by
  intro h
  have := (h ⟨1, 0, 0⟩ (by norm_num [V3.normSq])).2.2.2
  rw [C31_azimuth] at this
  norm_num at this

/-! ### C33, C34 -/

theorem clip1_range (x : ℝ) : -1 ≤ clip1 x ∧ clip1 x ≤ 1 := by
  unfold clip1
  exact ⟨le_min (le_max_right _ _) (by norm_num), min_le_right _ _⟩

theorem clip1_eq {x : ℝ} (h0 : -1 ≤ x) (h1 : x ≤ 1) : clip1 x = x := by
  unfold clip1; rw [max_eq_left h0, min_eq_left h1]

/-- Cauchy-Schwarz in coordinates -/
theorem dot_sq_le (a b : V3) : a.dot b ^ 2 ≤ a.normSq * b.normSq := by
  unfold V3.dot V3.normSq
  nlinarith [sq_nonneg (a.x * b.y - a.y * b.x), sq_nonneg (a.y * b.z - a.z * b.y),
    sq_nonneg (a.z * b.x - a.x * b.z)]

theorem dot_unit {a b : V3} (ha : a.normSq = 1) (hb : b.normSq = 1) : -1 ≤ a.dot b ∧ a.dot b ≤ 1 := by
  have := dot_sq_le a b
  rw [ha, hb] at this
  constructor <;> nlinarith

theorem ctheta_unit {a b : V3} (ha : a.normSq = 1) (hb : b.normSq = 1) : ctheta a b = a.dot b :=
  clip1_eq (dot_unit ha hb).1 (dot_unit ha hb).2

theorem sub_normSq (a b : V3) : (a.sub b).normSq = a.normSq + b.normSq - 2 * a.dot b := by
  unfold V3.sub V3.normSq V3.dot; ring

/-- **C33** chord and angle conversions are mutually inverse on `[0, π]` and `[0, 2]`. -/
theorem C33_chord_inverse :
    (∀ t, 0 ≤ t → t ≤ π → chord2theta (theta2chord t) = t) ∧
    (∀ c, 0 ≤ c → c ≤ 2 → theta2chord (chord2theta c) = c) := by
  constructor
  · intro t h0 h1
    unfold chord2theta theta2chord
    rw [mul_div_cancel_left₀ _ (by norm_num), arcsin_sin (by linarith [pi_pos]) (by linarith)]; ring
  · intro c h0 h1
    unfold chord2theta theta2chord
    rw [mul_div_cancel_left₀ _ (by norm_num), sin_arcsin (by linarith) (by linarith)]; ring

/-- **C33** the chord of the angle between two unit vectors is their distance. -/
theorem C33_chord_geometric (a b : V3) (ha : a.normSq = 1) (hb : b.normSq = 1) :
    theta2chord (radians a b) = (a.sub b).len := by
  obtain ⟨h0, h1⟩ := dot_unit ha hb
  have e0 := arccos_nonneg (a.dot b)
  have e1 := arccos_le_pi (a.dot b)
  unfold theta2chord radians
  rw [ctheta_unit ha hb]
  unfold V3.len
  rw [sub_normSq, ha, hb]
  symm
  have hs : 0 ≤ sin (arccos (a.dot b) / 2) :=
    sin_nonneg_of_nonneg_of_le_pi (by linarith) (by linarith)
  have hc : cos (arccos (a.dot b)) = a.dot b := cos_arccos h0 h1
  have h2 : cos (2 * (arccos (a.dot b) / 2)) = 1 - 2 * sin (arccos (a.dot b) / 2) ^ 2 := by
    rw [cos_two_mul]; nlinarith [sin_sq_add_cos_sq (arccos (a.dot b) / 2)]
  rw [mul_div_cancel₀ _ (by norm_num : (2:ℝ) ≠ 0), hc] at h2
  rw [show (1 : ℝ) + 1 - 2 * a.dot b = (2 * sin (arccos (a.dot b) / 2)) ^ 2 by nlinarith]
  exact sqrt_sq (by linarith)

/-- **C34** range, symmetry, degree conversion and the clip hold for all vectors. -/
theorem C34_angle_basic (a b : V3) :
    0 ≤ radians a b ∧ radians a b ≤ π ∧ radians a b = radians b a ∧ degrees a b = radians a b * 180 / π ∧
    -1 ≤ ctheta a b ∧ ctheta a b ≤ 1 ∧ cos (radians a b) = ctheta a b := by
  have hr := clip1_range (a.dot b)
  refine ⟨arccos_nonneg _, arccos_le_pi _, ?_, rfl, hr.1, hr.2, cos_arccos hr.1 hr.2⟩
  unfold radians ctheta
  congr 2; unfold V3.dot; ring

theorem normSq_eq_zero {v : V3} (h : v.normSq = 0) : v = V3.zero := by
  by_contra hn; exact (normSq_pos hn).ne' h

/-- **C34** for unit vectors the angle is 0 exactly on equality and π exactly on opposition. -/
theorem C34_angle_extremes (a b : V3) (ha : a.normSq = 1) (hb : b.normSq = 1) :
    (radians a b = 0 ↔ a = b) ∧ (radians a b = π ↔ a = b.neg) := by
  obtain ⟨h0, h1⟩ := dot_unit ha hb
  unfold radians
  rw [ctheta_unit ha hb]
  constructor
  · rw [arccos_eq_zero]
    constructor
    · intro h
      have hd : a.dot b = 1 := le_antisymm h1 h
      have := normSq_eq_zero (v := a.sub b) (by rw [sub_normSq, ha, hb, hd]; norm_num)
      unfold V3.sub V3.zero at this
      rw [V3.mk.injEq] at this
      exact V3.ext (by linarith [this.1]) (by linarith [this.2.1]) (by linarith [this.2.2])
    · rintro rfl
      have : a.dot a = a.normSq := by unfold V3.dot V3.normSq; ring
      rw [this, ha]
  · rw [arccos_eq_pi]
    constructor
    · intro h
      have hd : a.dot b = -1 := le_antisymm h h0
      have e : (a.sub b.neg).normSq = 0 := by
        have : (a.sub b.neg).normSq = a.normSq + b.normSq + 2 * a.dot b := by
          unfold V3.sub V3.neg V3.normSq V3.dot; ring
        rw [this, ha, hb, hd]; norm_num
      have := normSq_eq_zero e
      unfold V3.sub V3.zero at this
      rw [V3.mk.injEq] at this
      exact V3.ext (by linarith [this.1]) (by linarith [this.2.1]) (by linarith [this.2.2])
    · rintro rfl
      have : (b.neg).dot b = -b.normSq := by unfold V3.neg V3.dot V3.normSq; ring
      rw [this, hb]

/-- **C34** triangle inequality for the angles between unit vectors. -/
theorem C34_angle_triangle (a b c : V3) (ha : a.normSq = 1) (hb : b.normSq = 1) (hc : c.normSq = 1) :
    radians a c ≤ radians a b + radians b c := by
  obtain ⟨p0, p1⟩ := dot_unit ha hb
  obtain ⟨q0, q1⟩ := dot_unit hb hc
  obtain ⟨r0, r1⟩ := dot_unit ha hc
  unfold radians
  rw [ctheta_unit ha hb, ctheta_unit hb hc, ctheta_unit ha hc]
  have a0 := arccos_nonneg (a.dot b)
  have b0 := arccos_nonneg (b.dot c)
  rcases le_or_gt π (arccos (a.dot b) + arccos (b.dot c)) with h | h
  · exact (arccos_le_pi _).trans h
  · have hcos : cos (arccos (a.dot b) + arccos (b.dot c)) ≤ a.dot c := by
      rw [cos_add, cos_arccos p0 p1, cos_arccos q0 q1, sin_arccos, sin_arccos,
        ← sqrt_mul (by nlinarith)]
      have hg : (a.dot b * b.dot c - a.dot c) ^ 2 ≤ (1 - a.dot b ^ 2) * (1 - b.dot c ^ 2) := by
        -- Cauchy-Schwarz for the components orthogonal to b
        have hcs := dot_sq_le (a.sub (V3.smul (a.dot b) b)) (c.sub (V3.smul (b.dot c) b))
        have e1 : (a.sub (V3.smul (a.dot b) b)).normSq = 1 - a.dot b ^ 2 := by
          have : (a.sub (V3.smul (a.dot b) b)).normSq
            = a.normSq - 2 * a.dot b * a.dot b + a.dot b ^ 2 * b.normSq := by
            unfold V3.sub V3.smul V3.normSq V3.dot; ring
          rw [this, ha, hb]; ring
        have e2 : (c.sub (V3.smul (b.dot c) b)).normSq = 1 - b.dot c ^ 2 := by
          have : (c.sub (V3.smul (b.dot c) b)).normSq
            = c.normSq - 2 * b.dot c * b.dot c + b.dot c ^ 2 * b.normSq := by
            unfold V3.sub V3.smul V3.normSq V3.dot; ring
          rw [this, hc, hb]; ring
        have e3 : (a.sub (V3.smul (a.dot b) b)).dot (c.sub (V3.smul (b.dot c) b))
            = a.dot c - a.dot b * b.dot c := by
          have : (a.sub (V3.smul (a.dot b) b)).dot (c.sub (V3.smul (b.dot c) b))
            = a.dot c - 2 * (a.dot b * b.dot c) + a.dot b * b.dot c * b.normSq := by
            unfold V3.sub V3.smul V3.normSq V3.dot; ring
          rw [this, hb]; ring
        rw [e1, e2, e3] at hcs
        nlinarith
      have := le_sqrt_of_sq_le hg
      linarith
    have := arccos_le_arccos hcos
    rwa [arccos_cos (by linarith) h.le] at this

example : (⟨3 / 5, 0, 4 / 5⟩ : V3).normSq = 1 ∧ (⟨0, 5 / 13, 12 / 13⟩ : V3).normSq = 1 ∧
    (⟨-1, 0, 0⟩ : V3).normSq = 1 := by norm_num [V3.normSq]

/-! ### C85 -/

/-- **C85** `xyz2xy` is the equiangular fisheye projection: the image radius is the angle to the third mapped
axis over 90 degrees, and the image direction is that of the first two mapped components. -/
theorem C85_fisheye (ax : Axes) (hax : ax.Ok) (p : V3) (hp : p.normSq = 1) :
    (xyz2xy ax false p).1 ^ 2 + (xyz2xy ax false p).2 ^ 2 = (arccos (p.get ax.a2) / (π / 2)) ^ 2 ∧
    (∃ s : ℝ, 0 ≤ s ∧ √(p.get ax.a0 ^ 2 + p.get ax.a1 ^ 2) * (xyz2xy ax false p).1 = s * p.get ax.a0 ∧
      √(p.get ax.a0 ^ 2 + p.get ax.a1 ^ 2) * (xyz2xy ax false p).2 = s * p.get ax.a1 ∧
      (p.get ax.a0 ≠ 0 ∨ p.get ax.a1 ≠ 0 → 0 < s)) ∧
    xyz2xy ax true p = (-(xyz2xy ax false p).1, (xyz2xy ax false p).2) := by
  have hpi := pi_pos
  rw [V3.normSq_axes hax] at hp
  set X := p.get ax.a0 with hX
  set Y := p.get ax.a1 with hY
  set Z := p.get ax.a2 with hZ
  have hz1 : -1 ≤ Z := by nlinarith [sq_nonneg X, sq_nonneg Y]
  have hz2 : Z ≤ 1 := by nlinarith [sq_nonneg X, sq_nonneg Y]
  have hrad : arctan2 (√(X ^ 2 + Y ^ 2)) Z = arccos Z := by
    have hs : √(X ^ 2 + Y ^ 2) = 1 * sin (arccos Z) := by
      rw [sin_arccos, one_mul]; congr 1; linarith
    have hc : Z = 1 * cos (arccos Z) := by rw [cos_arccos hz1 hz2, one_mul]
    rw [hs]
    conv_lhs => rw [show arctan2 (1 * sin (arccos Z)) Z = arctan2 (1 * sin (arccos Z)) (1 * cos (arccos Z)) by
      rw [← hc]]
    exact arctan2_polar one_pos (by linarith [arccos_nonneg Z]) (arccos_le_pi Z)
  have hn : √(X ^ 2 + Y ^ 2) = ‖(⟨Y, X⟩ : ℂ)‖ := by
    rw [Complex.norm_def, Complex.normSq_mk]; congr 1; ring
  have hc : √(X ^ 2 + Y ^ 2) * cos (arctan2 X Y) = Y := by
    rw [hn]; exact Complex.norm_mul_cos_arg ⟨Y, X⟩
  have hs : √(X ^ 2 + Y ^ 2) * sin (arctan2 X Y) = X := by
    rw [hn]; exact Complex.norm_mul_sin_arg ⟨Y, X⟩
  unfold xyz2xy
  simp only [← hX, ← hY, ← hZ, hrad, Bool.false_eq_true, if_false, if_true]
  refine ⟨?_, ⟨arccos Z / (π / 2), by have := arccos_nonneg Z; positivity, ?_, ?_, ?_⟩, trivial⟩
  · nlinarith [sin_sq_add_cos_sq (arctan2 X Y)]
  · calc _ = arccos Z / (π / 2) * (√(X ^ 2 + Y ^ 2) * sin (arctan2 X Y)) := by ring
      _ = _ := by rw [hs]
  · calc _ = arccos Z / (π / 2) * (√(X ^ 2 + Y ^ 2) * cos (arctan2 X Y)) := by ring
      _ = _ := by rw [hc]
  · intro h
    have hlt : Z < 1 := by
      rcases h with h | h
      · have := sq_pos_of_ne_zero h; nlinarith [sq_nonneg Y]
      · have := sq_pos_of_ne_zero h; nlinarith [sq_nonneg X]
    have : 0 < arccos Z := arccos_pos.mpr hlt
    positivity

/-- **C85** the length of the vector does not matter. -/
theorem C85_fisheye_scale (ax : Axes) (f : Bool) (s : ℝ) (hs : 0 < s) (p : V3) :
    xyz2xy ax f (V3.smul s p) = xyz2xy ax f p := by
  have hg : ∀ i, (V3.smul s p).get i = s * p.get i := by
    intro i; fin_cases i <;> rfl
  have harg : ∀ y x, arctan2 (s * y) (s * x) = arctan2 y x := by
    intro y x
    unfold arctan2
    have : (⟨s * x, s * y⟩ : ℂ) = (s : ℂ) * ⟨x, y⟩ := by
      apply Complex.ext <;> simp
    rw [this, Complex.arg_real_mul _ hs]
  have hr : √((s * p.get ax.a0) ^ 2 + (s * p.get ax.a1) ^ 2) = s * √(p.get ax.a0 ^ 2 + p.get ax.a1 ^ 2) := by
    rw [show (s * p.get ax.a0) ^ 2 + (s * p.get ax.a1) ^ 2 = s ^ 2 * (p.get ax.a0 ^ 2 + p.get ax.a1 ^ 2) by ring,
      sqrt_mul (sq_nonneg s), sqrt_sq hs.le]
  unfold xyz2xy
  simp only [hg, hr, harg]

end Verif.Geo
