import Verif.Props.Mapper
import Mathlib.Analysis.Convex.SpecificFunctions.Deriv

/-! Properties of angular view mappers: C50-C55, C86. -/

namespace Verif.Map
open Verif.Geo Real

/-! ### construction -/

theorem norm1_norm {d : V3} (hd : d ≠ V3.zero) : norm1 d = norm d := (C20_norm1 d).1 hd

theorem norm_ne_zero {d : V3} (hd : d ≠ V3.zero) : norm d ≠ V3.zero := by
  intro h
  have := normSq_norm hd
  rw [h] at this
  norm_num [V3.normSq, V3.zero] at this

theorem norm_norm1 {d : V3} (hd : d ≠ V3.zero) : norm (norm1 d) = norm d := by
  rw [norm1_norm hd]; exact (C20_norm_idem d hd).1

theorem ymtx_norm1 {d : V3} (hd : d ≠ V3.zero) : ymtx (norm1 d) = ymtx d := by
  unfold ymtx; rw [norm_norm1 hd]
theorem pmtx_norm1 {d : V3} (hd : d ≠ V3.zero) : pmtx (norm1 d) = pmtx d := by
  unfold pmtx; rw [norm_norm1 hd]

theorem new_w2v {d : V3} (hd : d ≠ V3.zero) (va : ℝ) (p : V3) : (View.new d va).w2v p = fwd d p := by
  unfold View.w2v w2v View.new fwd
  simp only
  rw [ymtx_norm1 hd, pmtx_norm1 hd]
theorem new_v2w {d : V3} (hd : d ≠ V3.zero) (va : ℝ) (p : V3) : (View.new d va).v2w p = bwd d p := by
  unfold View.v2w v2w View.new bwd
  simp only
  rw [ymtx_norm1 hd, pmtx_norm1 hd]

theorem fwd_normSq (d p : V3) : (fwd d p).normSq = p.normSq := by
  unfold fwd
  rw [app_normSq (C36_rotations d).2, app_normSq (C36_rotations d).1]
theorem bwd_normSq (d p : V3) : (bwd d p).normSq = p.normSq := by
  rw [← fwd_normSq d (bwd d p), (C36_inverse d p p).2.1]

/-! ### C50 -/

/-- **C50** `world2view` and `view2world` are mutually inverse and keep dot products, for every direction. -/
theorem C50_isometry (d : V3) (hd : d ≠ V3.zero) (va : ℝ) (p q : V3) :
    (View.new d va).v2w ((View.new d va).w2v p) = p ∧ (View.new d va).w2v ((View.new d va).v2w p) = p ∧
    ((View.new d va).w2v p).dot ((View.new d va).w2v q) = p.dot q ∧
    ((View.new d va).v2w p).dot ((View.new d va).v2w q) = p.dot q := by
  simp only [new_w2v hd, new_v2w hd]
  exact C36_inverse d p q

/-- a view direction that is exactly vertical or at least 3.2e-5 radians (0.002 degrees) away from vertical -/
def Clear (d : V3) : Prop :=
  d ≠ V3.zero ∧ ((3.2e-5 < arccos (norm d).z ∧ arccos (norm d).z < π - 3.2e-5) ∨
    norm d = ⟨0, 0, 1⟩ ∨ norm d = ⟨0, 0, -1⟩)

theorem neg_norm {d : V3} : norm d.neg = (norm d).neg := by
  have : d.neg.len = d.len := by unfold V3.len V3.neg V3.normSq; simp
  unfold Geo.norm V3.divS
  rw [this]
  unfold V3.neg
  apply V3.ext <;> simp only <;> ring

theorem neg_ne_zero {d : V3} (h : d ≠ V3.zero) : d.neg ≠ V3.zero := by
  intro h0
  apply h
  have hx := congrArg V3.x h0
  have hy := congrArg V3.y h0
  have hz := congrArg V3.z h0
  unfold V3.neg V3.zero at hx hy hz
  simp only at hx hy hz
  apply V3.ext <;> unfold V3.zero <;> simp only <;> linarith

theorem Clear.neg {d : V3} (h : Clear d) : Clear d.neg := by
  refine ⟨neg_ne_zero h.1, ?_⟩
  rw [neg_norm]
  rcases h.2 with h | h | h
  · left
    unfold V3.neg
    simp only
    rw [arccos_neg]
    constructor <;> linarith [h.1, h.2]
  · right; right; rw [h]; simp [V3.neg]
  · right; left; rw [h]; simp [V3.neg]

theorem near_small {x y z : ℝ} (hn : x ^ 2 + y ^ 2 + z ^ 2 = 1) (hx : |x| ≤ 1e-8) (hy : |y| ≤ 1e-8) (hz : 0 ≤ z) :
    arccos z ≤ 3.2e-5 := by
  have h1 : 0 ≤ arccos z := arccos_nonneg z
  have h2 : arccos z ≤ π / 2 := arccos_le_pi_div_two.mpr hz
  have h3 := mul_le_sin h1 h2
  rw [sin_arccos] at h3
  have hx2 : x ^ 2 ≤ 1e-16 := by rw [← sq_abs]; nlinarith [abs_nonneg x]
  have hy2 : y ^ 2 ≤ 1e-16 := by rw [← sq_abs]; nlinarith [abs_nonneg y]
  have h4 : √(1 - z ^ 2) ≤ 2e-8 := by
    rw [sqrt_le_left (by norm_num)]
    norm_num at hx2 hy2 ⊢
    linarith
  have hpi : π < 4 := by linarith [pi_lt_d2]
  have h5 : 2 / π * arccos z * π = 2 * arccos z := by field_simp
  have h6 : 2 / π * arccos z ≤ 2e-8 := h3.trans h4
  norm_num at h6 ⊢
  nlinarith [pi_pos]

/-- a clear direction is taken exactly to `+z` -/
theorem Clear.look {d : V3} (h : Clear d) : fwd d (norm d) = ⟨0, 0, 1⟩ ∧ bwd d ⟨0, 0, 1⟩ = norm d := by
  apply C36_look_at_partial d h.1
  rcases h.2 with hc | hc | hc
  · left
    have hn := normSq_norm h.1
    unfold V3.normSq at hn
    refine ⟨?_, ?_, ?_⟩
    · intro hu
      obtain ⟨h1, h2, h3⟩ := hu
      unfold isclose at h1 h2 h3
      simp only [sub_zero, abs_zero, mul_zero, add_zero, abs_one, mul_one] at h1 h2 h3
      have hz : 0 ≤ (norm d).z := by rw [abs_le] at h3; norm_num at h3; linarith [h3.1]
      have := near_small hn h1 h2 hz
      linarith [hc.1]
    · intro hu
      obtain ⟨h1, h2, h3⟩ := hu
      unfold isclose at h1 h2 h3
      simp only [sub_zero, abs_zero, mul_zero, add_zero, abs_neg, abs_one, mul_one, sub_neg_eq_add] at h1 h2 h3
      have hz : 0 ≤ -(norm d).z := by rw [abs_le] at h3; norm_num at h3; linarith [h3.2]
      have := near_small (z := -(norm d).z) (by rw [neg_sq]; exact hn) h1 h2 hz
      rw [arccos_neg] at this
      linarith [hc.2]
    · intro hs
      unfold SouthCap at hs
      have := cap_small
      linarith [hc.2]
  · right; left; exact hc
  · right; right; exact hc

/-- what C50 asks -/
def C50_statement : Prop :=
  ∀ (d : V3), d ≠ V3.zero → ∀ va : ℝ, (View.new d va).w2v (View.new d va).dxyz = ⟨0, 0, 1⟩

/-- **C50** the view direction goes to `(0,0,1)` for every direction that is vertical or not within 3.2e-5 radians
of vertical. Missing for the full claim: the two caps (`C50_refuted`, error bound in `C50_cap_error`). -/
theorem C50_look_partial (d : V3) (h : Clear d) (va : ℝ) :
    (View.new d va).w2v (View.new d va).dxyz = ⟨0, 0, 1⟩ ∧
    (View.new d va).v2w ⟨0, 0, 1⟩ = (View.new d va).dxyz ∧ (View.new d va).dxyz.normSq = 1 := by
  rw [new_w2v h.1, new_v2w h.1]
  show fwd d (norm1 d) = _ ∧ bwd d _ = norm1 d ∧ (norm1 d).normSq = 1
  rw [norm1_norm h.1]
  exact ⟨h.look.1, h.look.2, normSq_norm h.1⟩

theorem exists_not_look : ∃ d : V3, d ≠ V3.zero ∧ fwd d (norm d) ≠ ⟨0, 0, 1⟩ := by
  by_contra h
  push Not at h
  apply C36_refuted
  intro v hv
  exact ⟨(C36_rotations v).1, (C36_rotations v).2, h v hv, (C36_up v).1, (C36_up v).2,
    fun p => (C36_inverse v p p).1⟩

theorem C50_refuted : ¬ C50_statement := by
  intro h
  obtain ⟨d, hd, hn⟩ := exists_not_look
  have := h d hd 180
  rw [new_w2v hd] at this
  apply hn
  rw [← norm1_norm hd]; exact this

/-- inside the caps the error is at most 6.5e-5, and world up always stays in the plane `x = 0`, `y >= 0` -/
theorem C50_cap_error (d : V3) (hd : d ≠ V3.zero) (va : ℝ) :
    (((View.new d va).w2v (View.new d va).dxyz).sub ⟨0, 0, 1⟩).normSq ≤ 6.5e-5 ^ 2 ∧
    ((View.new d va).w2v ⟨0, 0, 1⟩).x = 0 ∧ 0 ≤ ((View.new d va).w2v ⟨0, 0, 1⟩).y := by
  rw [new_w2v hd, new_w2v hd]
  show ((fwd d (norm1 d)).sub _).normSq ≤ _ ∧ _
  rw [norm1_norm hd]
  exact ⟨C36_cap_error d hd, C36_up d⟩

theorem clear_example : Clear ⟨0, 1, 0⟩ ∧ Clear ⟨0, 0, 1⟩ := by
  have h1 : Geo.norm ⟨0, 1, 0⟩ = ⟨0, 1, 0⟩ := norm_of_unit (by norm_num [V3.normSq])
  have h2 : Geo.norm ⟨0, 0, 1⟩ = ⟨0, 0, 1⟩ := norm_of_unit (by norm_num [V3.normSq])
  refine ⟨⟨by simp [V3.zero], ?_⟩, ⟨by simp [V3.zero], ?_⟩⟩
  · left
    rw [h1]
    simp only [arccos_zero]
    have := pi_gt_three
    norm_num
    constructor <;> linarith
  · right; left; exact h2

/-! ### chord factor -/

theorem theta2chord_half_pi : theta2chord (π / 2) / (π / 2) = 2 * √2 / π := by
  unfold theta2chord
  rw [show π / 2 / 2 = π / 4 by ring, sin_pi_div_four]
  field_simp

theorem half_angle {va : ℝ} (h0 : 0 < va) (h1 : va ≤ 180) : 0 < va * π / 360 ∧ va * π / 360 ≤ π / 2 := by
  have := pi_pos
  constructor
  · positivity
  · nlinarith

/-- the chord of a shorter arc is relatively longer -/
theorem chord_ratio {t : ℝ} (h0 : 0 < t) (h1 : t < π / 2) : 2 * √2 / π < theta2chord t / t := by
  have hpi := pi_pos
  have ha : 0 < 1 - 2 * t / π := by rw [sub_pos, div_lt_one hpi]; linarith
  have hb : 0 < 2 * t / π := by positivity
  have m0 : (0 : ℝ) ∈ Set.Icc 0 π := ⟨le_refl _, hpi.le⟩
  have m1 : π / 4 ∈ Set.Icc 0 π := ⟨by linarith, by linarith⟩
  have hne : (0 : ℝ) ≠ π / 4 := by linarith
  have hc := strictConcaveOn_sin_Icc.2 m0 m1 hne ha hb (by ring)
  simp only [smul_eq_mul, sin_zero, mul_zero, zero_add, sin_pi_div_four] at hc
  rw [show 2 * t / π * (π / 4) = t / 2 by field_simp; ring] at hc
  unfold theta2chord
  rw [div_lt_div_iff₀ hpi h0]
  have : 2 * t / π * (√2 / 2) * π = t * √2 := by field_simp
  nlinarith

theorem theta2chord_le {t : ℝ} (h0 : 0 < t) : theta2chord t / t ≤ 1 := by
  unfold theta2chord
  rw [div_le_one h0]
  have := sin_le (x := t / 2) (by linarith)
  linarith

theorem cf_bounds {va : ℝ} (h0 : 0 < va) (h1 : va ≤ 180) :
    2 * √2 / π ≤ chordFactor va ∧ chordFactor va ≤ 1 ∧ (va < 180 → chordFactor va < 1) ∧ 0 < chordFactor va := by
  obtain ⟨a, b⟩ := half_angle h0 h1
  have hpi := pi_pos
  have hs : 0 < 2 * √2 / π := by positivity
  have hchord : 2 * √2 / π ≤ theta2chord (va * π / 360) / (va * π / 360) := by
    rcases b.lt_or_eq with h | h
    · exact (chord_ratio a h).le
    · rw [h, theta2chord_half_pi]
  have hle := theta2chord_le a
  unfold chordFactor
  rw [theta2chord_half_pi]
  have hp : 0 < theta2chord (va * π / 360) / (va * π / 360) := lt_of_lt_of_le hs hchord
  refine ⟨?_, ?_, ?_, ?_⟩
  · rw [le_div_iff₀ hp]; nlinarith
  · rw [div_le_one hp]; exact hchord
  · intro hlt
    rw [div_lt_one hp]
    apply chord_ratio a
    nlinarith
  · positivity

theorem cf_180 : chordFactor 180 = 1 := by
  unfold chordFactor
  rw [show (180 : ℝ) * π / 360 = π / 2 by ring, theta2chord_half_pi]
  apply div_self
  have := pi_pos
  positivity

theorem cf_120 : chordFactor 120 = 2 * √2 / 3 := by
  unfold chordFactor
  rw [theta2chord_half_pi, show (120 : ℝ) * π / 360 = π / 3 by ring]
  unfold theta2chord
  rw [show π / 3 / 2 = π / 6 by ring, sin_pi_div_six]
  have := pi_pos
  field_simp

/-! ### C51 -/

theorem new_sf {d : V3} {va : ℝ} (h : va ≠ 360) :
    (View.new d va).sf = (va / 180, va / 180) ∧ (View.new d va).lo = (1 / 2 - va / 180 / 2, 1 / 2 - va / 180 / 2) ∧
    (View.new d va).va = va ∧ (View.new d va).two = false ∧ (View.new d va).cf = chordFactor va := by
  unfold View.new vscale vlow vangle vscale
  simp only [if_neg h]
  exact ⟨trivial, trivial, trivial, by simp [h], trivial⟩

theorem new_sf360 {d : V3} :
    (View.new d 360).sf = (1, 1) ∧ (View.new d 360).lo = (0, 0) ∧
    (View.new d 360).va = 180 ∧ (View.new d 360).two = true ∧ (View.new d 360).cf = chordFactor 180 := by
  unfold View.new vscale vlow vangle vscale
  simp only [if_true]
  exact ⟨trivial, trivial, trivial, by simp, trivial⟩

/-- **C51** every uv of the view's domain gives a unit vector, and comes back; for view angles up to 180 on the
closed unit square. -/
theorem C51_round_trip (d : V3) (hd : d ≠ V3.zero) (va : ℝ) (h0 : 0 < va) (h1 : va ≤ 180) (uv : ℝ × ℝ)
    (hu0 : 0 ≤ uv.1) (hu1 : uv.1 ≤ 1) (hv0 : 0 ≤ uv.2) (hv1 : uv.2 ≤ 1) :
    ((View.new d va).uv2xyz uv).normSq = 1 ∧ (View.new d va).xyz2uv ((View.new d va).uv2xyz uv) = uv := by
  obtain ⟨s, l, -, -, -⟩ := new_sf (d := d) (va := va) (by linarith)
  have hs0 : 0 < va / 180 := by positivity
  have hs1 : va / 180 ≤ 1 := by rw [div_le_one (by norm_num)]; exact h1
  have b1 : 0 ≤ 1 / 2 - va / 180 / 2 + uv.1 * (va / 180) := by nlinarith
  have b2 : 1 / 2 - va / 180 / 2 + uv.1 * (va / 180) ≤ 1 := by nlinarith
  have b3 : 0 ≤ 1 / 2 - va / 180 / 2 + uv.2 * (va / 180) := by nlinarith
  have b4 : 1 / 2 - va / 180 / 2 + uv.2 * (va / 180) ≤ 1 := by nlinarith
  constructor
  · unfold View.uv2xyz
    rw [new_v2w hd, bwd_normSq, s, l]
    exact (C21_uv2xyz_sphere V3.zero Axes.std Axes.std_ok (-1) (Or.inr rfl) _ ⟨b1, by linarith, b3, b4⟩).1
  · unfold View.xyz2uv View.uv2xyz
    rw [new_v2w hd, new_w2v hd, (C36_inverse d _ V3.zero).2.1, s, l]
    have := C24_uv_xyz_uv V3.zero Axes.std Axes.std_ok
      (1 / 2 - va / 180 / 2 + uv.1 * (va / 180), 1 / 2 - va / 180 / 2 + uv.2 * (va / 180)) (Or.inl ⟨b1, b2, b3, b4⟩)
    unfold Geo.xyz2uv Geo.uv2xyz
    rw [this]
    apply Prod.ext <;> simp only <;> field_simp <;> ring

/-- **C51** 360 degree views: unit vectors on both squares; the round trip holds on the closed first square and on
the open second one, whose edge is the equator and comes back as the edge of the first square. -/
theorem C51_round_trip_360 (d : V3) (hd : d ≠ V3.zero) (uv : ℝ × ℝ)
    (hu0 : 0 ≤ uv.1) (hu1 : uv.1 ≤ 2) (hv0 : 0 ≤ uv.2) (hv1 : uv.2 ≤ 1) :
    ((View.new d 360).uv2xyz uv).normSq = 1 ∧
    (uv.1 ≤ 1 ∨ (1 < uv.1 ∧ uv.1 < 2 ∧ 0 < uv.2 ∧ uv.2 < 1) →
      (View.new d 360).xyz2uv ((View.new d 360).uv2xyz uv) = uv) ∧
    (1 < uv.1 → max |2 * uv.1 - 3| |2 * uv.2 - 1| = 1 →
      (View.new d 360).xyz2uv ((View.new d 360).uv2xyz uv) = (2 - uv.1, uv.2)) := by
  obtain ⟨s, l, -, -, -⟩ := new_sf360 (d := d)
  have hrect : InRect uv := ⟨hu0, hu1, hv0, hv1⟩
  have e : (0 + uv.1 * 1, 0 + uv.2 * 1) = uv := by simp
  have hxy : (View.new d 360).xyz2uv ((View.new d 360).uv2xyz uv)
      = xyz2uvA false Axes.std true (uv2xyzOn V3.zero Axes.std (-1) uv) := by
    unfold View.xyz2uv View.uv2xyz
    rw [new_v2w hd, new_w2v hd, (C36_inverse d _ V3.zero).2.1, s, l]
    unfold Geo.xyz2uv Geo.uv2xyz
    simp only
    rw [e]
    apply Prod.ext <;> simp
  refine ⟨?_, ?_, ?_⟩
  · unfold View.uv2xyz
    rw [new_v2w hd, bwd_normSq, s, l]
    simp only
    rw [e]
    exact (C21_uv2xyz_sphere V3.zero Axes.std Axes.std_ok (-1) (Or.inr rfl) _ hrect).1
  · intro h
    rw [hxy]
    apply C24_uv_xyz_uv V3.zero Axes.std Axes.std_ok
    rcases h with h | h
    · left; exact ⟨hu0, h, hv0, hv1⟩
    · right; exact h
  · intro h1 h2
    rw [hxy]
    exact C24_equator V3.zero Axes.std Axes.std_ok uv hrect h1 h2

theorem uv2xyz_centre : Geo.uv2xyz (-1) (1 / 2, 1 / 2) = ⟨0, 0, 1⟩ := by
  unfold Geo.uv2xyz uv2xyzOn
  norm_num [Axes.std, V3.set, sqR, sqPhi, sphterm, foldU, hemi]

/-- what C51 asks of the centre of the view -/
def C51_statement : Prop :=
  ∀ d : V3, d ≠ V3.zero → ∀ va : ℝ, 0 < va → va ≤ 180 → (View.new d va).uv2xyz (1 / 2, 1 / 2) = (View.new d va).dxyz

/-- **C51** the centre of the view is the view direction, outside the vertical caps of C50. Missing for the full
claim: the caps (`C51_refuted`). -/
theorem C51_centre_partial (d : V3) (h : Clear d) (va : ℝ) (h1 : va ≠ 360) :
    (View.new d va).uv2xyz (1 / 2, 1 / 2) = (View.new d va).dxyz := by
  obtain ⟨s, l, -, -, -⟩ := new_sf (d := d) h1
  unfold View.uv2xyz
  rw [s, l]
  rw [show (1 / 2 - va / 180 / 2 + 1 / 2 * (va / 180), 1 / 2 - va / 180 / 2 + 1 / 2 * (va / 180))
    = ((1 : ℝ) / 2, (1 : ℝ) / 2) by apply Prod.ext <;> simp only <;> ring]
  rw [uv2xyz_centre]
  exact (C50_look_partial d h va).2.1

theorem C51_refuted : ¬ C51_statement := by
  intro h
  obtain ⟨d, hd, hn⟩ := exists_not_look
  have h2 := h d hd 180 (by norm_num) (by norm_num)
  obtain ⟨s, l, -, -, -⟩ := new_sf (d := d) (va := 180) (by norm_num)
  unfold View.uv2xyz at h2
  rw [s, l, new_v2w hd] at h2
  norm_num at h2
  rw [show ((1 : ℝ) / 2, (1 : ℝ) / 2) = (1 / 2, 1 / 2) from rfl] at h2
  have h3 : bwd d ⟨0, 0, 1⟩ = norm d := by
    rw [← uv2xyz_centre, ← norm1_norm hd]
    exact h2
  apply hn
  rw [← h3, (C36_inverse d _ V3.zero).2.1]

/-! ### C52 -/

theorem rad2_sq (p : ℝ × ℝ) : rad2 p ^ 2 = p.1 ^ 2 + p.2 ^ 2 := by
  unfold rad2; rw [sq_sqrt]; positivity
theorem rad2_nonneg (p : ℝ × ℝ) : 0 ≤ rad2 p := sqrt_nonneg _

theorem polFactor_eq {r : ℝ} (h0 : 0 ≤ r) (h1 : r ≤ 1) : r * polFactor r = sin (π * r) := by
  have hpi := pi_pos
  unfold polFactor
  split_ifs with h
  · have : r = 0 := le_antisymm h h0
    rw [this]; simp
  · push Not at h
    have hs : 0 ≤ sin (π * r) := sin_nonneg_of_nonneg_of_le_pi (by positivity) (by nlinarith)
    rw [show 1 - cos (π * r) * cos (π * r) = sin (π * r) ^ 2 by nlinarith [sin_sq_add_cos_sq (π * r)], sqrt_sq hs]
    field_simp

theorem polFactor_nonneg (r : ℝ) : 0 ≤ polFactor r := by
  unfold polFactor
  split_ifs with h
  · exact pi_pos.le
  · push Not at h; positivity

/-- in view space the polar construction always gives unit vectors (any radius) -/
theorem polar2view_unit (p : ℝ × ℝ) : (polar2view p).normSq = 1 := by
  have hr := rad2_sq p
  unfold polar2view V3.normSq
  simp only
  have hf : rad2 p ^ 2 * polFactor (rad2 p) ^ 2 = sin (π * rad2 p) ^ 2 := by
    unfold polFactor
    split_ifs with h
    · have : rad2 p = 0 := le_antisymm h (rad2_nonneg p)
      rw [this]; simp
    · push Not at h
      rw [div_pow, sq_sqrt (by nlinarith [sin_sq_add_cos_sq (π * rad2 p), sq_nonneg (sin (π * rad2 p))])]
      field_simp
      rw [mul_comm (rad2 p) π]
      nlinarith [sin_sq_add_cos_sq (π * rad2 p)]
  rw [hr] at hf
  nlinarith [sin_sq_add_cos_sq (π * rad2 p)]

/-- the fisheye projection undoes the polar construction (with the mirrored first axis) -/
theorem xyz2xy_polar (p : ℝ × ℝ) (h : rad2 p < 1) :
    Geo.xyz2xy Axes.std true (polar2view p) = (-(2 * p.1), 2 * p.2) := by
  have hpi := pi_pos
  obtain ⟨c1, ⟨s, hs0, e1, e2, hs⟩, c3⟩ := C85_fisheye Axes.std Axes.std_ok (polar2view p) (polar2view_unit p)
  rw [c3]
  have hr0 := rad2_nonneg p
  have hf := polFactor_eq hr0 h.le
  have hfn := polFactor_nonneg (rad2 p)
  simp only [Axes.std, V3.get] at c1 e1 e2 hs ⊢
  have hz : arccos (polar2view p).z = π * rad2 p := by
    unfold polar2view
    simp only
    exact arccos_cos (by positivity) (by nlinarith)
  have hrad : √((polar2view p).x ^ 2 + (polar2view p).y ^ 2) = rad2 p * polFactor (rad2 p) := by
    unfold polar2view
    simp only
    rw [show (p.1 * polFactor (rad2 p)) ^ 2 + (p.2 * polFactor (rad2 p)) ^ 2
      = (rad2 p * polFactor (rad2 p)) ^ 2 by rw [mul_pow, mul_pow, mul_pow, rad2_sq]; ring]
    exact sqrt_sq (by positivity)
  rw [hz] at c1
  rw [hrad, hf] at e1 e2
  rw [show π * rad2 p / (π / 2) = 2 * rad2 p by field_simp, mul_pow, rad2_sq] at c1
  rcases hr0.lt_or_eq with hr | hr
  · have hsin : 0 < sin (π * rad2 p) := sin_pos_of_pos_of_lt_pi (by positivity) (by nlinarith)
    -- both components are multiples of p
    have hpf : 0 < polFactor (rad2 p) := by nlinarith
    have k1 : rad2 p * (Geo.xyz2xy ⟨0, 1, 2⟩ false (polar2view p)).1 = s * p.1 := by
      have : sin (π * rad2 p) * (Geo.xyz2xy ⟨0, 1, 2⟩ false (polar2view p)).1 = s * (p.1 * polFactor (rad2 p)) := e1
      rw [← hf] at this
      have := mul_right_cancel₀ hpf.ne' (b := polFactor (rad2 p))
        (a := rad2 p * (Geo.xyz2xy ⟨0, 1, 2⟩ false (polar2view p)).1) (c := s * p.1) (by linarith)
      exact this
    have k2 : rad2 p * (Geo.xyz2xy ⟨0, 1, 2⟩ false (polar2view p)).2 = s * p.2 := by
      have : sin (π * rad2 p) * (Geo.xyz2xy ⟨0, 1, 2⟩ false (polar2view p)).2 = s * (p.2 * polFactor (rad2 p)) := e2
      rw [← hf] at this
      have := mul_right_cancel₀ hpf.ne' (b := polFactor (rad2 p))
        (a := rad2 p * (Geo.xyz2xy ⟨0, 1, 2⟩ false (polar2view p)).2) (c := s * p.2) (by linarith)
      exact this
    generalize (Geo.xyz2xy ⟨0, 1, 2⟩ false (polar2view p)).1 = A at *
    generalize (Geo.xyz2xy ⟨0, 1, 2⟩ false (polar2view p)).2 = B at *
    have hs2 : s = 2 * rad2 p := by
      have q : s ^ 2 * rad2 p ^ 2 = (2 * rad2 p) ^ 2 * rad2 p ^ 2 := by
        have q1 : s ^ 2 * (p.1 ^ 2 + p.2 ^ 2) = rad2 p ^ 2 * (A ^ 2 + B ^ 2) := by
          calc s ^ 2 * (p.1 ^ 2 + p.2 ^ 2) = (s * p.1) ^ 2 + (s * p.2) ^ 2 := by ring
            _ = (rad2 p * A) ^ 2 + (rad2 p * B) ^ 2 := by rw [k1, k2]
            _ = _ := by ring
        rw [c1, ← rad2_sq] at q1
        rw [q1]; ring
      have q2 := mul_right_cancel₀ (by positivity : rad2 p ^ 2 ≠ 0) q
      rw [sq_eq_sq₀ hs0 (by positivity)] at q2
      exact q2
    rw [hs2] at k1 k2
    have a1 : A = 2 * p.1 := mul_left_cancel₀ hr.ne' (by linarith)
    have a2 : B = 2 * p.2 := mul_left_cancel₀ hr.ne' (by linarith)
    rw [a1, a2]
  · have hp := rad2_sq p
    rw [← hr] at hp
    have p1 : p.1 = 0 := by nlinarith [sq_nonneg p.1, sq_nonneg p.2]
    have p2 : p.2 = 0 := by nlinarith [sq_nonneg p.1, sq_nonneg p.2]
    rw [p1, p2] at c1 ⊢
    have a1 : (Geo.xyz2xy ⟨0, 1, 2⟩ false (polar2view p)).1 = 0 := by
      nlinarith [sq_nonneg (Geo.xyz2xy ⟨0, 1, 2⟩ false (polar2view p)).1,
        sq_nonneg (Geo.xyz2xy ⟨0, 1, 2⟩ false (polar2view p)).2]
    have a2 : (Geo.xyz2xy ⟨0, 1, 2⟩ false (polar2view p)).2 = 0 := by
      nlinarith [sq_nonneg (Geo.xyz2xy ⟨0, 1, 2⟩ false (polar2view p)).1,
        sq_nonneg (Geo.xyz2xy ⟨0, 1, 2⟩ false (polar2view p)).2]
    rw [a1, a2]; simp

theorem centred_rad (m : View) (h : 0 ≤ m.va * m.cf) (q : ℝ × ℝ) :
    rad2 (m.centred q) = m.va * m.cf / 180 * rad2 (q.1 - 1 / 2, q.2 - 1 / 2) := by
  unfold View.centred
  have : ∀ k a b : ℝ, 0 ≤ k → rad2 (a * (-k), b * k) = k * rad2 (a, b) := by
    intro k a b hk
    unfold rad2
    simp only
    rw [show (a * -k) ^ 2 + (b * k) ^ 2 = k ^ 2 * (a ^ 2 + b ^ 2) by ring, sqrt_mul (sq_nonneg k), sqrt_sq hk]
  rw [← this _ _ _ (by positivity)]
  congr 2 <;> ring

theorem rad2_square (q : ℝ × ℝ) (h1 : 0 ≤ q.1) (h2 : q.1 ≤ 1) (h3 : 0 ≤ q.2) (h4 : q.2 ≤ 1) :
    rad2 (q.1 - 1 / 2, q.2 - 1 / 2) < 1 := by
  have := rad2_sq (q.1 - 1 / 2, q.2 - 1 / 2)
  have hn := rad2_nonneg (q.1 - 1 / 2, q.2 - 1 / 2)
  simp only at this
  nlinarith

theorem vxy_round (m : View) (d : V3) (hw : ∀ p, m.w2v (m.v2w p) = p) (h0 : 0 < m.va * m.cf)
    (q : ℝ × ℝ) (hq : m.va * m.cf / 180 * rad2 (q.1 - 1 / 2, q.2 - 1 / 2) < 1) :
    m.xyz2vxy1 (m.vxy2xyz q) = q := by
  unfold View.xyz2vxy1 View.vxy2xyz View.vxy2xyzM
  simp only
  rw [hw, xyz2xy_polar _ (by rw [centred_rad m h0.le]; exact hq)]
  unfold View.centred
  have := h0.ne'
  generalize m.va * m.cf = k at *
  apply Prod.ext <;> simp only
  · field_simp; ring
  · field_simp; ring

theorem va_cf_pos {va : ℝ} (h0 : 0 < va) (h1 : va ≤ 180) :
    0 < va * chordFactor va ∧ va * chordFactor va / 180 ≤ 1 := by
  obtain ⟨_, b, _, e⟩ := cf_bounds h0 h1
  refine ⟨by positivity, ?_⟩
  rw [div_le_one (by norm_num)]
  nlinarith

/-- **C52** image space to world and back is the identity on the whole closed unit square (hence also outside the
image circle), and the rays are unit vectors: every direction, every view angle up to 180. -/
theorem C52_vxy_round_trip (d : V3) (hd : d ≠ V3.zero) (va : ℝ) (h0 : 0 < va) (h1 : va ≤ 180) (q : ℝ × ℝ)
    (hx0 : 0 ≤ q.1) (hx1 : q.1 ≤ 1) (hy0 : 0 ≤ q.2) (hy1 : q.2 ≤ 1) :
    (View.new d va).xyz2vxy ((View.new d va).vxy2xyz q) = q ∧ ((View.new d va).vxy2xyz q).normSq = 1 := by
  obtain ⟨_, _, e1, e2, e3⟩ := new_sf (d := d) (va := va) (by linarith)
  obtain ⟨a, b⟩ := va_cf_pos h0 h1
  constructor
  · unfold View.xyz2vxy
    rw [e2]
    simp only [Bool.false_eq_true, if_false]
    apply vxy_round _ d (fun p => (C50_isometry d hd va p p).2.1)
    · rw [e1, e3]; exact a
    · rw [e1, e3]
      have := rad2_square q hx0 hx1 hy0 hy1
      nlinarith [rad2_nonneg (q.1 - 1 / 2, q.2 - 1 / 2)]
  · unfold View.vxy2xyz View.vxy2xyzM
    simp only
    rw [new_v2w hd, bwd_normSq, polar2view_unit]

/-- **C52** the ray of every pixel centre is a unit vector and `ray2pixel` returns that pixel. -/
theorem C52_pixel_round_trip (d : V3) (hd : d ≠ V3.zero) (va : ℝ) (h0 : 0 < va) (h1 : va ≤ 180) (res i j : ℕ)
    (hi : i < res) (hj : j < res) :
    (View.new d va).ray2pixel res ((View.new d va).pixel2ray res (pixelCentre i j)) = ((i : ℤ), (j : ℤ)) ∧
    ((View.new d va).pixel2ray res (pixelCentre i j)).normSq = 1 := by
  have hr : (0 : ℝ) < res := by have : 0 < res := by omega
                                positivity
  have hi1 : ((i : ℝ) + 1) ≤ res := by exact_mod_cast hi
  have hj1 : ((j : ℝ) + 1) ≤ res := by exact_mod_cast hj
  unfold View.ray2pixel View.pixel2ray pixelCentre
  simp only
  obtain ⟨a, b⟩ := C52_vxy_round_trip d hd va h0 h1 (((i : ℝ) + 1 / 2) / res, ((j : ℝ) + 1 / 2) / res)
    (by positivity) (by simp only; rw [div_le_one hr]; linarith) (by positivity)
    (by simp only; rw [div_le_one hr]; linarith)
  refine ⟨?_, b⟩
  rw [a]
  apply Prod.ext <;> simp only
  · exact floor_half i _ _ (by push_cast; field_simp) rfl
  · exact floor_half j _ _ (by push_cast; field_simp) rfl

example : (⟨1, 2, -3⟩ : V3) ≠ V3.zero ∧ (0 : ℝ) < 90 ∧ (90 : ℝ) ≤ 180 ∧ 3 < 4 := by
  refine ⟨by simp [V3.zero], by norm_num, by norm_num, by norm_num⟩

/-! ### C53 -/

theorem radians_polar (d : V3) (h : Clear d) (va : ℝ) (p : ℝ × ℝ) (hp : rad2 p ≤ 1) :
    (View.new d va).radians ((View.new d va).v2w (polar2view p)) = π * rad2 p := by
  have hpi := pi_pos
  have hlook := C50_look_partial d h va
  unfold View.radians Geo.radians ctheta
  have : (View.new d va).dxyz.dot ((View.new d va).v2w (polar2view p)) = cos (π * rad2 p) := by
    rw [← hlook.2.1, (C50_isometry d h.1 va _ _).2.2.2]
    unfold V3.dot polar2view; simp
  rw [this, clip1_eq (neg_one_le_cos _) (cos_le_one _),
    arccos_cos (by have := rad2_nonneg p; positivity) (by nlinarith)]

/-- what C53 asks of the image circle -/
def C53_statement : Prop :=
  ∀ d : V3, d ≠ V3.zero → ∀ va : ℝ, 0 < va → va ≤ 180 → ∀ q : ℝ × ℝ, 0 ≤ q.1 → q.1 ≤ 1 → 0 ≤ q.2 → q.2 ≤ 1 →
    ((View.new d va).inView 0 ((View.new d va).vxy2xyz q) ↔ (q.1 - 1 / 2) ^ 2 + (q.2 - 1 / 2) ^ 2 < (1 / 2) ^ 2)

theorem rad2_lt_half (q : ℝ × ℝ) :
    rad2 (q.1 - 1 / 2, q.2 - 1 / 2) < 1 / 2 ↔ (q.1 - 1 / 2) ^ 2 + (q.2 - 1 / 2) ^ 2 < (1 / 2) ^ 2 := by
  have h1 := rad2_sq (q.1 - 1 / 2, q.2 - 1 / 2)
  have h2 := rad2_nonneg (q.1 - 1 / 2, q.2 - 1 / 2)
  simp only at h1
  rw [← h1]
  constructor
  · intro h; nlinarith
  · intro h; nlinarith

/-- **C53** equiangular law: the angle from the view direction is proportional to the image distance from the
centre. -/
theorem C53_equiangular_partial (d : V3) (h : Clear d) (va : ℝ) (h0 : 0 < va) (h1 : va ≤ 180) (q : ℝ × ℝ)
    (hx0 : 0 ≤ q.1) (hx1 : q.1 ≤ 1) (hy0 : 0 ≤ q.2) (hy1 : q.2 ≤ 1) :
    (View.new d va).radians ((View.new d va).vxy2xyz q)
      = √((q.1 - 1 / 2) ^ 2 + (q.2 - 1 / 2) ^ 2) * (chordFactor va * va * π / 180) := by
  obtain ⟨_, _, e1, e2, e3⟩ := new_sf (d := d) (va := va) (by linarith)
  obtain ⟨a, b⟩ := va_cf_pos h0 h1
  have hc : rad2 ((View.new d va).centred q) = va * chordFactor va / 180 * rad2 (q.1 - 1 / 2, q.2 - 1 / 2) := by
    rw [centred_rad _ (by rw [e1, e3]; exact a.le), e1, e3]
  unfold View.vxy2xyz View.vxy2xyzM
  simp only
  rw [radians_polar d h va, hc]
  · unfold rad2; simp only; ring
  · rw [hc]
    have := rad2_square q hx0 hx1 hy0 hy1
    nlinarith [rad2_nonneg (q.1 - 1 / 2, q.2 - 1 / 2)]

/-- **C53** a pixel's ray is in view exactly when the pixel centre is strictly inside the inscribed circle.
Missing for the full claim: the vertical caps of C50 (`C53_refuted`). -/
theorem C53_circle_partial (d : V3) (h : Clear d) (va : ℝ) (h0 : 0 < va) (h1 : va ≤ 180) (q : ℝ × ℝ)
    (hx0 : 0 ≤ q.1) (hx1 : q.1 ≤ 1) (hy0 : 0 ≤ q.2) (hy1 : q.2 ≤ 1) :
    (View.new d va).inView 0 ((View.new d va).vxy2xyz q) ↔
      (q.1 - 1 / 2) ^ 2 + (q.2 - 1 / 2) ^ 2 < (1 / 2) ^ 2 := by
  obtain ⟨_, _, e1, e2, e3⟩ := new_sf (d := d) (va := va) (by linarith)
  obtain ⟨a, b⟩ := va_cf_pos h0 h1
  rw [← rad2_lt_half]
  unfold View.inView
  rw [C53_equiangular_partial d h va h0 h1 q hx0 hx1 hy0 hy1, e1, e3, sub_zero]
  have hpi := pi_pos
  show rad2 (q.1 - 1 / 2, q.2 - 1 / 2) * (chordFactor va * va * π / 180) < _ ↔ _
  have hk : 0 < chordFactor va * va * π / 180 := by rw [mul_comm (chordFactor va)]; positivity
  rw [show chordFactor va * va * π / 360 = 1 / 2 * (chordFactor va * va * π / 180) by ring]
  exact mul_lt_mul_iff_left₀ hk

/-- **C53** in the other direction: the image distance of any direction is its angle from the view direction. -/
theorem C53_image_radius_partial (d : V3) (h : Clear d) (va : ℝ) (h0 : 0 < va) (h1 : va ≤ 180) (p : V3)
    (hp : p.normSq = 1) :
    (((View.new d va).xyz2vxy p).1 - 1 / 2) ^ 2 + (((View.new d va).xyz2vxy p).2 - 1 / 2) ^ 2
      = ((View.new d va).radians p / (chordFactor va * va * π / 180)) ^ 2 := by
  obtain ⟨_, _, e1, e2, e3⟩ := new_sf (d := d) (va := va) (by linarith)
  obtain ⟨a, b⟩ := va_cf_pos h0 h1
  have hpi := pi_pos
  have hlook := C50_look_partial d h va
  have hw : ((View.new d va).w2v p).normSq = 1 := by rw [new_w2v h.1, fwd_normSq, hp]
  obtain ⟨c1, _, c3⟩ := C85_fisheye Axes.std Axes.std_ok _ hw
  have hang : (View.new d va).radians p = arccos ((View.new d va).w2v p).z := by
    unfold View.radians Geo.radians
    rw [ctheta_unit hlook.2.2 hp]
    congr 1
    rw [← (C50_isometry d h.1 va _ _).2.2.1, hlook.1]
    unfold V3.dot; simp
  unfold View.xyz2vxy View.xyz2vxy1
  rw [e2]
  simp only [Bool.false_eq_true, if_false]
  rw [c3, e1, e3, hang]
  simp only [Axes.std, V3.get] at c1 ⊢
  have hk := a.ne'
  have h2 : chordFactor va * va * π / 180 = va * chordFactor va * π / 180 := by ring
  rw [h2]
  generalize (Geo.xyz2xy ⟨0, 1, 2⟩ false ((View.new d va).w2v p)).1 = A at *
  generalize (Geo.xyz2xy ⟨0, 1, 2⟩ false ((View.new d va).w2v p)).2 = B at *
  generalize va * chordFactor va = k at *
  have c1' : A ^ 2 + B ^ 2 = (2 * arccos ((View.new d va).w2v p).z / π) ^ 2 := by
    rw [c1]; congr 1; field_simp
  calc (-A * 180 / k / 2 + 1 / 2 - 1 / 2) ^ 2 + (B * 180 / k / 2 + 1 / 2 - 1 / 2) ^ 2
      = (A ^ 2 + B ^ 2) * (90 / k) ^ 2 := by ring
    _ = _ := by rw [c1', ← mul_pow]; congr 1; field_simp; ring

/-- the direction used in `C36_refuted` -/
noncomputable def tilted : V3 := ⟨2e-9 / (1 + 1e-18), 0, (1 - 1e-18) / (1 + 1e-18)⟩

theorem tilted_unit : tilted.normSq = 1 := by unfold tilted V3.normSq; norm_num

theorem tilted_ne : tilted ≠ V3.zero := by
  intro h0
  have := tilted_unit
  rw [h0] at this; norm_num [V3.normSq, V3.zero] at this

theorem tilted_bwd (p : V3) : bwd tilted p = p := by
  have hu : allClose tilted ⟨0, 0, 1⟩ := by
    unfold allClose isclose tilted
    refine ⟨?_, ?_, ?_⟩ <;> simp only <;> rw [abs_le] <;> norm_num
  have hd : ¬ allClose tilted ⟨0, 0, -1⟩ := by
    unfold allClose isclose tilted
    rintro ⟨_, _, h⟩
    simp only at h
    rw [abs_le] at h
    norm_num at h
  unfold bwd ymtx pmtx
  rw [norm_of_unit tilted_unit]
  rw [if_neg hd, if_neg hd, if_pos hu, if_pos hu]
  unfold M3.app
  apply V3.ext <;> simp

theorem C53_refuted : ¬ C53_statement := by
  intro h
  have h1 := (h tilted tilted_ne 180 (by norm_num) (by norm_num) (0, 1 / 2) (by norm_num) (by norm_num)
    (by norm_num) (by norm_num)).mp
  obtain ⟨_, _, e1, e2, e3⟩ := new_sf (d := tilted) (va := 180) (by norm_num)
  have hpi := pi_pos
  have hray : (View.new tilted 180).vxy2xyz (0, 1 / 2) = ⟨1, 0, 0⟩ := by
    unfold View.vxy2xyz View.vxy2xyzM
    simp only
    rw [new_v2w tilted_ne, tilted_bwd]
    have hc : (View.new tilted 180).centred (0, 1 / 2) = (1 / 2, 0) := by
      unfold View.centred
      rw [e1, e3, cf_180]; norm_num
    have hr : rad2 (1 / 2, 0) = 1 / 2 := by
      unfold rad2
      simp only
      rw [show ((1 : ℝ) / 2) ^ 2 + 0 ^ 2 = (1 / 2) ^ 2 by norm_num, sqrt_sq (by norm_num)]
    have hf : polFactor (1 / 2) = 2 := by
      unfold polFactor
      rw [if_neg (by norm_num), show π * (1 / 2) = π / 2 by ring, cos_pi_div_two]
      norm_num
    rw [hc]
    unfold polar2view
    rw [hr, hf]
    simp only
    rw [show π * (1 / 2) = π / 2 by ring, cos_pi_div_two]
    norm_num
  have hin : (View.new tilted 180).inView 0 ((View.new tilted 180).vxy2xyz (0, 1 / 2)) := by
    rw [hray]
    unfold View.inView View.radians Geo.radians
    rw [e1, e3, cf_180, sub_zero, show (1 : ℝ) * 180 * π / 360 = π / 2 by ring, arccos_lt_pi_div_two]
    have hdx : (View.new tilted 180).dxyz = tilted := by
      show norm1 tilted = tilted
      rw [norm1_norm tilted_ne, norm_of_unit tilted_unit]
    rw [hdx]
    unfold ctheta
    rw [clip1_eq] <;> · unfold tilted V3.dot; norm_num
  have := h1 hin
  norm_num at this

/-! ### C86 -/

/-- what a user expects of a view angle: exactly the directions within half of it are in view -/
def C86_statement : Prop :=
  ∀ d : V3, d ≠ V3.zero → ∀ va : ℝ, 0 < va → va ≤ 180 → ∀ p : V3, p.normSq = 1 →
    ((View.new d va).inView 0 p ↔ (View.new d va).radians p < va * π / 360)

/-- **C86** for views below 180 degrees the field of view is smaller than requested: it is the angle times a
factor in `[2√2/π, 1)`; at 180 degrees the factor is one. Missing for the full claim: `C86_refuted`. -/
theorem C86_effective_angle_partial (d : V3) (va : ℝ) (h0 : 0 < va) (h1 : va ≤ 180) (p : V3) :
    ((View.new d va).inView 0 p ↔ (View.new d va).radians p < chordFactor va * (va * π / 360)) ∧
    2 * √2 / π ≤ chordFactor va ∧ (va < 180 → chordFactor va < 1) ∧ (va = 180 → chordFactor va = 1) ∧
    ((View.new d va).inView 0 p → (View.new d va).radians p < va * π / 360) := by
  obtain ⟨_, _, e1, e2, e3⟩ := new_sf (d := d) (va := va) (by linarith)
  obtain ⟨a, b, c, _⟩ := cf_bounds h0 h1
  have key : ((View.new d va).inView 0 p ↔ (View.new d va).radians p < chordFactor va * (va * π / 360)) := by
    unfold View.inView
    rw [e1, e3, sub_zero, show chordFactor va * va * π / 360 = chordFactor va * (va * π / 360) by ring]
  refine ⟨key, a, c, fun h => by rw [h]; exact cf_180, fun h => ?_⟩
  rw [key] at h
  have : 0 < va * π / 360 := (half_angle h0 h1).1
  nlinarith

theorem C86_refuted : ¬ C86_statement := by
  intro h
  have hpi := pi_pos
  have hz : Geo.norm ⟨0, 0, 1⟩ = ⟨0, 0, 1⟩ := norm_of_unit (by norm_num [V3.normSq])
  have hz0 : (⟨0, 0, 1⟩ : V3) ≠ V3.zero := by simp [V3.zero]
  have hs2 : √2 < 3 / 2 := by rw [sqrt_lt' (by norm_num)]; norm_num
  have hs0 : 0 < √2 := by positivity
  set t : ℝ := 2 * √2 / 3 * (π / 3) with ht
  have ht0 : 0 ≤ t := by positivity
  have ht1 : t < π / 3 := by nlinarith
  have hu : (⟨sin t, 0, cos t⟩ : V3).normSq = 1 := by
    unfold V3.normSq; simp only; nlinarith [sin_sq_add_cos_sq t]
  have hr : (View.new ⟨0, 0, 1⟩ 120).radians ⟨sin t, 0, cos t⟩ = t := by
    unfold View.radians Geo.radians ctheta
    have hdx : (View.new ⟨0, 0, 1⟩ 120).dxyz = ⟨0, 0, 1⟩ := by
      show norm1 _ = _
      rw [norm1_norm hz0, hz]
    rw [hdx]
    have : (⟨0, 0, 1⟩ : V3).dot ⟨sin t, 0, cos t⟩ = cos t := by unfold V3.dot; simp
    rw [this, clip1_eq (neg_one_le_cos _) (cos_le_one _), arccos_cos ht0 (by linarith)]
  have h1 := (h ⟨0, 0, 1⟩ hz0 120 (by norm_num) (by norm_num) ⟨sin t, 0, cos t⟩ hu).mpr
    (by rw [hr]; linarith)
  rw [(C86_effective_angle_partial _ 120 (by norm_num) (by norm_num) _).1, hr, cf_120] at h1
  rw [show (120 : ℝ) * π / 360 = π / 3 by ring, ← ht] at h1
  exact lt_irrefl _ h1

/-! ### C54 -/

theorem ivm_eq {d : V3} (hd : d ≠ V3.zero) (va : ℝ) : (View.new d va).ivm = View.new d.neg 180 := by
  have hneg := neg_ne_zero hd
  have e : norm1 (norm1 d).neg = norm1 d.neg := by
    have h1 : (norm d).neg ≠ V3.zero := neg_ne_zero (norm_ne_zero hd)
    rw [norm1_norm hd, norm1_norm h1, norm1_norm hneg, neg_norm, neg_norm, (C20_norm_idem d hd).1]
  show View.new (norm1 d).neg 180 = _
  unfold View.new
  rw [e]

/-- the equiangular transform of a 360 degree view is that of the 180 degree view -/
theorem vxy2xyz_360 (d : V3) (q : ℝ × ℝ) : (View.new d 360).vxy2xyz q = (View.new d 180).vxy2xyz q := by
  obtain ⟨_, _, a1, a2, a3⟩ := new_sf (d := d) (va := 180) (by norm_num)
  obtain ⟨_, _, b1, b2, b3⟩ := new_sf360 (d := d)
  have hc : (View.new d 360).centred q = (View.new d 180).centred q := by
    unfold View.centred; rw [a1, a3, b1, b3]
  unfold View.vxy2xyz View.vxy2xyzM
  simp only
  rw [hc]
  rfl

/-- **C54** the pixel rays of a 360 degree view: first the 180 degree view along the direction, then the 180 degree
view of the opposite direction. -/
theorem C54_halves (d : V3) (hd : d ≠ V3.zero) (res : ℕ) :
    (View.new d 360).pixelrays res = (View.new d 180).pixelrays res ++ (View.new d.neg 180).pixelrays res := by
  obtain ⟨_, _, _, a2, _⟩ := new_sf (d := d) (va := 180) (by norm_num)
  obtain ⟨_, _, _, c2, _⟩ := new_sf (d := d.neg) (va := 180) (by norm_num)
  obtain ⟨_, _, _, b2, _⟩ := new_sf360 (d := d)
  unfold View.pixelrays
  rw [a2, b2, c2, ivm_eq hd]
  simp only [if_true, Bool.false_eq_true, if_false]
  congr 1
  unfold View.pixelrays1 View.pixel2ray
  simp only [vxy2xyz_360]

/-- **C54** row `i`, column `j` of the pixel rays is the ray through the centre of pixel `(i, j)`; the rows of the second half
are those of the opposite view -/
theorem C54_pixelrays (d : V3) (hd : d ≠ V3.zero) (res i j : ℕ) (hi : i < res) (hj : j < res) :
    ((View.new d 180).pixelrays res)[i]?.bind (·[j]?) = some ((View.new d 180).pixel2ray res (pixelCentre i j)) ∧
    ((View.new d 360).pixelrays res)[i]?.bind (·[j]?) = some ((View.new d 180).pixel2ray res (pixelCentre i j)) ∧
    ((View.new d 360).pixelrays res)[res + i]?.bind (·[j]?) = some ((View.new d.neg 180).pixel2ray res (pixelCentre i j)) := by
  have one : ∀ e : V3, ((View.new e 180).pixelrays res).length = res ∧
      ((View.new e 180).pixelrays res)[i]?.bind (·[j]?) = some ((View.new e 180).pixel2ray res (pixelCentre i j)) := by
    intro e
    obtain ⟨_, _, _, a2, _⟩ := new_sf (d := e) (va := 180) (by norm_num)
    unfold View.pixelrays View.pixelrays1
    rw [a2]
    simp [hi, hj]
  obtain ⟨l1, e1⟩ := one d
  obtain ⟨_, e2⟩ := one d.neg
  refine ⟨e1, ?_, ?_⟩
  · rw [C54_halves d hd, List.getElem?_append_left (by omega)]; exact e1
  · rw [C54_halves d hd, List.getElem?_append_right (by omega), l1, Nat.add_sub_cancel_left]; exact e2

theorem inView_360 (d : V3) (p : V3) : (View.new d 360).inView 0 p ↔ (View.new d 180).inView 0 p := by
  obtain ⟨_, _, a1, a2, a3⟩ := new_sf (d := d) (va := 180) (by norm_num)
  obtain ⟨_, _, b1, b2, b3⟩ := new_sf360 (d := d)
  unfold View.inView View.radians
  rw [a1, a3, b1, b3]
  rfl

theorem xyz2vxyA_360 (d : V3) (p : V3) : (View.new d 360).xyz2vxyA p = (View.new d 180).xyz2vxy1 p := by
  obtain ⟨_, _, a1, a2, a3⟩ := new_sf (d := d) (va := 180) (by norm_num)
  obtain ⟨_, _, b1, b2, b3⟩ := new_sf360 (d := d)
  have hw : (View.new d 360).w2v p = (View.new d 180).w2v p := rfl
  unfold View.xyz2vxyA View.xyz2vxy1
  rw [a1, a3, b3, hw, cf_180]
  apply Prod.ext <;> simp only <;> ring

theorem xyz2vxy1_180 (d : V3) (p : V3) : (View.new d 180).xyz2vxy p = (View.new d 180).xyz2vxy1 p := by
  obtain ⟨_, _, a1, a2, a3⟩ := new_sf (d := d) (va := 180) (by norm_num)
  unfold View.xyz2vxy; rw [a2]; simp

open Classical in
theorem xyz2vxy_360 (d : V3) (hd : d ≠ V3.zero) (p : V3) :
    (View.new d 360).xyz2vxy p = if (View.new d 180).inView 0 p then (View.new d 180).xyz2vxy p
      else (((View.new d.neg 180).xyz2vxy p).1 + 1, ((View.new d.neg 180).xyz2vxy p).2) := by
  obtain ⟨_, _, _, b2, _⟩ := new_sf360 (d := d)
  rw [xyz2vxy1_180, xyz2vxy1_180]
  conv_lhs => unfold View.xyz2vxy
  rw [b2, ivm_eq hd, xyz2vxyA_360]
  simp only [if_true, inView_360]

theorem inView_180 (d : V3) (p : V3) : (View.new d 180).inView 0 p ↔ 0 < (View.new d 180).dxyz.dot p := by
  obtain ⟨_, _, a1, a2, a3⟩ := new_sf (d := d) (va := 180) (by norm_num)
  unfold View.inView View.radians Geo.radians
  rw [a1, a3, cf_180, sub_zero, show (1 : ℝ) * 180 * π / 360 = π / 2 by ring, arccos_lt_pi_div_two]
  unfold ctheta clip1
  constructor
  · intro h
    have h1 := lt_of_lt_of_le h (min_le_left _ _)
    rcases lt_max_iff.mp h1 with h2 | h2
    · exact h2
    · norm_num at h2
  · intro h
    exact lt_min (lt_max_of_lt_left h) one_pos

theorem dxyz_neg (d : V3) (hd : d ≠ V3.zero) (p : V3) :
    (View.new d.neg 180).dxyz.dot p = -(View.new d 180).dxyz.dot p := by
  show (norm1 d.neg).dot p = -(norm1 d).dot p
  rw [norm1_norm hd, norm1_norm (neg_ne_zero hd), neg_norm]
  unfold V3.dot V3.neg; ring

/-- **C54** every in-circle point of the first half maps back to itself, every in-circle point of the second half
to itself shifted by one. Missing for the full claim: the vertical caps of C50. -/
theorem C54_round_trip_partial (d : V3) (h : Clear d) (q : ℝ × ℝ)
    (hq : (q.1 - 1 / 2) ^ 2 + (q.2 - 1 / 2) ^ 2 < (1 / 2) ^ 2) :
    (View.new d 360).xyz2vxy ((View.new d 360).vxy2xyz q) = q ∧
    (View.new d 360).xyz2vxy ((View.new d 360).ivm.vxy2xyz q) = (q.1 + 1, q.2) := by
  have hx0 : 0 ≤ q.1 := by nlinarith [sq_nonneg (q.2 - 1 / 2)]
  have hx1 : q.1 ≤ 1 := by nlinarith [sq_nonneg (q.2 - 1 / 2)]
  have hy0 : 0 ≤ q.2 := by nlinarith [sq_nonneg (q.1 - 1 / 2)]
  have hy1 : q.2 ≤ 1 := by nlinarith [sq_nonneg (q.1 - 1 / 2)]
  constructor
  · rw [xyz2vxy_360 d h.1, vxy2xyz_360, if_pos]
    · exact (C52_vxy_round_trip d h.1 180 (by norm_num) (by norm_num) q hx0 hx1 hy0 hy1).1
    · rw [C53_circle_partial d h 180 (by norm_num) (by norm_num) q hx0 hx1 hy0 hy1]; exact hq
  · have hin := (C53_circle_partial d.neg h.neg 180 (by norm_num) (by norm_num) q hx0 hx1 hy0 hy1).mpr hq
    rw [ivm_eq h.1, xyz2vxy_360 d h.1, if_neg]
    · rw [(C52_vxy_round_trip d.neg h.neg.1 180 (by norm_num) (by norm_num) q hx0 hx1 hy0 hy1).1]
    · rw [inView_180] at hin ⊢
      rw [dxyz_neg d h.1] at hin
      linarith

/-- **C54** every in-circle pixel of either half of the image maps back to itself. -/
theorem C54_pixels_partial (d : V3) (h : Clear d) (res i j : ℕ) (hi : i < res) (hj : j < res)
    (hq : (((i : ℝ) + 1 / 2) / res - 1 / 2) ^ 2 + (((j : ℝ) + 1 / 2) / res - 1 / 2) ^ 2 < (1 / 2) ^ 2) :
    (View.new d 360).ray2pixel res ((View.new d 360).pixel2ray res (pixelCentre i j)) = ((i : ℤ), (j : ℤ)) ∧
    (View.new d 360).ray2pixel res ((View.new d 360).ivm.pixel2ray res (pixelCentre i j))
      = ((i : ℤ) + res, (j : ℤ)) := by
  have hr : (0 : ℝ) < res := by have : 0 < res := by omega
                                positivity
  obtain ⟨a, b⟩ := C54_round_trip_partial d h (((i : ℝ) + 1 / 2) / res, ((j : ℝ) + 1 / 2) / res) hq
  unfold View.ray2pixel View.pixel2ray pixelCentre
  simp only
  rw [a, b]
  constructor <;> apply Prod.ext <;> simp only
  · exact floor_half i _ _ (by push_cast; field_simp) rfl
  · exact floor_half j _ _ (by push_cast; field_simp) rfl
  · exact floor_half (i + res) _ _ (by push_cast; field_simp; ring) rfl
  · exact floor_half j _ _ (by push_cast; field_simp) rfl

theorem image_disk (d : V3) (h : Clear d) (p : V3) (hp : p.normSq = 1) (hpos : 0 < (View.new d 180).dxyz.dot p) :
    (((View.new d 180).xyz2vxy p).1 - 1 / 2) ^ 2 + (((View.new d 180).xyz2vxy p).2 - 1 / 2) ^ 2 < (1 / 2) ^ 2 := by
  rw [C53_image_radius_partial d h 180 (by norm_num) (by norm_num) p hp]
  have hin := (inView_180 d p).mpr hpos
  rw [(C86_effective_angle_partial d 180 (by norm_num) (by norm_num) p).1, cf_180] at hin
  have h0 : 0 ≤ (View.new d 180).radians p := arccos_nonneg _
  rw [cf_180]
  have hpi := pi_pos
  have : (View.new d 180).radians p / (1 * 180 * π / 180) < 1 / 2 := by
    rw [div_lt_iff₀ (by positivity)]; linarith
  have h2 : 0 ≤ (View.new d 180).radians p / (1 * 180 * π / 180) := by positivity
  nlinarith

/-- **C54** every direction off the equator is drawn strictly inside exactly one of the two image circles: the first
when it is on the side of the view direction, the second when it is on the other. -/
theorem C54_one_half_partial (d : V3) (h : Clear d) (p : V3) (hp : p.normSq = 1) :
    (0 < (norm d).dot p → (((View.new d 360).xyz2vxy p).1 - 1 / 2) ^ 2
      + (((View.new d 360).xyz2vxy p).2 - 1 / 2) ^ 2 < (1 / 2) ^ 2) ∧
    ((norm d).dot p < 0 → (((View.new d 360).xyz2vxy p).1 - 3 / 2) ^ 2
      + (((View.new d 360).xyz2vxy p).2 - 1 / 2) ^ 2 < (1 / 2) ^ 2) := by
  have e : (norm d).dot p = (View.new d 180).dxyz.dot p := by
    show _ = (norm1 d).dot p
    rw [norm1_norm h.1]
  rw [e]
  constructor
  · intro hpos
    rw [xyz2vxy_360 d h.1, if_pos ((inView_180 d p).mpr hpos)]
    exact image_disk d h p hp hpos
  · intro hneg
    rw [xyz2vxy_360 d h.1, if_neg (by rw [inView_180]; linarith)]
    have := image_disk d.neg h.neg p hp (by rw [dxyz_neg d h.1]; linarith)
    simp only
    rw [show (((View.new d.neg 180).xyz2vxy p).1 + 1 - 3 / 2) = ((View.new d.neg 180).xyz2vxy p).1 - 1 / 2 by ring]
    exact this

example : ((1 : ℝ) / 4 - 1 / 2) ^ 2 + ((1 : ℝ) / 2 - 1 / 2) ^ 2 < (1 / 2) ^ 2 := by norm_num

/-! ### C55, angular mappers -/

theorem degrees_gt (m : View) (p : V3) : m.degrees p > 90 ↔ m.dxyz.dot p < 0 := by
  have hpi := pi_pos
  unfold View.degrees View.radians Geo.radians
  rw [gt_iff_lt, lt_div_iff₀ hpi, show 90 * π < arccos (ctheta m.dxyz p) * 180 ↔ π / 2 < arccos (ctheta m.dxyz p) by
    constructor <;> intro h <;> linarith, ← not_le, arccos_le_pi_div_two, not_le]
  unfold ctheta clip1
  constructor
  · intro h
    rcases min_lt_iff.mp h with h | h
    · exact (max_lt_iff.mp h).1
    · norm_num at h
  · intro h
    exact min_lt_of_left_lt (max_lt h (by norm_num))

/-- every pixel drawn is the `ray2pixel` of its ray, whichever half it falls in -/
theorem drawPixels_mem (d : V3) (hd : d ≠ V3.zero) (va : ℝ) (res : ℕ) (vs : List V3) (x : ℤ × ℤ) :
    x ∈ (View.new d va).drawPixels res vs ↔ ∃ v ∈ vs, (View.new d va).ray2pixel res v = x := by
  by_cases h : va = 360
  · subst h
    obtain ⟨_, _, _, b2, _⟩ := new_sf360 (d := d)
    have hrev : ∀ v, (View.new d 360).degrees v > 90 →
        (((View.new d 360).ivm.ray2pixel res v).1 + (res : ℤ), ((View.new d 360).ivm.ray2pixel res v).2)
          = (View.new d 360).ray2pixel res v := by
      intro v hv
      rw [degrees_gt] at hv
      unfold View.ray2pixel
      rw [xyz2vxy_360 d hd, if_neg (by rw [inView_180]; exact not_lt.mpr (le_of_lt hv)), ivm_eq hd]
      simp only
      apply Prod.ext
      · simp only
        rw [add_mul, one_mul, Int.floor_add_natCast]
      · rfl
    unfold View.drawPixels
    rw [b2]
    simp only [if_true, List.mem_append, List.mem_map, List.mem_filter, decide_eq_true_eq, Bool.not_eq_true',
      decide_eq_false_iff_not]
    constructor
    · rintro (⟨v, ⟨hv, hr⟩, he⟩ | ⟨v, ⟨hv, hr⟩, he⟩)
      · exact ⟨v, hv, by rw [← hrev v hr]; exact he⟩
      · exact ⟨v, hv, he⟩
    · rintro ⟨v, hv, he⟩
      by_cases hr : (View.new d 360).degrees v > 90
      · left; exact ⟨v, ⟨hv, hr⟩, by rw [hrev v hr]; exact he⟩
      · right; exact ⟨v, ⟨hv, hr⟩, he⟩
  · obtain ⟨_, _, _, b2, _⟩ := new_sf (d := d) h
    unfold View.drawPixels
    rw [b2]
    simp only [Bool.false_eq_true, if_false, List.mem_map]

/-- **C55** angular mapper, fisheye image: a pixel of the result is the channel value exactly when some ray falls
on it (and it is listed in the mask, when a mask is given); every other pixel and the shape are unchanged. -/
theorem C55_angular {α : Type} (d : V3) (hd : d ≠ V3.zero) (va : ℝ) (im : Img α) (vs : List V3)
    (mask : Option (List (ℤ × ℤ))) (c : α) (i j : ℕ) (hi : i < im.n) (hj : j < im.m) :
    ((View.new d va).addVecs im vs mask c).n = im.n ∧ ((View.new d va).addVecs im vs mask c).m = im.m ∧
    ((∃ v ∈ vs, (View.new d va).ray2pixel im.m v = ((i : ℤ), (j : ℤ))) →
      (∀ l, mask = some l → ((i : ℤ), (j : ℤ)) ∈ l) → ((View.new d va).addVecs im vs mask c).at_ i j = c) ∧
    ((∀ v ∈ vs, (View.new d va).ray2pixel im.m v ≠ ((i : ℤ), (j : ℤ))) ∨
      (∃ l, mask = some l ∧ ((i : ℤ), (j : ℤ)) ∉ l) →
      ((View.new d va).addVecs im vs mask c).at_ i j = im.at_ i j) := by
  have hb := (inBounds_iff im i j).mpr ⟨hi, hj⟩
  unfold View.addVecs
  obtain ⟨a, b, c1, c2⟩ := putAll_at (((View.new d va).drawPixels im.m vs).filter (drawMask im mask)) c im i j
  refine ⟨a, b, ?_, ?_⟩
  · intro h hm
    apply c1
    rw [List.mem_filter]
    refine ⟨(drawPixels_mem d hd va im.m vs _).mpr h, ?_⟩
    cases mask with
    | none => exact hb
    | some l => simp only [drawMask, decide_eq_true_eq]; exact hm l rfl
  · intro h
    apply c2
    rw [List.mem_filter]
    rintro ⟨h1, h2⟩
    rcases h with h | ⟨l, hl, hn⟩
    · obtain ⟨v, hv, he⟩ := (drawPixels_mem d hd va im.m vs _).mp h1
      exact h v hv he
    · subst hl
      simp only [drawMask, decide_eq_true_eq] at h2
      exact hn h2

/-- **C54**, the part of the claim about points of the image: every point inside the circle of either half maps back to itself, for
every direction. -/
def C54_statement : Prop :=
  ∀ (d : V3), d ≠ V3.zero → ∀ q : ℝ × ℝ, (q.1 - 1 / 2) ^ 2 + (q.2 - 1 / 2) ^ 2 < (1 / 2) ^ 2 →
    (View.new d 360).xyz2vxy ((View.new d 360).vxy2xyz q) = q ∧
    (View.new d 360).xyz2vxy ((View.new d 360).ivm.vxy2xyz q) = (q.1 + 1, q.2)

theorem disk_box (q : ℝ × ℝ) (hq : (q.1 - 1 / 2) ^ 2 + (q.2 - 1 / 2) ^ 2 < (1 / 2) ^ 2) :
    (0 ≤ q.1 ∧ q.1 ≤ 1) ∧ 0 ≤ q.2 ∧ q.2 ≤ 1 :=
  ⟨⟨by nlinarith [sq_nonneg (q.2 - 1 / 2)], by nlinarith [sq_nonneg (q.2 - 1 / 2)]⟩,
    by nlinarith [sq_nonneg (q.1 - 1 / 2)], by nlinarith [sq_nonneg (q.1 - 1 / 2)]⟩

/-- the ray of a point of the image, in view coordinates -/
theorem ray_view (d : V3) (hd : d ≠ V3.zero) (q : ℝ × ℝ) :
    (View.new d 180).vxy2xyz q = bwd d (polar2view (-(q.1 - 1 / 2), q.2 - 1 / 2)) := by
  obtain ⟨_, _, e1, e2, e3⟩ := new_sf (d := d) (va := 180) (by norm_num)
  unfold View.vxy2xyz View.vxy2xyzM
  simp only
  rw [new_v2w hd]
  congr 2
  unfold View.centred
  rw [e1, e3, cf_180]
  apply Prod.ext <;> simp only <;> ring

/-- how far the side a ray is on can be from the side of the image it comes from -/
theorem side_error (d : V3) (hd : d ≠ V3.zero) (u : V3) (hu : u.normSq = 1) : |(norm d).dot (bwd d u) - u.z| ≤ 6.5e-5 := by
  have h1 : (norm d).dot (bwd d u) = (fwd d (norm d)).dot u := by
    have := (C36_inverse d (norm d) (bwd d u)).2.2.1
    rw [(C36_inverse d u u).2.1] at this
    exact this.symm
  have h2 : (fwd d (norm d)).dot u - u.z = ((fwd d (norm d)).sub ⟨0, 0, 1⟩).dot u := by
    unfold V3.dot V3.sub; simp only; ring
  have h3 := C36_cap_error d hd
  rw [h1, h2]
  have h4 : (((fwd d (norm d)).sub ⟨0, 0, 1⟩).dot u) ^ 2 ≤ ((fwd d (norm d)).sub ⟨0, 0, 1⟩).normSq * u.normSq := by
    generalize (fwd d (norm d)).sub ⟨0, 0, 1⟩ = a
    unfold V3.dot V3.normSq
    nlinarith [sq_nonneg (a.x * u.y - a.y * u.x), sq_nonneg (a.x * u.z - a.z * u.x), sq_nonneg (a.y * u.z - a.z * u.y)]
  rw [hu, mul_one] at h4
  exact abs_le_of_sq_le_sq (h4.trans h3) (by norm_num)

/-- **C54** for every direction: points at least 3.3e-5 of the image inside the circle of either half map back to themselves. -/
theorem C54_any_direction (d : V3) (hd : d ≠ V3.zero) (q : ℝ × ℝ)
    (hq : (q.1 - 1 / 2) ^ 2 + (q.2 - 1 / 2) ^ 2 ≤ (1 / 2 - 3.3e-5) ^ 2) :
    (View.new d 360).xyz2vxy ((View.new d 360).vxy2xyz q) = q ∧
    (View.new d 360).xyz2vxy ((View.new d 360).ivm.vxy2xyz q) = (q.1 + 1, q.2) := by
  have hq' : (q.1 - 1 / 2) ^ 2 + (q.2 - 1 / 2) ^ 2 < (1 / 2) ^ 2 := by
    refine lt_of_le_of_lt hq (by norm_num)
  obtain ⟨⟨hx0, hx1⟩, hy0, hy1⟩ := disk_box q hq'
  have hside : ∀ e : V3, e ≠ V3.zero → 0 < (View.new e 180).dxyz.dot ((View.new e 180).vxy2xyz q) := by
    intro e he
    have h1 := side_error e he (polar2view (-(q.1 - 1 / 2), q.2 - 1 / 2)) (polar2view_unit _)
    rw [← ray_view e he] at h1
    have h2 : (View.new e 180).dxyz = norm e := norm1_norm he
    rw [h2]
    have h3 : 6.5e-5 < (polar2view (-(q.1 - 1 / 2), q.2 - 1 / 2)).z := by
      unfold polar2view
      simp only
      have hr : rad2 (-(q.1 - 1 / 2), q.2 - 1 / 2) ≤ 1 / 2 - 3.3e-5 := by
        unfold rad2
        simp only
        rw [neg_sq]
        exact (sqrt_le_sqrt hq).trans (by rw [sqrt_sq (by norm_num)])
      have hr0 : 0 ≤ rad2 (-(q.1 - 1 / 2), q.2 - 1 / 2) := sqrt_nonneg _
      generalize rad2 (-(q.1 - 1 / 2), q.2 - 1 / 2) = r at *
      have hpi := pi_pos
      rw [show π * r = π / 2 - π * (1 / 2 - r) by ring, cos_pi_div_two_sub]
      have := mul_le_sin (x := π * (1 / 2 - r)) (by nlinarith) (by nlinarith)
      have e : 2 / π * (π * (1 / 2 - r)) = 2 * (1 / 2 - r) := by field_simp
      rw [e] at this
      linarith
    have := (abs_le.mp h1).1
    linarith
  constructor
  · rw [xyz2vxy_360 d hd, vxy2xyz_360, if_pos ((inView_180 d _).mpr (hside d hd))]
    exact (C52_vxy_round_trip d hd 180 (by norm_num) (by norm_num) q hx0 hx1 hy0 hy1).1
  · have hin := hside d.neg (neg_ne_zero hd)
    rw [ivm_eq hd, xyz2vxy_360 d hd, if_neg]
    · rw [(C52_vxy_round_trip d.neg (neg_ne_zero hd) 180 (by norm_num) (by norm_num) q hx0 hx1 hy0 hy1).1]
    · rw [inView_180]
      rw [dxyz_neg d hd] at hin
      linarith

/-- a direction 2e-9 away from straight up, towards y -/
noncomputable def nodded : V3 := ⟨0, 2e-9 / (1 + 1e-18), (1 - 1e-18) / (1 + 1e-18)⟩

theorem nodded_unit : nodded.normSq = 1 ∧ nodded.neg.normSq = 1 := by
  unfold nodded V3.neg V3.normSq; norm_num

theorem nodded_ne : nodded ≠ V3.zero := by
  intro h0
  have := nodded_unit.1
  rw [h0] at this; norm_num [V3.normSq, V3.zero] at this

theorem nodded_bwd (p : V3) : bwd nodded p = p := by
  have hu : allClose nodded ⟨0, 0, 1⟩ := by
    unfold allClose isclose nodded
    refine ⟨?_, ?_, ?_⟩ <;> simp only <;> rw [abs_le] <;> norm_num
  have hd : ¬ allClose nodded ⟨0, 0, -1⟩ := by
    unfold allClose isclose nodded
    rintro ⟨_, _, h⟩
    simp only at h
    rw [abs_le] at h
    norm_num at h
  unfold bwd ymtx pmtx
  rw [norm_of_unit nodded_unit.1]
  rw [if_neg hd, if_neg hd, if_pos hu, if_pos hu]
  unfold M3.app
  apply V3.ext <;> simp

theorem nodded_back (p : V3) : (fwd nodded.neg p).x = -p.x := by
  have hd : allClose nodded.neg ⟨0, 0, -1⟩ := by
    unfold allClose isclose nodded V3.neg
    refine ⟨?_, ?_, ?_⟩ <;> simp only <;> rw [abs_le] <;> norm_num
  unfold fwd ymtx pmtx
  rw [norm_of_unit nodded_unit.2]
  rw [if_pos hd, if_pos hd]
  unfold M3.app
  simp

/-- The claim is false: a 360 degree view 2e-9 away from straight up draws some rays of its first half in the second. -/
theorem C54_refuted : ¬ C54_statement := by
  intro h
  have hpi := pi_pos
  have hX : 0 < nodded.y := by unfold nodded; norm_num
  have hZ : 0 < nodded.z := by unfold nodded; norm_num
  have hx : nodded.x = 0 := rfl
  have hXZ : nodded.y ^ 2 + nodded.z ^ 2 = 1 := by
    have := nodded_unit.1
    unfold V3.normSq at this
    rw [hx] at this
    linarith
  have hz1 : nodded.z < 1 := by nlinarith
  obtain ⟨s0, hs0⟩ : ∃ s0, s0 = arccos nodded.z := ⟨_, rfl⟩
  have hc : cos s0 = nodded.z := by rw [hs0, cos_arccos (by linarith) hz1.le]
  have hsn : sin s0 = nodded.y := by
    rw [hs0, sin_arccos, show 1 - nodded.z ^ 2 = nodded.y ^ 2 by linarith, sqrt_sq hX.le]
  have hpos : 0 < s0 := by rw [hs0]; exact arccos_pos.mpr hz1
  have hlt : s0 < π / 2 := by rw [hs0]; exact arccos_lt_pi_div_two.mpr hZ
  obtain ⟨r, hr⟩ : ∃ r, r = 1 / 2 - s0 / (2 * π) := ⟨_, rfl⟩
  have hpr : π * r = π / 2 - s0 / 2 := by rw [hr]; field_simp
  have hr0 : 0 < r := by
    rw [hr, sub_pos, div_lt_div_iff₀ (by positivity) (by norm_num)]
    linarith
  have hr1 : r < 1 / 2 := by
    have : 0 < s0 / (2 * π) := by positivity
    linarith
  have hs2 : 0 < sin (s0 / 2) := sin_pos_of_pos_of_lt_pi (by linarith) (by linarith)
  have hc2 : 0 < cos (s0 / 2) := cos_pos_of_mem_Ioo ⟨by linarith, by linarith⟩
  have hray : (View.new nodded 180).vxy2xyz (1 / 2, 1 / 2 - r) = ⟨0, -cos (s0 / 2), sin (s0 / 2)⟩ := by
    rw [ray_view _ nodded_ne, nodded_bwd]
    have hrad : rad2 (-((1 : ℝ) / 2 - 1 / 2), 1 / 2 - r - 1 / 2) = r := by
      unfold rad2
      simp only
      rw [show (-((1 : ℝ) / 2 - 1 / 2)) ^ 2 + (1 / 2 - r - 1 / 2) ^ 2 = r ^ 2 by ring, sqrt_sq hr0.le]
    have hf : polFactor r = cos (s0 / 2) / r := by
      unfold polFactor
      rw [if_neg (not_le.mpr hr0), hpr, cos_pi_div_two_sub]
      rw [show 1 - sin (s0 / 2) * sin (s0 / 2) = cos (s0 / 2) ^ 2 by nlinarith [sin_sq_add_cos_sq (s0 / 2)], sqrt_sq hc2.le]
    unfold polar2view
    rw [hrad, hf, hpr, cos_pi_div_two_sub]
    apply V3.ext <;> simp only
    · ring
    · field_simp
      ring
  have hdot : (View.new nodded 180).dxyz.dot ⟨0, -cos (s0 / 2), sin (s0 / 2)⟩ < 0 := by
    have hdx : (View.new nodded 180).dxyz = nodded := by
      show norm1 nodded = nodded
      rw [norm1_norm nodded_ne, norm_of_unit nodded_unit.1]
    rw [hdx]
    unfold V3.dot
    simp only
    have e := sin_sub (s0 / 2) s0
    rw [show s0 / 2 - s0 = -(s0 / 2) by ring, sin_neg, hc, hsn] at e
    nlinarith
  have h1 := (h nodded nodded_ne (1 / 2, 1 / 2 - r) (by simp only; nlinarith)).1
  rw [vxy2xyz_360, hray, xyz2vxy_360 _ nodded_ne, if_neg (by rw [inView_180]; linarith)] at h1
  have h2 := congrArg Prod.fst h1
  simp only at h2
  rw [xyz2vxy1_180] at h2
  unfold View.xyz2vxy1 at h2
  simp only at h2
  have h3 : (Geo.xyz2xy Axes.std true ((View.new nodded.neg 180).w2v ⟨0, -cos (s0 / 2), sin (s0 / 2)⟩)).1 = 0 := by
    rw [new_w2v (neg_ne_zero nodded_ne)]
    have hx0 := nodded_back ⟨0, -cos (s0 / 2), sin (s0 / 2)⟩
    simp only [neg_zero] at hx0
    unfold Geo.xyz2xy
    simp only [Axes.std, V3.get, hx0, if_true]
    unfold arctan2
    rw [Complex.sin_arg]
    simp
  rw [h3] at h2
  norm_num at h2

end Verif.Map
