import Verif.Model.Project
import Verif.Props.ViewMapper
import Verif.Props.Bins

/-! C63 (images moved between projections) and C91 (`transform_to`). -/

namespace Verif.Map
open Verif.Geo Real

/-! ### sizes -/

/-- `sin t / t` decreases -/
theorem sin_ratio {w t : ℝ} (h0 : 0 ≤ w) (h1 : w ≤ t) (h2 : 0 < t) (h3 : t ≤ π) : w * sin t ≤ t * sin w := by
  have hc := strictConcaveOn_sin_Icc.concaveOn
  have m0 : (0 : ℝ) ∈ Set.Icc 0 π := ⟨le_refl _, pi_pos.le⟩
  have m1 : t ∈ Set.Icc 0 π := ⟨h2.le, h3⟩
  have n0 : 0 ≤ 1 - w / t := by rw [sub_nonneg, div_le_one h2]; exact h1
  have := hc.2 m0 m1 n0 (div_nonneg h0 h2.le) (by ring)
  simp only [smul_eq_mul, mul_zero, zero_add, sin_zero] at this
  rw [div_mul_cancel₀ _ h2.ne', div_mul_eq_mul_div, div_le_iff₀ h2] at this
  linarith

/-- the square of side `va / 180` fits in the cone that is drawn -/
theorem square_in_cone {va : ℝ} (h0 : 0 < va) (h1 : va ≤ 180) :
    cos (chordFactor va * (va * π / 360)) ≤ 1 - (va / 180) ^ 2 := by
  obtain ⟨a, b⟩ := half_angle h0 h1
  have hc := cf_bounds h0 h1
  have hpi := pi_pos
  obtain ⟨c1, c2, -, c4⟩ := hc
  have hs : 0 < sin (va * π / 360 / 2) := sin_pos_of_pos_of_lt_pi (by linarith) (by linarith)
  have hw : chordFactor va * (va * π / 360) / 2 ≤ va * π / 360 / 2 := by nlinarith
  have key := sin_ratio (w := chordFactor va * (va * π / 360) / 2) (t := va * π / 360 / 2) (by positivity) hw
    (by linarith) (by linarith)
  have e : chordFactor va * (va * π / 360) / 2 * sin (va * π / 360 / 2) = √2 / π * (va * π / 360) * (va * π / 360 / 2) := by
    unfold chordFactor
    rw [theta2chord_half_pi]
    unfold theta2chord
    generalize sin (va * π / 360 / 2) = S at hs
    field_simp
  rw [e] at key
  have key2 : √2 * (va / 360) ≤ sin (chordFactor va * (va * π / 360) / 2) := by
    have : √2 / π * (va * π / 360) = √2 * (va / 360) := by field_simp
    rw [this, mul_comm] at key
    exact le_of_mul_le_mul_left key (by linarith)
  have hcos : cos (chordFactor va * (va * π / 360)) = 1 - 2 * sin (chordFactor va * (va * π / 360) / 2) ^ 2 := by
    have := cos_two_mul (chordFactor va * (va * π / 360) / 2)
    rw [mul_div_cancel₀ _ (by norm_num : (2 : ℝ) ≠ 0)] at this
    rw [this, cos_sq']; ring
  rw [hcos]
  have h2 : (√2) ^ 2 = (2 : ℝ) := sq_sqrt (by norm_num)
  have hp : 0 ≤ √2 * (va / 360) := by positivity
  have : (√2 * (va / 360)) ^ 2 ≤ sin (chordFactor va * (va * π / 360) / 2) ^ 2 := by gcongr
  rw [mul_pow, h2] at this
  linarith

theorem npIdx_ok {n : ℕ} {k : ℤ} (h0 : 0 ≤ k) (h1 : k < n) : npIdx n k = .ok k.toNat := by
  unfold npIdx; rw [if_pos ⟨h0, h1⟩]

theorem Img.get_ok {α : Type} (im : Img α) (p : ℤ × ℤ) (h1 : 0 ≤ p.1) (h2 : p.1 < im.n) (h3 : 0 ≤ p.2)
    (h4 : p.2 < im.m) : im.get p = .ok (im.at_ p.1.toNat p.2.toNat) := by
  unfold Img.get; rw [npIdx_ok h1 h2, npIdx_ok h3 h4]

/-- the image of a direction of the open square is strictly inside the image -/
theorem uv_in_image (d : V3) (hd : d ≠ V3.zero) (va : ℝ) (h0 : 0 < va) (h1 : va ≤ 180) (uv : ℝ × ℝ)
    (hu0 : 0 < uv.1) (hu1 : uv.1 < 1) (hv0 : 0 < uv.2) (hv1 : uv.2 < 1) :
    (((View.new d va).xyz2vxy ((View.new d va).uv2xyz uv)).1 - 1 / 2) ^ 2
      + (((View.new d va).xyz2vxy ((View.new d va).uv2xyz uv)).2 - 1 / 2) ^ 2 < (1 / 2) ^ 2 := by
  obtain ⟨s, l, e1, e2, e3⟩ := new_sf (d := d) (va := va) (by linarith)
  have hpi := pi_pos
  obtain ⟨c1, c2, -, c4⟩ := cf_bounds h0 h1
  have hs0 : 0 < va / 180 := by positivity
  have hs1 : va / 180 ≤ 1 := by rw [div_le_one (by norm_num)]; exact h1
  set s' := va / 180 with hs'
  -- the point of the unit square
  set w : ℝ × ℝ := (1 / 2 - s' / 2 + uv.1 * s', 1 / 2 - s' / 2 + uv.2 * s') with hw
  have hw1 : 0 ≤ w.1 ∧ w.1 ≤ 1 ∧ 0 ≤ w.2 ∧ w.2 ≤ 1 := by
    simp only [hw]
    refine ⟨?_, ?_, ?_, ?_⟩ <;> nlinarith
  have hrect : InRect w := ⟨hw1.1, by linarith [hw1.2.1], hw1.2.2.1, hw1.2.2.2⟩
  set q := Geo.uv2xyz (-1) w with hq
  have hqn : q.normSq = 1 := (C21_uv2xyz_sphere V3.zero Axes.std Axes.std_ok (-1) (Or.inr rfl) w hrect).1
  have hqz : 1 - s' ^ 2 < q.z := by
    rw [hq, z_uv2xyz]
    have hh : hemi w.1 = 1 := if_neg (not_lt.mpr hw1.2.1)
    have hf : foldU w.1 = w.1 := if_neg (not_lt.mpr hw1.2.1)
    rw [hh, hf, one_mul, sqR_sq]
    have : max ((2 * w.1 - 1) * (2 * w.1 - 1)) ((2 * w.2 - 1) * (2 * w.2 - 1)) < s' ^ 2 := by
      have t1 : 2 * w.1 - 1 = s' * (2 * uv.1 - 1) := by simp only [hw]; ring
      have t2 : 2 * w.2 - 1 = s' * (2 * uv.2 - 1) := by simp only [hw]; ring
      rw [t1, t2]
      have k1 : (2 * uv.1 - 1) ^ 2 < 1 := by nlinarith
      have k2 : (2 * uv.2 - 1) ^ 2 < 1 := by nlinarith
      have hsq : 0 < s' ^ 2 := by positivity
      apply max_lt <;> nlinarith
    linarith
  have hz1 : q.z ≤ 1 := by
    unfold V3.normSq at hqn; nlinarith [sq_nonneg q.x, sq_nonneg q.y]
  have hzm : -1 ≤ q.z := by
    unfold V3.normSq at hqn; nlinarith [sq_nonneg q.x, sq_nonneg q.y]
  have hang : arccos q.z < chordFactor va * (va * π / 360) := by
    have hle : chordFactor va * (va * π / 360) ≤ π := by
      obtain ⟨a, b⟩ := half_angle h0 h1; nlinarith
    have hge : 0 ≤ chordFactor va * (va * π / 360) := by positivity
    have hcone := square_in_cone h0 h1
    rw [← hs'] at hcone
    by_contra hcon
    push Not at hcon
    have := cos_le_cos_of_nonneg_of_le_pi hge (arccos_le_pi _) hcon
    rw [cos_arccos hzm hz1] at this
    linarith
  have hw2 : (View.new d va).w2v ((View.new d va).uv2xyz uv) = q := by
    unfold View.uv2xyz
    rw [(C50_isometry d hd va _ V3.zero).2.1, s, l]
  obtain ⟨f1, -, f3⟩ := C85_fisheye Axes.std Axes.std_ok q hqn
  unfold View.xyz2vxy View.xyz2vxy1
  rw [e2, hw2, f3, e1, e3]
  simp only [Bool.false_eq_true, if_false]
  set X := (Geo.xyz2xy Axes.std false q).1
  set Y := (Geo.xyz2xy Axes.std false q).2
  have hxy : X ^ 2 + Y ^ 2 = (arccos q.z / (π / 2)) ^ 2 := f1
  have hvc : 0 < va * chordFactor va := by positivity
  have hk : (arccos q.z / (π / 2)) ^ 2 < (va * chordFactor va / 180) ^ 2 := by
    have a0 := arccos_nonneg q.z
    have : arccos q.z / (π / 2) < va * chordFactor va / 180 := by
      rw [div_lt_iff₀ (by positivity)]
      linarith
    have p0 : 0 ≤ arccos q.z / (π / 2) := by positivity
    gcongr
  have e : (-X * 180 / (va * chordFactor va) / 2 + 1 / 2 - 1 / 2) ^ 2
      + (Y * 180 / (va * chordFactor va) / 2 + 1 / 2 - 1 / 2) ^ 2
      = (X ^ 2 + Y ^ 2) / (va * chordFactor va / 180) ^ 2 / 4 := by
    generalize va * chordFactor va = k at hvc
    have : k ≠ 0 := hvc.ne'
    field_simp
    ring
  rw [e, hxy]
  have : (arccos q.z / (π / 2)) ^ 2 / (va * chordFactor va / 180) ^ 2 < 1 := by
    rw [div_lt_one (by positivity)]; exact hk
  linarith

theorem open_unit {x y : ℝ} (h : (x - 1 / 2) ^ 2 + (y - 1 / 2) ^ 2 < (1 / 2) ^ 2) : 0 < x ∧ x < 1 ∧ 0 < y ∧ y < 1 := by
  refine ⟨?_, ?_, ?_, ?_⟩ <;> nlinarith [sq_nonneg (x - 1 / 2), sq_nonneg (y - 1 / 2)]

theorem floor_range {x : ℝ} {n : ℕ} (hn : 0 < n) (h0 : 0 ≤ x) (h1 : x < 1) : 0 ≤ ⌊x * n⌋ ∧ ⌊x * n⌋ < n := by
  have : (0 : ℝ) < n := by exact_mod_cast hn
  constructor
  · apply Int.floor_nonneg.mpr; positivity
  · rw [Int.floor_lt]; push_cast; nlinarith

/-- the centre of cell `(i, j)` -/
theorem bin2uv_cell {res i j : ℕ} (hi : i < res) (hj : j < res) :
    bin2uv ((i * res + j : ℕ) : ℤ) res 0.5 = (((i : ℝ) + 0.5) / res, ((j : ℝ) + 0.5) / res) := by
  have hr : (1 : ℤ) ≤ res := by omega
  have e1 : (((i * res + j : ℕ) : ℤ)) / (res : ℤ) = i := by
    rw [← Int.natCast_ediv, Nat.mul_comm, Nat.mul_add_div (by omega), Nat.div_eq_of_lt hj]; simp
  have e2 : (((i * res + j : ℕ) : ℤ)) % (res : ℤ) = j := by
    rw [← Int.natCast_emod, Nat.mul_comm, Nat.mul_add_mod, Nat.mod_eq_of_lt hj]
  refine Prod.ext ?_ ?_
  · rw [bin2uv_fst hr, e1]; simp
  · unfold bin2uv
    simp only
    rw [e2]; simp

theorem cell_unit {res i : ℕ} (hi : i < res) : 0 < ((i : ℝ) + 0.5) / res ∧ ((i : ℝ) + 0.5) / res < 1 := by
  have hr : (0 : ℝ) < res := by exact_mod_cast (by omega : 0 < res)
  have : (i : ℝ) + 1 ≤ res := by exact_mod_cast hi
  constructor
  · positivity
  · rw [div_lt_one hr]; linarith

/-! ### C63 -/

/-- **C63** every cell of the square image gets the value of the input pixel that contains the image of the cell's
centre direction, and that pixel is inside the image: every view direction, every view angle up to 180 degrees,
every resolution, every image. -/
theorem C63_ang2uv {α : Type} (d : V3) (hd : d ≠ V3.zero) (va : ℝ) (h0 : 0 < va) (h1 : va ≤ 180) (im : Img α)
    (hsq : im.n = im.m) (i j : ℕ) (hi : i < im.m) (hj : j < im.m) :
    ∃ a b : ℕ, a < im.n ∧ b < im.m ∧ arrayAng2uv (View.new d va) im i j = .ok (im.at_ a b) ∧
      ((a : ℝ) / im.m ≤ ((View.new d va).xyz2vxy ((View.new d va).uv2xyz ((i + 0.5) / im.m, (j + 0.5) / im.m))).1 ∧
       ((View.new d va).xyz2vxy ((View.new d va).uv2xyz ((i + 0.5) / im.m, (j + 0.5) / im.m))).1 < (a + 1) / im.m) ∧
      ((b : ℝ) / im.m ≤ ((View.new d va).xyz2vxy ((View.new d va).uv2xyz ((i + 0.5) / im.m, (j + 0.5) / im.m))).2 ∧
       ((View.new d va).xyz2vxy ((View.new d va).uv2xyz ((i + 0.5) / im.m, (j + 0.5) / im.m))).2 < (b + 1) / im.m) := by
  obtain ⟨a1, a2⟩ := cell_unit hi
  obtain ⟨b1, b2⟩ := cell_unit hj
  have hin := uv_in_image d hd va h0 h1 (((i : ℝ) + 0.5) / im.m, ((j : ℝ) + 0.5) / im.m) a1 a2 b1 b2
  set q := (View.new d va).xyz2vxy ((View.new d va).uv2xyz (((i : ℝ) + 0.5) / im.m, ((j : ℝ) + 0.5) / im.m)) with hq
  obtain ⟨x0, x1, y0, y1⟩ := open_unit hin
  have hm : 0 < im.m := by omega
  have hmr : (0 : ℝ) < im.m := by exact_mod_cast hm
  obtain ⟨p1, p2⟩ := floor_range hm x0.le x1
  obtain ⟨p3, p4⟩ := floor_range hm y0.le y1
  have hpix : ang2uvPixel (View.new d va) im.m i j = (⌊q.1 * im.m⌋, ⌊q.2 * im.m⌋) := by
    unfold ang2uvPixel View.ray2pixel
    rw [bin2uv_cell hi hj]
  have key : ∀ x : ℝ, 0 ≤ ⌊x * im.m⌋ → ((⌊x * im.m⌋.toNat : ℕ) : ℝ) / im.m ≤ x ∧ x < (((⌊x * im.m⌋.toNat : ℕ) : ℝ) + 1) / im.m := by
    intro x hx
    have : ((⌊x * im.m⌋.toNat : ℕ) : ℝ) = (⌊x * im.m⌋ : ℝ) := by
      have := Int.toNat_of_nonneg hx
      exact_mod_cast congrArg (Int.cast : ℤ → ℝ) this
    rw [this]
    constructor
    · rw [div_le_iff₀ hmr]; exact Int.floor_le _
    · rw [lt_div_iff₀ hmr]; exact Int.lt_floor_add_one _
  refine ⟨⌊q.1 * im.m⌋.toNat, ⌊q.2 * im.m⌋.toNat, by omega, by omega, ?_, key _ p1, key _ p3⟩
  unfold arrayAng2uv
  rw [hpix, Img.get_ok im _ p1 (by rw [hsq]; exact p2) p3 p4]

example : (⟨1, 2, -3⟩ : V3) ≠ V3.zero ∧ (0 : ℝ) < 90 ∧ (90 : ℝ) ≤ 180 ∧ 2 < (⟨3, 3, fun i j => i + j⟩ : Img ℕ).m :=
  ⟨by simp [V3.zero], by norm_num, by norm_num, by norm_num⟩

theorem dflt_clear : Clear ⟨0, 1, 0⟩ := clear_example.1

/-- angle below / above a right angle and the third component in view space -/
theorem inView180_z (d : V3) (h : Clear d) (p : V3) (hp : p.normSq = 1) :
    (View.new d 180).inView 0 p ↔ 0 < ((View.new d 180).w2v p).z := by
  obtain ⟨_, _, e1, e2, e3⟩ := new_sf (d := d) (va := 180) (by norm_num)
  have hpi := pi_pos
  have hl := C50_look_partial d h 180
  have hz : ((View.new d 180).w2v p).z = (View.new d 180).dxyz.dot p := by
    have := (C50_isometry d h.1 180 (View.new d 180).dxyz p).2.2.1
    rw [hl.1] at this
    rw [← this]; unfold V3.dot; simp
  have hn := hl.2.2
  unfold View.inView View.radians Geo.radians ctheta
  rw [e1, e3, cf_180, hz, sub_zero, show 1 * 180 * π / 360 = π / 2 by ring]
  have hb := dot_unit hn hp
  rw [clip1_eq hb.1 hb.2, arccos_lt_pi_div_two]

/-- the square coordinates of a direction in front, mirrored orientation -/
theorem uv_front {p : V3} (hp : p.normSq = 1) (hz : 0 < p.z) :
    0 < (Geo.xyz2uv true p).1 ∧ (Geo.xyz2uv true p).1 < 1 ∧ 0 < (Geo.xyz2uv true p).2 ∧ (Geo.xyz2uv true p).2 < 1 := by
  obtain ⟨h1, hr, hs⟩ := unit_sq Axes.std_ok hp
  unfold Geo.xyz2uv xyz2uvA xyz2sq sq2uv
  simp only [Bool.false_eq_true, if_false, if_true]
  rw [zsign_mul]
  have hz' : 0 < p.get Axes.std.a2 := hz
  obtain ⟨b1, b2, b3⟩ := disk2sq_unit hr (by linarith [abs_nonneg (p.get Axes.std.a2)])
  obtain ⟨b4, b5⟩ := b3 (by rw [abs_of_pos hz']; linarith)
  rw [abs_lt] at b4 b5
  have : zsign (p.get Axes.std.a2) = 1 := by unfold zsign; exact if_neg (not_lt.mpr hz'.le)
  rw [this, if_neg (by norm_num)]
  obtain ⟨b4, b4'⟩ := b4
  obtain ⟨b5, b5'⟩ := b5
  refine ⟨?_, ?_, ?_, ?_⟩ <;> linarith

/-- and behind -/
theorem uv_back {p : V3} (hp : p.normSq = 1) (hz : p.z < 0) :
    1 < (Geo.xyz2uv true p).1 ∧ (Geo.xyz2uv true p).1 < 2 ∧ 0 < (Geo.xyz2uv true p).2 ∧ (Geo.xyz2uv true p).2 < 1 := by
  obtain ⟨h1, hr, hs⟩ := unit_sq Axes.std_ok hp
  unfold Geo.xyz2uv xyz2uvA xyz2sq sq2uv
  simp only [Bool.false_eq_true, if_false, if_true]
  rw [zsign_mul]
  have hz' : p.get Axes.std.a2 < 0 := hz
  obtain ⟨b1, b2, b3⟩ := disk2sq_unit hr (by linarith [abs_nonneg (p.get Axes.std.a2)])
  obtain ⟨b4, b5⟩ := b3 (by rw [abs_of_neg hz']; linarith)
  rw [abs_lt] at b4 b5
  have : zsign (p.get Axes.std.a2) = -1 := by unfold zsign; exact if_pos hz'
  rw [this, if_pos (by norm_num)]
  obtain ⟨b4, b4'⟩ := b4
  obtain ⟨b5, b5'⟩ := b5
  refine ⟨?_, ?_, ?_, ?_⟩ <;> linarith

/-- row and column of a point of an open unit square -/
theorem axisBin_open {n : ℕ} (hn : 0 < n) {x : ℝ} (h0 : 0 < x) (h1 : x < 1) :
    (axisBin n x).toNat < n ∧ 0 ≤ axisBin n x ∧ axisBin n x < n ∧
    (((axisBin n x).toNat : ℕ) : ℝ) / n ≤ x ∧ x < ((((axisBin n x).toNat : ℕ) : ℝ) + 1) / n := by
  have hnr : (0 : ℝ) < n := by exact_mod_cast hn
  obtain ⟨f0, f1⟩ := floor_range hn h0.le h1
  have e : axisBin n x = ⌊x * n⌋ := by
    unfold axisBin
    rw [mul_comm, Int.cast_natCast, Int.emod_eq_of_lt f0 f1]
  have e2 : (((axisBin n x).toNat : ℕ) : ℝ) = (⌊x * n⌋ : ℝ) := by
    rw [e]
    exact_mod_cast congrArg (Int.cast : ℤ → ℝ) (Int.toNat_of_nonneg f0)
  refine ⟨by omega, by omega, by omega, ?_, ?_⟩
  · rw [e2, div_le_iff₀ hnr]; exact Int.floor_le _
  · rw [e2, lt_div_iff₀ hnr]; exact Int.lt_floor_add_one _

/-- the cell of a `res`-column image that holds the point `uv` (the second square follows the first) -/
def InCell (res : ℕ) (uv : ℝ × ℝ) (a b : ℕ) : Prop :=
  (a : ℝ) / res ≤ uv.1 ∧ uv.1 < (a + 1) / res ∧ (b : ℝ) / res ≤ uv.2 ∧ uv.2 < (b + 1) / res

theorem pixel_unit (d : V3) (hd : d ≠ V3.zero) (va : ℝ) (res : ℕ) (q : ℝ × ℝ) :
    ((View.new d va).pixel2ray res q).normSq = 1 := by
  have h := (C50_isometry d hd va (polar2view ((View.new d va).centred (q.1 / res, q.2 / res)))
    (polar2view ((View.new d va).centred (q.1 / res, q.2 / res)))).2.2.2
  have e : ∀ v : V3, v.dot v = v.normSq := by intro v; unfold V3.dot V3.normSq; ring
  rw [e, e, polar2view_unit] at h
  exact h

theorem w2v_unit (d : V3) (hd : d ≠ V3.zero) (va : ℝ) (p : V3) (hp : p.normSq = 1) :
    ((View.new d va).w2v p).normSq = 1 := by
  have h := (C50_isometry d hd va p p).2.2.1
  have e : ∀ v : V3, v.dot v = v.normSq := by intro v; unfold V3.dot V3.normSq; ring
  rw [e, e, hp] at h
  exact h

theorem dflt_ne : (⟨0, 1, 0⟩ : V3) ≠ V3.zero := dflt_clear.1

/-- **C63** a square image: every pixel inside the inscribed circle gets the value of the cell that holds its
direction, every other pixel is zero; nothing is read outside the image. -/
theorem C63_uv2ang {α : Type} [Zero α] (im : Img α) (hsq : im.n = im.m) (i j : ℕ) (hi : i < im.n) (hj : j < im.m) :
    ((((i : ℝ) + 1 / 2) / im.m - 1 / 2) ^ 2 + (((j : ℝ) + 1 / 2) / im.m - 1 / 2) ^ 2 < (1 / 2) ^ 2 →
      ∃ a b, a < im.n ∧ b < im.m ∧ arrayUv2ang im i j = .ok (im.at_ a b) ∧
        InCell im.m ((dfltView 180).xyz2uv ((dfltView 180).pixel2ray im.m (pixelCentre i j))) a b) ∧
    (¬ (((i : ℝ) + 1 / 2) / im.m - 1 / 2) ^ 2 + (((j : ℝ) + 1 / 2) / im.m - 1 / 2) ^ 2 < (1 / 2) ^ 2 →
      arrayUv2ang im i j = .ok 0) := by
  have hm : 0 < im.m := by omega
  have hi' : i < im.m := by omega
  have hv : uv2angView im = dfltView 180 := by unfold uv2angView; rw [if_neg (by omega)]
  obtain ⟨s, l, e1, e2, e3⟩ := new_sf (d := ⟨0, 1, 0⟩) (va := 180) (by norm_num)
  have hlen : initLen (dfltView 180) im.m = im.n * im.m := by
    unfold initLen dfltView; rw [e2, hsq]; simp
  have hray : initRay (dfltView 180) im.m i j = (dfltView 180).pixel2ray im.m (pixelCentre i j) := if_pos hi'
  obtain ⟨u1, u2⟩ := cell_unit hi'
  obtain ⟨u3, u4⟩ := cell_unit hj
  have hcirc : initMask (dfltView 180) im.m i j ↔
      (((i : ℝ) + 1 / 2) / im.m - 1 / 2) ^ 2 + (((j : ℝ) + 1 / 2) / im.m - 1 / 2) ^ 2 < (1 / 2) ^ 2 := by
    unfold initMask
    rw [if_pos hi', hray]
    norm_num only at u1 u2 u3 u4
    exact C53_circle_partial ⟨0, 1, 0⟩ dflt_clear 180 (by norm_num) (by norm_num) _ u1.le u2.le u3.le u4.le
  constructor
  · intro h
    have hmask := hcirc.mpr h
    set p := (dfltView 180).pixel2ray im.m (pixelCentre i j) with hp
    have hpu : p.normSq = 1 := pixel_unit ⟨0, 1, 0⟩ dflt_ne 180 _ _
    have hz : 0 < ((dfltView 180).w2v p).z := by
      unfold initMask at hmask
      rw [if_pos hi', hray] at hmask
      exact (inView180_z ⟨0, 1, 0⟩ dflt_clear p hpu).mp hmask
    obtain ⟨x0, x1, y0, y1⟩ := uv_front (w2v_unit ⟨0, 1, 0⟩ dflt_ne 180 p hpu) hz
    have huv : (dfltView 180).xyz2uv p = Geo.xyz2uv true ((dfltView 180).w2v p) := by
      unfold View.xyz2uv dfltView
      rw [s, l]
      refine Prod.ext ?_ ?_ <;> simp
    rw [← show (dfltView 180).w2v p = (View.new ⟨0, 1, 0⟩ 180).w2v p from rfl, ← huv] at x0 x1 y0 y1
    obtain ⟨p1, p2, p3, p4, p5⟩ := axisBin_open hm x0 x1
    obtain ⟨q1, q2, q3, q4, q5⟩ := axisBin_open hm y0 y1
    refine ⟨(axisBin im.m ((dfltView 180).xyz2uv p).1).toNat, (axisBin im.m ((dfltView 180).xyz2uv p).2).toNat,
      by omega, q1, ?_, p4, p5, q4, q5⟩
    unfold arrayUv2ang
    rw [hv, if_pos hlen, if_pos hmask, hray]
    have hij : uv2ij true im.m ((dfltView 180).xyz2uv p)
        = (axisBin im.m ((dfltView 180).xyz2uv p).1, axisBin im.m ((dfltView 180).xyz2uv p).2) := by
      unfold uv2ij
      rw [if_pos rfl, if_neg (not_le.mpr x1), add_zero]
    rw [hij, Img.get_ok im _ p2 (by rw [hsq]; exact p3) q2 q3]
  · intro h
    unfold arrayUv2ang
    rw [hv, if_pos hlen, if_neg (fun hh => h (hcirc.mp hh))]

/-- **C63** a two to one image: the first half as above, the second half with the opposite view, reading the second
square. -/
theorem C63_uv2ang_360 {α : Type} [Zero α] (im : Img α) (hsq : im.n = 2 * im.m) (i j : ℕ) (hi : i < im.n)
    (hj : j < im.m) :
    (initMask (dfltView 360) im.m i j →
      ∃ a b, a < im.n ∧ b < im.m ∧ (a < im.m ↔ i < im.m) ∧ arrayUv2ang im i j = .ok (im.at_ a b) ∧
        InCell im.m ((dfltView 360).xyz2uv (initRay (dfltView 360) im.m i j)) a b) ∧
    (¬ initMask (dfltView 360) im.m i j → arrayUv2ang im i j = .ok 0) ∧
    (initMask (dfltView 360) im.m i j ↔ ((((i % im.m : ℕ) : ℝ) + 1 / 2) / im.m - 1 / 2) ^ 2
      + (((j : ℝ) + 1 / 2) / im.m - 1 / 2) ^ 2 < (1 / 2) ^ 2) := by
  have hm : 0 < im.m := by omega
  have hmr : (0 : ℝ) < im.m := by exact_mod_cast hm
  have hv : uv2angView im = dfltView 360 := by unfold uv2angView; rw [if_pos (by omega)]
  obtain ⟨s, l, e1, e2, e3⟩ := new_sf360 (d := ⟨0, 1, 0⟩)
  have hneg : Clear (⟨0, 1, 0⟩ : V3).neg := dflt_clear.neg
  have hivm : (dfltView 360).ivm = View.new (⟨0, 1, 0⟩ : V3).neg 180 := ivm_eq dflt_ne 360
  have hlen : initLen (dfltView 360) im.m = im.n * im.m := by
    unfold initLen dfltView; rw [e2, hsq]; simp
  have huv : ∀ p, (dfltView 360).xyz2uv p = Geo.xyz2uv true ((dfltView 360).w2v p) := by
    intro p
    unfold View.xyz2uv dfltView
    rw [s, l]
    refine Prod.ext ?_ ?_ <;> simp
  obtain ⟨u3, u4⟩ := cell_unit hj
  norm_num only at u3 u4
  have hw : ∀ p, (dfltView 360).w2v p = (View.new ⟨0, 1, 0⟩ 180).w2v p := by
    intro p; unfold dfltView; rw [new_w2v dflt_ne, new_w2v dflt_ne]
  refine ⟨?_, ?_, ?_⟩
  · intro hmask
    set p := initRay (dfltView 360) im.m i j with hp
    by_cases hlt : i < im.m
    · have hp2 : p = (View.new ⟨0, 1, 0⟩ 360).pixel2ray im.m (pixelCentre i j) := by
        rw [hp]; unfold initRay; rw [if_pos hlt]; rfl
      have hpu : p.normSq = 1 := by rw [hp2]; exact pixel_unit ⟨0, 1, 0⟩ dflt_ne 360 _ _
      have hz : 0 < ((dfltView 360).w2v p).z := by
        unfold initMask at hmask
        rw [if_pos hlt, ← hp] at hmask
        rw [hw]
        exact (inView180_z ⟨0, 1, 0⟩ dflt_clear p hpu).mp ((inView_360 _ _).mp hmask)
      obtain ⟨x0, x1, y0, y1⟩ := uv_front (w2v_unit ⟨0, 1, 0⟩ dflt_ne 360 p hpu) hz
      rw [← show (dfltView 360).w2v p = (View.new ⟨0, 1, 0⟩ 360).w2v p from rfl, ← huv] at x0 x1 y0 y1
      obtain ⟨p1, p2, p3, p4, p5⟩ := axisBin_open hm x0 x1
      obtain ⟨q1, q2, q3, q4, q5⟩ := axisBin_open hm y0 y1
      refine ⟨(axisBin im.m ((dfltView 360).xyz2uv p).1).toNat, (axisBin im.m ((dfltView 360).xyz2uv p).2).toNat,
        by omega, q1, by simp [hlt, p1], ?_, p4, p5, q4, q5⟩
      unfold arrayUv2ang
      rw [hv, if_pos hlen, if_pos hmask, ← hp]
      have hij : uv2ij true im.m ((dfltView 360).xyz2uv p)
          = (axisBin im.m ((dfltView 360).xyz2uv p).1, axisBin im.m ((dfltView 360).xyz2uv p).2) := by
        unfold uv2ij
        rw [if_pos rfl, if_neg (not_le.mpr x1), add_zero]
      rw [hij, Img.get_ok im _ p2 (by simp only; omega) q2 q3]
    · have hp2 : p = (View.new (⟨0, 1, 0⟩ : V3).neg 180).pixel2ray im.m (pixelCentre (i - im.m) j) := by
        rw [hp]; unfold initRay; rw [if_neg hlt, hivm]
      have hpu : p.normSq = 1 := by rw [hp2]; exact pixel_unit _ hneg.1 180 _ _
      have hz : ((dfltView 360).w2v p).z < 0 := by
        unfold initMask at hmask
        rw [if_neg hlt, ← hp, hivm] at hmask
        have h1 := (inView180_z _ hneg p hpu).mp hmask
        have g1 : ∀ d : V3, Clear d → ((View.new d 180).w2v p).z = (Geo.norm d).dot p := by
          intro d hd
          have hl := C50_look_partial d hd 180
          have := (C50_isometry d hd.1 180 (View.new d 180).dxyz p).2.2.1
          rw [hl.1] at this
          have hn : (View.new d 180).dxyz = Geo.norm d := norm1_norm hd.1
          rw [← hn, ← this]; unfold V3.dot; simp
        rw [g1 _ hneg, neg_norm] at h1
        rw [hw, g1 _ dflt_clear]
        unfold V3.neg V3.dot at *
        linarith
      obtain ⟨x0, x1, y0, y1⟩ := uv_back (w2v_unit ⟨0, 1, 0⟩ dflt_ne 360 p hpu) hz
      rw [← show (dfltView 360).w2v p = (View.new ⟨0, 1, 0⟩ 360).w2v p from rfl, ← huv] at x0 x1 y0 y1
      obtain ⟨p1, p2, p3, p4, p5⟩ := axisBin_open hm (x := ((dfltView 360).xyz2uv p).1 - 1) (by linarith) (by linarith)
      rw [axis_shift] at p1 p2 p3 p4 p5
      obtain ⟨q1, q2, q3, q4, q5⟩ := axisBin_open hm y0 y1
      refine ⟨(axisBin im.m ((dfltView 360).xyz2uv p).1).toNat + im.m,
        (axisBin im.m ((dfltView 360).xyz2uv p).2).toNat, by omega, q1, by omega, ?_, ?_, ?_, q4, q5⟩
      · unfold arrayUv2ang
        rw [hv, if_pos hlen, if_pos hmask, ← hp]
        have hij : uv2ij true im.m ((dfltView 360).xyz2uv p)
            = (axisBin im.m ((dfltView 360).xyz2uv p).1 + im.m, axisBin im.m ((dfltView 360).xyz2uv p).2) := by
          unfold uv2ij
          rw [if_pos rfl, if_pos x0.le]
        rw [hij, Img.get_ok im _ (by simp only; omega) (by simp only; omega) q2 q3]
        congr 2
        simp only
        omega
      · push_cast
        rw [add_div, div_self hmr.ne']
        linarith
      · push_cast
        rw [show (((axisBin im.m ((dfltView 360).xyz2uv p).1).toNat : ℝ) + im.m + 1) / im.m
          = (((axisBin im.m ((dfltView 360).xyz2uv p).1).toNat : ℝ) + 1) / im.m + 1 by field_simp; ring]
        linarith
  · intro h
    unfold arrayUv2ang
    rw [hv, if_pos hlen, if_neg h]
  · unfold initMask initRay
    by_cases hlt : i < im.m
    · rw [if_pos hlt, if_pos hlt, Nat.mod_eq_of_lt hlt]
      obtain ⟨u1, u2⟩ := cell_unit hlt
      norm_num only at u1 u2
      show (View.new ⟨0, 1, 0⟩ 360).inView 0 ((View.new ⟨0, 1, 0⟩ 360).vxy2xyz _) ↔ _
      rw [inView_360, vxy2xyz_360]
      exact C53_circle_partial ⟨0, 1, 0⟩ dflt_clear 180 (by norm_num) (by norm_num) _ u1.le u2.le u3.le u4.le
    · rw [if_neg hlt, if_neg hlt, hivm, Nat.mod_eq_sub_mod (by omega), Nat.mod_eq_of_lt (by omega)]
      obtain ⟨u1, u2⟩ := cell_unit (show i - im.m < im.m by omega)
      norm_num only at u1 u2
      exact C53_circle_partial _ hneg 180 (by norm_num) (by norm_num) _ u1.le u2.le u3.le u4.le

/-- **C63** other shapes are refused -/
theorem C63_shape {α : Type} [Zero α] (im : Img α) (i j : ℕ) (hm : 0 < im.m) (h1 : im.n ≠ im.m)
    (h2 : im.n ≠ 2 * im.m) : arrayUv2ang im i j = .error .IndexError := by
  have h : initLen (uv2angView im) im.m ≠ im.n * im.m := by
    unfold uv2angView initLen
    split_ifs with h h3 h3
    · intro h4; exact h2 (Nat.eq_of_mul_eq_mul_right hm h4).symm
    · intro h4; exact h1 (Nat.eq_of_mul_eq_mul_right hm h4).symm
    · obtain ⟨_, _, _, e2, _⟩ := new_sf (d := ⟨0, 1, 0⟩) (va := 180) (by norm_num)
      unfold dfltView at h3; rw [e2] at h3; exact absurd h3 (by simp)
    · intro h4; exact h1 (Nat.eq_of_mul_eq_mul_right hm h4).symm
  unfold arrayUv2ang
  rw [if_neg h]

example : ((⟨6, 3, fun i j => i + j⟩ : Img ℕ).n = 2 * (⟨6, 3, fun i j => i + j⟩ : Img ℕ).m) ∧ (4 < 6) := ⟨rfl, by norm_num⟩

/-! ### C91 `transform_to` -/

/-- contract of the interpolator: at a pixel centre it gives that pixel -/
def NodeOk {α : Type} (interp : Img α → ℝ × ℝ → α) : Prop :=
  ∀ (im : Img α) (a b : ℕ), a < im.n → b < im.m → interp im ((a : ℝ) + 1 / 2, (b : ℝ) + 1 / 2) = im.at_ a b

/-- what C91 asks: where a pixel of the destination view and a pixel of the source view see the same direction,
the result has the value of the source pixel -/
def C91_statement : Prop :=
  ∀ (interp : Img ℝ → ℝ × ℝ → ℝ), NodeOk interp → ∀ (d d' : V3), Clear d → Clear d' → ∀ va va' : ℝ, 0 < va → va ≤ 180 →
    0 < va' → va' ≤ 180 → ∀ (im : Img ℝ), im.n = im.m → ∀ i j a b : ℕ, i < im.m → j < im.m → a < im.m → b < im.m →
    (View.new d' va').pixel2ray im.m (pixelCentre i j) = (View.new d va).pixel2ray im.m (pixelCentre a b) →
    (View.new d va).inView 0 ((View.new d va).pixel2ray im.m (pixelCentre a b)) →
    (View.new d' va').inView 0 ((View.new d va).pixel2ray im.m (pixelCentre a b)) →
    (View.new d va).transformTo (View.new d' va') interp im i j = .ok (im.at_ a b)

theorem centre_div {res i : ℕ} (hi : i < res) :
    0 ≤ ((i : ℝ) + 1 / 2) / res ∧ ((i : ℝ) + 1 / 2) / res ≤ 1 := by
  obtain ⟨u1, u2⟩ := cell_unit hi
  norm_num only at u1 u2
  exact ⟨u1.le, u2.le⟩

/-- **C91** the exchange the code makes: `self.transform_to(image, other)` reads the image as one of `other` and
returns one of `self`. A result pixel whose direction is that of a pixel of `other` gets that pixel; one outside
the view of `other` is zero. -/
theorem C91_swapped_partial (interp : Img ℝ → ℝ × ℝ → ℝ) (hn : NodeOk interp) (d d' : V3) (hd' : d' ≠ V3.zero)
    (va va' : ℝ) (h0 : 0 < va) (h1 : va ≤ 180) (h2 : 0 < va') (h3 : va' ≤ 180) (im : Img ℝ) (hsq : im.n = im.m)
    (i j a b : ℕ) (ha : a < im.m) (hb : b < im.m)
    (h : (View.new d va).pixel2ray im.m (pixelCentre i j) = (View.new d' va').pixel2ray im.m (pixelCentre a b)) :
    ((View.new d' va').inView 0 ((View.new d va).pixel2ray im.m (pixelCentre i j)) →
      (View.new d va).transformTo (View.new d' va') interp im i j = .ok (im.at_ a b)) ∧
    (¬ (View.new d' va').inView 0 ((View.new d va).pixel2ray im.m (pixelCentre i j)) →
      (View.new d va).transformTo (View.new d' va') interp im i j = .ok 0) := by
  obtain ⟨_, _, e1, e2, e3⟩ := new_sf (d := d) (va := va) (by linarith)
  have hno : ¬ (im.n ≠ im.m ∨ (View.new d va).two = true) := by rw [e2]; simp [hsq]
  have hmr : (im.m : ℝ) ≠ 0 := by
    have : im.m ≠ 0 := by omega
    exact_mod_cast this
  constructor
  · intro hin
    unfold View.transformTo
    rw [if_neg hno, if_pos hin]
    congr 1
    have hp : (View.new d' va').ray2pixelF im.m ((View.new d va).pixel2ray im.m (pixelCentre i j))
        = ((a : ℝ) + 1 / 2, (b : ℝ) + 1 / 2) := by
      rw [h]
      unfold View.ray2pixelF View.pixel2ray
      obtain ⟨u1, u2⟩ := centre_div ha
      obtain ⟨u3, u4⟩ := centre_div hb
      rw [(C52_vxy_round_trip d' hd' va' h2 h3 ((pixelCentre a b).1 / im.m, (pixelCentre a b).2 / im.m) u1 u2 u3 u4).1]
      unfold pixelCentre
      simp only
      rw [div_mul_cancel₀ _ hmr, div_mul_cancel₀ _ hmr]
    rw [hp, hn im a b (by omega) hb]
  · intro hin
    unfold View.transformTo
    rw [if_neg hno, if_neg hin]

example (im : Img ℝ) : (View.new ⟨0, 1, 0⟩ 90).pixel2ray im.m (pixelCentre 1 2)
    = (View.new ⟨0, 1, 0⟩ 90).pixel2ray im.m (pixelCentre 1 2) ∧ (⟨0, 1, 0⟩ : V3) ≠ V3.zero := ⟨rfl, dflt_ne⟩

/-- **C91** two views in the same direction: the image is magnified by the ratio of the view sizes, the inverse of
what moving from `self` to `other` needs. -/
theorem C91_zoom (d : V3) (hd : d ≠ V3.zero) (va va' : ℝ) (h0 : 0 < va) (h1 : va ≤ 180) (h2 : 0 < va')
    (h3 : va' ≤ 180) (q : ℝ × ℝ) (hx0 : 0 ≤ q.1) (hx1 : q.1 ≤ 1) (hy0 : 0 ≤ q.2) (hy1 : q.2 ≤ 1) :
    (View.new d va').xyz2vxy ((View.new d va).vxy2xyz q)
      = (1 / 2 + (q.1 - 1 / 2) * (va * chordFactor va / (va' * chordFactor va')),
         1 / 2 + (q.2 - 1 / 2) * (va * chordFactor va / (va' * chordFactor va'))) := by
  obtain ⟨_, _, e1, e2, e3⟩ := new_sf (d := d) (va := va) (by linarith)
  obtain ⟨_, _, f1, f2, f3⟩ := new_sf (d := d) (va := va') (by linarith)
  obtain ⟨a, b⟩ := va_cf_pos h0 h1
  obtain ⟨a', b'⟩ := va_cf_pos h2 h3
  have hc : rad2 ((View.new d va).centred q) < 1 := by
    rw [centred_rad _ (by rw [e1, e3]; exact a.le), e1, e3]
    have := rad2_square q hx0 hx1 hy0 hy1
    nlinarith [rad2_nonneg (q.1 - 1 / 2, q.2 - 1 / 2)]
  have hw : (View.new d va').w2v ((View.new d va).vxy2xyz q) = polar2view ((View.new d va).centred q) := by
    rw [new_w2v hd, ← new_w2v hd va]
    exact (C50_isometry d hd va _ V3.zero).2.1
  unfold View.xyz2vxy View.xyz2vxy1
  rw [f2, hw, xyz2xy_polar _ hc, f1, f3]
  simp only [Bool.false_eq_true, if_false]
  unfold View.centred
  rw [e1, e3]
  simp only
  generalize va' * chordFactor va' = k' at a'
  generalize va * chordFactor va = k
  have : k' ≠ 0 := a'.ne'
  refine Prod.ext ?_ ?_ <;> simp only <;> field_simp <;> ring

/-- some view is drawn with a third of the size of the half sphere -/
theorem exists_third : ∃ va : ℝ, 0 < va ∧ va ≤ 180 ∧ va * chordFactor va = 60 := by
  have hpi := pi_pos
  have hcont : ContinuousOn (fun va => va * chordFactor va) (Set.Icc 1 180) := by
    unfold chordFactor theta2chord
    apply ContinuousOn.mul continuousOn_id
    apply ContinuousOn.div continuousOn_const
    · apply ContinuousOn.div
      · fun_prop
      · fun_prop
      · intro x hx; have := hx.1; positivity
    · intro x hx
      have h1 := hx.1
      have h2 := hx.2
      have : 0 < sin (x * π / 360 / 2) := sin_pos_of_pos_of_lt_pi (by positivity) (by nlinarith)
      positivity
  have hi := intermediate_value_Icc (by norm_num : (1 : ℝ) ≤ 180) hcont
  have hm : (60 : ℝ) ∈ Set.Icc ((fun va => va * chordFactor va) 1) ((fun va => va * chordFactor va) 180) := by
    have := (cf_bounds (va := 1) (by norm_num) (by norm_num)).2.1
    simp only [cf_180]
    constructor <;> linarith
  obtain ⟨va, hva, e⟩ := hi hm
  exact ⟨va, by linarith [hva.1], hva.2, e⟩

open Classical in
theorem C91_refuted : ¬ C91_statement := by
  intro h
  have hpi := pi_pos
  obtain ⟨va', h0, h1, hk⟩ := exists_third
  have hk180 : (180 : ℝ) * chordFactor 180 = 180 := by rw [cf_180]; norm_num
  obtain ⟨_, _, f1, f2, f3⟩ := new_sf (d := ⟨0, 1, 0⟩) (va := va') (by linarith)
  set im : Img ℝ := ⟨6, 6, fun _ _ => 1⟩ with him
  have hm : im.m = 6 := rfl
  -- direction of pixel (4, 4) of the small view = direction of pixel (3, 3) of the half sphere
  have hray : (View.new ⟨0, 1, 0⟩ va').pixel2ray im.m (pixelCentre 4 4)
      = (View.new ⟨0, 1, 0⟩ 180).pixel2ray im.m (pixelCentre 3 3) := by
    obtain ⟨_, _, e1, e2, e3⟩ := new_sf (d := ⟨0, 1, 0⟩) (va := 180) (by norm_num)
    unfold View.pixel2ray View.vxy2xyz View.vxy2xyzM
    simp only
    rw [new_v2w dflt_ne, new_v2w dflt_ne]
    congr 2
    unfold View.centred pixelCentre
    rw [f1, f3, hk, e1, e3, hk180, hm]
    norm_num
  have hr : ∀ k : ℕ, k < 6 → (View.new ⟨0, 1, 0⟩ va').radians ((View.new ⟨0, 1, 0⟩ 180).pixel2ray im.m (pixelCentre k k))
      = √(2 * (((k : ℝ) + 1 / 2) / 6 - 1 / 2) ^ 2) * π := by
    intro k hk6
    obtain ⟨u1, u2⟩ := centre_div hk6
    have := C53_equiangular_partial ⟨0, 1, 0⟩ dflt_clear 180 (by norm_num) (by norm_num)
      (((k : ℝ) + 1 / 2) / 6, ((k : ℝ) + 1 / 2) / 6) u1 u2 u1 u2
    have hc : chordFactor 180 * 180 * π / 180 = π := by rw [cf_180]; ring
    rw [hc] at this
    have e : (View.new ⟨0, 1, 0⟩ 180).pixel2ray im.m (pixelCentre k k)
        = (View.new ⟨0, 1, 0⟩ 180).vxy2xyz (((k : ℝ) + 1 / 2) / 6, ((k : ℝ) + 1 / 2) / 6) := by
      unfold View.pixel2ray pixelCentre; rw [hm]; norm_num
    rw [e]
    show (View.new ⟨0, 1, 0⟩ 180).radians _ = _
    rw [this]
    congr 2
    simp only
    ring
  have hcone : chordFactor va' * va' * π / 360 = π / 6 := by rw [mul_comm (chordFactor va'), hk]; ring
  have hin3 : (View.new ⟨0, 1, 0⟩ va').inView 0 ((View.new ⟨0, 1, 0⟩ 180).pixel2ray im.m (pixelCentre 3 3)) := by
    unfold View.inView
    rw [hr 3 (by norm_num), f1, f3, hcone, sub_zero]
    have : √(2 * ((((3 : ℕ) : ℝ) + 1 / 2) / 6 - 1 / 2) ^ 2) < 1 / 6 := by
      rw [sqrt_lt' (by norm_num)]; norm_num
    nlinarith
  have hout4 : ¬ (View.new ⟨0, 1, 0⟩ va').inView 0 ((View.new ⟨0, 1, 0⟩ 180).pixel2ray im.m (pixelCentre 4 4)) := by
    unfold View.inView
    rw [hr 4 (by norm_num), f1, f3, hcone, sub_zero, not_lt]
    have : 1 / 6 ≤ √(2 * ((((4 : ℕ) : ℝ) + 1 / 2) / 6 - 1 / 2) ^ 2) := by
      apply le_sqrt_of_sq_le; norm_num
    nlinarith
  have hin180 : (View.new ⟨0, 1, 0⟩ 180).inView 0 ((View.new ⟨0, 1, 0⟩ 180).pixel2ray im.m (pixelCentre 3 3)) := by
    obtain ⟨_, _, e1, e2, e3⟩ := new_sf (d := ⟨0, 1, 0⟩) (va := 180) (by norm_num)
    unfold View.inView at hin3 ⊢
    have he : (View.new ⟨0, 1, 0⟩ 180).radians ((View.new ⟨0, 1, 0⟩ 180).pixel2ray im.m (pixelCentre 3 3))
      = (View.new ⟨0, 1, 0⟩ va').radians ((View.new ⟨0, 1, 0⟩ 180).pixel2ray im.m (pixelCentre 3 3)) := rfl
    rw [f1, f3, hcone] at hin3
    rw [he, e1, e3, cf_180]
    linarith
  have := h (fun im p => im.at_ ⌊p.1⌋.toNat ⌊p.2⌋.toNat) (by
      intro im a b _ _
      have : ∀ n : ℕ, ⌊(n : ℝ) + 1 / 2⌋.toNat = n := by
        intro n
        have : ⌊(n : ℝ) + 1 / 2⌋ = (n : ℤ) := by rw [Int.floor_eq_iff]; constructor <;> push_cast <;> linarith
        rw [this]; rfl
      simp only [this])
    ⟨0, 1, 0⟩ ⟨0, 1, 0⟩ dflt_clear dflt_clear 180 va' (by norm_num) (by norm_num) h0 h1 im rfl 4 4 3 3
    (by rw [hm]; norm_num) (by rw [hm]; norm_num) (by rw [hm]; norm_num) (by rw [hm]; norm_num) hray hin180 hin3
  obtain ⟨_, _, e1, e2, e3⟩ := new_sf (d := ⟨0, 1, 0⟩) (va := 180) (by norm_num)
  unfold View.transformTo at this
  rw [if_neg (by rw [e2]; simp [him]), if_neg hout4] at this
  simp [him] at this

end Verif.Map
