import Verif.Props.SolidMean
import Mathlib.MeasureTheory.Integral.IntervalIntegral.Periodic

/-! C202: every direction is shown at the place the mapper computes, and turning or aligning angular pictures keeps the light. -/

namespace Verif.Map
open Verif.Geo Real MeasureTheory Set Filter Topology

/-! ### Spec -/

/-- turned by `ang` degrees about the line of sight of the default view -/
noncomputable def spin (ang : ℝ) (p : V3) : V3 :=
  ⟨cos (ang * π / 180) * p.x + sin (ang * π / 180) * p.z, p.y, -sin (ang * π / 180) * p.x + cos (ang * π / 180) * p.z⟩

/-- a weight that only depends on the angle to the line of sight (one: the total, the cosine: the illuminance) -/
def Round (w : V3 → ℝ) : Prop := ∀ p q : V3, p.y = q.y → w p = w q

/-! ### directions and places -/

/-- every direction but the one straight back is drawn by the polar construction -/
theorem polar_onto {p : V3} (hp : p.normSq = 1) (hz : p ≠ ⟨0, 0, -1⟩) : ∃ u : ℝ × ℝ, rad2 u < 1 ∧ polar2view u = p := by
  have hpi := pi_pos
  unfold V3.normSq at hp
  have hz1 : -1 ≤ p.z := by nlinarith [sq_nonneg p.x, sq_nonneg p.y]
  have hz2 : p.z ≤ 1 := by nlinarith [sq_nonneg p.x, sq_nonneg p.y]
  obtain ⟨r, hr⟩ : ∃ r, r = √(p.x ^ 2 + p.y ^ 2) := ⟨_, rfl⟩
  have hr0 : 0 ≤ r := by rw [hr]; positivity
  have hr2 : r ^ 2 = p.x ^ 2 + p.y ^ 2 := by rw [hr]; exact sq_sqrt (by positivity)
  have hs : sin (arccos p.z) = r := by
    rw [sin_arccos, hr]; congr 1; linarith
  rcases hr0.lt_or_eq with h | h
  · have hlt : arccos p.z < π := by
      rcases (arccos_le_pi p.z).lt_or_eq with h1 | h1
      · exact h1
      · rw [h1, sin_pi] at hs; linarith
    have h0 : 0 < arccos p.z := by
      rcases (arccos_nonneg p.z).lt_or_eq with h1 | h1
      · exact h1
      · rw [← h1, sin_zero] at hs; linarith
    have hk : 0 < arccos p.z / (π * r) := by positivity
    have hrad : rad2 (p.x * (arccos p.z / (π * r)), p.y * (arccos p.z / (π * r))) = arccos p.z / π := by
      unfold rad2
      simp only
      rw [show (p.x * (arccos p.z / (π * r))) ^ 2 + (p.y * (arccos p.z / (π * r))) ^ 2 = (p.x ^ 2 + p.y ^ 2) * (arccos p.z / (π * r)) ^ 2 by ring,
        ← hr2, show r ^ 2 * (arccos p.z / (π * r)) ^ 2 = (arccos p.z / π) ^ 2 by field_simp]
      exact sqrt_sq (by positivity)
    have hlt1 : arccos p.z / π < 1 := by rwa [div_lt_one hpi]
    refine ⟨_, by rw [hrad]; exact hlt1, ?_⟩
    have hf := polFactor_eq (r := arccos p.z / π) (by positivity) hlt1.le
    have he : π * (arccos p.z / π) = arccos p.z := by field_simp
    rw [he, hs] at hf
    have hf2 : polFactor (arccos p.z / π) = π * r / arccos p.z := by
      rw [eq_div_iff h0.ne']
      field_simp at hf
      linarith
    unfold polar2view
    rw [hrad, he, cos_arccos hz1 hz2, hf2]
    apply V3.ext <;> simp only
    · field_simp
    · field_simp
  · have hx : p.x = 0 := by nlinarith [sq_nonneg p.x, sq_nonneg p.y]
    have hy : p.y = 0 := by nlinarith [sq_nonneg p.x, sq_nonneg p.y]
    have hz3 : p.z = 1 := by
      rw [hx, hy] at hp
      have : (p.z - 1) * (p.z + 1) = 0 := by nlinarith
      rcases mul_eq_zero.mp this with h1 | h1
      · linarith
      · exact absurd (V3.ext hx hy (by simp only; linarith)) hz
    refine ⟨(0, 0), by unfold rad2; simp, ?_⟩
    unfold polar2view rad2
    apply V3.ext <;> simp [hx, hy, hz3]

theorem xyz2xy_back : Geo.xyz2xy Axes.std true ⟨0, 0, -1⟩ = (0, 2) := by
  have hpi := pi_pos
  unfold Geo.xyz2xy
  simp only [Axes.std, V3.get, if_true]
  have h1 : arctan2 0 0 = 0 := arctan2_zero
  have h2 : arctan2 (√((0 : ℝ) ^ 2 + 0 ^ 2)) (-1) = π := by
    rw [show √((0 : ℝ) ^ 2 + 0 ^ 2) = 0 by simp]
    unfold arctan2
    rw [show (⟨-1, 0⟩ : ℂ) = -1 by apply Complex.ext <;> simp]
    exact Complex.arg_neg_one
  rw [h1, h2]
  simp

/-- **C52, the other way round.** Every direction of the sphere, in view or not, is the direction of the place the mapper
computes for it: world to image space and back is the identity, for every line of sight and every view angle up to 180. -/
theorem C52_world_round_trip (d : V3) (hd : d ≠ V3.zero) (va : ℝ) (h0 : 0 < va) (h1 : va ≤ 180) (p : V3) (hp : p.normSq = 1) :
    (View.new d va).vxy2xyz ((View.new d va).xyz2vxy p) = p := by
  have hpi := pi_pos
  obtain ⟨_, _, e1, e2, e3⟩ := new_sf (d := d) (va := va) (by linarith)
  obtain ⟨a, b⟩ := va_cf_pos h0 h1
  have hw : ((View.new d va).w2v p).normSq = 1 := by rw [new_w2v hd, fwd_normSq, hp]
  have hback : (View.new d va).v2w ((View.new d va).w2v p) = p := (C50_isometry d hd va p p).1
  have key : ∀ X Y : ℝ, Geo.xyz2xy Axes.std true ((View.new d va).w2v p) = (X, Y) →
      polar2view (-(X / 2), Y / 2) = (View.new d va).w2v p → (View.new d va).vxy2xyz ((View.new d va).xyz2vxy p) = p := by
    intro X Y hX hY
    have hc : (View.new d va).centred ((View.new d va).xyz2vxy p) = (-(X / 2), Y / 2) := by
      unfold View.xyz2vxy
      rw [e2]
      simp only [Bool.false_eq_true, if_false]
      unfold View.xyz2vxy1 View.centred
      rw [hX, e1, e3]
      have := a.ne'
      generalize va * chordFactor va = k at *
      apply Prod.ext <;> simp only <;> field_simp <;> ring
    unfold View.vxy2xyz View.vxy2xyzM
    simp only
    rw [hc, hY, hback]
  by_cases hz : (View.new d va).w2v p = ⟨0, 0, -1⟩
  · refine key 0 2 (by rw [hz, xyz2xy_back]) ?_
    rw [hz]
    unfold polar2view rad2
    apply V3.ext <;> simp [polFactor]
  · obtain ⟨u, hu, hpu⟩ := polar_onto hw hz
    refine key (-(2 * u.1)) (2 * u.2) (by rw [← hpu, xyz2xy_polar u hu]) ?_
    rw [← hpu]
    congr 1
    apply Prod.ext <;> simp only <;> ring

/-- **C52** the same in pixels -/
theorem C52_world_pixel (d : V3) (hd : d ≠ V3.zero) (va : ℝ) (h0 : 0 < va) (h1 : va ≤ 180) (res : ℕ) (hr : 0 < res) (p : V3)
    (hp : p.normSq = 1) : (View.new d va).pixel2ray res ((View.new d va).ray2pixelF res p) = p := by
  have hr' : (res : ℝ) ≠ 0 := by positivity
  have := C52_world_round_trip d hd va h0 h1 p hp
  unfold View.pixel2ray View.ray2pixelF
  simp only
  rw [mul_div_cancel_right₀ _ hr', mul_div_cancel_right₀ _ hr']
  exact this

example : (View.new ⟨1, 2, 3⟩ 100).vxy2xyz ((View.new ⟨1, 2, 3⟩ 100).xyz2vxy ⟨-0.6, 0, 0.8⟩) = ⟨-0.6, 0, 0.8⟩ :=
  C52_world_round_trip _ (by intro h; have := congrArg V3.x h; simp [V3.zero] at this) _ (by norm_num) (by norm_num) _
    (by unfold V3.normSq; norm_num)

/-! ### reading a picture near a place -/

theorem grid_close (nearest : Bool) (fill : Option ℝ) (im : Img ℝ) {n : ℕ} (hn : 2 ≤ n) (hin : im.n = n) (him : im.m = n) {X : ℝ × ℝ}
    (h1 : 0 ≤ X.1) (h2 : X.1 ≤ (n : ℝ) - 1) (h3 : 0 ≤ X.2) (h4 : X.2 ≤ (n : ℝ) - 1) {c e : ℝ}
    (h : ∀ a b, a < n → b < n → |(a : ℝ) - X.1| ≤ 1 → |(b : ℝ) - X.2| ≤ 1 → |im.at_ a b - c| ≤ e) :
    |gridInterp nearest fill im X - c| ≤ e := by
  unfold gridInterp bilin
  rw [if_neg (by
    rw [hin, him]
    unfold offGrid
    rintro ⟨_, (h5 | h5) | (h5 | h5)⟩ <;> linarith), hin, him]
  cases nearest
  · simp only [Bool.false_eq_true, if_false]
    exact lin_close hn h1 h2 _ fun a ha g1 => lin_close hn h3 h4 _ fun b hb g2 => h a b ha hb g1 g2
  · simp only [if_true]
    exact h _ _ (nearIdx_lt hn _) (nearIdx_lt hn _) (near_close hn h1 h2) (near_close hn h3 h4)

theorem lin_bound3 {n : ℕ} (hn : 2 ≤ n) {x : ℝ} (h0 : 0 ≤ x) (h1 : x ≤ (n : ℝ)) (f : ℕ → ℝ) {B : ℝ}
    (h : ∀ k, k < n → |f k| ≤ B) : |lin n f x| ≤ 3 * B := by
  have hk := cell_le hn x
  have e1 := h (cellOf n x) (by omega)
  have e2 := h (cellOf n x + 1) hk
  have ht : 0 ≤ x - cellOf n x ∧ x - cellOf n x ≤ 2 := by
    unfold cellOf
    have hf : ((⌊x⌋.toNat : ℕ) : ℝ) = ⌊x⌋ := by
      have := Int.toNat_of_nonneg (Int.floor_nonneg.mpr h0)
      exact_mod_cast congrArg (Int.cast : ℤ → ℝ) this
    have a := Int.floor_le x
    have b := Int.lt_floor_add_one x
    rcases Nat.le_total ⌊x⌋.toNat (n - 2) with hc | hc
    · rw [min_eq_left hc, hf]
      constructor <;> linarith
    · rw [min_eq_right hc]
      have h2 : ((n - 2 : ℕ) : ℝ) = (n : ℝ) - 2 := by rw [Nat.cast_sub hn]; norm_num
      have h3 : ((n - 2 : ℕ) : ℝ) ≤ ⌊x⌋ := by rw [← hf]; exact_mod_cast hc
      rw [h2] at h3 ⊢
      constructor <;> linarith
  unfold lin
  set t := x - cellOf n x
  have hB : 0 ≤ B := (abs_nonneg _).trans e1
  refine (abs_add_le _ _).trans ?_
  rw [abs_mul, abs_mul]
  have a1 : |1 - t| + |t| ≤ 3 := by
    rcases abs_cases t with ⟨u, _⟩ | ⟨u, _⟩ <;> rcases abs_cases (1 - t) with ⟨v, _⟩ | ⟨v, _⟩ <;> rw [u, v] <;> linarith [ht.1, ht.2]
  nlinarith [abs_nonneg (1 - t), abs_nonneg t]

theorem grid_bound (nearest : Bool) (fill : Option ℝ) (im : Img ℝ) {n : ℕ} (hn : 2 ≤ n) (hin : im.n = n) (him : im.m = n) {X : ℝ × ℝ}
    (h1 : 0 ≤ X.1) (h2 : X.1 ≤ n) (h3 : 0 ≤ X.2) (h4 : X.2 ≤ n) {B : ℝ} (h : ∀ a b, a < n → b < n → |im.at_ a b| ≤ B) :
    |gridInterp nearest fill im X| ≤ 9 * B + |fill.getD 0| := by
  have hB : 0 ≤ B := (abs_nonneg _).trans (h 0 0 (by omega) (by omega))
  have hF := abs_nonneg (fill.getD 0)
  unfold gridInterp bilin
  split_ifs with c1 c2
  · linarith
  · have := h _ _ (nearIdx_lt hn X.1) (nearIdx_lt hn X.2)
    rw [hin, him]
    linarith
  · rw [hin, him]
    have := lin_bound3 (B := 3 * B) hn h1 h2 (fun a => lin n (im.at_ a) X.2) fun a ha => lin_bound3 hn h3 h4 _ fun b hb => h a b ha hb
    linarith

theorem ray_polar (n : ℕ) (q : ℝ × ℝ) : (dfltView 180).pixel2ray n q
    = (dfltView 180).v2w (polar2view (-(q.1 / n - 1 / 2), q.2 / n - 1 / 2)) := by
  have hc := centred_view (d := ⟨0, 1, 0⟩) (va := 180) le_rfl (q.1 / n, q.2 / n)
  have hk : kOf 180 = 1 := by unfold kOf; rw [cf_180]; norm_num
  rw [hk, mul_one, mul_one] at hc
  unfold dfltView View.pixel2ray View.vxy2xyz View.vxy2xyzM
  rw [hc]

/-- a picture read at a place inside the circle holds nearly the scene in the direction of that place -/
theorem read_near (L : V3 → ℝ) (B : ℝ) {z e δ : ℝ} (hz : 0 < z) {n : ℕ} (hn : 16 < z * n) (hz1 : z ≤ 1) (hδ : 12 / n < δ)
    (hu : ∀ p q : V3, p.normSq = 1 → q.normSq = 1 → |p.x - q.x| < δ → |p.y - q.y| < δ → |p.z - q.z| < δ → |L p - L q| < e)
    (nearest : Bool) (fill : Option ℝ) (im : Img ℝ) (hp : AnglePicture L B n im) (X : ℝ × ℝ) (hX : off (X.1 / n, X.2 / n) < 1 / 2)
    (hX2 : z ≤ cos (π * off (X.1 / n, X.2 / n))) : |gridInterp nearest fill im X - L ((dfltView 180).pixel2ray n X)| ≤ e := by
  obtain ⟨p1, p2, p3, p4⟩ := hp
  have hpi := pi_gt_three
  have hpi4 := pi_le_four
  have hnr : (16 : ℝ) < n := by
    have : (0 : ℝ) ≤ n := Nat.cast_nonneg n
    nlinarith
  have hn0 : (0 : ℝ) < n := by linarith
  have hn2 : 2 ≤ n := by
    have : (2 : ℝ) ≤ n := by linarith
    exact_mod_cast this
  obtain ⟨x, hx⟩ : ∃ x : ℝ × ℝ, x = (X.1 / n, X.2 / n) := ⟨_, rfl⟩
  have x1 : X.1 = x.1 * n := by rw [hx]; field_simp
  have x2 : X.2 = x.2 * n := by rw [hx]; field_simp
  have hoff0 := off_nonneg x
  rw [← hx] at hX hX2
  obtain ⟨c1, c2⟩ := comp_le_off x
  rw [abs_le] at c1 c2
  have hpz : off x ≤ 1 / 2 - z / 4 := by
    have : cos (π * off x) ≤ π / 2 - π * off x := by
      rw [← sin_pi_div_two_sub]
      exact sin_le (by nlinarith)
    nlinarith
  have hzn : 1 / (n : ℝ) ≤ z / 16 := by
    rw [div_le_div_iff₀ hn0 (by norm_num)]; linarith
  refine grid_close nearest fill im hn2 p1 p2 (X := X) ?_ ?_ ?_ ?_ fun a b ha hb ha' hb' => ?_
  · rw [x1]; nlinarith
  · rw [x1]; nlinarith
  · rw [x2]; nlinarith
  · rw [x2]; nlinarith
  · have q1 : |(mid n a b).1 - x.1| ≤ 3 / 2 * (1 / n) := by
      rw [show (mid n a b).1 - x.1 = ((a : ℝ) - X.1 + 1 / 2) * (1 / n) by rw [x1]; unfold mid; field_simp; ring, abs_mul,
        abs_of_pos (show (0 : ℝ) < 1 / n by positivity)]
      refine mul_le_mul_of_nonneg_right ?_ (by positivity)
      rw [abs_le] at ha' ⊢
      constructor <;> linarith [ha'.1, ha'.2]
    have q2 : |(mid n a b).2 - x.2| ≤ 3 / 2 * (1 / n) := by
      rw [show (mid n a b).2 - x.2 = ((b : ℝ) - X.2 + 1 / 2) * (1 / n) by rw [x2]; unfold mid; field_simp; ring, abs_mul,
        abs_of_pos (show (0 : ℝ) < 1 / n by positivity)]
      refine mul_le_mul_of_nonneg_right ?_ (by positivity)
      rw [abs_le] at hb' ⊢
      constructor <;> linarith [hb'.1, hb'.2]
    have hq := off_add _ _ q1 q2
    have hlt : off (mid n a b) < 1 / 2 := by linarith
    rw [p3 a b ha hb hlt]
    have hos := off_sq x
    obtain ⟨d1, d2, d3⟩ := polar_near (u := (-((mid n a b).1 - 1 / 2), (mid n a b).2 - 1 / 2))
      (v := (-(x.1 - 1 / 2), x.2 - 1 / 2)) (h := 3 * (1 / n)) (by
        simp only [neg_sq]
        rw [← hos]
        nlinarith) (by
        simp only
        rw [show -((mid n a b).1 - 1 / 2) - -(x.1 - 1 / 2) = -((mid n a b).1 - x.1) by ring, abs_neg]
        linarith) (by
        simp only
        rw [show (mid n a b).2 - 1 / 2 - (x.2 - 1 / 2) = (mid n a b).2 - x.2 by ring]
        linarith) (by linarith)
    have h12 : 4 * (3 * (1 / (n : ℝ))) < δ := by
      rw [show 4 * (3 * (1 / (n : ℝ))) = 12 / n by ring]; exact hδ
    refine (hu _ _ (pixel_unit ⟨0, 1, 0⟩ dflt_ne 180 n (pixelCentre a b)) (pixel_unit ⟨0, 1, 0⟩ dflt_ne 180 n X) ?_ ?_ ?_).le
    all_goals
      rw [show (View.new ⟨0, 1, 0⟩ 180) = dfltView 180 from rfl, ray_polar, ray_polar, dflt_v2w, dflt_v2w]
      simp only
    · rw [show ∀ s t : ℝ, -s - -t = -(s - t) from fun s t => by ring, abs_neg]
      rw [hx] at d1
      exact d1.trans_lt h12
    · rw [hx] at d3
      exact d3.trans_lt h12
    · rw [hx] at d2
      exact d2.trans_lt h12

/-- where the default view shows a direction in front -/
theorem front_place {p : V3} (hp : p.normSq = 1) (hy : 0 < p.y) :
    off ((dfltView 180).xyz2vxy p) < 1 / 2 ∧ cos (π * off ((dfltView 180).xyz2vxy p)) = p.y := by
  have hpi := pi_pos
  have hcf := cf_180
  obtain ⟨_, _, e1, e2, e3⟩ := new_sf (d := ⟨0, 1, 0⟩) (va := 180) (by norm_num)
  have hw : ((dfltView 180).w2v p).normSq = 1 := by unfold dfltView; rw [new_w2v dflt_ne, fwd_normSq, hp]
  have hback : (dfltView 180).v2w ((dfltView 180).w2v p) = p := (C50_isometry ⟨0, 1, 0⟩ dflt_ne 180 p p).1
  have hwz : ((dfltView 180).w2v p).z = p.y := by
    have := congrArg V3.y hback
    rw [dflt_v2w] at this
    exact this
  obtain ⟨u, hu, hpu⟩ := polar_onto hw (fun h => by rw [h] at hwz; simp only at hwz; linarith)
  have hplace : (dfltView 180).xyz2vxy p = (-u.1 + 1 / 2, u.2 + 1 / 2) := by
    unfold View.xyz2vxy
    rw [show (dfltView 180).two = false from e2]
    simp only [Bool.false_eq_true, if_false]
    unfold View.xyz2vxy1
    rw [← hpu, xyz2xy_polar u hu, show (dfltView 180).va = 180 from e1, show (dfltView 180).cf = chordFactor 180 from e3, hcf]
    apply Prod.ext <;> simp only <;> ring
  rw [hplace, off_dir]
  have hz : cos (π * rad2 u) = p.y := by rw [← hwz, ← hpu]; rfl
  refine ⟨?_, hz⟩
  by_contra hc
  have hr := not_lt.mp hc
  have : cos (π * rad2 u) ≤ 0 := cos_nonpos_of_pi_div_two_le_of_le (by nlinarith) (by nlinarith)
  linarith

/-! ### the results -/

/-- **C202, pixels.** Turn and align angular pictures of a continuous scene with `array_rotate` (any angle, no new centre, a
centre or a pair of points, linear or nearest, any fill value). From some resolution on, which depends on the scene and the two
tolerances only, every pixel of the result whose direction comes from at least `z` in front of the picture holds the scene in
the direction it comes from up to `e`. The directions are moved by one rigid map, the turn about the line of sight if no centre
is given. -/
theorem C202_pixels (L : V3 → ℝ) (hL : Smooth L) (B : ℝ) {e z : ℝ} (he : 0 < e) (hz : 0 < z) (hz1 : z ≤ 1) :
    ∀ᶠ n : ℕ in atTop, ∀ im out : Img ℝ, AnglePicture L B n im → ∀ (nearest : Bool) (fill : Option ℝ) (ang : ℝ) (center : Option (List ℝ)),
      CentreOk center → arrayRotate nearest fill im ang center true = .ok out →
      ∃ G : V3 → V3, (∀ p q, (G p).dot (G q) = p.dot q) ∧ (∀ p, lookRay n ang center true p = .ok (G p)) ∧
        (center = none → G = spin ang) ∧
        ∀ i j, i < n → j < n → z ≤ (G ((dfltView 180).pixel2ray n (pixelCentre i j))).y →
          |out.at_ i j - L (G ((dfltView 180).pixel2ray n (pixelCentre i j)))| ≤ e := by
  obtain ⟨δ, hδ, hu⟩ := smooth_unif hL he
  have hbig : Tendsto (fun n : ℕ => z * (n : ℝ)) atTop atTop := (tendsto_natCast_atTop_atTop).const_mul_atTop hz
  have hsm : Tendsto (fun n : ℕ => (12 : ℝ) / n) atTop (𝓝 0) := tendsto_const_div_atTop_nhds_zero_nat 12
  filter_upwards [hbig.eventually_gt_atTop 16, hsm.eventually (gt_mem_nhds hδ)] with n h1 h2 im out hp nearest fill ang center hc ho
  choose G hG using fun p => (C113_rigid n ang center hc true p p).imp fun p' h => (h.imp fun q' h' => h'.1)
  have hG : ∀ p, lookRay n ang center true p = .ok (G p) := fun p => (hG p).elim fun _ h => h
  have hdot : ∀ p q, (G p).dot (G q) = p.dot q := by
    intro p q
    obtain ⟨p', q', a, b, c⟩ := C113_rigid n ang center hc true p q
    rw [hG] at a b
    injection a with a
    injection b with b
    rw [a, b, c]
  refine ⟨G, hdot, hG, ?_, ?_⟩
  · intro h
    funext p
    have := hG p
    rw [h] at this
    unfold lookRay aimRay turnRay at this
    simp only [if_true] at this
    injection this with this
    rw [← this]
    unfold spin
    split_ifs with h0
    · rw [rot1]; unfold angleOf; simp
    · have : ang = 0 := by simpa using h0
      rw [this]; simp
  · intro i j hi hj hy
    have hn0 : 0 < n := by omega
    have hn0' : (n : ℝ) ≠ 0 := by positivity
    have hunit : (G ((dfltView 180).pixel2ray n (pixelCentre i j))).normSq = 1 := by
      rw [normSq_dot, hdot, ← normSq_dot]
      exact pixel_unit ⟨0, 1, 0⟩ dflt_ne 180 n (pixelCentre i j)
    have hval : out.at_ i j = gridInterp nearest fill im ((dfltView 180).ray2pixelF n (G ((dfltView 180).pixel2ray n (pixelCentre i j)))) := by
      unfold arrayRotate rotatePass at ho
      obtain ⟨a', ha'⟩ := aim_ok (res := im.m) hc ⟨0, 1, 0⟩
      rw [if_neg (by rw [hp.1, hp.2.1]; simp), ha'] at ho
      simp only [Except.map, Except.bind, Bool.not_true, Bool.false_eq_true, false_and, if_false] at ho
      injection ho with ho
      rw [← ho]
      unfold lookAt
      rw [hp.2.1]
      simp only
      rw [hG]
      rfl
    rw [hval]
    have hplace := front_place hunit (lt_of_lt_of_le hz hy)
    have hX : (((dfltView 180).ray2pixelF n (G ((dfltView 180).pixel2ray n (pixelCentre i j)))).1 / (n : ℝ),
        ((dfltView 180).ray2pixelF n (G ((dfltView 180).pixel2ray n (pixelCentre i j)))).2 / (n : ℝ))
        = (dfltView 180).xyz2vxy (G ((dfltView 180).pixel2ray n (pixelCentre i j))) := by
      unfold View.ray2pixelF
      apply Prod.ext <;> simp only <;> rw [mul_div_cancel_right₀ _ hn0']
    have := read_near L B hz h1 hz1 h2 hu nearest fill im hp ((dfltView 180).ray2pixelF n (G ((dfltView 180).pixel2ray n (pixelCentre i j))))
      (by rw [hX]; exact hplace.1) (by rw [hX, hplace.2]; exact hy)
    rwa [show (dfltView 180).pixel2ray n ((dfltView 180).ray2pixelF n (G ((dfltView 180).pixel2ray n (pixelCentre i j))))
      = G ((dfltView 180).pixel2ray n (pixelCentre i j)) from C52_world_pixel ⟨0, 1, 0⟩ dflt_ne 180 (by norm_num) le_rfl n hn0 _ hunit] at this

theorem spin_ray {n : ℕ} (hn : 0 < n) (ang : ℝ) (q : ℝ × ℝ) :
    spin ang ((dfltView 180).pixel2ray n q) = (dfltView 180).pixel2ray n (clockwise n ang q) := by
  rw [← turn_ray hn]
  unfold turnRay spin
  split_ifs with h0
  · rw [rot1]; unfold angleOf; simp
  · have : ang = 0 := by simpa using h0
    rw [this]; simp

/-- **C202, light.** Turn angular pictures of any continuous scene by any angle. As the resolution grows, the sum over the
pixels in view of value, any continuous weight of the direction, and solid angle tends to the integral of the turned scene times
weight over the hemisphere, whatever lies outside the circle, with linear or nearest interpolation and any fill value. -/
theorem C202_turn (L w : V3 → ℝ) (hL : Smooth L) (hw : Smooth w) (B : ℝ) (hB : 0 ≤ B) (nearest : Bool) (fill : Option ℝ) (ang : ℝ)
    (im out : ℕ → Img ℝ) (hp : ∀ n, AnglePicture L B n (im n)) (ho : ∀ n, arrayRotate nearest fill (im n) ang none true = .ok (out n)) :
    Tendsto (fun n => (out n).lightIn (dfltView 180) w) atTop
      (𝓝 (capIntegral (π / 2) fun p => L (spin ang ((dfltView 180).v2w p)) * w ((dfltView 180).v2w p))) := by
  have hpi := pi_pos
  obtain ⟨M, hM0, hM⟩ := smooth_bound hw
  obtain ⟨M', hM'0, hM'⟩ := smooth_bound hL
  have hLs : Smooth fun p => L (spin ang p) := by
    have hm : Continuous fun p : ℝ × ℝ × ℝ => (cos (ang * π / 180) * p.1 + sin (ang * π / 180) * p.2.2, p.2.1,
      -sin (ang * π / 180) * p.1 + cos (ang * π / 180) * p.2.2) := by fun_prop
    exact hL.comp hm
  have hLw : Smooth fun p => L (spin ang p) * w p := by unfold Smooth at *; exact hLs.mul hw
  have ha : chordFactor 180 * 180 * π / 360 = π / 2 := by rw [cf_180]; ring
  have base := C158_limit ⟨0, 1, 0⟩ dflt_clear 180 (by norm_num) le_rfl _ hLw
  have area := C158_area ⟨0, 1, 0⟩ dflt_clear 180 (by norm_num) le_rfl
  rw [ha] at base area
  rw [cos_pi_div_two, sub_zero, mul_one] at area
  have hunif := fun e he => smooth_unif hL (e := e) he
  rw [Metric.tendsto_nhds] at base ⊢
  intro e he
  obtain ⟨δ, hδ, hu⟩ := hunif (e / (28 * (M + 1))) (by positivity)
  obtain ⟨z, hz0, hz1, hedge⟩ := edge_small (e := e / (4 * ((9 * B + |fill.getD 0| + M') * M + 1))) (by positivity)
  have hbig : Tendsto (fun n : ℕ => z * (n : ℝ)) atTop atTop := (tendsto_natCast_atTop_atTop).const_mul_atTop hz0
  have hsm : Tendsto (fun n : ℕ => (12 : ℝ) / n) atTop (𝓝 0) := tendsto_const_div_atTop_nhds_zero_nat 12
  have harea : (2 * π : ℝ) < 7 := by nlinarith [pi_lt_d2]
  filter_upwards [hedge, hbig.eventually_gt_atTop 16, hsm.eventually (gt_mem_nhds hδ), base (e / 4) (by positivity),
    area.eventually (gt_mem_nhds harea)] with n h1 h2 h3 h4 h5
  have h4 : |viewSum (dfltView 180) (fun p => L (spin ang p) * w p) n
      - capIntegral (π / 2) fun p => L (spin ang ((dfltView 180).v2w p)) * w ((dfltView 180).v2w p)| < e / 4 := by
    rw [← Real.dist_eq]; exact h4
  have h5 : viewSum (dfltView 180) (fun _ => 1) n < 7 := h5
  obtain ⟨out', ho1, ho2, ho3, ho4⟩ := C110_array nearest fill (im n) ((hp n).1.trans (hp n).2.1.symm) ang
  rw [ho n] at ho1
  injection ho1 with ho1
  subst ho1
  have e1 : (out n).n = n := ho2.trans (hp n).1
  have e2 : (out n).m = n := ho3.trans (hp n).2.1
  have hnr : (16 : ℝ) < n := by
    have : (0 : ℝ) ≤ n := Nat.cast_nonneg n
    nlinarith
  have hn0 : (0 : ℝ) < n := by linarith
  have hn2 : 2 ≤ n := by
    have : (2 : ℝ) ≤ n := by linarith
    exact_mod_cast this
  have hf0 := abs_nonneg (fill.getD 0)
  have key : |(out n).lightIn (dfltView 180) w - viewSum (dfltView 180) (fun p => L (spin ang p) * w p) n| ≤
      e / (28 * (M + 1)) * M * viewSum (dfltView 180) (fun _ => 1) n + (9 * B + |fill.getD 0| + M') * M * edgeSum z n := by
    unfold Img.lightIn viewSum edgeSum
    rw [e1, e2, ← Finset.sum_sub_distrib, Finset.mul_sum, Finset.mul_sum, ← Finset.sum_add_distrib]
    refine (Finset.abs_sum_le_sum_abs _ _).trans (Finset.sum_le_sum fun i hi => ?_)
    rw [← Finset.sum_sub_distrib, Finset.mul_sum, Finset.mul_sum, ← Finset.sum_add_distrib]
    refine (Finset.abs_sum_le_sum_abs _ _).trans (Finset.sum_le_sum fun j hj => ?_)
    have hi := Finset.mem_range.mp hi
    have hj := Finset.mem_range.mp hj
    have hom : 0 ≤ (dfltView 180).pixel2omega n (pixelCentre i j) := sqrt_nonneg _
    have hwm := hM _ (pixel_unit ⟨0, 1, 0⟩ dflt_ne 180 n (pixelCentre i j))
    rw [show (View.new ⟨0, 1, 0⟩ 180) = dfltView 180 from rfl] at hwm
    by_cases hv : (dfltView 180).inView 0 ((dfltView 180).pixel2ray n (pixelCentre i j))
    · have hoff : off (mid n i j) < 1 / 2 := by
        obtain ⟨a0, a1⟩ := centre_div hi
        obtain ⟨b0, b1⟩ := centre_div hj
        have := (C53_circle_partial ⟨0, 1, 0⟩ dflt_clear 180 (by norm_num) le_rfl (((i : ℝ) + 1 / 2) / n, ((j : ℝ) + 1 / 2) / n)
          a0 a1 b0 b1).mp hv
        rw [← rad2_lt_half] at this
        exact this
      have hX : off ((clockwise n ang (pixelCentre i j)).1 / n, (clockwise n ang (pixelCentre i j)).2 / n) = off (mid n i j) :=
        clockwise_off (by omega) ang (pixelCentre i j)
      have hval := ho4 i j (by rw [(hp n).1]; exact hi) (by rw [(hp n).2.1]; exact hj)
      rw [(hp n).2.1] at hval
      have hLm := hM' _ (pixel_unit ⟨0, 1, 0⟩ dflt_ne 180 n (clockwise n ang (pixelCentre i j)))
      rw [show (View.new ⟨0, 1, 0⟩ 180) = dfltView 180 from rfl] at hLm
      simp only [hv, true_and, if_true, one_mul]
      rw [show ∀ a b c o : ℝ, a * b * o - c * b * o = (a - c) * b * o from fun a b c o => by ring, abs_mul, abs_mul,
        abs_of_nonneg hom, spin_ray (by omega), hval]
      split_ifs with hz
      · obtain ⟨c1, c2⟩ := comp_le_off ((clockwise n ang (pixelCentre i j)).1 / n, (clockwise n ang (pixelCentre i j)).2 / n)
        rw [hX, abs_le] at c1 c2
        simp only at c1 c2
        have g : ∀ x : ℝ, -off (mid n i j) ≤ x / n - 1 / 2 → x / n - 1 / 2 ≤ off (mid n i j) → 0 ≤ x ∧ x ≤ n := by
          intro x g1 g2
          have g3 : x = x / n * n := by field_simp
          constructor
          · rw [g3]; nlinarith
          · have : x / n ≤ 1 := by linarith
            rwa [div_le_one hn0] at this
        have k2 := grid_bound nearest fill (im n) hn2 (hp n).1 (hp n).2.1 (X := clockwise n ang (pixelCentre i j))
          (g _ c1.1 c1.2).1 (g _ c1.1 c1.2).2 (g _ c2.1 c2.2).1 (g _ c2.1 c2.2).2 (hp n).2.2.2
        have h6 : |gridInterp nearest fill (im n) (clockwise n ang (pixelCentre i j))
            - L ((dfltView 180).pixel2ray n (clockwise n ang (pixelCentre i j)))| ≤ 9 * B + |fill.getD 0| + M' :=
          (abs_sub _ _).trans (add_le_add k2 hLm)
        have h7 : |gridInterp nearest fill (im n) (clockwise n ang (pixelCentre i j))
            - L ((dfltView 180).pixel2ray n (clockwise n ang (pixelCentre i j)))| * |w ((dfltView 180).pixel2ray n (pixelCentre i j))| *
            (dfltView 180).pixel2omega n (pixelCentre i j) ≤ (9 * B + |fill.getD 0| + M') * M * (dfltView 180).pixel2omega n (pixelCentre i j) := by
          gcongr
        have h8 : 0 ≤ e / (28 * (M + 1)) * M * (dfltView 180).pixel2omega n (pixelCentre i j) := by positivity
        linarith
      · have := read_near L B hz0 h2 hz1 h3 hu nearest fill (im n) (hp n) (clockwise n ang (pixelCentre i j)) (by rw [hX]; exact hoff)
          (by rw [hX]; exact not_lt.mp hz)
        rw [mul_zero, add_zero]
        gcongr
    · simp [hv]
  have f1 : e / (28 * (M + 1)) * M * viewSum (dfltView 180) (fun _ => 1) n ≤ e / 4 := by
    refine (mul_le_mul_of_nonneg_left h5.le (by positivity)).trans ?_
    rw [div_mul_eq_mul_div, div_mul_eq_mul_div, div_le_div_iff₀ (by positivity) (by norm_num)]
    nlinarith
  have f2 : (9 * B + |fill.getD 0| + M') * M * edgeSum z n ≤ e / 4 := by
    have hp0 : 0 ≤ (9 * B + |fill.getD 0| + M') * M := by positivity
    refine (mul_le_mul_of_nonneg_left h1.le hp0).trans ?_
    rw [mul_div_assoc', div_le_div_iff₀ (by positivity) (by norm_num)]
    nlinarith
  rw [Real.dist_eq, abs_lt]
  rw [abs_le] at key
  rw [abs_lt] at h4
  constructor <;> linarith [key.1, key.2, h4.1, h4.2]

/-- the integral over the hemisphere does not see a turn about the line of sight -/
theorem cap_spin (L w : V3 → ℝ) (hw : Round w) (ang : ℝ) :
    (capIntegral (π / 2) fun p => L (spin ang ((dfltView 180).v2w p)) * w ((dfltView 180).v2w p))
      = capIntegral (π / 2) fun p => L ((dfltView 180).v2w p) * w ((dfltView 180).v2w p) := by
  unfold capIntegral
  refine intervalIntegral.integral_congr fun t _ => ?_
  simp only
  have hsp : ∀ f, spin ang ((dfltView 180).v2w (sphDir t f)) = (dfltView 180).v2w (sphDir t (f + ang * π / 180)) := by
    intro f
    rw [dflt_v2w, dflt_v2w]
    unfold spin sphDir
    apply V3.ext <;> simp only
    · rw [cos_add]; ring
    · rw [sin_add]; ring
  have hwf : ∀ f, w ((dfltView 180).v2w (sphDir t f)) = w ((dfltView 180).v2w (sphDir t (f + ang * π / 180))) := by
    intro f
    refine hw _ _ ?_
    rw [dflt_v2w, dflt_v2w]
    rfl
  have hper : Function.Periodic (fun f => L ((dfltView 180).v2w (sphDir t f)) * w ((dfltView 180).v2w (sphDir t f)) * sin t) (2 * π) := by
    intro f
    simp only
    have : sphDir t (f + 2 * π) = sphDir t f := by unfold sphDir; rw [cos_add_two_pi, sin_add_two_pi]
    rw [this]
  have e1 : (∫ f in (-π)..π, L (spin ang ((dfltView 180).v2w (sphDir t f))) * w ((dfltView 180).v2w (sphDir t f)) * sin t)
      = ∫ f in (-π)..π, (fun f => L ((dfltView 180).v2w (sphDir t f)) * w ((dfltView 180).v2w (sphDir t f)) * sin t) (f + ang * π / 180) := by
    refine intervalIntegral.integral_congr fun f _ => ?_
    simp only
    rw [hsp, hwf]
  rw [e1, intervalIntegral.integral_comp_add_right (fun f => L ((dfltView 180).v2w (sphDir t f)) * w ((dfltView 180).v2w (sphDir t f)) * sin t)]
  have := hper.intervalIntegral_add_eq (-π + ang * π / 180) (-π)
  rw [show -π + ang * π / 180 + 2 * π = π + ang * π / 180 by ring, show -π + 2 * π = π by ring] at this
  exact this

/-- **C202, light kept.** A turned picture gives the same total light and the same illuminance as the picture itself (and the
same for every weight that is constant around the line of sight), in the limit of high resolution. -/
theorem C202_kept (L w : V3 → ℝ) (hL : Smooth L) (hw : Smooth w) (hr : Round w) (B : ℝ) (hB : 0 ≤ B) (nearest : Bool) (fill : Option ℝ)
    (ang : ℝ) (im out : ℕ → Img ℝ) (hp : ∀ n, AnglePicture L B n (im n))
    (ho : ∀ n, arrayRotate nearest fill (im n) ang none true = .ok (out n)) :
    Tendsto (fun n => (out n).lightIn (dfltView 180) w - (im n).lightIn (dfltView 180) w) atTop (𝓝 0) := by
  have a := C202_turn L w hL hw B hB nearest fill ang im out hp ho
  rw [cap_spin L w hr] at a
  have hLw : Smooth fun p => L p * w p := by unfold Smooth at *; exact hL.mul hw
  have b := C158_limit ⟨0, 1, 0⟩ dflt_clear 180 (by norm_num) le_rfl _ hLw
  rw [show chordFactor 180 * 180 * π / 360 = π / 2 by rw [cf_180]; ring] at b
  have c := a.sub b
  rw [show (View.new ⟨0, 1, 0⟩ 180) = dfltView 180 from rfl, sub_self] at c
  refine c.congr fun n => ?_
  congr 1
  unfold Img.lightIn viewSum
  rw [(hp n).1, (hp n).2.1]
  refine Finset.sum_congr rfl fun i hi => Finset.sum_congr rfl fun j hj => ?_
  split_ifs with hv
  · have hi := Finset.mem_range.mp hi
    have hj := Finset.mem_range.mp hj
    obtain ⟨a0, a1⟩ := centre_div hi
    obtain ⟨b0, b1⟩ := centre_div hj
    have := (C53_circle_partial ⟨0, 1, 0⟩ dflt_clear 180 (by norm_num) le_rfl (((i : ℝ) + 1 / 2) / n, ((j : ℝ) + 1 / 2) / n)
      a0 a1 b0 b1).mp hv
    rw [← rad2_lt_half] at this
    rw [(hp n).2.2.1 i j hi hj this]
  · rfl

/-- pictures and turned pictures exist for every scene; total light and illuminance are weights of the kind meant -/
example (L : V3 → ℝ) {M : ℝ} (hM : ∀ v : V3, v.normSq = 1 → |L v| ≤ M) (n : ℕ) :
    (∃ im out, AnglePicture L M n im ∧ arrayRotate false none im 33 none true = .ok out) ∧ Round (fun _ => 1) ∧ Round (fun p => p.y) := by
  obtain ⟨im, -, h, -⟩ := angle_exists L hM true n
  obtain ⟨out, ho, -⟩ := C110_array false none im (h.1.trans h.2.1.symm) 33
  exact ⟨⟨im, out, h, ho⟩, fun _ _ _ => rfl, fun _ _ h => h⟩

end Verif.Map
