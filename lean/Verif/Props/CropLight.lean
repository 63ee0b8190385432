import Verif.Props.TurnLight

/-! C205: a view cut out of a picture shows the scene, and its sums are those of the scene. -/

namespace Verif.Map
open Verif.Geo Real MeasureTheory Set Filter Topology

/-! ### Spec -/

/-- the angle between a direction of view and a unit vector -/
noncomputable def apart (d p : V3) : ℝ := arccos ((norm d).dot p)

/-- half the angle a view of nominal size `va` shows (C86) -/
noncomputable def cone (va : ℝ) : ℝ := chordFactor va * va * π / 360

/-- a picture of the scene in the view `(d, va)`: inside the circle the scene, outside any values, all within `B` -/
def ViewPicture (L : V3 → ℝ) (B : ℝ) (d : V3) (va : ℝ) (n : ℕ) (im : Img ℝ) : Prop :=
  im.n = n ∧ im.m = n ∧
    (∀ i j, i < n → j < n → apart d ((View.new d va).pixel2ray n (pixelCentre i j)) < cone va →
      im.at_ i j = L ((View.new d va).pixel2ray n (pixelCentre i j))) ∧
    ∀ i j, i < n → j < n → |im.at_ i j| ≤ B

/-- the image `transform_to` makes in the view `(d, va)` of an image of the view `(d', va')` -/
def CutOut (nearest : Bool) (d : V3) (va : ℝ) (d' : V3) (va' : ℝ) (im out : Img ℝ) : Prop :=
  out.n = im.m ∧ out.m = im.m ∧
    ∀ i j, i < im.m → j < im.m → (View.new d va).transformTo (View.new d' va') (centreInterp nearest) im i j = .ok (out.at_ i j)

/-! ### angles and places -/

theorem radians_apart {d : V3} (hd : d ≠ V3.zero) (va : ℝ) {p : V3} (hp : p.normSq = 1) : (View.new d va).radians p = apart d p := by
  have h1 : (View.new d va).dxyz = norm d := by
    show norm1 d = norm d
    exact norm1_norm hd
  unfold View.radians Geo.radians apart
  rw [h1, ctheta_unit (normSq_norm hd) hp]

theorem in_apart {d : V3} (hd : d ≠ V3.zero) {va : ℝ} (h1 : va ≤ 180) {p : V3} (hp : p.normSq = 1) :
    (View.new d va).inView 0 p ↔ apart d p < cone va := by
  obtain ⟨_, _, e1, e2, e3⟩ := new_sf (d := d) (va := va) (by linarith)
  unfold View.inView cone
  rw [radians_apart hd va hp, e1, e3, sub_zero]

theorem cone_pos {va : ℝ} (h0 : 0 < va) (h1 : va ≤ 180) : 0 < cone va ∧ cone va ≤ π / 2 := by
  obtain ⟨a, b⟩ := va_cf_pos h0 h1
  have hpi := pi_pos
  unfold cone
  rw [mul_comm (chordFactor va)]
  constructor
  · positivity
  · rw [div_le_one (by norm_num)] at b
    nlinarith

theorem place_apart {d : V3} (h : Clear d) {va : ℝ} (h0 : 0 < va) (h1 : va ≤ 180) {p : V3} (hp : p.normSq = 1) :
    off ((View.new d va).xyz2vxy p) = apart d p / (2 * cone va) := by
  have hc := (cone_pos h0 h1).1
  have := C53_image_radius_partial d h va h0 h1 p hp
  rw [radians_apart h.1 va hp, show chordFactor va * va * π / 180 = 2 * cone va by unfold cone; ring, ← off_sq] at this
  have ha : 0 ≤ apart d p := arccos_nonneg _
  exact (sq_eq_sq₀ (off_nonneg _) (by positivity)).mp this

theorem apart_mid {d : V3} (h : Clear d) {va : ℝ} (h0 : 0 < va) (h1 : va ≤ 180) {n i j : ℕ} (hi : i < n) (hj : j < n) :
    apart d ((View.new d va).pixel2ray n (pixelCentre i j)) = off (mid n i j) * (2 * cone va) := by
  obtain ⟨a0, a1⟩ := centre_div hi
  obtain ⟨b0, b1⟩ := centre_div hj
  rw [← radians_apart h.1 va (pixel_unit d h.1 va n _)]
  have := C53_equiangular_partial d h va h0 h1 (mid n i j) a0 a1 b0 b1
  rw [show chordFactor va * va * π / 180 = 2 * cone va by unfold cone; ring] at this
  exact this

/-- a picture read at a place at least `z` inside the circle holds nearly the scene in the direction of that place -/
theorem read_view (L : V3 → ℝ) (B : ℝ) {d : V3} (hd : Clear d) {va : ℝ} (h0 : 0 < va) (h1 : va ≤ 180) {z e δ : ℝ} (hz : 0 < z) {n : ℕ}
    (hn : 16 < z * n) (hδ : 8 / n < δ)
    (hu : ∀ p q : V3, p.normSq = 1 → q.normSq = 1 → |p.x - q.x| < δ → |p.y - q.y| < δ → |p.z - q.z| < δ →
      |L ((View.new d va).v2w p) - L ((View.new d va).v2w q)| < e)
    (nearest : Bool) (im : Img ℝ) (hp : ViewPicture L B d va n im) (X : ℝ × ℝ) (hX : off (X.1 / n, X.2 / n) ≤ 1 / 2 - z) :
    |centreInterp nearest im X - L ((View.new d va).pixel2ray n X)| ≤ e := by
  obtain ⟨p1, p2, p3, p4⟩ := hp
  obtain ⟨k0, k1⟩ := kOf_pos h0 h1
  have hz1 : z ≤ 1 / 2 := by linarith [off_nonneg (X.1 / n, X.2 / n)]
  have hnr : (16 : ℝ) < n := by
    have : (0 : ℝ) ≤ n := Nat.cast_nonneg n
    nlinarith
  have hn0 : (0 : ℝ) < n := by linarith
  have hn2 : 2 ≤ n := by
    have : (2 : ℝ) ≤ n := by linarith
    exact_mod_cast this
  obtain ⟨x, hx⟩ : ∃ x : ℝ × ℝ, x = (X.1 / n, X.2 / n) := ⟨_, rfl⟩
  have x1 : X.1 = x.1 * n := by rw [hx]; field_simp
  have x2 : X.2 = x.2 * n := by rw [hx]; field_simp
  have hoff0 := off_nonneg x
  rw [← hx] at hX
  obtain ⟨c1, c2⟩ := comp_le_off x
  rw [abs_le] at c1 c2
  have hzn : 1 / (n : ℝ) ≤ z / 16 := by
    rw [div_le_div_iff₀ hn0 (by norm_num)]; linarith
  refine centre_close nearest im hn2 p1 p2 (X := X) ⟨?_, ?_, ?_, ?_⟩ fun a b ha hb ha' hb' => ?_
  · rw [x1]; nlinarith
  · rw [x1]; nlinarith
  · rw [x2]; nlinarith
  · rw [x2]; nlinarith
  · have q1 : |(mid n a b).1 - x.1| ≤ 1 / n := by
      rw [show (mid n a b).1 - x.1 = ((a : ℝ) + 1 / 2 - X.1) * (1 / n) by rw [x1]; unfold mid; field_simp, abs_mul,
        abs_of_pos (show (0 : ℝ) < 1 / n by positivity)]
      nlinarith [show (0 : ℝ) < 1 / n by positivity]
    have q2 : |(mid n a b).2 - x.2| ≤ 1 / n := by
      rw [show (mid n a b).2 - x.2 = ((b : ℝ) + 1 / 2 - X.2) * (1 / n) by rw [x2]; unfold mid; field_simp, abs_mul,
        abs_of_pos (show (0 : ℝ) < 1 / n by positivity)]
      nlinarith [show (0 : ℝ) < 1 / n by positivity]
    have hq := off_add _ _ q1 q2
    have hlt : off (mid n a b) < 1 / 2 := by linarith
    rw [p3 a b ha hb (by rw [apart_mid hd h0 h1 ha hb]; nlinarith [(cone_pos h0 h1).1])]
    have hos := off_sq x
    obtain ⟨d1, d2, d3⟩ := polar_near (u := (-(((mid n a b).1 - 1 / 2) * kOf va), ((mid n a b).2 - 1 / 2) * kOf va))
      (v := (-((x.1 - 1 / 2) * kOf va), (x.2 - 1 / 2) * kOf va)) (h := 2 * (1 / n)) (by
        simp only [neg_sq]
        rw [mul_pow, mul_pow, ← add_mul, ← hos, ← mul_pow]
        have : off x * kOf va ≤ off x := by nlinarith
        have : 0 ≤ off x * kOf va := by positivity
        nlinarith) (by
        simp only
        rw [show -(((mid n a b).1 - 1 / 2) * kOf va) - -((x.1 - 1 / 2) * kOf va) = -(((mid n a b).1 - x.1) * kOf va) by ring, abs_neg,
          abs_mul, abs_of_pos k0]
        nlinarith [abs_nonneg ((mid n a b).1 - x.1)]) (by
        simp only
        rw [show ((mid n a b).2 - 1 / 2) * kOf va - (x.2 - 1 / 2) * kOf va = ((mid n a b).2 - x.2) * kOf va by ring,
          abs_mul, abs_of_pos k0]
        nlinarith [abs_nonneg ((mid n a b).2 - x.2)]) (by linarith)
    have h12 : 4 * (2 * (1 / (n : ℝ))) < δ := by
      rw [show 4 * (2 * (1 / (n : ℝ))) = 8 / n by ring]; exact hδ
    have hr : ∀ q : ℝ × ℝ, (View.new d va).pixel2ray n q =
        (View.new d va).v2w (polar2view (-((q.1 / n - 1 / 2) * kOf va), (q.2 / n - 1 / 2) * kOf va)) := by
      intro q
      unfold View.pixel2ray View.vxy2xyz View.vxy2xyzM
      rw [centred_view h1]
    rw [hr, hr]
    refine (hu _ _ (polar2view_unit _) (polar2view_unit _) ?_ ?_ ?_).le
    · rw [hx] at d1
      exact d1.trans_lt h12
    · rw [hx] at d2
      exact d2.trans_lt h12
    · rw [hx] at d3
      exact d3.trans_lt h12

/-! ### the results -/

/-- **C205, pixels.** Cut any view `(d, va)` out of pictures of a continuous scene in the view `(d', va')`. From some resolution
on, which depends on the scene, the view of the pictures and the two tolerances only, every pixel of the result whose direction
is at least `z` inside the cone of the picture holds the scene in its own direction up to `e`; every pixel whose direction is
outside is zero. -/
theorem C205_pixels (L : V3 → ℝ) (hL : Smooth L) (B : ℝ) (d' : V3) (hd' : Clear d') (va' : ℝ) (h0' : 0 < va') (h1' : va' ≤ 180) {e z : ℝ}
    (he : 0 < e) (hz : 0 < z) :
    ∀ᶠ n : ℕ in atTop, ∀ im : Img ℝ, ViewPicture L B d' va' n im → ∀ (nearest : Bool) (d : V3) (va : ℝ), d ≠ V3.zero → 0 < va → va ≤ 180 →
      ∀ out, CutOut nearest d va d' va' im out → ∀ i j, i < n → j < n →
        (apart d' ((View.new d va).pixel2ray n (pixelCentre i j)) ≤ cone va' - z →
          |out.at_ i j - L ((View.new d va).pixel2ray n (pixelCentre i j))| ≤ e) ∧
        (cone va' ≤ apart d' ((View.new d va).pixel2ray n (pixelCentre i j)) → out.at_ i j = 0) := by
  obtain ⟨c0, c1⟩ := cone_pos h0' h1'
  obtain ⟨δ, hδ, hu⟩ := smooth_unif (smooth_v2w hL (View.new d' va')) he
  have hz' : 0 < z / (2 * cone va') := by positivity
  have hbig : Tendsto (fun n : ℕ => z / (2 * cone va') * (n : ℝ)) atTop atTop := (tendsto_natCast_atTop_atTop).const_mul_atTop hz'
  have hsm : Tendsto (fun n : ℕ => (8 : ℝ) / n) atTop (𝓝 0) := tendsto_const_div_atTop_nhds_zero_nat 8
  filter_upwards [hbig.eventually_gt_atTop 16, hsm.eventually (gt_mem_nhds hδ)] with n g1 g2 im hp nearest d va hd h0 h1 out ho i j hi hj
  have hn0 : 0 < n := by omega
  have hn0' : (n : ℝ) ≠ 0 := by positivity
  have hunit := pixel_unit d hd va n (pixelCentre i j)
  have hT := ho.2.2 i j (by rw [hp.2.1]; exact hi) (by rw [hp.2.1]; exact hj)
  obtain ⟨_, _, e1, e2, e3⟩ := new_sf (d := d) (va := va) (by linarith)
  unfold View.transformTo at hT
  rw [if_neg (by rw [hp.1, hp.2.1, e2]; simp), hp.2.1] at hT
  constructor
  · intro hin
    rw [if_pos ((in_apart hd'.1 h1' hunit).2 (by linarith))] at hT
    injection hT with hT
    rw [← hT]
    have hX : (((View.new d' va').ray2pixelF n ((View.new d va).pixel2ray n (pixelCentre i j))).1 / (n : ℝ),
        ((View.new d' va').ray2pixelF n ((View.new d va).pixel2ray n (pixelCentre i j))).2 / (n : ℝ))
        = (View.new d' va').xyz2vxy ((View.new d va).pixel2ray n (pixelCentre i j)) := by
      unfold View.ray2pixelF
      apply Prod.ext <;> simp only <;> rw [mul_div_cancel_right₀ _ hn0']
    have := read_view L B hd' h0' h1' hz' g1 g2 hu nearest im hp
      ((View.new d' va').ray2pixelF n ((View.new d va).pixel2ray n (pixelCentre i j))) (by
        rw [hX, place_apart hd' h0' h1' hunit, show 1 / 2 - z / (2 * cone va') = (cone va' - z) / (2 * cone va') by field_simp]
        gcongr)
    rwa [C52_world_pixel d' hd'.1 va' h0' h1' n hn0 _ hunit] at this
  · intro hout
    rw [if_neg (fun h => absurd ((in_apart hd'.1 h1' hunit).1 h) (not_lt.2 hout))] at hT
    injection hT with hT
    exact hT.symm

/-- the view `(d, va)` lies inside the view `(d', va')` if the angle between them and the half angles say so -/
theorem cone_inside {d d' : V3} (hd : d ≠ V3.zero) (hd' : d' ≠ V3.zero) {va va' : ℝ} {p : V3} (hp : p.normSq = 1) (hin : apart d p < cone va) :
    apart d' p ≤ cone va' - (cone va' - apart d' (norm d) - cone va) := by
  have h := C34_angle_triangle (norm d') (norm d) p (normSq_norm hd') (normSq_norm hd) hp
  unfold Geo.radians at h
  rw [ctheta_unit (normSq_norm hd') hp, ctheta_unit (normSq_norm hd') (normSq_norm hd), ctheta_unit (normSq_norm hd) hp] at h
  unfold apart at *
  linarith

/-- **C205, light.** If the view cut out lies inside the view of the pictures (angle between the lines of sight plus half angle
less than the other half angle), the sum over its pixels in view of value, any continuous weight of the direction, and solid
angle tends to the integral of scene times weight over its cone as the resolution grows. -/
theorem C205_light (L w : V3 → ℝ) (hL : Smooth L) (hw : Smooth w) (B : ℝ) (nearest : Bool) (d d' : V3) (hd : Clear d) (hd' : Clear d')
    (va va' : ℝ) (h0 : 0 < va) (h1 : va ≤ 180) (h0' : 0 < va') (h1' : va' ≤ 180) (hin : apart d' (norm d) + cone va < cone va')
    (im out : ℕ → Img ℝ) (hp : ∀ n, ViewPicture L B d' va' n (im n)) (ho : ∀ n, CutOut nearest d va d' va' (im n) (out n)) :
    Tendsto (fun n => (out n).lightIn (View.new d va) w) atTop
      (𝓝 (capIntegral (cone va) fun p => L ((View.new d va).v2w p) * w ((View.new d va).v2w p))) := by
  obtain ⟨M, hM0, hM⟩ := smooth_bound hw
  have hLw : Smooth fun p => L p * w p := by unfold Smooth at *; exact hL.mul hw
  have base := C158_limit d hd va h0 h1 _ hLw
  have area := C158_area d hd va h0 h1
  rw [show chordFactor va * va * π / 360 = cone va from rfl] at base area
  have harea : 2 * π * (1 - cos (cone va)) < 16 := by
    have := neg_one_le_cos (cone va)
    nlinarith [pi_lt_d2, pi_pos]
  rw [Metric.tendsto_nhds] at base ⊢
  intro e he
  have hpix := C205_pixels L hL B d' hd' va' h0' h1' (e := e / (32 * (M + 1))) (by positivity) (sub_pos.2 hin)
  filter_upwards [hpix, base (e / 2) (by positivity), area.eventually (gt_mem_nhds harea)] with n h2 h4 h5
  have h2 := h2 (im n) (hp n) nearest d va hd.1 h0 h1 (out n) (ho n)
  have e1 : (out n).n = n := (ho n).1.trans (hp n).2.1
  have e2 : (out n).m = n := (ho n).2.1.trans (hp n).2.1
  have key : |(out n).lightIn (View.new d va) w - viewSum (View.new d va) (fun p => L p * w p) n| ≤
      e / (32 * (M + 1)) * M * viewSum (View.new d va) (fun _ => 1) n := by
    unfold Img.lightIn viewSum
    rw [e1, e2, ← Finset.sum_sub_distrib, Finset.mul_sum]
    refine (Finset.abs_sum_le_sum_abs _ _).trans (Finset.sum_le_sum fun i hi => ?_)
    rw [← Finset.sum_sub_distrib, Finset.mul_sum]
    refine (Finset.abs_sum_le_sum_abs _ _).trans (Finset.sum_le_sum fun j hj => ?_)
    have hi := Finset.mem_range.mp hi
    have hj := Finset.mem_range.mp hj
    have hom : 0 ≤ (View.new d va).pixel2omega n (pixelCentre i j) := sqrt_nonneg _
    have hunit := pixel_unit d hd.1 va n (pixelCentre i j)
    have hwm := hM _ hunit
    by_cases hv : (View.new d va).inView 0 ((View.new d va).pixel2ray n (pixelCentre i j))
    · have hap := (in_apart hd.1 h1 hunit).1 hv
      have hci := cone_inside (va' := va') hd.1 hd'.1 hunit hap
      have := (h2 i j hi hj).1 (by linarith)
      simp only [hv, if_true, one_mul]
      rw [show ∀ a b c o : ℝ, a * b * o - c * b * o = (a - c) * b * o from fun a b c o => by ring, abs_mul, abs_mul, abs_of_nonneg hom]
      gcongr
    · simp [hv]
  have h5 : viewSum (View.new d va) (fun _ => 1) n < 16 := h5
  have f1 : e / (32 * (M + 1)) * M * viewSum (View.new d va) (fun _ => 1) n < e / 2 := by
    refine lt_of_le_of_lt (mul_le_mul_of_nonneg_left h5.le (by positivity)) ?_
    rw [div_mul_eq_mul_div, div_mul_eq_mul_div, div_lt_div_iff₀ (by positivity) (by norm_num)]
    nlinarith
  rw [Real.dist_eq] at h4 ⊢
  have := abs_sub_le ((out n).lightIn (View.new d va) w) (viewSum (View.new d va) (fun p => L p * w p) n)
    (capIntegral (cone va) fun p => L ((View.new d va).v2w p) * w ((View.new d va).v2w p))
  linarith

/-- a 90 degree view in the middle of a 180 degree picture -/
example : apart ⟨0, 1, 0⟩ (Geo.norm ⟨0, 2, 0⟩) + cone 90 < cone 180 := by
  have hpi := pi_pos
  have h1 : Geo.norm ⟨0, 2, 0⟩ = ⟨0, 1, 0⟩ := by
    have : (⟨0, 2, 0⟩ : V3).len = 2 := by
      unfold V3.len V3.normSq
      rw [show (0 : ℝ) ^ 2 + 2 ^ 2 + 0 ^ 2 = 2 ^ 2 by norm_num]
      exact sqrt_sq (by norm_num)
    unfold Geo.norm V3.divS
    rw [this]
    norm_num
  have h2 : Geo.norm ⟨0, 1, 0⟩ = ⟨0, 1, 0⟩ := by
    have : (⟨0, 1, 0⟩ : V3).len = 1 := by unfold V3.len V3.normSq; norm_num
    unfold Geo.norm V3.divS
    rw [this]
    norm_num
  have h3 := (cf_bounds (va := 90) (by norm_num) (by norm_num)).2.1
  unfold apart cone
  rw [h1, h2, cf_180]
  simp only [V3.dot]
  norm_num
  nlinarith

end Verif.Map
