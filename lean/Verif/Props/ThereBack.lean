import Verif.Lemmas.SquareImage

/-! C194 (an angular image turned into a square one and back). -/

namespace Verif.Map
open Verif.Geo Real

/-- the fisheye projection of a direction of the square -/
theorem fisheye_square {a b : ℝ} (h : (a, b) ∈ box) :
    (⟨-1 * 1 * cos (sqPhi a b) * sphterm (sqR a b), sin (sqPhi a b) * sphterm (sqR a b), 1 * (1 - sqR a b * sqR a b)⟩ : V3)
      = polar2view (-imgA (a, b), imgB (a, b)) := by
  have hp := pi_pos
  set r := sqR a b with hr
  have hr1 : r * r ≤ 1 := sqR_le (abs_le.mpr ⟨h.1, h.2.1⟩) (abs_le.mpr ⟨h.2.2.1, h.2.2.2⟩)
  have h2 : (0 : ℝ) < √2 := by positivity
  have hs : √2 * √2 = (2 : ℝ) := mul_self_sqrt (by norm_num)
  have habs : |r / √2| ≤ 1 := by
    rw [abs_le]
    constructor
    · rw [le_div_iff₀ h2]; nlinarith
    · rw [div_le_iff₀ h2]; nlinarith
  obtain ⟨l1, l2⟩ := abs_le.mp habs
  have hsin : sin (arcsin (r / √2)) = r / √2 := sin_arcsin l1 l2
  have hsq : (r / √2) ^ 2 = r * r / 2 := by rw [div_pow, sq_sqrt (by norm_num)]; ring
  have hcos : cos (arcsin (r / √2)) = √(1 - r * r / 2) := by rw [cos_arcsin, hsq]
  set α := arcsin (r / √2) with hα
  have hR : rho r = 2 * α / π := rfl
  have hrad : rad2 (-imgA (a, b), imgB (a, b)) = |rho r| := by
    unfold rad2 imgA imgB
    simp only
    rw [← hr, ← sqrt_sq_eq_abs]
    congr 1
    have := sin_sq_add_cos_sq (sqPhi a b)
    linear_combination rho r ^ 2 * this
  have hang : cos (π * |rho r|) = 1 - r * r := by
    have : π * |rho r| = |2 * α| := by
      rw [hR, abs_div, abs_of_pos hp]; field_simp
    rw [this, cos_abs, cos_two_mul, cos_sq', hsin, hsq]; ring
  have hsph : sphterm r = sin (2 * α) := by
    rw [sin_two_mul, hsin, hcos]
    unfold sphterm
    have : √(2 - r * r) = √2 * √(1 - r * r / 2) := by
      rw [← sqrt_mul (by norm_num)]; congr 1; ring
    rw [this]
    field_simp
    rw [sq_sqrt (by norm_num : (0 : ℝ) ≤ 2)]
  have hfac : rho r * polFactor |rho r| = sphterm r := by
    by_cases h0 : rho r = 0
    · rw [h0, zero_mul]
      have : α = 0 := by
        rw [hR] at h0
        rcases div_eq_zero_iff.mp h0 with h | h
        · linarith
        · exact absurd h hp.ne'
      rw [hsph, this]; simp
    · have hpos : 0 < |rho r| := abs_pos.mpr h0
      unfold polFactor
      rw [if_neg (not_le.mpr hpos), hang]
      have e : √(1 - (1 - r * r) * (1 - r * r)) = |sphterm r| := by
        rw [← sqrt_sq_eq_abs]
        congr 1
        unfold sphterm
        rw [mul_pow, sq_sqrt (by linarith)]; ring
      rw [e]
      -- both have the sign of `r`
      rcases le_total 0 r with hr0 | hr0
      · have a0 : 0 ≤ rho r := by
          rw [hR]
          have : 0 ≤ α := arcsin_nonneg.mpr (by positivity)
          positivity
        have b0 : 0 ≤ sphterm r := by unfold sphterm; positivity
        rw [abs_of_nonneg a0, abs_of_nonneg b0]
        field_simp
      · have a0 : rho r ≤ 0 := by
          rw [hR]
          have : α ≤ 0 := arcsin_nonpos.mpr (div_nonpos_of_nonpos_of_nonneg hr0 h2.le)
          exact div_nonpos_of_nonpos_of_nonneg (by linarith) hp.le
        have b0 : sphterm r ≤ 0 := by
          unfold sphterm; exact mul_nonpos_of_nonpos_of_nonneg hr0 (sqrt_nonneg _)
        rw [abs_of_nonpos a0, abs_of_nonpos b0]
        field_simp
  unfold polar2view
  rw [hrad, hang]
  refine V3.ext ?_ ?_ ?_ <;> simp only
  · unfold imgA
    simp only
    rw [← hr]
    linear_combination -cos (sqPhi a b) * -hfac
  · unfold imgB
    simp only
    rw [← hr]
    linear_combination -sin (sqPhi a b) * hfac
  · ring

/-- the direction of a point of the square, in view coordinates -/
theorem square_dir (uv : ℝ × ℝ) (h : (2 * uv.1 - 1, 2 * uv.2 - 1) ∈ box) :
    Geo.uv2xyz (-1) uv = polar2view (-imgA (2 * uv.1 - 1, 2 * uv.2 - 1), imgB (2 * uv.1 - 1, 2 * uv.2 - 1)) := by
  rw [← fisheye_square h]
  have h1 : ¬ uv.1 > 1 := by have := h.2.1; simp only at this; linarith
  have hh : hemi uv.1 = 1 := if_neg h1
  have hf : foldU uv.1 = uv.1 := if_neg h1
  unfold Geo.uv2xyz uv2xyzOn
  rw [hh, hf]
  rfl

theorem view180 (d : V3) : (View.new d 180).sf = (1, 1) ∧ (View.new d 180).lo = (0, 0) ∧
    (View.new d 180).va * (View.new d 180).cf = 180 ∧ (View.new d 180).two = false := by
  obtain ⟨s, l, e1, e2, e3⟩ := new_sf (d := d) (va := 180) (by norm_num)
  refine ⟨?_, ?_, ?_, e2⟩
  · rw [s]; norm_num
  · rw [l]; norm_num
  · rw [e1, e3, cf_180]; norm_num

theorem img_small (q : ℝ × ℝ) (hq : q ∈ box) : rad2 (-imgA q, imgB q) < 1 := by
  have hp := pi_pos
  have e : rad2 (-imgA q, imgB q) = |rho (sqR q.1 q.2)| := by
    unfold rad2 imgA imgB
    rw [← sqrt_sq_eq_abs]
    congr 1
    have := sin_sq_add_cos_sq (sqPhi q.1 q.2)
    linear_combination rho (sqR q.1 q.2) ^ 2 * this
  have hr1 : |sqR q.1 q.2| ≤ 1 := by
    rw [← sq_le_one_iff_abs_le_one, sq]
    exact sqR_le (abs_le.mpr ⟨hq.1, hq.2.1⟩) (abs_le.mpr ⟨hq.2.2.1, hq.2.2.2⟩)
  rw [e]
  rcases le_total 0 (sqR q.1 q.2) with h | h
  · rw [abs_of_nonneg h] at hr1
    rw [abs_of_nonneg (rho_nonneg h hr1)]
    linarith [rho_le h hr1]
  · rw [abs_of_nonpos h] at hr1
    have h' : 0 ≤ -sqR q.1 q.2 := by linarith
    rw [← abs_neg, ← rho_neg, abs_of_nonneg (rho_nonneg h' hr1)]
    linarith [rho_le h' hr1]

/-- where the direction of a point of the square is drawn -/
theorem drawn_at (d : V3) (hd : d ≠ V3.zero) (uv : ℝ × ℝ) (h : (2 * uv.1 - 1, 2 * uv.2 - 1) ∈ box) :
    (View.new d 180).xyz2vxy ((View.new d 180).uv2xyz uv)
      = (1 / 2 + imgA (2 * uv.1 - 1, 2 * uv.2 - 1), 1 / 2 + imgB (2 * uv.1 - 1, 2 * uv.2 - 1)) := by
  obtain ⟨s, l, e1, e2⟩ := view180 d
  unfold View.xyz2vxy View.xyz2vxy1 View.uv2xyz
  rw [e2, e1, (C50_isometry d hd 180 _ V3.zero).2.1, s, l]
  simp only [Bool.false_eq_true, if_false, zero_add, mul_one, Prod.mk.eta]
  rw [square_dir uv h, xyz2xy_polar _ (img_small _ h)]
  refine Prod.ext ?_ ?_ <;> simp only <;> ring

/-- a direction in front comes back from the square -/
theorem back_from_square (d : V3) (hd : d ≠ V3.zero) (p : V3) (hp : p.normSq = 1) :
    (View.new d 180).uv2xyz ((View.new d 180).xyz2uv p) = p := by
  obtain ⟨s, l, e1, e2⟩ := view180 d
  unfold View.uv2xyz View.xyz2uv
  rw [s, l]
  simp only [sub_zero, div_one, zero_add, mul_one, Prod.mk.eta]
  have := C23_xyz_uv_xyz V3.zero Axes.std Axes.std_ok ((View.new d 180).w2v p) (w2v_unit d hd 180 p hp)
  rw [show Geo.uv2xyz (-1) (Geo.xyz2uv true ((View.new d 180).w2v p)) = (View.new d 180).w2v p from this]
  exact (C50_isometry d hd 180 p V3.zero).1

theorem near_cell {res : ℕ} (hr : 0 < res) {u : ℝ} {a : ℕ} (h1 : (a : ℝ) / res ≤ u) (h2 : u < (a + 1) / res) :
    |2 * u - 1 - (2 * (((a : ℝ) + 0.5) / res) - 1)| ≤ 1 / res := by
  have hr' : (0 : ℝ) < res := by exact_mod_cast hr
  rw [div_le_iff₀ hr'] at h1
  rw [lt_div_iff₀ hr'] at h2
  rw [abs_le]
  constructor
  · rw [← sub_nonneg]
    have : 2 * u - 1 - (2 * (((a : ℝ) + 0.5) / res) - 1) - -(1 / res) = 2 * (u * res - a) / res := by field_simp; ring
    rw [this]; apply div_nonneg <;> linarith
  · rw [← sub_nonneg]
    have : (1 : ℝ) / res - (2 * u - 1 - (2 * (((a : ℝ) + 0.5) / res) - 1)) = 2 * (a + 1 - u * res) / res := by field_simp; ring
    rw [this]; apply div_nonneg <;> linarith

theorem near_pixel {res : ℕ} (hr : 0 < res) {x : ℝ} {i c : ℕ} (h : |((i : ℝ) + 1 / 2) / res - x| < 3 / 2 / res)
    (h1 : (c : ℝ) / res ≤ x) (h2 : x < (c + 1) / res) : |(c : ℤ) - i| ≤ 1 := by
  have hr' : (0 : ℝ) < res := by exact_mod_cast hr
  rw [div_le_iff₀ hr'] at h1
  rw [lt_div_iff₀ hr'] at h2
  obtain ⟨k1, k2⟩ := abs_lt.mp h
  have l1 : x * res < i + 2 := by
    have : (((i : ℝ) + 1 / 2) / res - x) * res > -(3 / 2 / res) * res := by gcongr
    rw [sub_mul, div_mul_cancel₀ _ hr'.ne', neg_mul, div_mul_cancel₀ _ hr'.ne'] at this
    linarith
  have l2 : i - 1 < x * res := by
    have : (((i : ℝ) + 1 / 2) / res - x) * res < (3 / 2 / res) * res := by gcongr
    rw [sub_mul, div_mul_cancel₀ _ hr'.ne', div_mul_cancel₀ _ hr'.ne'] at this
    linarith
  have m1 : c < i + 2 := by
    have : (c : ℝ) < i + 2 := by linarith
    exact_mod_cast this
  have m2 : i < c + 2 := by
    have : (i : ℝ) < c + 2 := by linarith
    exact_mod_cast this
  rw [abs_le]; omega

/-- the square image made from an angular one: entry by entry what `array_ang2uv` gives -/
def SquareOf {α : Type} (m : View) (im sq : Img α) : Prop :=
  sq.n = im.m ∧ sq.m = im.m ∧ ∀ a b, a < im.m → b < im.m → arrayAng2uv m im a b = .ok (sq.at_ a b)

/-- there is one -/
theorem squareOf_exists {α : Type} (d : V3) (hd : d ≠ V3.zero) (im : Img α) (hsq : im.n = im.m) :
    ∃ sq : Img α, SquareOf (View.new d 180) im sq := by
  by_cases h : 0 < im.m
  · have : ∀ a b, ∃ v : α, a < im.m → b < im.m → arrayAng2uv (View.new d 180) im a b = .ok v := by
      intro a b
      by_cases hab : a < im.m ∧ b < im.m
      · obtain ⟨x, y, -, -, e, -⟩ := C63_ang2uv d hd 180 (by norm_num) le_rfl im hsq a b hab.1 hab.2
        exact ⟨_, fun _ _ => e⟩
      · exact ⟨im.at_ 0 0, fun h1 h2 => absurd ⟨h1, h2⟩ hab⟩
    choose v hv using this
    exact ⟨⟨im.m, im.m, v⟩, rfl, rfl, fun a b h1 h2 => hv a b h1 h2⟩
  · exact ⟨⟨im.m, im.m, im.at_⟩, rfl, rfl, fun a b h1 _ => absurd h1 (by omega)⟩

/-- **C194** an angular image turned into a square one and back: every pixel inside the circle holds the value of a
pixel at most one row and one column away, and every other pixel is zero.  Every resolution, every image, every
direction of view. -/
theorem C194_partial {α : Type} [Zero α] (d : V3) (hd : d ≠ V3.zero) (im sq : Img α) (hsq : im.n = im.m)
    (hs : SquareOf (View.new d 180) im sq) (i j : ℕ) (hi : i < im.n) (hj : j < im.m) :
    ((((i : ℝ) + 1 / 2) / im.m - 1 / 2) ^ 2 + (((j : ℝ) + 1 / 2) / im.m - 1 / 2) ^ 2 < (1 / 2) ^ 2 →
      ∃ c e : ℕ, c < im.n ∧ e < im.m ∧ arrayUv2ang sq i j = .ok (im.at_ c e) ∧ |(c : ℤ) - i| ≤ 1 ∧ |(e : ℤ) - j| ≤ 1) ∧
    (¬ (((i : ℝ) + 1 / 2) / im.m - 1 / 2) ^ 2 + (((j : ℝ) + 1 / 2) / im.m - 1 / 2) ^ 2 < (1 / 2) ^ 2 →
      arrayUv2ang sq i j = .ok 0) := by
  obtain ⟨s1, s2, s3⟩ := hs
  have hm : 0 < im.m := by omega
  have hm' : (0 : ℝ) < im.m := by exact_mod_cast hm
  obtain ⟨k1, k2⟩ := C63_uv2ang sq (by omega) i j (by omega) (by omega)
  rw [s2] at k1 k2
  refine ⟨fun h => ?_, k2⟩
  obtain ⟨a, b, ha, hb, ev, ⟨a1, a2, b1, b2⟩⟩ := k1 h
  have ha' : a < im.m := by omega
  obtain ⟨c, e, hc, he, ev2, ⟨c1, c2⟩, e1, e2⟩ := C63_ang2uv d hd 180 (by norm_num) le_rfl im hsq a b ha' hb
  refine ⟨c, e, hc, he, ?_, ?_⟩
  · rw [ev]
    rw [s3 a b ha' hb] at ev2
    exact ev2
  set p := (dfltView 180).pixel2ray im.m (pixelCentre i j) with hp
  have hpu : p.normSq = 1 := pixel_unit ⟨0, 1, 0⟩ dflt_ne 180 _ _
  set uv := (dfltView 180).xyz2uv p with huv
  obtain ⟨u1, u2⟩ := cell_unit (show i < im.m by omega)
  obtain ⟨u3, u4⟩ := cell_unit hj
  norm_num only at u1 u2 u3 u4
  -- the two points of the square
  have bnd : ∀ {x : ℝ} {a : ℕ}, a < im.m → (a : ℝ) / im.m ≤ x → x < (a + 1) / im.m → -1 ≤ 2 * x - 1 ∧ 2 * x - 1 ≤ 1 := by
    intro x a h1 h2 h3
    have h4 : (0 : ℝ) ≤ a / im.m := by positivity
    have h5 : ((a : ℝ) + 1) / im.m ≤ 1 := by rw [div_le_one hm']; exact_mod_cast h1
    constructor <;> linarith
  have hq : (2 * uv.1 - 1, 2 * uv.2 - 1) ∈ box :=
    ⟨(bnd ha' a1 a2).1, (bnd ha' a1 a2).2, (bnd hb b1 b2).1, (bnd hb b1 b2).2⟩
  have mid : ∀ {a : ℕ}, a < im.m → -1 ≤ 2 * (((a : ℝ) + 0.5) / im.m) - 1 ∧ 2 * (((a : ℝ) + 0.5) / im.m) - 1 ≤ 1 := by
    intro a h1
    obtain ⟨v1, v2⟩ := cell_unit h1
    constructor <;> linarith
  have hq' : (2 * (((a : ℝ) + 0.5) / im.m) - 1, 2 * (((b : ℝ) + 0.5) / im.m) - 1) ∈ box :=
    ⟨(mid ha').1, (mid ha').2, (mid hb).1, (mid hb).2⟩
  -- where they are drawn
  have w1 := drawn_at ⟨0, 1, 0⟩ dflt_ne uv hq
  rw [show (View.new ⟨0, 1, 0⟩ 180).uv2xyz uv = p from back_from_square ⟨0, 1, 0⟩ dflt_ne p hpu] at w1
  have w2 := (C52_vxy_round_trip ⟨0, 1, 0⟩ dflt_ne 180 (by norm_num) le_rfl
    (((i : ℝ) + 1 / 2) / im.m, ((j : ℝ) + 1 / 2) / im.m) u1.le u2.le u3.le u4.le).1
  rw [show (View.new ⟨0, 1, 0⟩ 180).vxy2xyz (((i : ℝ) + 1 / 2) / im.m, ((j : ℝ) + 1 / 2) / im.m) = p from rfl, w1] at w2
  have w3 := drawn_at d hd (((a : ℝ) + 0.5) / im.m, ((b : ℝ) + 0.5) / im.m) hq'
  rw [w3] at c1 c2 e1 e2
  simp only at c1 c2 e1 e2
  have x1 : 1 / 2 + imgA (2 * uv.1 - 1, 2 * uv.2 - 1) = ((i : ℝ) + 1 / 2) / im.m := congrArg Prod.fst w2
  have x2 : 1 / 2 + imgB (2 * uv.1 - 1, 2 * uv.2 - 1) = ((j : ℝ) + 1 / 2) / im.m := congrArg Prod.snd w2
  obtain ⟨l1, l2⟩ := img_lip _ hq _ hq'
  have hdist : dist (2 * uv.1 - 1, 2 * uv.2 - 1) (2 * (((a : ℝ) + 0.5) / im.m) - 1, 2 * (((b : ℝ) + 0.5) / im.m) - 1)
      ≤ 1 / im.m := by
    rw [Prod.dist_eq]
    exact max_le (near_cell hm a1 a2) (near_cell hm b1 b2)
  have hfac : (2 / π + π / 4) * dist (2 * uv.1 - 1, 2 * uv.2 - 1)
      (2 * (((a : ℝ) + 0.5) / im.m) - 1, 2 * (((b : ℝ) + 0.5) / im.m) - 1) < 3 / 2 / im.m := by
    have hp := pi_pos
    calc _ ≤ (2 / π + π / 4) * (1 / im.m) := by gcongr
      _ < 3 / 2 * (1 / im.m) := by gcongr; exact factor_lt
      _ = 3 / 2 / im.m := by ring
  constructor
  · refine near_pixel hm (x := 1 / 2 + imgA (2 * (((a : ℝ) + 0.5) / im.m) - 1, 2 * (((b : ℝ) + 0.5) / im.m) - 1)) ?_ c1 c2
    rw [← x1, add_sub_add_left_eq_sub]
    exact l1.trans_lt hfac
  · refine near_pixel hm (x := 1 / 2 + imgB (2 * (((a : ℝ) + 0.5) / im.m) - 1, 2 * (((b : ℝ) + 0.5) / im.m) - 1)) ?_ e1 e2
    rw [← x2, add_sub_add_left_eq_sub]
    exact l2.trans_lt hfac

/-- the full claim: what was inside the circle comes back as it was -/
def C194_statement : Prop := ∀ (im sq : Img ℕ), im.n = im.m → SquareOf (dfltView 180) im sq → ∀ i j, i < im.n → j < im.m →
  (((i : ℝ) + 1 / 2) / im.m - 1 / 2) ^ 2 + (((j : ℝ) + 1 / 2) / im.m - 1 / 2) ^ 2 < (1 / 2) ^ 2 →
  arrayUv2ang sq i j = .ok (im.at_ i j)

theorem img_axis (r : ℝ) : imgA (r, 0) = rho r ∧ imgB (r, 0) = 0 := by
  have := img_horiz (a := r) (b := 0) (by simp)
  simpa using this

/-- an image of 75 by 75 pixels that holds the row numbers -/
def rows75 : Img ℕ := ⟨75, 75, fun i _ => i⟩

/-- false: in an image of 75 by 75 pixels, row 62 of the middle column comes back with a value of row 63 or later -/
theorem C194_refuted : ¬ C194_statement := by
  intro hst
  have hp := pi_pos
  have hs2 : √2 * √2 = (2 : ℝ) := mul_self_sqrt (by norm_num)
  have h2 : (0 : ℝ) < √2 := by positivity
  have l2 : (1.4142 : ℝ) < √2 := by rw [lt_sqrt (by norm_num)]; norm_num
  have g2 : √2 < (1.41422 : ℝ) := by rw [sqrt_lt' (by norm_num)]; norm_num
  obtain ⟨sq, hsq⟩ := squareOf_exists ⟨0, 1, 0⟩ dflt_ne rows75 rfl
  have key := hst rows75 sq rfl hsq 62 37 (by simp [rows75]) (by simp [rows75]) (by simp only [rows75]; norm_num)
  obtain ⟨s1, s2, s3⟩ := hsq
  change sq.n = 75 at s1
  change sq.m = 75 at s2
  obtain ⟨k1, -⟩ := C63_uv2ang sq (by omega) 62 37 (by omega) (by omega)
  rw [s2] at k1
  obtain ⟨a, b, ha, hb, ev, ⟨a1, a2, b1, b2⟩⟩ := k1 (by norm_num)
  -- the direction of the pixel, as a point of the square
  have hbox : ((2 * ((1 / 2 + √2 / 4 : ℝ), (1 / 2 : ℝ)).1 - 1, 2 * ((1 / 2 + √2 / 4 : ℝ), (1 / 2 : ℝ)).2 - 1) : ℝ × ℝ) ∈ box := by
    refine ⟨?_, ?_, ?_, ?_⟩ <;> simp only <;> linarith
  have hrho : rho (√2 / 2) = 1 / 3 := by
    unfold rho
    rw [show √2 / 2 / √2 = 1 / 2 by field_simp, ← sin_pi_div_six,
      arcsin_sin (by linarith) (by linarith)]
    field_simp; norm_num
  have hpix : (dfltView 180).pixel2ray 75 (pixelCentre 62 37) = (dfltView 180).uv2xyz (1 / 2 + √2 / 4, 1 / 2) := by
    obtain ⟨s, l, e1, -⟩ := view180 ⟨0, 1, 0⟩
    have e := square_dir _ hbox
    simp only at e
    rw [show 2 * (1 / 2 + √2 / 4) - 1 = √2 / 2 by ring, show (2 : ℝ) * (1 / 2) - 1 = 0 by norm_num, (img_axis _).1,
      (img_axis _).2, hrho] at e
    unfold View.pixel2ray View.vxy2xyz View.vxy2xyzM View.uv2xyz View.centred pixelCentre dfltView
    rw [s, l, e1]
    simp only [zero_add, mul_one]
    rw [e]
    congr 2
    norm_num
  have huv : (dfltView 180).xyz2uv ((dfltView 180).pixel2ray 75 (pixelCentre 62 37)) = (1 / 2 + √2 / 4, 1 / 2) := by
    rw [hpix]
    exact (C51_round_trip ⟨0, 1, 0⟩ dflt_ne 180 (by norm_num) le_rfl (1 / 2 + √2 / 4, 1 / 2) (by simp only; linarith)
      (by simp only; linarith) (by norm_num) (by norm_num)).2
  rw [huv] at a1 a2 b1 b2
  simp only at a1 a2 b1 b2
  have ea : a = 64 := by
    rw [Nat.cast_ofNat, div_le_iff₀ (by norm_num)] at a1
    rw [Nat.cast_ofNat, lt_div_iff₀ (by norm_num)] at a2
    have u : (a : ℝ) < 65 := by linarith
    have v : (63 : ℝ) < a := by linarith
    have u' : a < 65 := by exact_mod_cast u
    have v' : 63 < a := by exact_mod_cast v
    omega
  have eb : b = 37 := by
    rw [Nat.cast_ofNat, div_le_iff₀ (by norm_num)] at b1
    rw [Nat.cast_ofNat, lt_div_iff₀ (by norm_num)] at b2
    have u : (b : ℝ) < 38 := by linarith
    have v : (36 : ℝ) < b := by linarith
    have u' : b < 38 := by exact_mod_cast u
    have v' : 36 < b := by exact_mod_cast v
    omega
  subst ea eb
  -- where the centre of that cell is drawn
  obtain ⟨c, e, hc, he, ev2, ⟨c1, c2⟩, -, -⟩ := C63_ang2uv ⟨0, 1, 0⟩ dflt_ne 180 (by norm_num) le_rfl rows75 rfl 64 37
    (by simp [rows75]) (by simp [rows75])
  rw [s3 64 37 (by simp [rows75]) (by simp [rows75])] at ev2
  rw [ev, ev2] at key
  have hcv : c = 62 := by simpa [rows75] using key
  have w := drawn_at ⟨0, 1, 0⟩ dflt_ne ((((64 : ℕ) : ℝ) + 0.5) / rows75.m, (((37 : ℕ) : ℝ) + 0.5) / rows75.m)
    (by refine ⟨?_, ?_, ?_, ?_⟩ <;> simp only [rows75] <;> norm_num)
  rw [w] at c2
  simp only [rows75] at c2
  rw [hcv, show (2 * ((((64 : ℕ) : ℝ) + 0.5) / ((75 : ℕ) : ℝ)) - 1, 2 * ((((37 : ℕ) : ℝ) + 0.5) / ((75 : ℕ) : ℝ)) - 1)
    = ((0.72 : ℝ), (0 : ℝ)) by norm_num, (img_axis _).1] at c2
  norm_num at c2
  have : rho 0.72 > 0.34 := by
    unfold rho
    rw [gt_iff_lt, lt_div_iff₀ hp]
    have : arcsin (sin (π / 6 + π / 300)) < arcsin (0.72 / √2) := by
      have hx : sin (π / 6 + π / 300) < 0.72 / √2 := by
        rw [sin_add, sin_pi_div_six, cos_pi_div_six, lt_div_iff₀ h2]
        have q1 : sin (π / 300) ≤ π / 300 := sin_le (by positivity)
        have q2 : cos (π / 300) ≤ 1 := cos_le_one _
        have q3 : √3 < (1.73206 : ℝ) := by rw [sqrt_lt' (by norm_num)]; norm_num
        have q4 : 0 ≤ √3 := sqrt_nonneg _
        have q5 : 0 ≤ sin (π / 300) := sin_nonneg_of_nonneg_of_le_pi (by positivity) (by linarith)
        have q6 := pi_lt_d4
        have q7 : √3 / 2 * sin (π / 300) ≤ 1.73206 / 2 * (3.1416 / 300) := by gcongr <;> linarith
        have q8 : 1 / 2 * cos (π / 300) + √3 / 2 * sin (π / 300) ≤ 0.50907 := by linarith
        calc _ ≤ 0.50907 * √2 := by gcongr
          _ < 0.72 := by linarith
      refine arcsin_lt_arcsin (neg_one_le_sin _) hx ?_
      rw [div_le_one h2]; linarith
    rw [arcsin_sin (by linarith) (by linarith)] at this
    linarith
  norm_num at this
  linarith

example : ∃ sq : Img ℕ, SquareOf (View.new ⟨0, 1, 0⟩ 180) rows75 sq := squareOf_exists _ dflt_ne rows75 rfl

end Verif.Map
