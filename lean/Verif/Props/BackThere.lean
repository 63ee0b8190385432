import Verif.Props.ThereBack
import Verif.Lemmas.ImageSquare

/-! C195 (a square image turned into an angular one and back). -/

namespace Verif.Map
open Verif.Geo Real

/-- the angular image made from a square one: entry by entry what `array_uv2ang` gives -/
def AngularOf {α : Type} [Zero α] (sq im : Img α) : Prop :=
  im.n = sq.m ∧ im.m = sq.m ∧ ∀ a b, a < sq.m → b < sq.m → arrayUv2ang sq a b = .ok (im.at_ a b)

/-- there is one -/
theorem angularOf_exists {α : Type} [Zero α] (sq : Img α) (hsq : sq.n = sq.m) : ∃ im : Img α, AngularOf sq im := by
  have : ∀ a b, ∃ v : α, a < sq.m → b < sq.m → arrayUv2ang sq a b = .ok v := by
    intro a b
    by_cases hab : a < sq.m ∧ b < sq.m
    · obtain ⟨k1, k2⟩ := C63_uv2ang sq hsq a b (by omega) hab.2
      by_cases h : (((a : ℝ) + 1 / 2) / sq.m - 1 / 2) ^ 2 + (((b : ℝ) + 1 / 2) / sq.m - 1 / 2) ^ 2 < (1 / 2) ^ 2
      · obtain ⟨x, y, -, -, e, -⟩ := k1 h
        exact ⟨_, fun _ _ => e⟩
      · exact ⟨0, fun _ _ => k2 h⟩
    · exact ⟨0, fun h1 h2 => absurd ⟨h1, h2⟩ hab⟩
  choose v hv using this
  exact ⟨⟨sq.m, sq.m, v⟩, rfl, rfl, fun a b h1 h2 => hv a b h1 h2⟩

/-- a point of a pixel is within half a pixel of its centre -/
theorem near_cell_centre {res : ℕ} (hr : 0 < res) {x : ℝ} {c : ℕ} (h1 : (c : ℝ) / res ≤ x) (h2 : x < (c + 1) / res) :
    |((c : ℝ) + 1 / 2) / res - x| ≤ 1 / 2 / res := by
  have hr' : (0 : ℝ) < res := by exact_mod_cast hr
  have e1 : ((c : ℝ) + 1 / 2) / res = c / res + 1 / 2 / res := by ring
  have e2 : ((c : ℝ) + 1) / res = c / res + 1 / 2 / res + 1 / 2 / res := by ring
  rw [abs_le]; constructor <;> linarith

theorem img_norm {q : ℝ × ℝ} : ‖(⟨imgA q, imgB q⟩ : ℂ)‖ = |rho (sqR q.1 q.2)| := by
  rw [Complex.norm_eq_sqrt_sq_add_sq, ← sqrt_sq_eq_abs]
  congr 1
  unfold imgA imgB
  simp only
  linear_combination rho (sqR q.1 q.2) ^ 2 * sin_sq_add_cos_sq (sqPhi q.1 q.2)

theorem abs_rho_le {r : ℝ} (h : |r| ≤ 1) : |rho r| ≤ |r| / 2 := by
  rcases le_total 0 r with h0 | h0
  · rw [abs_of_nonneg h0] at h ⊢
    rw [abs_of_nonneg (rho_nonneg h0 h)]
    exact rho_le h0 h
  · rw [abs_of_nonpos h0] at h ⊢
    have h' : 0 ≤ -r := by linarith
    rw [← abs_neg, ← rho_neg, abs_of_nonneg (rho_nonneg h' h)]
    exact rho_le h' h

theorem abs_sqR (a b : ℝ) : |sqR a b| = max |a| |b| := by
  have h := sqR_sq a b
  rw [← abs_mul_abs_self (sqR a b), ← abs_mul_abs_self a, ← abs_mul_abs_self b] at h
  rcases le_total |a| |b| with k | k
  · rw [max_eq_right k]
    rw [max_eq_right (mul_self_le_mul_self (abs_nonneg a) k)] at h
    exact (mul_self_inj (abs_nonneg _) (abs_nonneg _)).mp h
  · rw [max_eq_left k]
    rw [max_eq_left (mul_self_le_mul_self (abs_nonneg b) k)] at h
    exact (mul_self_inj (abs_nonneg _) (abs_nonneg _)).mp h

/-- **C195** a square image turned into an angular one and back: every cell holds the value of a cell at most one row
and one column away, or zero, and zero only in cells of the outermost rows and columns.  Every resolution, every image,
every direction of view. -/
theorem C195_partial {α : Type} [Zero α] (d : V3) (hd : d ≠ V3.zero) (sq im : Img α) (hsq : sq.n = sq.m)
    (hs : AngularOf sq im) (i j : ℕ) (hi : i < sq.m) (hj : j < sq.m) :
    (∃ a b : ℕ, a < sq.n ∧ b < sq.m ∧ arrayAng2uv (View.new d 180) im i j = .ok (sq.at_ a b) ∧
      |(a : ℤ) - i| ≤ 1 ∧ |(b : ℤ) - j| ≤ 1) ∨
    (arrayAng2uv (View.new d 180) im i j = .ok 0 ∧ (i = 0 ∨ i + 1 = sq.m ∨ j = 0 ∨ j + 1 = sq.m)) := by
  obtain ⟨s1, s2, s3⟩ := hs
  have hp := pi_pos
  have hm : 0 < sq.m := by omega
  have hm' : (0 : ℝ) < sq.m := by exact_mod_cast hm
  obtain ⟨c, e, hc, he, ev, ⟨c1, c2⟩, e1, e2⟩ := C63_ang2uv d hd 180 (by norm_num) le_rfl im (by omega) i j (by omega) (by omega)
  rw [s2] at c1 c2 e1 e2
  have mid : ∀ {a : ℕ}, a < sq.m → -1 ≤ 2 * (((a : ℝ) + 0.5) / sq.m) - 1 ∧ 2 * (((a : ℝ) + 0.5) / sq.m) - 1 ≤ 1 := by
    intro a h1
    obtain ⟨v1, v2⟩ := cell_unit h1
    constructor <;> linarith
  have hq' : (2 * (((i : ℝ) + 0.5) / sq.m) - 1, 2 * (((j : ℝ) + 0.5) / sq.m) - 1) ∈ box :=
    ⟨(mid hi).1, (mid hi).2, (mid hj).1, (mid hj).2⟩
  have w3 := drawn_at d hd (((i : ℝ) + 0.5) / sq.m, ((j : ℝ) + 0.5) / sq.m) hq'
  rw [w3] at c1 c2 e1 e2
  simp only at c1 c2 e1 e2
  set q' : ℝ × ℝ := (2 * (((i : ℝ) + 0.5) / sq.m) - 1, 2 * (((j : ℝ) + 0.5) / sq.m) - 1) with hq'e
  have n1 := near_cell_centre hm c1 c2
  have n2 := near_cell_centre hm e1 e2
  -- the centre of the pixel and the point drawn, relative to the centre of the image
  set zc : ℂ := ⟨((c : ℝ) + 1 / 2) / sq.m - 1 / 2, ((e : ℝ) + 1 / 2) / sq.m - 1 / 2⟩ with hzc
  set zp : ℂ := ⟨imgA q', imgB q'⟩ with hzp
  have hdist : dist zc zp ≤ √2 / 2 / sq.m := by
    rw [Complex.dist_eq_re_im]
    apply sqrt_le_iff.mpr
    refine ⟨by positivity, ?_⟩
    have m1 : (zc.re - zp.re) ^ 2 ≤ (1 / 2 / sq.m) ^ 2 := by
      rw [← sq_abs (zc.re - zp.re)]
      have : zc.re - zp.re = ((c : ℝ) + 1 / 2) / sq.m - (1 / 2 + imgA q') := by rw [hzc, hzp]; ring
      rw [this]; gcongr
    have m2 : (zc.im - zp.im) ^ 2 ≤ (1 / 2 / sq.m) ^ 2 := by
      rw [← sq_abs (zc.im - zp.im)]
      have : zc.im - zp.im = ((e : ℝ) + 1 / 2) / sq.m - (1 / 2 + imgB q') := by rw [hzc, hzp]; ring
      rw [this]; gcongr
    have : (√2 / 2 / (sq.m : ℝ)) ^ 2 = (1 / 2 / sq.m) ^ 2 + (1 / 2 / sq.m) ^ 2 := by
      rw [div_pow, div_pow, sq_sqrt (by norm_num)]; ring
    linarith
  have hr1 : |sqR q'.1 q'.2| ≤ 1 := by
    rw [abs_sqR]
    exact max_le (abs_le.mpr ⟨hq'.1, hq'.2.1⟩) (abs_le.mpr ⟨hq'.2.2.1, hq'.2.2.2⟩)
  have hzpn : ‖zp‖ ≤ |sqR q'.1 q'.2| / 2 := by rw [hzp, img_norm]; exact abs_rho_le hr1
  obtain ⟨k1, k2⟩ := C63_uv2ang sq hsq c e (by omega) (by omega)
  rw [s3 c e (by omega) (by omega)] at k1 k2
  by_cases h : (((c : ℝ) + 1 / 2) / sq.m - 1 / 2) ^ 2 + (((e : ℝ) + 1 / 2) / sq.m - 1 / 2) ^ 2 < (1 / 2) ^ 2
  · left
    obtain ⟨a, b, ha, hb, ev2, ⟨a1, a2, b1, b2⟩⟩ := k1 h
    have ha' : a < sq.m := by omega
    refine ⟨a, b, ha, hb, by rw [ev, ev2], ?_⟩
    set p := (dfltView 180).pixel2ray sq.m (pixelCentre c e) with hp
    have hpu : p.normSq = 1 := pixel_unit ⟨0, 1, 0⟩ dflt_ne 180 _ _
    set uv := (dfltView 180).xyz2uv p with huv
    obtain ⟨u1, u2⟩ := cell_unit (show c < sq.m by omega)
    obtain ⟨u3, u4⟩ := cell_unit (show e < sq.m by omega)
    norm_num only at u1 u2 u3 u4
    have bnd : ∀ {x : ℝ} {a : ℕ}, a < sq.m → (a : ℝ) / sq.m ≤ x → x < (a + 1) / sq.m → -1 ≤ 2 * x - 1 ∧ 2 * x - 1 ≤ 1 := by
      intro x a h1 h2 h3
      have h4 : (0 : ℝ) ≤ a / sq.m := by positivity
      have h5 : ((a : ℝ) + 1) / sq.m ≤ 1 := by rw [div_le_one hm']; exact_mod_cast h1
      constructor <;> linarith
    have hq : (2 * uv.1 - 1, 2 * uv.2 - 1) ∈ box :=
      ⟨(bnd ha' a1 a2).1, (bnd ha' a1 a2).2, (bnd hb b1 b2).1, (bnd hb b1 b2).2⟩
    have w1 := drawn_at ⟨0, 1, 0⟩ dflt_ne uv hq
    rw [show (View.new ⟨0, 1, 0⟩ 180).uv2xyz uv = p from back_from_square ⟨0, 1, 0⟩ dflt_ne p hpu] at w1
    have w2 := (C52_vxy_round_trip ⟨0, 1, 0⟩ dflt_ne 180 (by norm_num) le_rfl
      (((c : ℝ) + 1 / 2) / sq.m, ((e : ℝ) + 1 / 2) / sq.m) u1.le u2.le u3.le u4.le).1
    rw [show (View.new ⟨0, 1, 0⟩ 180).vxy2xyz (((c : ℝ) + 1 / 2) / sq.m, ((e : ℝ) + 1 / 2) / sq.m) = p from rfl, w1] at w2
    have x1 : 1 / 2 + imgA (2 * uv.1 - 1, 2 * uv.2 - 1) = ((c : ℝ) + 1 / 2) / sq.m := congrArg Prod.fst w2
    have x2 : 1 / 2 + imgB (2 * uv.1 - 1, 2 * uv.2 - 1) = ((e : ℝ) + 1 / 2) / sq.m := congrArg Prod.snd w2
    have hz : zc = ⟨imgA (2 * uv.1 - 1, 2 * uv.2 - 1), imgB (2 * uv.1 - 1, 2 * uv.2 - 1)⟩ := by
      rw [hzc]; apply Complex.ext <;> simp only <;> linarith
    have hzcn : ‖zc‖ < 2 := by
      rw [hz, img_norm]
      have hr2 : |sqR (2 * uv.1 - 1) (2 * uv.2 - 1)| ≤ 1 := by
        rw [abs_sqR]
        exact max_le (abs_le.mpr ⟨hq.1, hq.2.1⟩) (abs_le.mpr ⟨hq.2.2.1, hq.2.2.2⟩)
      have := abs_rho_le hr2
      simp only
      linarith
    obtain ⟨l1, l2⟩ := unimg_lip zc hzcn zp (by linarith)
    have hun : unimg zc = (2 * uv.1 - 1, 2 * uv.2 - 1) := by rw [hz, unimg_img hq]
    rw [hun, hzp, unimg_img hq', ← hzp] at l1 l2
    have hfac : √2 * (π / 2) * √3 * dist zc zp < 3 / sq.m := by
      have hp := pi_pos
      calc _ ≤ √2 * (π / 2) * √3 * (√2 / 2 / sq.m) := by gcongr
        _ = √2 * (π / 2) * √3 * (√2 / 2) / sq.m := by ring
        _ < 3 / sq.m := by gcongr; exact unfactor_lt
    have half : ∀ {x : ℝ} {k : ℕ}, |2 * x - 1 - (2 * (((k : ℝ) + 0.5) / sq.m) - 1)| < 3 / sq.m →
        |((k : ℝ) + 1 / 2) / sq.m - x| < 3 / 2 / sq.m := by
      intro x k hx
      have e1 : 2 * x - 1 - (2 * (((k : ℝ) + 0.5) / sq.m) - 1) = -(2 * (((k : ℝ) + 1 / 2) / sq.m - x)) := by
        norm_num; ring
      rw [e1, abs_neg, abs_mul, abs_two] at hx
      have e2 : (3 : ℝ) / sq.m = 2 * (3 / 2 / sq.m) := by ring
      linarith
    exact ⟨near_pixel hm (half (l1.trans_lt hfac)) a1 a2, near_pixel hm (half (l2.trans_lt hfac)) b1 b2⟩
  · right
    refine ⟨by rw [ev, k2 h], ?_⟩
    by_contra hcon
    push Not at hcon
    obtain ⟨g1, g2, g3, g4⟩ := hcon
    apply h
    -- a cell that is not at the edge is drawn well inside the circle
    have inner : ∀ {k : ℕ}, k ≠ 0 → k + 1 ≠ sq.m → k < sq.m → |2 * (((k : ℝ) + 0.5) / sq.m) - 1| ≤ 1 - 3 / sq.m := by
      intro k k1 k2 k3
      have l1 : (1 : ℝ) ≤ k := by exact_mod_cast Nat.one_le_iff_ne_zero.mpr k1
      have l2 : (k : ℝ) + 2 ≤ sq.m := by exact_mod_cast (show k + 2 ≤ sq.m by omega)
      have e1 : 2 * (((k : ℝ) + 0.5) / sq.m) - 1 = (2 * k + 1) / sq.m - 1 := by norm_num; ring
      rw [e1, abs_le]
      constructor
      · have : (3 : ℝ) / sq.m ≤ (2 * k + 1) / sq.m := by gcongr; linarith
        linarith
      · have : (2 * (k : ℝ) + 1) / sq.m + 3 / sq.m ≤ 2 := by
          rw [← add_div, div_le_iff₀ hm']; linarith
        linarith
    have hr3 : |sqR q'.1 q'.2| ≤ 1 - 3 / sq.m := by
      rw [abs_sqR]
      exact max_le (inner g1 g2 hi) (inner g3 g4 hj)
    have hn : ‖zc‖ < 1 / 2 := by
      have t1 : ‖zc‖ ≤ dist zc zp + ‖zp‖ := by
        rw [dist_eq_norm]
        calc ‖zc‖ = ‖zc - zp + zp‖ := by rw [sub_add_cancel]
          _ ≤ _ := norm_add_le _ _
      have t2 : √2 / 2 / (sq.m : ℝ) < 3 / 2 / sq.m := by
        gcongr
        rw [sqrt_lt' (by norm_num)]; norm_num
      have t3 : (3 : ℝ) / sq.m = 2 * (3 / 2 / sq.m) := by ring
      linarith
    have hsqn : ‖zc‖ ^ 2 = (((c : ℝ) + 1 / 2) / sq.m - 1 / 2) ^ 2 + (((e : ℝ) + 1 / 2) / sq.m - 1 / 2) ^ 2 := by
      rw [Complex.norm_eq_sqrt_sq_add_sq, sq_sqrt (by positivity)]
    rw [← hsqn]
    have := norm_nonneg zc
    gcongr

/-- the full claim: no cell is lost -/
def C195_statement : Prop := ∀ (sq im : Img ℕ), sq.n = sq.m → AngularOf sq im → ∀ i j, i < sq.m → j < sq.m →
  ∃ a b : ℕ, a < sq.n ∧ b < sq.m ∧ arrayAng2uv (dfltView 180) im i j = .ok (sq.at_ a b)

/-- a white image of 4 by 4 cells -/
def white4 : Img ℕ := ⟨4, 4, fun _ _ => 1⟩

/-- false: the corner cells of a white image of 4 by 4 cells come back black -/
theorem C195_refuted : ¬ C195_statement := by
  intro hst
  have hp := pi_pos
  have hs2 : √2 * √2 = (2 : ℝ) := mul_self_sqrt (by norm_num)
  have h2 : (0 : ℝ) < √2 := by positivity
  have l2 : (1.4142 : ℝ) < √2 := by rw [lt_sqrt (by norm_num)]; norm_num
  have g2 : √2 < (1.41422 : ℝ) := by rw [sqrt_lt' (by norm_num)]; norm_num
  obtain ⟨im, him⟩ := angularOf_exists white4 rfl
  obtain ⟨a, b, -, -, key⟩ := hst white4 im rfl him 0 0 (by simp [white4]) (by simp [white4])
  obtain ⟨s1, s2, s3⟩ := him
  change im.n = 4 at s1
  change im.m = 4 at s2
  obtain ⟨c, e, hc, he, ev, ⟨c1, c2⟩, e1, e2⟩ := C63_ang2uv ⟨0, 1, 0⟩ dflt_ne 180 (by norm_num) le_rfl im (by omega) 0 0
    (by omega) (by omega)
  rw [s2] at c1 c2 e1 e2
  have w := drawn_at ⟨0, 1, 0⟩ dflt_ne ((((0 : ℕ) : ℝ) + 0.5) / ((4 : ℕ) : ℝ), (((0 : ℕ) : ℝ) + 0.5) / ((4 : ℕ) : ℝ))
    (by refine ⟨?_, ?_, ?_, ?_⟩ <;> simp only <;> norm_num)
  rw [w] at c1 e1
  simp only at c1 e1
  have hrho : √2 / 4 < rho 0.75 := by
    unfold rho
    rw [lt_div_iff₀ hp]
    have : arcsin (sin (π * √2 / 8)) < arcsin (0.75 / √2) := by
      have hx : sin (π * √2 / 8) < 0.75 / √2 := by
        set x := π * √2 / 8 - π / 6 with hx
        have x0 : 0 ≤ x := by rw [hx]; nlinarith
        have x1 : x ≤ 0.0323 := by
          have := pi_lt_d2
          rw [hx]; nlinarith
        rw [show π * √2 / 8 = π / 6 + x by rw [hx]; ring, sin_add, sin_pi_div_six, cos_pi_div_six, lt_div_iff₀ h2]
        have q1 : sin x ≤ x := sin_le x0
        have q2 : cos x ≤ 1 := cos_le_one _
        have q3 : √3 < (1.74 : ℝ) := by rw [sqrt_lt' (by norm_num)]; norm_num
        have q5 : 0 ≤ sin x := sin_nonneg_of_nonneg_of_le_pi x0 (by linarith [pi_gt_three])
        have q7 : √3 / 2 * sin x ≤ 1.74 / 2 * 0.0323 := by gcongr; linarith
        have q8 : 1 / 2 * cos x + √3 / 2 * sin x ≤ 0.5282 := by linarith
        calc _ ≤ 0.5282 * √2 := by gcongr
          _ < 0.75 := by linarith
      refine arcsin_lt_arcsin (neg_one_le_sin _) hx ?_
      rw [div_le_one h2]; linarith
    rw [arcsin_sin (by nlinarith) (by nlinarith)] at this
    linarith
  have hbox : (2 * ((((0 : ℕ) : ℝ) + 0.5) / ((4 : ℕ) : ℝ)) - 1, 2 * ((((0 : ℕ) : ℝ) + 0.5) / ((4 : ℕ) : ℝ)) - 1)
      = ((-0.75 : ℝ), (-0.75 : ℝ)) := by norm_num
  obtain ⟨i1, i2⟩ := img_horiz (a := (-0.75 : ℝ)) (b := -0.75) le_rfl
  rw [div_self (by norm_num), mul_one, rho_neg] at i1 i2
  rw [cos_pi_div_four] at i1
  rw [sin_pi_div_four] at i2
  rw [hbox, i1] at c1
  rw [hbox, i2] at e1
  have small : 1 / 2 + -rho 0.75 * (√2 / 2) < 1 / 4 := by nlinarith
  have c0 : c = 0 := by
    rw [Nat.cast_ofNat, div_le_iff₀ (by norm_num)] at c1
    have : (c : ℝ) < 1 := by linarith
    have : c < 1 := by exact_mod_cast this
    omega
  have e0 : e = 0 := by
    rw [Nat.cast_ofNat, div_le_iff₀ (by norm_num)] at e1
    have : (e : ℝ) < 1 := by linarith
    have : e < 1 := by exact_mod_cast this
    omega
  subst c0 e0
  have k := (C63_uv2ang white4 rfl 0 0 (by simp [white4]) (by simp [white4])).2 (by simp only [white4]; norm_num)
  rw [s3 0 0 (by simp [white4]) (by simp [white4])] at k
  rw [show dfltView 180 = View.new ⟨0, 1, 0⟩ 180 from rfl, ev, k] at key
  simp [white4] at key

example : ∃ im : Img ℕ, AngularOf white4 im := angularOf_exists white4 rfl

end Verif.Map
