import Verif.Props.Solid2ang
import Verif.Props.Interp
import Verif.Props.ConvertMean

/-! C201, the light of equisolid photographs: `solid2ang` turns pictures in the equisolid projection into angular images
whose sums over the pixels are those of the scene. -/

namespace Verif.Map
open Verif.Geo Real MeasureTheory Set Filter Topology

/-! ### Spec -/

/-- the direction, in view coordinates, at a place of a 180 degree equisolid picture (Lambert's equal area projection of the
hemisphere: the chord to the line of sight is proportional to the distance from the middle) -/
noncomputable def lambert (q : ℝ × ℝ) : V3 :=
  ⟨-((q.1 - 1 / 2) * √(8 * (1 - 2 * ((q.1 - 1 / 2) ^ 2 + (q.2 - 1 / 2) ^ 2)))),
    (q.2 - 1 / 2) * √(8 * (1 - 2 * ((q.1 - 1 / 2) ^ 2 + (q.2 - 1 / 2) ^ 2))),
    1 - 4 * ((q.1 - 1 / 2) ^ 2 + (q.2 - 1 / 2) ^ 2)⟩

/-- the middle of pixel `(i, j)` of an `n × n` image of side one -/
noncomputable def mid (n i j : ℕ) : ℝ × ℝ := (((i : ℝ) + 1 / 2) / n, ((j : ℝ) + 1 / 2) / n)

/-- an equisolid picture of the scene: inside the circle the scene, outside any values, all within `B` -/
def SolidPicture (L : V3 → ℝ) (B : ℝ) (n : ℕ) (im : Img ℝ) : Prop :=
  im.n = n ∧ im.m = n ∧
    (∀ i j, i < n → j < n → off (mid n i j) < 1 / 2 → im.at_ i j = L ((dfltView 180).v2w (lambert (mid n i j)))) ∧
    ∀ i j, i < n → j < n → |im.at_ i j| ≤ B

/-- the image `array_solid2ang` makes of a picture -/
def AngleOf (nearest : Bool) (im out : Img ℝ) : Prop :=
  out.n = im.m ∧ out.m = im.m ∧
    ∀ i j, i < im.m → j < im.m → arraySolid2ang false 180 (centreInterp nearest) im i j = .ok (out.at_ i j)

open Classical in
/-- the sum over the pixels in view of value, weight of the direction and solid angle -/
noncomputable def Img.lightIn (v : View) (w : V3 → ℝ) (im : Img ℝ) : ℝ :=
  ∑ i ∈ Finset.range im.n, ∑ j ∈ Finset.range im.m,
    if v.inView 0 (v.pixel2ray im.m (pixelCentre i j)) then
      im.at_ i j * w (v.pixel2ray im.m (pixelCentre i j)) * v.pixel2omega im.m (pixelCentre i j) else 0

/-- values of directions differ by at most `K` times their chord -/
def Steep (K : ℝ) (L : V3 → ℝ) : Prop := ∀ p q : V3, p.normSq = 1 → q.normSq = 1 → |L p - L q| ≤ K * (p.sub q).len

/-! ### interpolation near a place -/

theorem cell_le {n : ℕ} (hn : 2 ≤ n) (x : ℝ) : cellOf n x + 1 < n := by unfold cellOf; omega

theorem lin_close {n : ℕ} (hn : 2 ≤ n) {x : ℝ} (h0 : 0 ≤ x) (h1 : x ≤ (n : ℝ) - 1) (f : ℕ → ℝ) {c e : ℝ}
    (h : ∀ k, k < n → |(k : ℝ) - x| ≤ 1 → |f k - c| ≤ e) : |lin n f x - c| ≤ e := by
  obtain ⟨a, b⟩ := cellOf_in hn h0 h1
  have hk := cell_le hn x
  have e1 := h (cellOf n x) (by omega) (by rw [abs_le]; constructor <;> linarith)
  have e2 := h (cellOf n x + 1) hk (by push_cast; rw [abs_le]; constructor <;> linarith)
  unfold lin
  rw [abs_le] at *
  set t := x - cellOf n x
  constructor <;> nlinarith [e1.1, e1.2, e2.1, e2.2]

theorem near_close {n : ℕ} (hn : 2 ≤ n) {x : ℝ} (h0 : 0 ≤ x) (h1 : x ≤ (n : ℝ) - 1) : |(nearIdx n x : ℝ) - x| ≤ 1 := by
  obtain ⟨a, b⟩ := cellOf_in hn h0 h1
  unfold nearIdx
  split_ifs with h
  · rw [abs_le]; constructor <;> linarith
  · push_cast; rw [abs_le]; constructor <;> linarith

theorem centre_close (nearest : Bool) (im : Img ℝ) {n : ℕ} (hn : 2 ≤ n) (hin : im.n = n) (him : im.m = n) {X : ℝ × ℝ}
    (hX : Covered n X) {c e : ℝ}
    (h : ∀ a b, a < n → b < n → |(a : ℝ) + 1 / 2 - X.1| ≤ 1 → |(b : ℝ) + 1 / 2 - X.2| ≤ 1 → |im.at_ a b - c| ≤ e) :
    |centreInterp nearest im X - c| ≤ e := by
  obtain ⟨c1, c2, c3, c4⟩ := hX
  have r : ∀ (a : ℕ) (y : ℝ), |(a : ℝ) - (y - 1 / 2)| ≤ 1 → |(a : ℝ) + 1 / 2 - y| ≤ 1 := by
    intro a y hy
    rwa [show (a : ℝ) + 1 / 2 - y = a - (y - 1 / 2) by ring]
  unfold centreInterp gridInterp bilin
  simp only [Option.isSome_none, Bool.false_eq_true, false_and, if_false]
  rw [hin, him]
  cases nearest
  · simp only [Bool.false_eq_true, if_false]
    refine lin_close hn (by linarith) (by linarith) _ fun a ha h1 => ?_
    exact lin_close hn (by linarith) (by linarith) _ fun b hb h2 => h a b ha hb (r _ _ h1) (r _ _ h2)
  · simp only [if_true]
    exact h _ _ (nearIdx_lt hn _) (nearIdx_lt hn _) (r _ _ (near_close hn (by linarith) (by linarith)))
      (r _ _ (near_close hn (by linarith) (by linarith)))

theorem lin_bound {n : ℕ} (hn : 2 ≤ n) {x : ℝ} (h0 : -(1 / 2) ≤ x) (h1 : x ≤ (n : ℝ) - 1 / 2) (f : ℕ → ℝ) {B : ℝ}
    (h : ∀ k, k < n → |f k| ≤ B) : |lin n f x| ≤ 2 * B := by
  have hk := cell_le hn x
  have e1 := h (cellOf n x) (by omega)
  have e2 := h (cellOf n x + 1) hk
  have ht : -(1 / 2) ≤ x - cellOf n x ∧ x - cellOf n x ≤ 3 / 2 := by
    unfold cellOf
    rcases lt_or_ge x 0 with hx | hx
    · have : ⌊x⌋.toNat = 0 := by
        rw [Int.toNat_eq_zero]
        exact (Int.floor_lt.mpr (by simpa using hx)).le
      rw [this]
      simp
      constructor <;> linarith
    · have hf : ((⌊x⌋.toNat : ℕ) : ℝ) = ⌊x⌋ := by
        have := Int.toNat_of_nonneg (Int.floor_nonneg.mpr hx)
        exact_mod_cast congrArg (Int.cast : ℤ → ℝ) this
      have a := Int.floor_le x
      have b := Int.lt_floor_add_one x
      rcases Nat.le_total ⌊x⌋.toNat (n - 2) with hc | hc
      · rw [min_eq_left hc, hf]
        constructor <;> linarith
      · rw [min_eq_right hc]
        have h2 : ((n - 2 : ℕ) : ℝ) = (n : ℝ) - 2 := by rw [Nat.cast_sub hn]; norm_num
        have h3 : ((n - 2 : ℕ) : ℝ) ≤ ⌊x⌋ := by rw [← hf]; exact_mod_cast hc
        rw [h2] at h3 ⊢
        constructor <;> linarith
  unfold lin
  set t := x - cellOf n x
  have hB : 0 ≤ B := (abs_nonneg _).trans e1
  refine (abs_add_le _ _).trans ?_
  rw [abs_mul, abs_mul]
  have a1 : |1 - t| + |t| ≤ 2 := by
    rcases abs_cases t with ⟨u, _⟩ | ⟨u, _⟩ <;> rcases abs_cases (1 - t) with ⟨v, _⟩ | ⟨v, _⟩ <;> rw [u, v] <;> linarith [ht.1, ht.2]
  nlinarith [abs_nonneg (1 - t), abs_nonneg t]

theorem centre_bound (nearest : Bool) (im : Img ℝ) {n : ℕ} (hn : 2 ≤ n) (hin : im.n = n) (him : im.m = n) {X : ℝ × ℝ}
    (h1 : 0 ≤ X.1) (h2 : X.1 ≤ n) (h3 : 0 ≤ X.2) (h4 : X.2 ≤ n) {B : ℝ} (h : ∀ a b, a < n → b < n → |im.at_ a b| ≤ B) :
    |centreInterp nearest im X| ≤ 4 * B := by
  have hB : 0 ≤ B := (abs_nonneg _).trans (h 0 0 (by omega) (by omega))
  unfold centreInterp gridInterp bilin
  simp only [Option.isSome_none, Bool.false_eq_true, false_and, if_false]
  rw [hin, him]
  cases nearest
  · simp only [Bool.false_eq_true, if_false]
    have := lin_bound (B := 2 * B) hn (x := X.1 - 1 / 2) (by linarith) (by linarith) (fun a => lin n (im.at_ a) (X.2 - 1 / 2)) fun a ha =>
      lin_bound hn (by linarith) (by linarith) _ fun b hb => h a b ha hb
    linarith
  · simp only [if_true]
    have := h _ _ (nearIdx_lt hn (X.1 - 1 / 2)) (nearIdx_lt hn (X.2 - 1 / 2))
    linarith

/-! ### the projections -/

theorem off_sq (q : ℝ × ℝ) : off q ^ 2 = (q.1 - 1 / 2) ^ 2 + (q.2 - 1 / 2) ^ 2 := rad2_sq _

theorem lambert_unit {q : ℝ × ℝ} (h : off q ≤ 1 / 2) : (lambert q).normSq = 1 := by
  have hs := off_sq q
  have h0 := off_nonneg q
  unfold lambert V3.normSq
  simp only
  rw [← hs]
  have e := sq_sqrt (show 0 ≤ 8 * (1 - 2 * off q ^ 2) by nlinarith)
  set S := √(8 * (1 - 2 * off q ^ 2))
  have e3 : (-((q.1 - 1 / 2) * S)) ^ 2 + ((q.2 - 1 / 2) * S) ^ 2 = off q ^ 2 * S ^ 2 := by rw [hs]; ring
  rw [e3, e]
  ring

theorem sq_near {s t s' t' h : ℝ} (i1 : |s| ≤ 1 / 2) (i2 : |s'| ≤ 1 / 2) (i3 : |t| ≤ 1 / 2) (i4 : |t'| ≤ 1 / 2) (i5 : |s - s'| ≤ h)
    (i6 : |t - t'| ≤ h) : |(s ^ 2 + t ^ 2) - (s' ^ 2 + t' ^ 2)| ≤ 2 * h := by
  rw [show (s ^ 2 + t ^ 2) - (s' ^ 2 + t' ^ 2) = (s - s') * (s + s') + (t - t') * (t + t') by ring]
  refine (abs_add_le _ _).trans ?_
  rw [abs_mul, abs_mul]
  have j1 : |s + s'| ≤ 1 := (abs_add_le _ _).trans (by linarith)
  have j2 : |t + t'| ≤ 1 := (abs_add_le _ _).trans (by linarith)
  have k1 := mul_le_mul i5 j1 (abs_nonneg _) ((abs_nonneg _).trans i5)
  have k2 := mul_le_mul i6 j2 (abs_nonneg _) ((abs_nonneg _).trans i6)
  linarith

theorem prod_near {s s' S S' h : ℝ} (i1 : |s'| ≤ 1 / 2) (i2 : |s - s'| ≤ h) (hS0 : 0 ≤ S) (hS : S ≤ 3) (dS : |S - S'| ≤ 8 * h) :
    |s * S - s' * S'| ≤ 8 * h := by
  rw [show s * S - s' * S' = (s - s') * S + s' * (S - S') by ring]
  refine (abs_add_le _ _).trans ?_
  rw [abs_mul, abs_mul, abs_of_nonneg hS0]
  have h0 := (abs_nonneg _).trans i2
  have k1 := mul_le_mul i2 hS hS0 h0
  have k2 := mul_le_mul i1 dS (abs_nonneg _) (by norm_num)
  linarith

theorem root_near {u u' h : ℝ} (hu : 0 ≤ u) (hu' : 0 ≤ u') (h1 : u ≤ 1 / 4) (h2 : u' ≤ 1 / 4) (d : |u - u'| ≤ 2 * h) :
    2 ≤ √(8 * (1 - 2 * u)) ∧ √(8 * (1 - 2 * u)) ≤ 3 ∧ |√(8 * (1 - 2 * u)) - √(8 * (1 - 2 * u'))| ≤ 8 * h := by
  have S1 : 2 ≤ √(8 * (1 - 2 * u)) := by apply le_sqrt_of_sq_le; linarith
  have S2 : 2 ≤ √(8 * (1 - 2 * u')) := by apply le_sqrt_of_sq_le; linarith
  have e1 := sq_sqrt (show 0 ≤ 8 * (1 - 2 * u) by linarith)
  have e2 := sq_sqrt (show 0 ≤ 8 * (1 - 2 * u') by linarith)
  refine ⟨S1, by apply sqrt_le_iff.mpr; constructor <;> linarith, ?_⟩
  generalize √(8 * (1 - 2 * u)) = S at *
  generalize √(8 * (1 - 2 * u')) = S' at *
  have : (S - S') * (S + S') = -16 * (u - u') := by linarith [show (S - S') * (S + S') = S ^ 2 - S' ^ 2 by ring]
  have h3 : |S - S'| * (S + S') ≤ 32 * h := by
    rw [← abs_of_pos (show 0 < S + S' by linarith), ← abs_mul, this, abs_mul]
    norm_num
    linarith
  have h4 := mul_le_mul_of_nonneg_left (show (4 : ℝ) ≤ S + S' by linarith) (abs_nonneg (S - S'))
  linarith

/-- nearby places of the picture show nearby directions -/
theorem lambert_near {p p' : ℝ × ℝ} {h : ℝ} (hp : off p ≤ 1 / 2) (hp' : off p' ≤ 1 / 2) (h1 : |p.1 - p'.1| ≤ h)
    (h2 : |p.2 - p'.2| ≤ h) : ((lambert p).sub (lambert p')).len ≤ 14 * h := by
  have h0 : 0 ≤ h := (abs_nonneg _).trans h1
  obtain ⟨a1, a2⟩ := comp_le_off p
  obtain ⟨b1, b2⟩ := comp_le_off p'
  have d := sq_near (h := h) (s := p.1 - 1 / 2) (t := p.2 - 1 / 2) (s' := p'.1 - 1 / 2) (t' := p'.2 - 1 / 2) (by linarith) (by linarith)
    (by linarith) (by linarith) (by rwa [sub_sub_sub_cancel_right]) (by rwa [sub_sub_sub_cancel_right])
  have q1 := off_sq p
  have q2 := off_sq p'
  have w1 : off p ^ 2 ≤ 1 / 4 := by nlinarith [off_nonneg p]
  have w2 : off p' ^ 2 ≤ 1 / 4 := by nlinarith [off_nonneg p']
  rw [q1] at w1
  rw [q2] at w2
  obtain ⟨r1, r2, r3⟩ := root_near (add_nonneg (sq_nonneg (p.1 - 1 / 2)) (sq_nonneg (p.2 - 1 / 2)))
    (add_nonneg (sq_nonneg (p'.1 - 1 / 2)) (sq_nonneg (p'.2 - 1 / 2))) w1 w2 d
  have x1 := prod_near (h := h) (s := p.1 - 1 / 2) (s' := p'.1 - 1 / 2) (by linarith) (by rwa [sub_sub_sub_cancel_right]) (by linarith) r2 r3
  have x2 := prod_near (h := h) (s := p.2 - 1 / 2) (s' := p'.2 - 1 / 2) (by linarith) (by rwa [sub_sub_sub_cancel_right]) (by linarith) r2 r3
  have y1 := sq_le_sq' (abs_le.mp x1).1 (abs_le.mp x1).2
  have y2 := sq_le_sq' (abs_le.mp x2).1 (abs_le.mp x2).2
  have y3 := sq_le_sq' (abs_le.mp d).1 (abs_le.mp d).2
  unfold lambert V3.sub V3.len V3.normSq
  simp only
  refine sqrt_le_iff.mpr ⟨by linarith, ?_⟩
  generalize √(8 * (1 - 2 * ((p.1 - 1 / 2) ^ 2 + (p.2 - 1 / 2) ^ 2))) = S at *
  generalize √(8 * (1 - 2 * ((p'.1 - 1 / 2) ^ 2 + (p'.2 - 1 / 2) ^ 2))) = S' at *
  generalize (p.1 - 1 / 2) ^ 2 + (p.2 - 1 / 2) ^ 2 = u at *
  generalize (p'.1 - 1 / 2) ^ 2 + (p'.2 - 1 / 2) ^ 2 = u' at *
  have e1 : (-((p.1 - 1 / 2) * S) - -((p'.1 - 1 / 2) * S')) ^ 2 = ((p.1 - 1 / 2) * S - (p'.1 - 1 / 2) * S') ^ 2 := by ring
  have e3 : (1 - 4 * u - (1 - 4 * u')) ^ 2 = 16 * (u - u') ^ 2 := by ring
  rw [e1, e3]
  have : 0 ≤ h ^ 2 := sq_nonneg h
  linarith [show (8 * h) ^ 2 = 64 * h ^ 2 by ring, show (2 * h) ^ 2 = 4 * h ^ 2 by ring, show (14 * h) ^ 2 = 196 * h ^ 2 by ring]

/-- the place of the equisolid picture that shows the direction of a place of the angular image -/
theorem lambert_onRay {w p : ℝ × ℝ} (hw : off w ≤ 1 / 2) (h : OnRay w (sin (π * off w / 2) / √2) p) :
    lambert p = polar2view (-(w.1 - 1 / 2), w.2 - 1 / 2) ∧ off p ^ 2 = (1 - cos (π * off w)) / 4 := by
  obtain ⟨k, k0, e1, e2, e3⟩ := h
  have hpi := pi_pos
  have h0 := off_nonneg w
  have hs2 : √2 ^ 2 = (2 : ℝ) := sq_sqrt (by norm_num)
  have ho : off p ^ 2 = (1 - cos (π * off w)) / 4 := by
    rw [e3, div_pow, hs2, sin_sq_eq_half_sub, show 2 * (π * off w / 2) = π * off w by ring]
    ring
  refine ⟨?_, ho⟩
  have hr : rad2 (-(w.1 - 1 / 2), w.2 - 1 / 2) = off w := by
    unfold off rad2
    simp only [neg_sq]
  have hc : 0 ≤ cos (π * off w / 2) := cos_nonneg_of_mem_Icc ⟨by nlinarith, by nlinarith⟩
  have hS : √(8 * (1 - 2 * off p ^ 2)) = 2 * √2 * cos (π * off w / 2) := by
    rw [show 8 * (1 - 2 * off p ^ 2) = (2 * √2 * cos (π * off w / 2)) ^ 2 by
      rw [ho, mul_pow, mul_pow, hs2, cos_sq, show 2 * (π * off w / 2) = π * off w by ring]; ring]
    exact sqrt_sq (by positivity)
  have hk : k * (2 * √2 * cos (π * off w / 2)) * off w = polFactor (off w) * off w := by
    have e := polFactor_eq h0 (by linarith)
    have ek : k * off w = sin (π * off w / 2) / √2 := by
      rw [← e3]
      have := off_scale w k k0
      rw [← this]
      congr 1
      apply Prod.ext <;> simp only <;> linarith
    rw [mul_comm (polFactor _), e, show π * off w = 2 * (π * off w / 2) by ring, sin_two_mul]
    rw [show k * (2 * √2 * cos (2 * (π * off w / 2) / 2)) * off w = (k * off w) * (2 * √2 * cos (2 * (π * off w / 2) / 2)) by ring, ek]
    rw [show 2 * (π * off w / 2) / 2 = π * off w / 2 by ring]
    field_simp
  have hz : (1 : ℝ) - 4 * off p ^ 2 = cos (π * off w) := by rw [ho]; ring
  unfold lambert polar2view
  rw [← off_sq, hS, hr, hz]
  rcases h0.lt_or_eq with hp | hz
  · have hk' := mul_right_cancel₀ hp.ne' hk
    rw [e1, e2, ← hk']
    congr 1 <;> ring
  · obtain ⟨w1, w2⟩ := off_zero hz.symm
    rw [e1, e2, w1, w2]
    simp

/-- where the conversion reads: between the middle and the place that shows the same direction, `4e-10` off at most -/
theorem solid_read {w : ℝ × ℝ} (hw : off w < 1 / 2) : ∃ p : ℝ × ℝ, OnRay w (sin (π * off w / 2) / √2) p ∧ off p ≤ 1 / 2 ∧
    off ((fromSolid 180 w).1 + 1 / 2, (fromSolid 180 w).2 + 1 / 2) ≤ off p ∧
    |(fromSolid 180 w).1 + 1 / 2 - p.1| ≤ 4e-10 ∧ |(fromSolid 180 w).2 + 1 / 2 - p.2| ≤ 4e-10 := by
  have hpi := pi_gt_three
  have hpi2 := pi_lt_d2
  have h0 := off_nonneg w
  have hs2 : (1.41 : ℝ) ≤ √2 := by apply le_sqrt_of_sq_le; norm_num
  have hv : vsize 180 = π := by unfold vsize; ring
  obtain ⟨g0, g1, g2⟩ := gfac_nonneg (r := π * off w) (by positivity) (by nlinarith)
  have hsin : sin (π * off w / 2) ≤ √2 / 2 := by
    rw [← sin_pi_div_four]
    apply sin_le_sin_of_le_of_le_pi_div_two <;> nlinarith
  have hsin0 : 0 ≤ sin (π * off w / 2) := sin_nonneg_of_nonneg_of_le_pi (by positivity) (by nlinarith)
  have hR0 : 0 ≤ sin (π * off w / 2) / √2 := by positivity
  have hR2 : sin (π * off w / 2) / √2 ≤ 1 / 2 := by
    rw [div_le_iff₀ (by positivity)]; linarith
  rw [fromSolid_eq (by norm_num), hv]
  rcases h0.lt_or_eq with hpos | hz
  · have hb0 : 0 < π * off w + 1e-9 := by positivity
    obtain ⟨ρ, hρ⟩ : ∃ ρ, ρ = π * off w / (π * off w + 1e-9) := ⟨_, rfl⟩
    have r0 : 0 ≤ ρ := by rw [hρ]; positivity
    have r1 : ρ ≤ 1 := by rw [hρ, div_le_one hb0]; norm_num
    have hprod : off w * gfac (π * off w) = sin (π * off w / 2) / √2 * ρ := by
      have : π * (off w * gfac (π * off w)) = π * (sin (π * off w / 2) / √2 * ρ) := by
        rw [hρ, ← mul_assoc, g2]; ring
      exact mul_left_cancel₀ (by linarith) this
    have hg : gfac (π * off w) = sin (π * off w / 2) / √2 / off w * ρ := by
      field_simp at hprod ⊢
      linarith
    have hp : off (1 / 2 + sin (π * off w / 2) / √2 / off w * (w.1 - 1 / 2),
        1 / 2 + sin (π * off w / 2) / √2 / off w * (w.2 - 1 / 2)) = sin (π * off w / 2) / √2 := by
      rw [off_scale _ _ (by positivity), div_mul_cancel₀ _ hpos.ne']
    refine ⟨(1 / 2 + sin (π * off w / 2) / √2 / off w * (w.1 - 1 / 2),
      1 / 2 + sin (π * off w / 2) / √2 / off w * (w.2 - 1 / 2)),
      ⟨sin (π * off w / 2) / √2 / off w, by positivity, by simp, by simp, hp⟩, by rw [hp]; exact hR2, ?_, ?_⟩
    · have := off_scale w (gfac (π * off w)) g0
      rw [show ((w.1 - 1 / 2) * gfac (π * off w) + 1 / 2, (w.2 - 1 / 2) * gfac (π * off w) + 1 / 2)
        = (1 / 2 + gfac (π * off w) * (w.1 - 1 / 2), 1 / 2 + gfac (π * off w) * (w.2 - 1 / 2)) by
          apply Prod.ext <;> simp only <;> ring, this, hp, mul_comm, hprod]
      nlinarith
    · have hk : sin (π * off w / 2) / √2 * (1 - ρ) ≤ 4e-10 := by
        have e1 : 1 - ρ = 1e-9 / (π * off w + 1e-9) := by rw [hρ]; field_simp; ring
        have h3 : sin (π * off w / 2) ≤ π * off w / 2 := sin_le (by positivity)
        rw [e1, div_mul_div_comm, div_le_iff₀ (by positivity)]
        have : (0 : ℝ) < π * off w := by positivity
        nlinarith
      obtain ⟨c1, c2⟩ := comp_le_off w
      have hA : ∀ t : ℝ, |t| ≤ off w → |t * gfac (π * off w) + 1 / 2 - (1 / 2 + sin (π * off w / 2) / √2 / off w * t)| ≤ 4e-10 := by
        intro t ht
        rw [hg, show t * (sin (π * off w / 2) / √2 / off w * ρ) + 1 / 2 - (1 / 2 + sin (π * off w / 2) / √2 / off w * t)
          = -(t / off w * (sin (π * off w / 2) / √2 * (1 - ρ))) by ring, abs_neg, abs_mul, abs_div, abs_of_pos hpos,
          abs_of_nonneg (mul_nonneg hR0 (by linarith))]
        refine le_trans ?_ hk
        have : |t| / off w ≤ 1 := (div_le_one hpos).mpr ht
        exact mul_le_of_le_one_left (mul_nonneg hR0 (by linarith)) this
      exact ⟨hA _ c1, hA _ c2⟩
  · obtain ⟨e1, e2⟩ := off_zero hz.symm
    refine ⟨(1 / 2, 1 / 2), ⟨0, le_rfl, by simp, by simp, ?_⟩, ?_, ?_, ?_⟩
    · rw [← hz]; simp [off, rad2]
    · simp [off, rad2]
    · simp [off, rad2, e1, e2]
    · simp only [e1, e2]; norm_num

/-! ### converted pictures -/

theorem off_add (a b : ℝ × ℝ) {h : ℝ} (h1 : |a.1 - b.1| ≤ h) (h2 : |a.2 - b.2| ≤ h) : off a ≤ off b + 2 * h := by
  have h0 : 0 ≤ h := (abs_nonneg _).trans h1
  have t := hyp_add (b.1 - 1 / 2) (b.2 - 1 / 2) (a.1 - b.1) (a.2 - b.2)
  have e1 : b.1 - 1 / 2 + (a.1 - b.1) = a.1 - 1 / 2 := by ring
  have e2 : b.2 - 1 / 2 + (a.2 - b.2) = a.2 - 1 / 2 := by ring
  rw [e1, e2] at t
  unfold off rad2
  simp only
  refine t.trans (by
    gcongr
    refine sqrt_le_iff.mpr ⟨by linarith, ?_⟩
    have a1 := sq_le_sq' (abs_le.mp h1).1 (abs_le.mp h1).2
    have a2 := sq_le_sq' (abs_le.mp h2).1 (abs_le.mp h2).2
    nlinarith)

theorem normSq_dot (v : V3) : v.normSq = v.dot v := by unfold V3.normSq V3.dot; ring

theorem v2w_chord (p q : V3) : (((dfltView 180).v2w p).sub ((dfltView 180).v2w q)).len = (p.sub q).len := by
  have e : ∀ a b : V3, (a.sub b).normSq = a.dot a - 2 * a.dot b + b.dot b := fun a b => by
    unfold V3.normSq V3.sub V3.dot; ring
  unfold V3.len
  rw [e, e]
  have h := fun a b => (C50_isometry ⟨0, 1, 0⟩ dflt_ne 180 a b).2.2.2
  unfold dfltView
  rw [h, h, h]

/-- every pixel in view of the converted picture: away from the edge it is close to the scene in its own direction, everywhere
it is bounded -/
theorem solid_near (L : V3 → ℝ) {K : ℝ} (hK : 0 ≤ K) (hL : Steep K L) (B : ℝ) {z : ℝ} (hz : 0 < z) {n : ℕ} (hn : 16 < z * n) (hz1 : z ≤ 1)
    (nearest : Bool) (im out : Img ℝ) (hp : SolidPicture L B n im) (ho : AngleOf nearest im out) (i j : ℕ) (hi : i < n) (hj : j < n)
    (hin : off (mid n i j) < 1 / 2) :
    (z ≤ cos (π * off (mid n i j)) →
      |out.at_ i j - L ((dfltView 180).pixel2ray n (pixelCentre i j))| ≤ K * (14 * (1 / n + 4e-10))) ∧ |out.at_ i j| ≤ 4 * B := by
  obtain ⟨p1, p2, p3, p4⟩ := hp
  obtain ⟨o1, o2, o3⟩ := ho
  have hnr : (16 : ℝ) < n := by
    have : (0 : ℝ) ≤ n := Nat.cast_nonneg n
    nlinarith
  have hn0 : (0 : ℝ) < n := by linarith
  have hn2 : 2 ≤ n := by
    have : (2 : ℝ) ≤ n := by linarith
    exact_mod_cast this
  have hv := o3 i j (by omega) (by omega)
  have hent := (solid2ang_entry (va := 180) (by norm_num) le_rfl (centreInterp nearest) im (p1.trans p2.symm) i j (by omega) (by omega)).1
  rw [p2] at hent
  have hw : ((((i : ℝ) + 1 / 2) / n, ((j : ℝ) + 1 / 2) / n) : ℝ × ℝ) = mid n i j := rfl
  rw [hw] at hent
  obtain ⟨p, hr, hp2, hx, hx1, hx2⟩ := solid_read hin
  obtain ⟨l1, l2⟩ := lambert_onRay hin.le hr
  have hray : (dfltView 180).pixel2ray n (pixelCentre i j) = (dfltView 180).v2w (lambert p) := by
    rw [l1]; exact v2w_polar ⟨0, 1, 0⟩ n i j
  have hxo : off ((fromSolid 180 (mid n i j)).1 + 1 / 2, (fromSolid 180 (mid n i j)).2 + 1 / 2)
      = off (mid n i j) * gfac (vsize 180 * off (mid n i j)) := by
    have := (fromSolid_lt (va := 180) (by norm_num) le_rfl (mid n i j) (by linarith)).1
    rw [← rad_fromSolid (by norm_num) _ this]
    unfold off
    simp
  have hpi := pi_pos
  have hcos : 0 < cos (π * off (mid n i j)) :=
    cos_pos_of_mem_Ioo ⟨by nlinarith [off_nonneg (mid n i j)], by nlinarith⟩
  have hplt : off p < 1 / 2 := by nlinarith [off_nonneg p]
  have hval := hent (by rw [← hxo]; exact lt_of_le_of_lt hx hplt)
  rw [hv] at hval
  injection hval with hval
  rw [hval, hray]
  clear hent hv hval hxo
  generalize hX : ((fromSolid 180 (mid n i j)).1 + 1 / 2, (fromSolid 180 (mid n i j)).2 + 1 / 2) = x at *
  have x1 : (fromSolid 180 (mid n i j)).1 + 1 / 2 = x.1 := by rw [← hX]
  have x2 : (fromSolid 180 (mid n i j)).2 + 1 / 2 = x.2 := by rw [← hX]
  rw [x1] at hx1 ⊢
  rw [x2] at hx2 ⊢
  obtain ⟨c1, c2⟩ := comp_le_off x
  rw [abs_le] at c1 c2
  refine ⟨fun hzc => ?_, ?_⟩
  · have hpz : off p ≤ 1 / 2 - z / 4 := by
      refine abs_le_of_sq_le_sq' ?_ (by linarith) |>.2
      nlinarith [sq_nonneg z]
    have hzn : 1 / (n : ℝ) ≤ z / 16 := by
      rw [div_le_div_iff₀ hn0 (by norm_num)]; linarith
    have hn1 : (1 / (n : ℝ)) * n = 1 := by field_simp
    refine centre_close nearest im hn2 p1 p2 (X := (x.1 * n, x.2 * n)) ⟨?_, ?_, ?_, ?_⟩ fun a b ha hb ha' hb' => ?_
    · simp only; nlinarith
    · simp only; nlinarith
    · simp only; nlinarith
    · simp only; nlinarith
    · have q1 : |(mid n a b).1 - x.1| ≤ 1 / n := by
        rw [show (mid n a b).1 - x.1 = ((a : ℝ) + 1 / 2 - x.1 * n) / n by unfold mid; field_simp, abs_div, abs_of_pos hn0]
        gcongr
      have q2 : |(mid n a b).2 - x.2| ≤ 1 / n := by
        rw [show (mid n a b).2 - x.2 = ((b : ℝ) + 1 / 2 - x.2 * n) / n by unfold mid; field_simp, abs_div, abs_of_pos hn0]
        gcongr
      have hq := off_add _ _ q1 q2
      have hlt : off (mid n a b) < 1 / 2 := by linarith
      rw [p3 a b ha hb hlt]
      have hnorm : ∀ v : V3, v.normSq = 1 → ((dfltView 180).v2w v).normSq = 1 := fun v hv => by
        rw [← hv, normSq_dot, normSq_dot]; exact (C50_isometry ⟨0, 1, 0⟩ dflt_ne 180 v v).2.2.2
      refine (hL _ _ (hnorm _ (lambert_unit hlt.le)) (hnorm _ (lambert_unit hplt.le))).trans ?_
      refine mul_le_mul_of_nonneg_left ?_ hK
      rw [v2w_chord]
      refine lambert_near hlt.le hplt.le ?_ ?_
      · refine (abs_sub_le _ x.1 _).trans ?_
        linarith
      · refine (abs_sub_le _ x.2 _).trans ?_
        linarith
  · refine centre_bound nearest im hn2 p1 p2 (X := (x.1 * n, x.2 * n)) ?_ ?_ ?_ ?_ p4 <;> simp only <;> nlinarith

/-! ### the edge of the view -/

open Classical in
/-- the solid angle of the pixels in view whose direction is within `z` of the edge of the hemisphere -/
noncomputable def edgeSum (z : ℝ) (n : ℕ) : ℝ :=
  ∑ i ∈ Finset.range n, ∑ j ∈ Finset.range n,
    if (dfltView 180).inView 0 ((dfltView 180).pixel2ray n (pixelCentre i j)) ∧ cos (π * off (mid n i j)) < z then
      (dfltView 180).pixel2omega n (pixelCentre i j) else 0

theorem dflt_dot (p : V3) : ((dfltView 180).v2w p).dot (dfltView 180).dxyz = p.z := by
  have a := (C50_isometry ⟨0, 1, 0⟩ dflt_ne 180 p ⟨0, 0, 1⟩).2.2.2
  rw [(C50_look_partial ⟨0, 1, 0⟩ dflt_clear 180).2.1] at a
  unfold dfltView
  rw [a]
  unfold V3.dot
  ring

theorem pixel_z (n i j : ℕ) : ((dfltView 180).pixel2ray n (pixelCentre i j)).dot (dfltView 180).dxyz = cos (π * off (mid n i j)) := by
  have := v2w_polar ⟨0, 1, 0⟩ n i j
  rw [show (View.new ⟨0, 1, 0⟩ 180) = dfltView 180 from rfl] at this
  rw [this, dflt_dot]
  unfold polar2view off rad2 mid
  simp only [neg_sq]

theorem cap_pow (k : ℕ) : capIntegral (π / 2) (fun p => (1 - p.z) ^ k) = 2 * π / (k + 1) := by
  unfold capIntegral sphDir
  simp only [intervalIntegral.integral_const, smul_eq_mul]
  have hd : ∀ t ∈ Set.uIcc 0 (π / 2), HasDerivAt (fun t => 2 * π * ((1 - cos t) ^ (k + 1) / (k + 1))) ((π - -π) * ((1 - cos t) ^ k * sin t)) t := by
    intro t _
    have h := (((hasDerivAt_cos t).const_sub 1).pow (k + 1)).div_const ((k : ℝ) + 1) |>.const_mul (2 * π)
    refine h.congr_deriv ?_
    have : (k : ℝ) + 1 ≠ 0 := by positivity
    push_cast
    simp only [add_tsub_cancel_right, neg_neg]
    field_simp
    ring
  rw [intervalIntegral.integral_eq_sub_of_hasDerivAt hd (by
    apply Continuous.intervalIntegrable
    fun_prop)]
  simp
  ring

/-- pixels near the edge make up as little solid angle as one likes -/
theorem edge_small {e : ℝ} (he : 0 < e) : ∃ z, 0 < z ∧ z ≤ 1 ∧ ∀ᶠ n : ℕ in atTop, edgeSum z n < e := by
  have hpi := pi_pos
  obtain ⟨k, hk⟩ := exists_nat_gt (4 * π / e)
  have hk1 : (0 : ℝ) < (k : ℝ) + 1 := by positivity
  have hs : Smooth fun p => (1 - p.dot (dfltView 180).dxyz) ^ k := by
    unfold Smooth V3.dot
    fun_prop
  have lim := C158_limit ⟨0, 1, 0⟩ dflt_clear 180 (by norm_num) le_rfl _ hs
  have ha : chordFactor 180 * 180 * π / 360 = π / 2 := by rw [cf_180]; ring
  rw [ha] at lim
  have ec : (fun p => (fun p => (1 - p.dot (dfltView 180).dxyz) ^ k) ((View.new ⟨0, 1, 0⟩ 180).v2w p)) = fun p : V3 => (1 - p.z) ^ k := by
    funext p
    simp only
    rw [← dflt_dot p]
    rfl
  rw [ec, cap_pow] at lim
  refine ⟨1 / (2 * (k + 1)), by positivity, ?_, ?_⟩
  · rw [div_le_one (by positivity)]
    have : (0 : ℝ) ≤ k := Nat.cast_nonneg k
    linarith
  have hlt : 2 * π / (k + 1) < e / 2 := by
    rw [div_lt_iff₀ hk1]
    rw [div_lt_iff₀ he] at hk
    nlinarith
  filter_upwards [lim.eventually (gt_mem_nhds hlt)] with n hn
  have hn : viewSum (dfltView 180) (fun p => (1 - p.dot (dfltView 180).dxyz) ^ k) n < e / 2 := hn
  have : edgeSum (1 / (2 * (k + 1))) n ≤ 2 * viewSum (dfltView 180) (fun p => (1 - p.dot (dfltView 180).dxyz) ^ k) n := by
    unfold edgeSum viewSum
    rw [Finset.mul_sum]
    refine Finset.sum_le_sum fun i _ => ?_
    rw [Finset.mul_sum]
    refine Finset.sum_le_sum fun j _ => ?_
    beta_reduce
    rw [pixel_z]
    have ho : 0 ≤ (dfltView 180).pixel2omega n (pixelCentre i j) := sqrt_nonneg _
    have hc := cos_le_one (π * off (mid n i j))
    have hg : 0 ≤ (1 - cos (π * off (mid n i j))) ^ k := pow_nonneg (by linarith) k
    by_cases hv : (dfltView 180).inView 0 ((dfltView 180).pixel2ray n (pixelCentre i j))
    · simp only [hv, true_and, if_true]
      split_ifs with hz
      · have h1 : (1 : ℝ) / 2 ≤ (1 - cos (π * off (mid n i j))) ^ k := by
          have b := one_add_mul_le_pow (a := -(1 / (2 * ((k : ℝ) + 1)))) (by
            have : 1 / (2 * ((k : ℝ) + 1)) ≤ 1 := by
              rw [div_le_one (by positivity)]
              have : (0 : ℝ) ≤ k := Nat.cast_nonneg k
              linarith
            linarith) k
          have b2 : (k : ℝ) * (1 / (2 * (k + 1))) ≤ 1 / 2 := by
            rw [mul_one_div, div_le_div_iff₀ (by positivity) (by norm_num)]
            linarith
          have b3 : (1 + -(1 / (2 * ((k : ℝ) + 1)))) ^ k ≤ (1 - cos (π * off (mid n i j))) ^ k := by
            refine pow_le_pow_left₀ ?_ (by linarith) k
            have : 1 / (2 * ((k : ℝ) + 1)) ≤ 1 := by
              rw [div_le_one (by positivity)]
              have : (0 : ℝ) ≤ k := Nat.cast_nonneg k
              linarith
            linarith
          linarith
        nlinarith
      · positivity
    · simp [hv]
  linarith

/-! ### the light -/

/-- **C201.** Photograph any continuous scene in the equisolid projection with a 180 degree lens (whatever the camera leaves
outside the circle) and convert the photographs with `solid2ang`, with linear or nearest interpolation. From some resolution
on, the sum over the pixels in view of value, any continuous weight of the direction, and solid angle differs from the
integral of scene times weight over the hemisphere by at most `3.6e-8` times the steepness of the scene times the largest
weight, and any chosen allowance on top. The first part is the `1e-9` in the denominator of the mapper. -/
theorem C201_light (L w : V3 → ℝ) (hL : Smooth L) (hw : Smooth w) {K M : ℝ} (hK : 0 ≤ K) (hs : Steep K L)
    (hM : ∀ v : V3, v.normSq = 1 → |w v| ≤ M) (B : ℝ) (hB : 0 ≤ B) {e : ℝ} (he : 0 < e) (nearest : Bool) :
    ∀ᶠ n : ℕ in atTop, ∀ im out : Img ℝ, SolidPicture L B n im → AngleOf nearest im out →
      |out.lightIn (dfltView 180) w - capIntegral (π / 2) fun p => L ((dfltView 180).v2w p) * w ((dfltView 180).v2w p)|
        ≤ 3.6e-8 * K * M + e := by
  have hpi := pi_pos
  have hM0 : 0 ≤ M := (abs_nonneg _).trans (hM ⟨1, 0, 0⟩ (by unfold V3.normSq; norm_num))
  obtain ⟨M', hM'0, hM'⟩ := smooth_bound hL
  have hLw : Smooth fun p => L p * w p := by unfold Smooth at *; exact hL.mul hw
  have ha : chordFactor 180 * 180 * π / 360 = π / 2 := by rw [cf_180]; ring
  have base := C158_limit ⟨0, 1, 0⟩ dflt_clear 180 (by norm_num) le_rfl _ hLw
  have area := C158_area ⟨0, 1, 0⟩ dflt_clear 180 (by norm_num) le_rfl
  rw [ha] at base area
  rw [cos_pi_div_two, sub_zero, mul_one] at area
  obtain ⟨z, hz0, hz1, hedge⟩ := edge_small (e := e / (4 * ((4 * B + M') * M + 1))) (by positivity)
  have hsmall : Tendsto (fun n : ℕ => K * (14 * (1 / (n : ℝ))) * M * 7) atTop (𝓝 0) := by
    have := (tendsto_one_div_atTop_nhds_zero_nat (𝕜 := ℝ)).const_mul (K * 14 * M * 7)
    rw [mul_zero] at this
    refine this.congr fun n => by ring
  have hbig : Tendsto (fun n : ℕ => z * (n : ℝ)) atTop atTop := (tendsto_natCast_atTop_atTop).const_mul_atTop hz0
  rw [Metric.tendsto_nhds] at base
  have harea : (2 * π : ℝ) < 6.2832 := by nlinarith [pi_lt_d6]
  filter_upwards [hedge, hsmall.eventually (gt_mem_nhds (show (0 : ℝ) < e / 4 by positivity)), hbig.eventually_gt_atTop 16,
    base (e / 4) (by positivity), area.eventually (gt_mem_nhds harea)] with n h1 h2 h3 h4 h5 im out hp ho
  have h4 : |viewSum (dfltView 180) (fun p => L p * w p) n - capIntegral (π / 2) fun p => L ((dfltView 180).v2w p) * w ((dfltView 180).v2w p)| < e / 4 := by
    rw [← Real.dist_eq]; exact h4
  have h5 : viewSum (dfltView 180) (fun _ => 1) n < 6.2832 := h5
  have e1 : out.n = n := ho.1.trans hp.2.1
  have e2 : out.m = n := ho.2.1.trans hp.2.1
  have hn0 : (0 : ℝ) ≤ 1 / n := by positivity
  have key : |out.lightIn (dfltView 180) w - viewSum (dfltView 180) (fun p => L p * w p) n| ≤
      K * (14 * (1 / n + 4e-10)) * M * viewSum (dfltView 180) (fun _ => 1) n + (4 * B + M') * M * edgeSum z n := by
    unfold Img.lightIn viewSum edgeSum
    rw [e1, e2, ← Finset.sum_sub_distrib, Finset.mul_sum, Finset.mul_sum, ← Finset.sum_add_distrib]
    refine (Finset.abs_sum_le_sum_abs _ _).trans (Finset.sum_le_sum fun i hi => ?_)
    rw [← Finset.sum_sub_distrib, Finset.mul_sum, Finset.mul_sum, ← Finset.sum_add_distrib]
    refine (Finset.abs_sum_le_sum_abs _ _).trans (Finset.sum_le_sum fun j hj => ?_)
    have hi := Finset.mem_range.mp hi
    have hj := Finset.mem_range.mp hj
    have hom : 0 ≤ (dfltView 180).pixel2omega n (pixelCentre i j) := sqrt_nonneg _
    have hu := pixel_unit ⟨0, 1, 0⟩ dflt_ne 180 n (pixelCentre i j)
    have hwm := hM _ hu
    have hLm := hM' _ hu
    by_cases hv : (dfltView 180).inView 0 ((dfltView 180).pixel2ray n (pixelCentre i j))
    · have hoff : off (mid n i j) < 1 / 2 := by
        obtain ⟨a0, a1⟩ := centre_div hi
        obtain ⟨b0, b1⟩ := centre_div hj
        have := (C53_circle_partial ⟨0, 1, 0⟩ dflt_clear 180 (by norm_num) le_rfl (((i : ℝ) + 1 / 2) / n, ((j : ℝ) + 1 / 2) / n)
          a0 a1 b0 b1).mp hv
        rw [← rad2_lt_half] at this
        exact this
      obtain ⟨k1, k2⟩ := solid_near L hK hs B hz0 h3 hz1 nearest im out hp ho i j hi hj hoff
      simp only [hv, true_and, if_true, one_mul]
      rw [show ∀ a b c o : ℝ, a * b * o - c * b * o = (a - c) * b * o from fun a b c o => by ring, abs_mul, abs_mul,
        abs_of_nonneg hom]
      have hV : (dfltView 180).pixel2ray n (pixelCentre i j) = (View.new ⟨0, 1, 0⟩ 180).pixel2ray n (pixelCentre i j) := rfl
      rw [← hV] at hwm hLm
      split_ifs with hz
      · have : |out.at_ i j - L ((dfltView 180).pixel2ray n (pixelCentre i j))| ≤ 4 * B + M' :=
          (abs_sub _ _).trans (add_le_add k2 hLm)
        have : |out.at_ i j - L ((dfltView 180).pixel2ray n (pixelCentre i j))| * |w ((dfltView 180).pixel2ray n (pixelCentre i j))| *
            (dfltView 180).pixel2omega n (pixelCentre i j) ≤ (4 * B + M') * M * (dfltView 180).pixel2omega n (pixelCentre i j) := by
          gcongr
        have h6 : 0 ≤ K * (14 * (1 / (n : ℝ) + 4e-10)) * M * (dfltView 180).pixel2omega n (pixelCentre i j) := by positivity
        linarith
      · have := k1 (not_lt.mp hz)
        rw [mul_zero, add_zero]
        gcongr
    · simp [hv]
  have f1 : K * (14 * (1 / n + 4e-10)) * M * viewSum (dfltView 180) (fun _ => 1) n ≤ e / 4 + 3.6e-8 * K * M := by
    have : K * (14 * (1 / n + 4e-10)) * M * viewSum (dfltView 180) (fun _ => 1) n ≤ K * (14 * (1 / n + 4e-10)) * M * 6.2832 :=
      mul_le_mul_of_nonneg_left h5.le (by positivity)
    have q : 0 ≤ K * (1 / (n : ℝ)) * M := by positivity
    have q2 : 0 ≤ K * M := by positivity
    nlinarith
  have f2 : (4 * B + M') * M * edgeSum z n ≤ e / 4 := by
    have hp0 : 0 ≤ (4 * B + M') * M := by positivity
    refine (mul_le_mul_of_nonneg_left h1.le hp0).trans ?_
    rw [mul_div_assoc', div_le_div_iff₀ (by positivity) (by norm_num)]
    nlinarith
  rw [abs_le] at key ⊢
  rw [abs_lt] at h4
  constructor <;> linarith [key.1, key.2, h4.1, h4.2]

/-! ### there are such photographs -/

theorem photo_exists (L : V3 → ℝ) {M : ℝ} (hM : ∀ v : V3, v.normSq = 1 → |L v| ≤ M) (nearest : Bool) (n : ℕ) :
    ∃ im out, SolidPicture L M n im ∧ AngleOf nearest im out := by
  classical
  have hM0 : 0 ≤ M := (abs_nonneg _).trans (hM ⟨1, 0, 0⟩ (by unfold V3.normSq; norm_num))
  let im : Img ℝ := ⟨n, n, fun i j => if off (mid n i j) < 1 / 2 then L ((dfltView 180).v2w (lambert (mid n i j))) else 0⟩
  have hv : ∀ i j, ∃ v, arraySolid2ang false 180 (centreInterp nearest) im i j = .ok v := by
    intro i j
    unfold arraySolid2ang solidNew
    rw [if_neg (by norm_num)]
    simp only [Except.bind]
    rw [if_neg (show ¬ im.n ≠ im.m from fun h => h rfl)]
    split_ifs
    · exact ⟨_, rfl⟩
    · exact ⟨_, rfl⟩
  choose f hf using hv
  refine ⟨im, ⟨n, n, f⟩, ⟨rfl, rfl, fun i j _ _ h => if_pos h, fun i j _ _ => ?_⟩, rfl, rfl, fun i j _ _ => hf i j⟩
  show |if off (mid n i j) < 1 / 2 then L ((dfltView 180).v2w (lambert (mid n i j))) else 0| ≤ M
  split_ifs with h
  · refine hM _ ?_
    rw [normSq_dot]
    have := (C50_isometry ⟨0, 1, 0⟩ dflt_ne 180 (lambert (mid n i j)) (lambert (mid n i j))).2.2.2
    rw [← normSq_dot (lambert _), lambert_unit h.le] at this
    exact this
  · simpa using hM0

/-- a scene that is brighter towards the line of sight, and its illuminance -/
example : Smooth (fun p => p.y) ∧ Steep 1 (fun p => p.y) ∧ ∀ v : V3, v.normSq = 1 → |v.y| ≤ 1 := by
  refine ⟨by unfold Smooth; fun_prop, fun p q _ _ => ?_, fun v hv => ?_⟩
  · rw [one_mul]
    refine abs_le_sqrt ?_
    unfold V3.sub V3.normSq
    simp only
    nlinarith [sq_nonneg (p.x - q.x), sq_nonneg (p.z - q.z)]
  · unfold V3.normSq at hv
    refine abs_le_of_sq_le_sq ?_ (by norm_num)
    nlinarith [sq_nonneg v.x, sq_nonneg v.z]

end Verif.Map
