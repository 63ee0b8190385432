import Verif.Model.RoundedPlane
import Verif.Props.Rounded
import Verif.Props.Mapper
import Verif.Lemmas.Binary64

/-! C196 (the planar mapper in rounded arithmetic). -/

namespace Verif.Fp
open Verif.Geo Verif.Map Real

/-- a product with the identity matrix in rounded arithmetic -/
theorem app_one {A : Arith} (h : A.Ok) (v : V3) :
    (∃ g, |g - 1| ≤ 9.2e-16 ∧ (app A 1 v).x = v.x * g) ∧ (∃ g, |g - 1| ≤ 9.2e-16 ∧ (app A 1 v).y = v.y * g) := by
  have hu := h.small
  have d1 := h.dot3 ⟨1, 0, 0⟩ v
  have d2 := h.dot3 ⟨0, 1, 0⟩ v
  simp only [V3.dot, one_mul, zero_mul, add_zero, zero_add, abs_zero] at d1 d2
  have e1 : (app A 1 v).x = A.dot3 ⟨1, 0, 0⟩ v := by simp [app]
  have e2 : (app A 1 v).y = A.dot3 ⟨0, 1, 0⟩ v := by simp [app]
  have u4 : 0 ≤ 4 * A.u := by have := h.u0; linarith
  obtain ⟨g1, a1, b1⟩ := rel u4 d1
  obtain ⟨g2, a2, b2⟩ := rel u4 d2
  exact ⟨⟨g1, by linarith, by rw [e1, b1]⟩, ⟨g2, by linarith, by rw [e2, b2]⟩⟩

/-- there and back along one axis, without the rotations: the point of coordinate `x` has coordinate `x` up to rounding -/
theorem axis_near {A : Arith} (h : A.Ok) {lo sf x G : ℝ} (hs : sf ≠ 0) (hx : |x| ≤ 1.01) (hG : |G - 1| ≤ 4e-15) :
    |A.div (A.sub (A.add lo (A.mul x sf) * G) lo) sf - x| ≤ 6e-15 * (|lo / sf| + 1) := by
  obtain ⟨g1, n1, e1⟩ := mulR h x sf
  obtain ⟨g2, n2, e2⟩ := addR h lo (A.mul x sf)
  obtain ⟨g3, n3, e3⟩ := subR h (A.add lo (A.mul x sf) * G) lo
  obtain ⟨g4, n4, e4⟩ := divR h (A.sub (A.add lo (A.mul x sf) * G) lo) hs
  have hH : |g2 * G - 1| ≤ 4.3e-15 := (near_mul n2 hG (by norm_num)).trans (by norm_num)
  have hK : |g3 * g4 - 1| ≤ 4.7e-16 := (near_mul n3 n4 (by norm_num)).trans (by norm_num)
  set H := g2 * G - 1 with hHd
  set K := g3 * g4 with hKd
  set R := lo / sf with hR
  have e : A.div (A.sub (A.add lo (A.mul x sf) * G) lo) sf - x
      = x * (g1 - 1) + (R + x * g1) * H + (x * g1 + (R + x * g1) * H) * (K - 1) := by
    rw [e4, e3, e2, e1, hHd, hKd, hR]
    field_simp
    ring
  rw [e]
  have hR0 := abs_nonneg R
  have b1 : |x * (g1 - 1)| ≤ 1.01 * 2.3e-16 := abs_mul_le hx n1
  have g1b : |g1| ≤ 1.001 := by
    have := abs_add_le (g1 - 1) 1
    rw [sub_add_cancel, abs_one] at this
    linarith
  have b2 : |x * g1| ≤ 1.01 * 1.001 := abs_mul_le hx g1b
  have b3 : |R + x * g1| ≤ |R| + 1.02 := (abs_add_le _ _).trans (by linarith)
  have b4 : |(R + x * g1) * H| ≤ (|R| + 1.02) * 4.3e-15 := abs_mul_le b3 hH
  have b5 : |x * g1 + (R + x * g1) * H| ≤ |R| + 1.02 := by
    refine (abs_add_le _ _).trans ?_
    have : (|R| + 1.02) * 4.3e-15 ≤ (|R| + 1.02) * 1e-3 := by gcongr; norm_num
    linarith
  have b6 : |(x * g1 + (R + x * g1) * H) * (K - 1)| ≤ (|R| + 1.02) * 4.7e-16 := abs_mul_le b5 hK
  have := abs_add_le (x * (g1 - 1) + (R + x * g1) * H) ((x * g1 + (R + x * g1) * H) * (K - 1))
  have := abs_add_le (x * (g1 - 1)) ((R + x * g1) * H)
  linarith

theorem four_near {a b c d : ℝ} (ha : |a - 1| ≤ 9.2e-16) (hb : |b - 1| ≤ 9.2e-16) (hc : |c - 1| ≤ 9.2e-16)
    (hd : |d - 1| ≤ 9.2e-16) : |a * b * c * d - 1| ≤ 4e-15 := by
  have h1 := near_mul ha hb (by norm_num)
  have h2 := near_mul (h1.trans (show _ ≤ (1.9e-15 : ℝ) by norm_num)) hc (by norm_num)
  have h3 := near_mul (h2.trans (show _ ≤ (2.9e-15 : ℝ) by norm_num)) hd (by norm_num)
  exact h3.trans (by norm_num)

/-- **C196** coordinates come back up to rounding, in proportion to how far the box is from the origin -/
theorem C196_uv {A : Arith} (h : A.Ok) (sf lo : ℝ × ℝ) (z : ℝ) (h1 : sf.1 ≠ 0) (h2 : sf.2 ≠ 0) (uv : ℝ × ℝ)
    (hu : |uv.1| ≤ 1.01) (hv : |uv.2| ≤ 1.01) :
    |((⟨sf, lo, z, 1, 1⟩ : FPlane).xyz2uv A ((⟨sf, lo, z, 1, 1⟩ : FPlane).uv2xyz A uv)).1 - uv.1| ≤ 6e-15 * (|lo.1 / sf.1| + 1) ∧
    |((⟨sf, lo, z, 1, 1⟩ : FPlane).xyz2uv A ((⟨sf, lo, z, 1, 1⟩ : FPlane).uv2xyz A uv)).2 - uv.2| ≤ 6e-15 * (|lo.2 / sf.2| + 1) := by
  unfold FPlane.xyz2uv FPlane.uv2xyz
  simp only [Matrix.transpose_one]
  set v : V3 := ⟨A.add lo.1 (A.mul uv.1 sf.1), A.add lo.2 (A.mul uv.2 sf.2), z⟩ with hvd
  obtain ⟨⟨a1, m1, f1⟩, ⟨b1, n1, g1⟩⟩ := app_one h v
  obtain ⟨⟨a2, m2, f2⟩, ⟨b2, n2, g2⟩⟩ := app_one h (app A 1 v)
  obtain ⟨⟨a3, m3, f3⟩, ⟨b3, n3, g3⟩⟩ := app_one h (app A 1 (app A 1 v))
  obtain ⟨⟨a4, m4, f4⟩, ⟨b4, n4, g4⟩⟩ := app_one h (app A 1 (app A 1 (app A 1 v)))
  constructor
  · rw [f4, f3, f2, f1, show v.x * a1 * a2 * a3 * a4 = v.x * (a1 * a2 * a3 * a4) by ring]
    exact axis_near h h1 hu (four_near m1 m2 m3 m4)
  · rw [g4, g3, g2, g1, show v.y * b1 * b2 * b3 * b4 = v.y * (b1 * b2 * b3 * b4) by ring]
    exact axis_near h h2 hv (four_near n1 n2 n3 n4)

theorem floor_of_near {A : Arith} (h : A.Ok) {w x r : ℝ} {k : ℤ} {res : ℕ} (hres : 0 < res) (hr : 1 ≤ r)
    (hx : |x - (k + 1 / 2) / res| ≤ 6e-16) (hk0 : 0 ≤ k) (hk1 : k < res) (hw : |w - x| ≤ 6e-15 * r) (hb : r * res ≤ 5e13) :
    ⌊A.mul w res⌋ = k := by
  have hres' : (1 : ℝ) ≤ res := by exact_mod_cast hres
  obtain ⟨g, n, e⟩ := mulR h w res
  have hk0' : (0 : ℝ) ≤ k := by exact_mod_cast hk0
  have hk1' : (k : ℝ) + 1 ≤ res := by exact_mod_cast hk1
  have a1 : |w - (k + 1 / 2) / res| ≤ 6.6e-15 * r := by
    have := abs_sub_le w x ((k + 1 / 2) / res)
    nlinarith
  have a2 : |w * res - (k + 1 / 2)| ≤ 0.33 := by
    have : w * res - (k + 1 / 2) = (w - (k + 1 / 2) / res) * res := by field_simp
    rw [this, abs_mul, abs_of_pos (show (0 : ℝ) < res by linarith)]
    calc _ ≤ 6.6e-15 * r * res := by gcongr
      _ = 6.6e-15 * (r * res) := by ring
      _ ≤ 6.6e-15 * 5e13 := by gcongr
      _ = 0.33 := by norm_num
  have hle : (res : ℝ) ≤ 5e13 := by nlinarith
  have a3 : |w * res| ≤ 5.1e13 := by
    obtain ⟨l, u⟩ := abs_le.mp a2
    rw [abs_le]; constructor <;> linarith
  have a4 : |w * res * (g - 1)| ≤ 5.1e13 * 2.3e-16 := abs_mul_le a3 n
  have a5 : |A.mul w res - (k + 1 / 2)| ≤ 0.35 := by
    rw [e]
    have : w * res * g - (k + 1 / 2) = w * res - (k + 1 / 2) + w * res * (g - 1) := by ring
    rw [this]
    refine (abs_add_le _ _).trans ?_
    have : (5.1e13 : ℝ) * 2.3e-16 ≤ 0.012 := by norm_num
    linarith
  obtain ⟨l, u⟩ := abs_le.mp a5
  rw [Int.floor_eq_iff]
  constructor <;> linarith

/-- **C196** the pixel round trip of a planar mapper survives rounding: the pixel comes back, mirrored along the first
axis as in C48, whenever a pixel is wider than 2e-14 of the size of the box plus its distance from the origin -/
theorem C196_pixel_partial {A : Arith} (h : A.Ok) (sf lo : ℝ × ℝ) (z : ℝ) (h1 : sf.1 ≠ 0) (h2 : sf.2 ≠ 0) (xres yres i j : ℕ)
    (hi : i < xres) (hj : j < yres) (b1 : (|lo.1 / sf.1| + 1) * xres ≤ 5e13) (b2 : (|lo.2 / sf.2| + 1) * yres ≤ 5e13) :
    (⟨sf, lo, z, 1, 1⟩ : FPlane).ray2pixel A (xres, yres)
      ((⟨sf, lo, z, 1, 1⟩ : FPlane).pixel2ray A (xres, yres) (pixelCentre i j)) = ((xres : ℤ) - 1 - i, (j : ℤ)) := by
  have hx0 : 0 < xres := by omega
  have hy0 : 0 < yres := by omega
  have hx : (0 : ℝ) < xres := by exact_mod_cast hx0
  have hy : (0 : ℝ) < yres := by exact_mod_cast hy0
  have unit : ∀ {k n : ℕ}, k < n → 0 ≤ ((k : ℝ) + 1 / 2) / n ∧ ((k : ℝ) + 1 / 2) / n ≤ 1 := by
    intro k n hk
    have hn : (0 : ℝ) < n := by exact_mod_cast (show 0 < n by omega)
    have : (k : ℝ) + 1 ≤ n := by exact_mod_cast hk
    exact ⟨by positivity, by rw [div_le_one hn]; linarith⟩
  unfold FPlane.pixel2ray
  simp only [pixelCentre]
  obtain ⟨g1, n1, e1⟩ := divR h ((i : ℝ) + 1 / 2) hx.ne'
  obtain ⟨g2, n2, e2⟩ := subR h 1 (A.div ((i : ℝ) + 1 / 2) xres)
  obtain ⟨g3, n3, e3⟩ := divR h ((j : ℝ) + 1 / 2) hy.ne'
  obtain ⟨p0, p1⟩ := unit hi
  obtain ⟨q0, q1⟩ := unit hj
  have d1 : |A.div ((i : ℝ) + 1 / 2) xres - ((i : ℝ) + 1 / 2) / xres| ≤ 2.3e-16 := by
    rw [e1, show ∀ x g : ℝ, x * g - x = x * (g - 1) from fun x g => by ring]
    exact (abs_mul_le (abs_le.mpr ⟨by linarith, p1⟩) n1).trans (by norm_num)
  have d3 : |A.div ((j : ℝ) + 1 / 2) yres - ((j : ℝ) + 1 / 2) / yres| ≤ 2.3e-16 := by
    rw [e3, show ∀ x g : ℝ, x * g - x = x * (g - 1) from fun x g => by ring]
    exact (abs_mul_le (abs_le.mpr ⟨by linarith, q1⟩) n3).trans (by norm_num)
  have d2 : |A.sub 1 (A.div ((i : ℝ) + 1 / 2) xres) - (1 - ((i : ℝ) + 1 / 2) / xres)| ≤ 5e-16 := by
    obtain ⟨l, u⟩ := abs_le.mp d1
    have : |1 - A.div ((i : ℝ) + 1 / 2) xres| ≤ 1.001 := abs_le.mpr ⟨by norm_num at l u ⊢; linarith, by norm_num at l u ⊢; linarith⟩
    rw [e2]
    have h3 := abs_mul_le this n2
    have e : (1 - A.div ((i : ℝ) + 1 / 2) xres) * g2 - (1 - ((i : ℝ) + 1 / 2) / xres) =
        (1 - A.div ((i : ℝ) + 1 / 2) xres) * (g2 - 1) - (A.div ((i : ℝ) + 1 / 2) xres - ((i : ℝ) + 1 / 2) / xres) := by ring
    rw [e]
    refine (abs_sub _ _).trans ?_
    norm_num at h3 d1 ⊢
    linarith
  obtain ⟨r1, r2⟩ := C196_uv h sf lo z h1 h2 (A.sub 1 (A.div ((i : ℝ) + 1 / 2) xres), A.div ((j : ℝ) + 1 / 2) yres)
    (by obtain ⟨l, u⟩ := abs_le.mp d2
        exact abs_le.mpr ⟨by norm_num at l u ⊢; linarith, by norm_num at l u ⊢; linarith⟩)
    (by obtain ⟨l, u⟩ := abs_le.mp d3
        exact abs_le.mpr ⟨by norm_num at l u ⊢; linarith, by norm_num at l u ⊢; linarith⟩)
  unfold FPlane.ray2pixel
  refine Prod.ext ?_ ?_
  · refine floor_of_near h hx0 (by have := abs_nonneg (lo.1 / sf.1); linarith) ?_ (by omega) (by omega) r1 b1
    have e : (((((xres : ℤ) - 1 - i : ℤ) : ℝ)) + 1 / 2) / xres = 1 - ((i : ℝ) + 1 / 2) / xres := by
      push_cast; field_simp; ring
    rw [e]
    exact d2.trans (by norm_num)
  · refine floor_of_near h hy0 (by have := abs_nonneg (lo.2 / sf.2); linarith) ?_ (by omega) (by omega) r2 b2
    rw [Int.cast_natCast]
    exact d3.trans (by norm_num)

/-- **C196** in exact arithmetic the rounded functions are those of the exact model -/
theorem C196_exact (m : Planar) (res : ℕ × ℕ) (pxy : ℝ × ℝ) (p : V3) :
    (⟨m.sf, m.lo, m.uvz, m.ry, m.rp⟩ : FPlane).pixel2ray exact res pxy = m.pixel2ray res pxy ∧
    (⟨m.sf, m.lo, m.uvz, m.ry, m.rp⟩ : FPlane).ray2pixel exact res p = m.ray2pixel res p := ⟨rfl, rfl⟩

/-- The full claim: every box that is not empty, every resolution. -/
def C196_statement (A : Arith) : Prop := ∀ (sf lo : ℝ × ℝ) (z : ℝ) (xres yres i j : ℕ), sf.1 ≠ 0 → sf.2 ≠ 0 →
  i < xres → j < yres → (⟨sf, lo, z, 1, 1⟩ : FPlane).ray2pixel A (xres, yres)
    ((⟨sf, lo, z, 1, 1⟩ : FPlane).pixel2ray A (xres, yres) (pixelCentre i j)) = ((xres : ℤ) - 1 - i, (j : ℤ))

/-- It fails in binary64: a box of size 1 at distance 2^60. -/
theorem C196_refuted : ¬ C196_statement binary64 := by
  intro hc
  have h := congrArg Prod.fst (hc (1, 1) (2 ^ 60, 0) 0 2 1 0 0 (by norm_num) (by norm_num) (by norm_num) (by norm_num))
  have f : ∀ (k : ℤ) (e : ℤ) (x : ℝ), x = k * 2 ^ e → |k| < 2 ^ 53 → rnd x = x := fun k e x hx hk => by
    rw [hx]; exact rnd_float e hk
  have big : rnd ((2 : ℝ) ^ 60) = 2 ^ 60 := f 1 60 _ (by norm_num) (by norm_num)
  have one : rnd 1 = 1 := f 1 0 _ (by norm_num) (by norm_num)
  have quarter : rnd (1 / 4) = 1 / 4 := f 1 (-2) _ (by norm_num) (by norm_num)
  have three : rnd (3 / 4) = 3 / 4 := f 3 (-2) _ (by norm_num) (by norm_num)
  have lost : rnd ((2 : ℝ) ^ 60 + 3 / 4) = 2 ^ 60 := by
    rw [rnd_eq 60 (2 ^ 52)] <;> norm_num
  have ax : ∀ v : V3, rnd v.x = v.x → (app binary64 1 v).x = v.x := fun v hv => by
    simp [app, binary64, rnd_zero, hv]
  unfold FPlane.ray2pixel FPlane.pixel2ray FPlane.xyz2uv FPlane.uv2xyz at h
  simp only [Matrix.transpose_one, pixelCentre] at h
  have e0 : binary64.add ((2 : ℝ) ^ 60) (binary64.mul (binary64.sub 1 (binary64.div (((0 : ℕ) : ℝ) + 1 / 2) ((2 : ℕ) : ℝ))) 1)
      = 2 ^ 60 := by
    unfold binary64
    simp only
    rw [show (((0 : ℕ) : ℝ) + 1 / 2) / ((2 : ℕ) : ℝ) = 1 / 4 by norm_num, quarter, show (1 : ℝ) - 1 / 4 = 3 / 4 by norm_num, three,
      mul_one, three, lost]
  rw [e0] at h
  set v : V3 := ⟨(2 : ℝ) ^ 60, binary64.add 0 (binary64.mul (binary64.div (((0 : ℕ) : ℝ) + 1 / 2) ((1 : ℕ) : ℝ)) 1), 0⟩
  have a1 : (app binary64 1 v).x = 2 ^ 60 := ax v big
  have a2 : (app binary64 1 (app binary64 1 v)).x = 2 ^ 60 := by rw [ax _ (by rw [a1, big]), a1]
  have a3 : (app binary64 1 (app binary64 1 (app binary64 1 v))).x = 2 ^ 60 := by rw [ax _ (by rw [a2, big]), a2]
  have a4 : (app binary64 1 (app binary64 1 (app binary64 1 (app binary64 1 v)))).x = 2 ^ 60 := by
    rw [ax _ (by rw [a3, big]), a3]
  rw [a4] at h
  unfold binary64 at h
  simp [rnd_zero] at h

/-- a metre wide plan in map coordinates, a thousand pixels wide -/
example : (|(2.6e6 : ℝ) / 1| + 1) * (1000 : ℕ) ≤ 5e13 := by norm_num

end Verif.Fp
