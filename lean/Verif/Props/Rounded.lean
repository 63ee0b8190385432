import Verif.Lemmas.Rounded
import Verif.Props.ViewMapper

/-! C163: the pixel round trip of the angular mapper in rounded arithmetic. -/

namespace Verif.Fp
open Verif.Geo Verif.Map Real

/-! Rotations -/

/-- the rows of a matrix are orthonormal up to `η`, as those of a rotation computed in floats -/
def NearOrth (η : ℝ) (M : M3) : Prop := ∀ i k, |(∑ j, M i j * M k j) - if i = k then 1 else 0| ≤ η

theorem NearOrth.entry {η : ℝ} {M : M3} (h : NearOrth η M) (hη : η ≤ 0.02) (i j : Fin 3) : |M i j| ≤ 1.01 := by
  have h1 := (abs_le.mp (h i i)).2
  simp only [if_true, Fin.sum_univ_three] at h1
  have h2 : M i j ^ 2 ≤ 1.02 := by
    have a := mul_self_nonneg (M i 0)
    have b := mul_self_nonneg (M i 1)
    have c := mul_self_nonneg (M i 2)
    fin_cases j <;> simp only [Fin.zero_eta, Fin.mk_one, Fin.reduceFinMk] <;> linarith
  exact abs_le_of_sq_le_sq (h2.trans (by norm_num)) (by norm_num)

theorem abs_mul_le {a b s t : ℝ} (ha : |a| ≤ s) (hb : |b| ≤ t) : |a * b| ≤ s * t := by
  rw [abs_mul]; exact mul_le_mul ha hb (abs_nonneg _) ((abs_nonneg _).trans ha)

def Bounded (v : V3) (B : ℝ) : Prop := |v.x| ≤ B ∧ |v.y| ≤ B ∧ |v.z| ≤ B

theorem Near.bounded {a b : V3} {e B : ℝ} (h : Near a b e) (hb : Bounded b B) : Bounded a (B + e) := by
  refine ⟨?_, ?_, ?_⟩
  · have := abs_sub_abs_le_abs_sub a.x b.x; linarith [h.1, hb.1]
  · have := abs_sub_abs_le_abs_sub a.y b.y; linarith [h.2.1, hb.2.1]
  · have := abs_sub_abs_le_abs_sub a.z b.z; linarith [h.2.2, hb.2.2]

theorem Near.trans {a b c : V3} {e f : ℝ} (h : Near a b e) (g : Near b c f) : Near a c (e + f) := by
  refine ⟨?_, ?_, ?_⟩
  · have := abs_sub_le a.x b.x c.x; linarith [h.1, g.1]
  · have := abs_sub_le a.y b.y c.y; linarith [h.2.1, g.2.1]
  · have := abs_sub_le a.z b.z c.z; linarith [h.2.2, g.2.2]

theorem Near.mono {a b : V3} {e f : ℝ} (h : Near a b e) (g : e ≤ f) : Near a b f :=
  ⟨h.1.trans g, h.2.1.trans g, h.2.2.trans g⟩

theorem app_bounded {M : M3} (hM : ∀ i j, |M i j| ≤ 1.01) {v : V3} {B : ℝ} (hv : Bounded v B) :
    Bounded (M3.app M v) (3.03 * B) := by
  have k : ∀ i, |M i 0 * v.x + M i 1 * v.y + M i 2 * v.z| ≤ 3.03 * B := fun i => by
    have a := abs_mul_le (hM i 0) hv.1
    have b := abs_mul_le (hM i 1) hv.2.1
    have c := abs_mul_le (hM i 2) hv.2.2
    have := abs_add_three (M i 0 * v.x) (M i 1 * v.y) (M i 2 * v.z)
    linarith
  exact ⟨k 0, k 1, k 2⟩

/-- the rounded product is close to the exact one -/
theorem app_near {A : Arith} (h : A.Ok) {M : M3} (hM : ∀ i j, |M i j| ≤ 1.01) {v : V3} {B : ℝ} (hv : Bounded v B) :
    Near (app A M v) (M3.app M v) (3e-15 * B) := by
  have hB : 0 ≤ B := (abs_nonneg _).trans hv.1
  have hu := h.small
  have hu0 := h.u0
  have k : ∀ i, |A.dot3 ⟨M i 0, M i 1, M i 2⟩ v - (M i 0 * v.x + M i 1 * v.y + M i 2 * v.z)| ≤ 3e-15 * B := fun i => by
    have a := abs_mul_le (hM i 0) hv.1
    have b := abs_mul_le (hM i 1) hv.2.1
    have c := abs_mul_le (hM i 2) hv.2.2
    have d := h.dot3 ⟨M i 0, M i 1, M i 2⟩ v
    simp only [V3.dot] at d
    refine d.trans ?_
    have e : |M i 0 * v.x| + |M i 1 * v.y| + |M i 2 * v.z| ≤ 3.03 * B := by linarith
    have f := mul_le_mul (show 4 * A.u ≤ 9.2e-16 by linarith) e (by positivity) (by norm_num)
    linarith
  exact ⟨k 0, k 1, k 2⟩

/-- a nearly orthonormal matrix takes back its transpose -/
theorem back_near {η : ℝ} {M : M3} (hM : NearOrth η M) (hη : η ≤ 0.02) {t w : V3} {B e : ℝ} (ht : Bounded t B)
    (hw : Near w (M3.app M.transpose t) e) : Near (M3.app M w) t (3 * η * B + 3.03 * e) := by
  have k : ∀ i, |M i 0 * w.x + M i 1 * w.y + M i 2 * w.z -
      ((if i = 0 then 1 else 0) * t.x + (if i = 1 then 1 else 0) * t.y + (if i = 2 then 1 else 0) * t.z)| ≤
      3 * η * B + 3.03 * e := fun i => by
    have a := abs_mul_le (hM.entry hη i 0) hw.1
    have b := abs_mul_le (hM.entry hη i 1) hw.2.1
    have c := abs_mul_le (hM.entry hη i 2) hw.2.2
    have a' := abs_mul_le (hM i 0) ht.1
    have b' := abs_mul_le (hM i 1) ht.2.1
    have c' := abs_mul_le (hM i 2) ht.2.2
    have d := abs_add_three (M i 0 * (w.x - (M3.app M.transpose t).x)) (M i 1 * (w.y - (M3.app M.transpose t).y))
      (M i 2 * (w.z - (M3.app M.transpose t).z))
    have d' := abs_add_three (((∑ j, M i j * M 0 j) - if i = 0 then 1 else 0) * t.x)
      (((∑ j, M i j * M 1 j) - if i = 1 then 1 else 0) * t.y) (((∑ j, M i j * M 2 j) - if i = 2 then 1 else 0) * t.z)
    have e1 : M i 0 * w.x + M i 1 * w.y + M i 2 * w.z -
      ((if i = 0 then 1 else 0) * t.x + (if i = 1 then 1 else 0) * t.y + (if i = 2 then 1 else 0) * t.z) =
      (M i 0 * (w.x - (M3.app M.transpose t).x) + M i 1 * (w.y - (M3.app M.transpose t).y) +
        M i 2 * (w.z - (M3.app M.transpose t).z)) +
      (((∑ j, M i j * M 0 j) - if i = 0 then 1 else 0) * t.x + ((∑ j, M i j * M 1 j) - if i = 1 then 1 else 0) * t.y +
        ((∑ j, M i j * M 2 j) - if i = 2 then 1 else 0) * t.z) := by
      simp only [M3.app, Matrix.transpose_apply, Fin.sum_univ_three]
      ring
    rw [e1]
    refine (abs_add_le _ _).trans ?_
    linarith
  refine ⟨?_, ?_, ?_⟩
  · have := k 0; simpa [M3.app] using this
  · have := k 1; simpa [M3.app] using this
  · have := k 2; simpa [M3.app] using this

/-- to the world and back to the view -/
theorem turn_near {A : Arith} (h : A.Ok) {m : FView} (hy : NearOrth 1e-10 m.ry) (hp : NearOrth 1e-10 m.rp) {v : V3}
    (hv : Bounded v 1.01) : Near (m.w2v A (m.v2w A v)) v 1e-8 := by
  have hyM := hy.entry (by norm_num)
  have hpM := hp.entry (by norm_num)
  have hyT : ∀ i j, |m.ry.transpose i j| ≤ 1.01 := fun i j => hyM j i
  have hpT : ∀ i j, |m.rp.transpose i j| ≤ 1.01 := fun i j => hpM j i
  unfold FView.w2v FView.v2w
  have n1 := app_near h hpT hv
  have b1 : Bounded (app A m.rp.transpose v) 4 := by
    have := n1.bounded (app_bounded hpT hv)
    exact ⟨this.1.trans (by norm_num), this.2.1.trans (by norm_num), this.2.2.trans (by norm_num)⟩
  have n2 := app_near h hyT b1
  have b2 : Bounded (app A m.ry.transpose (app A m.rp.transpose v)) 13 := by
    have := n2.bounded (app_bounded hyT b1)
    exact ⟨this.1.trans (by norm_num), this.2.1.trans (by norm_num), this.2.2.trans (by norm_num)⟩
  have n3 := back_near hy (by norm_num) b1 n2
  have n4 := (app_near h hyM b2).trans n3
  have b3 := n4.bounded b1
  have n5 := back_near hp (by norm_num) hv (n4.trans n1)
  have n6 := (app_near h hpM b3).trans n5
  exact n6.mono (by norm_num)

/-! Image coordinates -/

theorem arctan2_scale {g : ℝ} (hg : 0 < g) (x y : ℝ) : arctan2 (g * x) (g * y) = arctan2 x y := by
  unfold arctan2
  rw [← Complex.arg_real_mul ⟨y, x⟩ hg]
  congr 1
  apply Complex.ext <;> simp

/-- The exact projection at the rounded radius of a vector close to a unit vector. -/
theorem angles_near {A : Arith} (h : A.Ok) {θ₀ φ₀ : ℝ} (g0 : 0 ≤ θ₀) (g1 : θ₀ ≤ 2.2218) {p : V3}
    (hn : Near p ⟨sin θ₀ * sin φ₀, sin θ₀ * cos φ₀, cos θ₀⟩ 1.15e-7) :
    0 ≤ arctan2 (hyp A p.x p.y) p.z ∧
    |arctan2 (hyp A p.x p.y) p.z * sin (arctan2 p.x p.y) - θ₀ * sin φ₀| ≤ 8.6e-7 ∧
    |arctan2 (hyp A p.x p.y) p.z * cos (arctan2 p.x p.y) - θ₀ * cos φ₀| ≤ 8.6e-7 := by
  obtain ⟨g, ag, eg⟩ := hypR h p.x p.y
  have pg := near_pos ag (by norm_num)
  obtain ⟨ρ, θ, φ, hρ, hθ0, hθ1, eθ, eφ, ex, ey, ez⟩ := polar3 (g * p.x) (g * p.y) p.z
  have e1 : √((g * p.x) ^ 2 + (g * p.y) ^ 2) = hyp A p.x p.y := by
    rw [eg, mul_pow, mul_pow, ← mul_add, sqrt_mul (sq_nonneg g), sqrt_sq pg.le, mul_comm]
  rw [e1] at eθ
  rw [arctan2_scale pg] at eφ
  rw [← eθ, ← eφ]
  -- closeness of the vector with the rounded hypotenuse
  have bs := abs_sin_le_one θ₀
  have c1 : ∀ a b : ℝ, |a - b| ≤ 1.15e-7 → |b| ≤ 1 → |g * a - b| ≤ 1.16e-7 := by
    intro a b hab hb
    have ha : |a| ≤ 1.001 := by have := abs_sub_abs_le_abs_sub a b; linarith
    have := abs_mul_le ag ha
    have e : g * a - b = (g - 1) * a + (a - b) := by ring
    rw [e]
    have := abs_add_le ((g - 1) * a) (a - b)
    linarith
  have hb1 : |sin θ₀ * sin φ₀| ≤ 1 := by have := abs_mul_le bs (abs_sin_le_one φ₀); linarith
  have hb2 : |sin θ₀ * cos φ₀| ≤ 1 := by have := abs_mul_le bs (abs_cos_le_one φ₀); linarith
  have d1 := c1 _ _ hn.1 hb1
  have d2 := c1 _ _ hn.2.1 hb2
  have d3 := hn.2.2
  simp only at d1 d2 d3
  rw [ex] at d1
  rw [ey] at d2
  rw [ez] at d3
  have sq : ∀ a : ℝ, |a| ≤ 1.16e-7 → a ^ 2 ≤ 1.35e-14 := fun a ha => by
    have := pow_le_pow_left₀ (abs_nonneg a) ha 2
    rw [sq_abs] at this
    exact this.trans (by norm_num)
  have hpc := project_close (φ := φ) (φ₀ := φ₀) (q := 4.05e-14) hρ hθ0 hθ1 g0 g1 (by norm_num)
    (by linarith [sq _ d1, sq _ d2, sq _ (d3.trans (by norm_num))])
  have n1 := sq_nonneg (θ * cos φ - θ₀ * cos φ₀)
  have n2 := sq_nonneg (θ * sin φ - θ₀ * sin φ₀)
  refine ⟨hθ0, abs_le_of_sq_le_sq ?_ (by norm_num), abs_le_of_sq_le_sq ?_ (by norm_num)⟩
  · norm_num at hpc ⊢; linarith
  · norm_num at hpc ⊢; linarith

/-- The rounding of the radius. -/
theorem radius_near {A : Arith} (h : A.Ok) (ρ z : ℝ) :
    ∃ G, |G - 1| ≤ 2e-15 ∧ A.div (A.atan2 ρ z) (A.div A.pi 2) = arctan2 ρ z / (π / 2) * G := by
  obtain ⟨ga, aa, ea⟩ := atanR h ρ z
  obtain ⟨gp, ap, ep⟩ := piR h
  obtain ⟨gh, ah, eh⟩ := divR h A.pi two_ne_zero
  have ppi := near_pos ap (by norm_num)
  have pph := near_pos ah (by norm_num)
  have hhalf : A.div A.pi 2 ≠ 0 := by rw [eh, ep]; positivity
  obtain ⟨gr, ar, er⟩ := divR h (A.atan2 ρ z) hhalf
  refine ⟨ga * gr * (1 / gp) * (1 / gh), ?_, ?_⟩
  · exact (near_mul (near_mul (near_mul aa ar (by norm_num)) (near_inv ap (by norm_num)) (by norm_num))
      (near_inv ah (by norm_num)) (by norm_num)).trans (by norm_num)
  · rw [er, ea, eh, ep]; field_simp

/-- The rounding of the azimuth. -/
theorem azimuth_near {A : Arith} (h : A.Ok) (x y : ℝ) :
    |A.sin (A.atan2 x y) - sin (arctan2 x y)| ≤ 5e-15 ∧ |A.cos (A.atan2 x y) - cos (arctan2 x y)| ≤ 5e-15 := by
  have hp' := pi_lt_d2
  obtain ⟨gf, af, ef⟩ := atanR h x y
  have hφ : |A.atan2 x y - arctan2 x y| ≤ 3.2e-15 := by
    have e : A.atan2 x y - arctan2 x y = arctan2 x y * (gf - 1) := by rw [ef]; ring
    have hm := arctan2_mem x y
    rw [e]
    have := abs_mul_le (show |arctan2 x y| ≤ 3.15 by rw [abs_le]; constructor <;> linarith) af
    linarith
  constructor
  · have := abs_sub_le (A.sin (A.atan2 x y)) (sin (A.atan2 x y)) (sin (arctan2 x y))
    have := sinA h (A.atan2 x y)
    have := abs_sin_sub_le (A.atan2 x y) (arctan2 x y)
    linarith
  · have := abs_sub_le (A.cos (A.atan2 x y)) (cos (A.atan2 x y)) (cos (arctan2 x y))
    have := cosA h (A.atan2 x y)
    have := abs_cos_sub_le (A.atan2 x y) (arctan2 x y)
    linarith

/-- The rounding of a product of radius and direction. -/
theorem coord_near {A : Arith} (h : A.Ok) {r θ G c e : ℝ} (h0 : 0 ≤ θ) (h1 : θ ≤ π) (hr : r = θ / (π / 2) * G)
    (hG : |G - 1| ≤ 2e-15) (hc : |c - e| ≤ 5e-15) (he : |e| ≤ 1) : |A.mul r c - θ * e / (π / 2)| ≤ 1e-13 := by
  obtain ⟨gm, am, em⟩ := mulR h r c
  have hp := pi_pos
  have hθ2 : |θ / (π / 2)| ≤ 2 := by
    rw [abs_of_nonneg (by positivity), div_le_iff₀ (by positivity)]; linarith
  have n : |G * gm - 1| ≤ 4e-15 := (near_mul hG am (by norm_num)).trans (by norm_num)
  have e1 : A.mul r c - θ * e / (π / 2) = θ / (π / 2) * (c * (G * gm - 1) + (c - e)) := by
    rw [em, hr]; ring
  have hc1 : |c| ≤ 1.001 := by have := abs_sub_abs_le_abs_sub c e; linarith
  have b1 := abs_mul_le hc1 n
  have b2 := abs_add_le (c * (G * gm - 1)) (c - e)
  rw [e1]
  have b3 := abs_mul_le hθ2 (show |c * (G * gm - 1) + (c - e)| ≤ 1e-14 by linarith)
  linarith

theorem quarter_le {a : ℝ} (ha : |a| ≤ 8.6e-7) : |a / (π / 2)| ≤ 5.49e-7 := by
  have hp := pi_gt_d2
  rw [abs_div, abs_of_pos (show 0 < π / 2 by positivity), div_le_iff₀ (by positivity)]
  linarith

/-- The rounded projection of a vector close to a unit vector. -/
theorem xyz2xy_near {A : Arith} (h : A.Ok) {θ₀ φ₀ : ℝ} (g0 : 0 ≤ θ₀) (g1 : θ₀ ≤ 2.2218) {p : V3}
    (hn : Near p ⟨sin θ₀ * sin φ₀, sin θ₀ * cos φ₀, cos θ₀⟩ 1.15e-7) :
    |(xyz2xy A p).1 + θ₀ * sin φ₀ / (π / 2)| ≤ 5.5e-7 ∧ |(xyz2xy A p).2 - θ₀ * cos φ₀ / (π / 2)| ≤ 5.5e-7 := by
  obtain ⟨hθ0, f1, f2⟩ := angles_near h g0 g1 hn
  obtain ⟨G, hG, hr⟩ := radius_near h (hyp A p.x p.y) p.z
  obtain ⟨s1, s2⟩ := azimuth_near h p.x p.y
  have hθ1 := (arctan2_mem (hyp A p.x p.y) p.z).2
  have t1 := coord_near h hθ0 hθ1 hr hG s1 (abs_sin_le_one _)
  have t2 := coord_near h hθ0 hθ1 hr hG s2 (abs_cos_le_one _)
  have k1 := quarter_le f1
  have k2 := quarter_le f2
  rw [sub_div] at k1 k2
  unfold xyz2xy
  simp only
  generalize A.mul (A.div (A.atan2 (hyp A p.x p.y) p.z) (A.div A.pi 2)) (A.sin (A.atan2 p.x p.y)) = a at *
  generalize A.mul (A.div (A.atan2 (hyp A p.x p.y) p.z) (A.div A.pi 2)) (A.cos (A.atan2 p.x p.y)) = b at *
  generalize arctan2 (hyp A p.x p.y) p.z * sin (arctan2 p.x p.y) / (π / 2) = a' at *
  generalize arctan2 (hyp A p.x p.y) p.z * cos (arctan2 p.x p.y) / (π / 2) = b' at *
  constructor
  · have e : -a + θ₀ * sin φ₀ / (π / 2) = -((a - a') + (a' - θ₀ * sin φ₀ / (π / 2))) := by ring
    rw [e, abs_neg]
    have := abs_add_le (a - a') (a' - θ₀ * sin φ₀ / (π / 2))
    linarith
  · have := abs_sub_le b b' (θ₀ * cos φ₀ / (π / 2))
    linarith

/-- the rounded position of an image coordinate -/
theorem unscale_near {A : Arith} (h : A.Ok) {m : FView} (hK : 0 < m.va * m.cf) {x : ℝ} (res : ℕ)
    (hx : |x / (m.va * m.cf / 180) / 2| ≤ 1) :
    |A.mul (m.unscale A x) res - (x / (m.va * m.cf / 180) / 2 + 1 / 2) * res| ≤ 1e-14 * res := by
  unfold FView.unscale
  obtain ⟨g1, a1, e1⟩ := mulR h x 180
  obtain ⟨g2, a2, e2⟩ := mulR h m.va m.cf
  have p2 := near_pos a2 (by norm_num)
  have hne : A.mul m.va m.cf ≠ 0 := by rw [e2]; positivity
  obtain ⟨g3, a3, e3⟩ := divR h (A.mul x 180) hne
  obtain ⟨g4, a4, e4⟩ := divR h (A.div (A.mul x 180) (A.mul m.va m.cf)) two_ne_zero
  obtain ⟨g5, a5, e5⟩ := addR h (A.div (A.div (A.mul x 180) (A.mul m.va m.cf)) 2) (1 / 2)
  obtain ⟨g6, a6, e6⟩ := mulR h (A.add (A.div (A.div (A.mul x 180) (A.mul m.va m.cf)) 2) (1 / 2)) res
  set X := x / (m.va * m.cf / 180) / 2 with hX
  have e : A.div (A.div (A.mul x 180) (A.mul m.va m.cf)) 2 = X * (g1 * (1 / g2) * g3 * g4) := by
    rw [e4, e3, e1, e2, hX]; field_simp
  have n1 := near_mul (near_mul (near_mul a1 (near_inv a2 (by norm_num)) (by norm_num)) a3 (by norm_num)) a4
    (by norm_num)
  have n2 := near_mul a5 a6 (by norm_num)
  set G := g1 * (1 / g2) * g3 * g4
  rw [e6, e5, e]
  have hn : (0 : ℝ) ≤ res := Nat.cast_nonneg res
  have e7 : (X * G + 1 / 2) * g5 * res * g6 - (X + 1 / 2) * res =
      ((X * G + 1 / 2) * (g5 * g6 - 1) + X * (G - 1)) * res := by ring
  rw [e7, abs_mul, abs_of_nonneg hn]
  refine mul_le_mul_of_nonneg_right ?_ hn
  have b1 := abs_mul_le hx (n1.trans (show _ ≤ (2e-15 : ℝ) by norm_num))
  have b2 : |X * G + 1 / 2| ≤ 2 := by
    have : X * G + 1 / 2 = X * (G - 1) + X + 1 / 2 := by ring
    rw [this]
    have := abs_add_three (X * (G - 1)) X (1 / 2)
    rw [abs_of_pos (show (0 : ℝ) < 1 / 2 by norm_num)] at this
    linarith
  have b3 := abs_mul_le b2 (n2.trans (show _ ≤ (1e-15 : ℝ) by norm_num))
  have := abs_add_le ((X * G + 1 / 2) * (g5 * g6 - 1)) (X * (G - 1))
  linarith

/-- a coordinate of a pixel centre in the units of the projection -/
theorem centred_near {A : Arith} (h : A.Ok) {m : FView} (hK : 0 < m.va * m.cf) {res i : ℕ} (hi : i < res) (s : ℝ) :
    ∃ X, |X - (((i : ℝ) + 1 / 2) / res - 1 / 2)| ≤ 3e-15 ∧
      A.mul (A.sub (A.div ((i : ℝ) + 1 / 2) res) (1 / 2)) (m.scale A s) = s * (m.va * m.cf / 180) * X := by
  have hr : (0 : ℝ) < res := by exact_mod_cast (Nat.zero_le i).trans_lt hi
  have hi1 : (i : ℝ) + 1 ≤ res := by exact_mod_cast hi
  unfold FView.scale
  obtain ⟨g1, a1, e1⟩ := divR h ((i : ℝ) + 1 / 2) hr.ne'
  obtain ⟨g2, a2, e2⟩ := subR h (A.div ((i : ℝ) + 1 / 2) res) (1 / 2)
  obtain ⟨g3, a3, e3⟩ := mulR h m.va m.cf
  obtain ⟨g4, a4, e4⟩ := mulR h s (A.mul m.va m.cf)
  obtain ⟨g5, a5, e5⟩ := divR h (A.mul s (A.mul m.va m.cf)) (show (180 : ℝ) ≠ 0 by norm_num)
  obtain ⟨g6, a6, e6⟩ := mulR h (A.sub (A.div ((i : ℝ) + 1 / 2) res) (1 / 2)) (A.div (A.mul s (A.mul m.va m.cf)) 180)
  set c := ((i : ℝ) + 1 / 2) / res with hc
  have hc0 : 0 ≤ c := by positivity
  have hc1 : c ≤ 1 := by rw [hc, div_le_one hr]; linarith
  have n := near_mul (near_mul (near_mul (near_mul a2 a3 (by norm_num)) a4 (by norm_num)) a5 (by norm_num)) a6
    (by norm_num)
  set G := g2 * g3 * g4 * g5 * g6 with hG
  refine ⟨(c * g1 - 1 / 2) * G, ?_, ?_⟩
  · have e : (c * g1 - 1 / 2) * G - (c - 1 / 2) = (c * (g1 - 1)) * G + (c - 1 / 2) * (G - 1) := by ring
    have hG1 : |G| ≤ 1.001 := by
      have h1 := abs_sub_abs_le_abs_sub G 1
      rw [abs_one] at h1
      have : |G - 1| ≤ 2e-15 := n.trans (by norm_num)
      linarith
    have b1 := abs_mul_le (abs_mul_le (show |c| ≤ 1 by rw [abs_of_nonneg hc0]; exact hc1) a1) hG1
    have b2 := abs_mul_le (show |c - 1 / 2| ≤ 1 / 2 by rw [abs_le]; constructor <;> linarith)
      (n.trans (show _ ≤ (2e-15 : ℝ) by norm_num))
    rw [e]
    have := abs_add_le (c * (g1 - 1) * G) ((c - 1 / 2) * (G - 1))
    linarith
  · rw [e6, e5, e4, e3, e2, e1, hG]; ring

/-- **C163** the position that `ray2pixel` finds for the ray of a pixel centre, both computed in rounded arithmetic,
is off by less than a third of a millionth of the image at 180 degrees, and by as many times more as the view is
narrower -/
theorem C163_position {A : Arith} (h : A.Ok) {m : FView} (hK : 0 < m.va * m.cf) (hK' : m.va * m.cf ≤ 180.0001)
    (hy : NearOrth 1e-10 m.ry) (hp : NearOrth 1e-10 m.rp) {res i j : ℕ} (hi : i < res) (hj : j < res)
    (hw : 180 / (m.va * m.cf) ≤ 1e6) :
    |A.mul (m.xyz2vxy A (m.pixel2ray A res (pixelCentre i j))).1 res - (i + 1 / 2)| ≤
      3e-7 * (180 / (m.va * m.cf)) * res ∧
    |A.mul (m.xyz2vxy A (m.pixel2ray A res (pixelCentre i j))).2 res - (j + 1 / 2)| ≤
      3e-7 * (180 / (m.va * m.cf)) * res := by
  have hπ := pi_gt_d4
  have hπ' := pi_lt_d4
  have hr : (0 : ℝ) < res := by exact_mod_cast (Nat.zero_le i).trans_lt hi
  obtain ⟨X, nX, eX⟩ := centred_near h hK hi (-1)
  obtain ⟨Y, nY, eY⟩ := centred_near h hK hj 1
  set K := m.va * m.cf / 180 with hKd
  have K0 : 0 < K := by positivity
  have K1 : K ≤ 1.000001 := by rw [hKd, div_le_iff₀ (by norm_num)]; linarith
  have eK : 180 / (m.va * m.cf) = 1 / K := by rw [hKd]; field_simp
  rw [eK] at hw ⊢
  have K2 : 1 / K ≥ 0.999 := by rw [ge_iff_le, le_div_iff₀ K0]; linarith
  have cen : ∀ {i : ℕ}, i < res → |((i : ℝ) + 1 / 2) / res - 1 / 2| ≤ 1 / 2 := by
    intro i hi
    have hi1 : (i : ℝ) + 1 ≤ res := by exact_mod_cast hi
    have h0 : 0 ≤ ((i : ℝ) + 1 / 2) / res := by positivity
    have h1 : ((i : ℝ) + 1 / 2) / res ≤ 1 := by rw [div_le_one hr]; linarith
    rw [abs_le]; constructor <;> linarith
  have bX : |X| ≤ 0.500001 := by have := abs_sub_abs_le_abs_sub X (((i : ℝ) + 1 / 2) / res - 1 / 2); linarith [cen hi]
  have bY : |Y| ≤ 0.500001 := by have := abs_sub_abs_le_abs_sub Y (((j : ℝ) + 1 / 2) / res - 1 / 2); linarith [cen hj]
  have bK : |K| ≤ 1.000001 := by rw [abs_of_pos K0]; exact K1
  set x := -1 * K * X with hx
  set y := 1 * K * Y with hyd
  have hD : √(x ^ 2 + y ^ 2) ≤ 0.7072 := by
    rw [sqrt_le_left (by norm_num)]
    have b1 : |x| ≤ 0.50001 := by
      have := abs_mul_le bK bX
      rw [hx, show -1 * K * X = -(K * X) by ring, abs_neg]; linarith
    have b2 : |y| ≤ 0.50001 := by
      have := abs_mul_le bK bY
      rw [hyd, one_mul]; linarith
    have c1 := pow_le_pow_left₀ (abs_nonneg x) b1 2
    have c2 := pow_le_pow_left₀ (abs_nonneg y) b2 2
    rw [sq_abs] at c1 c2
    norm_num at c1 c2 ⊢
    linarith
  obtain ⟨φ, ex, ey, hnear⟩ := polar2view_near h x y hD
  set D := √(x ^ 2 + y ^ 2) with hDd
  have hD0 : 0 ≤ D := sqrt_nonneg _
  have hb : Bounded (polar2view A (x, y)) 1.01 := by
    have hs := abs_sin_le_one (π * D)
    have := hnear.bounded (B := 1)
      ⟨by have := abs_mul_le hs (abs_sin_le_one φ); linarith, by have := abs_mul_le hs (abs_cos_le_one φ); linarith,
        abs_cos_le_one _⟩
    exact ⟨this.1.trans (by norm_num), this.2.1.trans (by norm_num), this.2.2.trans (by norm_num)⟩
  have hturn := ((turn_near h hy hp hb).trans hnear).mono (show (1e-8 + 1.01e-7 : ℝ) ≤ 1.15e-7 by norm_num)
  obtain ⟨q1, q2⟩ := xyz2xy_near h (θ₀ := π * D) (by positivity) (by nlinarith) hturn
  have hray : m.pixel2ray A res (pixelCentre i j) = m.v2w A (polar2view A (x, y)) := by
    unfold FView.pixel2ray FView.centred pixelCentre
    simp only
    rw [eX, eY]
  rw [hray]
  unfold FView.xyz2vxy
  simp only
  set P := xyz2xy A (m.w2v A (m.v2w A (polar2view A (x, y)))) with hP
  have r1 : π * D * sin φ / (π / 2) = 2 * x := by
    have hπ0 : π ≠ 0 := pi_ne_zero
    rw [show π * D * sin φ = π * (D * sin φ) by ring, ← ex]; field_simp
  have r2 : π * D * cos φ / (π / 2) = 2 * y := by
    have hπ0 : π ≠ 0 := pi_ne_zero
    rw [show π * D * cos φ = π * (D * cos φ) by ring, ← ey]; field_simp
  rw [r1] at q1
  rw [r2] at q2
  have fin : ∀ (k : ℕ) (Z p : ℝ), k < res → |Z - (((k : ℝ) + 1 / 2) / res - 1 / 2)| ≤ 3e-15 → |Z| ≤ 0.500001 →
      |p - 2 * (K * Z)| ≤ 5.5e-7 → |A.mul (m.unscale A p) res - ((k : ℝ) + 1 / 2)| ≤ 3e-7 * (1 / K) * res := by
    intro k Z p hk nZ bZ hq
    have e1 : p / K / 2 - Z = (p - 2 * (K * Z)) * (1 / K) / 2 := by field_simp
    have hik : 0 < 1 / K := by positivity
    have d1 : |p / K / 2 - Z| ≤ 2.75e-7 * (1 / K) := by
      rw [e1, abs_div, abs_mul, abs_of_pos hik, abs_two]
      have := mul_le_mul_of_nonneg_right hq hik.le
      linarith
    have d2 : |p / K / 2| ≤ 1 := by
      have := abs_sub_abs_le_abs_sub (p / K / 2) Z
      linarith
    have d3 := unscale_near h hK (x := p) res (by rw [← hKd]; exact d2)
    rw [← hKd] at d3
    have e2 : A.mul (m.unscale A p) res - ((k : ℝ) + 1 / 2) =
        (A.mul (m.unscale A p) res - (p / K / 2 + 1 / 2) * res) + (p / K / 2 - Z) * res +
          (Z - (((k : ℝ) + 1 / 2) / res - 1 / 2)) * res := by field_simp; ring
    rw [e2]
    refine (abs_add_three _ _ _).trans ?_
    have d4 : |(p / K / 2 - Z) * res| ≤ 2.75e-7 * (1 / K) * res := by
      rw [abs_mul, abs_of_pos hr]; exact mul_le_mul_of_nonneg_right d1 hr.le
    have d5 : |(Z - (((k : ℝ) + 1 / 2) / res - 1 / 2)) * res| ≤ 3e-15 * res := by
      rw [abs_mul, abs_of_pos hr]; exact mul_le_mul_of_nonneg_right nZ hr.le
    have d6 : 1.3e-14 * (res : ℝ) ≤ 0.25e-7 * (1 / K) * res := by
      refine mul_le_mul_of_nonneg_right ?_ hr.le
      linarith
    linarith
  constructor
  · refine fin i X P.1 hi nX bX ?_
    have : P.1 - 2 * (K * X) = P.1 + 2 * x := by rw [hx]; ring
    rw [this]; exact q1
  · refine fin j Y P.2 hj nY bY ?_
    have : P.2 - 2 * (K * Y) = P.2 - 2 * y := by rw [hyd]; ring
    rw [this]; exact q2

/-- **C163** the pixel round trip survives rounding: for every mapper whose stored rotations are orthonormal up to
1e-10 and whose pixels are wider than a millionth of 180 degrees, `ray2pixel` returns the pixel whose ray was asked
for, whatever the rounding errors -/
theorem C163_round_trip {A : Arith} (h : A.Ok) {m : FView} (hK : 0 < m.va * m.cf) (hK' : m.va * m.cf ≤ 180.0001)
    (hy : NearOrth 1e-10 m.ry) (hp : NearOrth 1e-10 m.rp) {res i j : ℕ} (hi : i < res) (hj : j < res)
    (hw : 180 / (m.va * m.cf) * res ≤ 1e6) :
    m.ray2pixel A res (m.pixel2ray A res (pixelCentre i j)) = ((i : ℤ), (j : ℤ)) := by
  have hr : (1 : ℝ) ≤ res := by exact_mod_cast (Nat.zero_le i).trans_lt hi
  have h0 : 0 < 180 / (m.va * m.cf) := by positivity
  obtain ⟨a, b⟩ := C163_position h hK hK' hy hp hi hj (by nlinarith)
  have fl : ∀ (k : ℕ) (z : ℝ), |z - ((k : ℝ) + 1 / 2)| ≤ 3e-7 * (180 / (m.va * m.cf)) * res → ⌊z⌋ = (k : ℤ) := by
    intro k z hz
    have : |z - ((k : ℝ) + 1 / 2)| ≤ 0.3 := hz.trans (by nlinarith)
    obtain ⟨l, u⟩ := abs_le.mp this
    rw [Int.floor_eq_iff]
    push_cast
    constructor <;> linarith
  unfold FView.ray2pixel
  exact Prod.ext (fl i _ a) (fl j _ b)

/-! The contracts can be met, and exact arithmetic gives back the exact model. -/

/-- exact arithmetic -/
noncomputable def exact : Arith where
  u := 0
  add := (· + ·)
  sub := (· - ·)
  mul := (· * ·)
  div := (· / ·)
  sqrt := Real.sqrt
  sin := Real.sin
  cos := Real.cos
  atan2 := arctan2
  dot3 := V3.dot
  pi := π

theorem exact_ok : exact.Ok where
  u0 := le_rfl
  u1 := by simp only [exact]; positivity
  add _ _ := by simp [exact]
  sub _ _ := by simp [exact]
  mul _ _ := by simp [exact]
  div _ _ _ := by simp [exact]
  sqrt _ _ := by simp [exact]
  sin _ := by simp [exact]
  cos _ := by simp [exact]
  atan2 _ _ := by simp [exact]
  dot3 _ _ := by simp [exact]
  pi := by simp [exact]
  cos_le a := abs_cos_le_one a
  mul_le a b ha hb := by have := abs_mul_le ha hb; simp only [exact]; linarith

/-- what the rounded functions use of a mapper -/
def stored (m : View) : FView := ⟨m.va, m.cf, m.ry, m.rp⟩

/-- **C163** in exact arithmetic the rounded functions are those of the exact model -/
theorem C163_exact (m : View) (h2 : m.two = false) (res : ℕ) (pxy : ℝ × ℝ) (p : V3) :
    (stored m).pixel2ray exact res pxy = m.pixel2ray res pxy ∧
    (stored m).ray2pixel exact res p = m.ray2pixel res p := by
  have e1 : ∀ x y, hyp exact x y = √(x ^ 2 + y ^ 2) := fun x y => by simp only [hyp, exact, sq]
  have e2 : ∀ q, polar2view exact q = Map.polar2view q := fun q => by
    unfold polar2view Map.polar2view Map.rad2
    rw [e1]
    rfl
  have e3 : ∀ q, (stored m).centred exact q = m.centred q := fun q => rfl
  have e4 : ∀ q, xyz2xy exact q = Geo.xyz2xy Axes.std true q := fun q => by
    unfold xyz2xy
    rw [e1]
    rfl
  constructor
  · unfold FView.pixel2ray
    rw [e2, e3]
    rfl
  · unfold FView.ray2pixel FView.xyz2vxy View.ray2pixel View.xyz2vxy
    simp only [h2, Bool.false_eq_true, if_false]
    rw [e4]
    rfl

/-- rounding towards zero of every result: an arithmetic that meets the contract and is not exact -/
noncomputable def shrink : Arith where
  u := 2⁻¹ ^ 52
  add a b := (a + b) * (1 - 2⁻¹ ^ 53)
  sub a b := (a - b) * (1 - 2⁻¹ ^ 53)
  mul a b := a * b * (1 - 2⁻¹ ^ 53)
  div a b := a / b * (1 - 2⁻¹ ^ 53)
  sqrt a := √a * (1 - 2⁻¹ ^ 53)
  sin a := Real.sin a * (1 - 2⁻¹ ^ 53)
  cos a := Real.cos a * (1 - 2⁻¹ ^ 53)
  atan2 a b := arctan2 a b * (1 - 2⁻¹ ^ 53)
  dot3 a b := a.dot b * (1 - 2⁻¹ ^ 53)
  pi := π * (1 - 2⁻¹ ^ 53)

theorem shrink_ok : shrink.Ok := by
  have k : ∀ x : ℝ, |x * (1 - 2⁻¹ ^ 53) - x| ≤ 2⁻¹ ^ 52 * |x| := fun x => by
    have : x * (1 - 2⁻¹ ^ 53) - x = -(2⁻¹ ^ 53 * x) := by ring
    rw [this, abs_neg, abs_mul, abs_of_pos (by positivity)]
    exact mul_le_mul_of_nonneg_right (by norm_num) (abs_nonneg _)
  have l : ∀ x : ℝ, |x| ≤ 1 → |x * (1 - 2⁻¹ ^ 53)| ≤ 1 := fun x hx => by
    have := abs_mul_le hx (show |(1 - 2⁻¹ ^ 53 : ℝ)| ≤ 1 by rw [abs_le]; constructor <;> norm_num)
    linarith
  have b : ∀ x : ℝ, |x| ≤ 1 → |x * (1 - 2⁻¹ ^ 53) - x| ≤ 4 * 2⁻¹ ^ 52 := fun x hx => by
    have h1 := k x
    have h2 : (2⁻¹ : ℝ) ^ 52 * |x| ≤ 2⁻¹ ^ 52 * 1 := mul_le_mul_of_nonneg_left hx (by positivity)
    have : (0 : ℝ) ≤ 2⁻¹ ^ 52 := by positivity
    linarith
  have q : ∀ x y : ℝ, |x| ≤ y → |x * (1 - 2⁻¹ ^ 53) - x| ≤ 4 * 2⁻¹ ^ 52 * y := fun x y hx => by
    have h1 := k x
    have h2 : (2⁻¹ : ℝ) ^ 52 * |x| ≤ 2⁻¹ ^ 52 * y := mul_le_mul_of_nonneg_left hx (by positivity)
    have : (0 : ℝ) ≤ 2⁻¹ ^ 52 * y := mul_nonneg (by positivity) ((abs_nonneg _).trans hx)
    linarith
  exact {
    u0 := by simp only [shrink]; positivity
    u1 := le_rfl
    add := fun a b => k _
    sub := fun a b => k _
    mul := fun a b => k _
    div := fun a b _ => k _
    sqrt := fun a _ => by have := k (√a); rw [abs_of_nonneg (sqrt_nonneg a)] at this; exact this
    sin := fun a => b _ (abs_sin_le_one a)
    cos := fun a => b _ (abs_cos_le_one a)
    atan2 := fun x y => q _ _ le_rfl
    dot3 := fun x y => q _ _ (abs_add_three _ _ _)
    pi := by have := k π; rw [abs_of_pos pi_pos] at this; exact this
    cos_le := fun a => l _ (abs_cos_le_one a)
    mul_le := fun x y hx hy => l _ (by have := abs_mul_le hx hy; linarith) }

theorem nearOrth_one {η : ℝ} (h : 0 ≤ η) : NearOrth η 1 := fun i k => by
  simp only [Fin.sum_univ_three]
  fin_cases i <;> fin_cases k <;> simp [Matrix.one_apply, h]

/-- rotations from a rounded sine and cosine are orthonormal up to the error of their squares -/
theorem nearOrth_yaw {c s η : ℝ} (h : |c * c + s * s - 1| ≤ η) : NearOrth η !![c, -s, 0; s, c, 0; 0, 0, 1] := fun i k => by
  have h0 : 0 ≤ η := (abs_nonneg _).trans h
  have h' : |s * s + c * c - 1| ≤ η := by rw [add_comm (s * s)]; exact h
  simp only [Fin.sum_univ_three]
  fin_cases i <;> fin_cases k <;> simp [h0, h, h', mul_comm s c]

theorem nearOrth_pitch {c s η : ℝ} (h : |c * c + s * s - 1| ≤ η) : NearOrth η !![1, 0, 0; 0, c, -s; 0, s, c] := fun i k => by
  have h0 : 0 ≤ η := (abs_nonneg _).trans h
  have h' : |s * s + c * c - 1| ≤ η := by rw [add_comm (s * s)]; exact h
  simp only [Fin.sum_univ_three]
  fin_cases i <;> fin_cases k <;> simp [h0, h, h', mul_comm s c]

/-- the matrices that the constructor stores -/
theorem rotations_near {A : Arith} (h : A.Ok) (e ne : Bool) (y p : ℝ) :
    NearOrth 1e-14 (rmtxYp A e ne y p).1 ∧ NearOrth 1e-14 (rmtxYp A e ne y p).2 := by
  have k : ∀ t, |A.cos t * A.cos t + A.sin t * A.sin t - 1| ≤ 1e-14 := fun t => by
    have h1 := cosA h t
    have h2 := sinA h t
    have e1 : A.cos t * A.cos t + A.sin t * A.sin t - 1 =
        (A.cos t - cos t) * (A.cos t - cos t + 2 * cos t) + (A.sin t - sin t) * (A.sin t - sin t + 2 * sin t) := by
      linear_combination sin_sq_add_cos_sq t
    have b1 : |A.cos t - cos t + 2 * cos t| ≤ 3 := by
      have := abs_add_le (A.cos t - cos t) (2 * cos t)
      rw [abs_mul, abs_two] at this
      linarith [abs_cos_le_one t]
    have b2 : |A.sin t - sin t + 2 * sin t| ≤ 3 := by
      have := abs_add_le (A.sin t - sin t) (2 * sin t)
      rw [abs_mul, abs_two] at this
      linarith [abs_sin_le_one t]
    have c1 := abs_mul_le h1 b1
    have c2 := abs_mul_le h2 b2
    rw [e1]
    refine (abs_add_le _ _).trans ?_
    linarith
  have k1 : NearOrth 1e-14 !![(-1 : ℝ), 0, 0; 0, -1, 0; 0, 0, 1] := fun i k => by
    simp only [Fin.sum_univ_three]
    fin_cases i <;> fin_cases k <;> simp <;> norm_num
  have k2 : NearOrth 1e-14 !![(1 : ℝ), 0, 0; 0, -1, 0; 0, 0, -1] := fun i k => by
    simp only [Fin.sum_univ_three]
    fin_cases i <;> fin_cases k <;> simp <;> norm_num
  unfold rmtxYp
  constructor
  · simp only
    split_ifs
    · exact k1
    · exact nearOrth_one (by norm_num)
    · exact nearOrth_yaw (k y)
  · simp only
    split_ifs
    · exact k2
    · exact nearOrth_one (by norm_num)
    · exact nearOrth_pitch (k p)

theorem NearOrth.mono {η ζ : ℝ} {M : M3} (h : NearOrth η M) (g : η ≤ ζ) : NearOrth ζ M := fun i k => (h i k).trans g

/-- the matrices that the constructor stores, whatever the view direction and the errors of the angles -/
theorem C163_rotations {A : Arith} (h : A.Ok) (e ne : Bool) (y p : ℝ) :
    NearOrth 1e-10 (rmtxYp A e ne y p).1 ∧ NearOrth 1e-10 (rmtxYp A e ne y p).2 :=
  ⟨(rotations_near h e ne y p).1.mono (by norm_num), (rotations_near h e ne y p).2.mono (by norm_num)⟩

/-- **C163** so every mapper of one hemisphere, for every view direction, returns the pixel whose ray was asked for -/
theorem C163_mapper {A : Arith} (h : A.Ok) (e ne : Bool) (y p va cf : ℝ) (hK : 0 < va * cf) (hK' : va * cf ≤ 180.0001)
    {res i j : ℕ} (hi : i < res) (hj : j < res) (hw : 180 / (va * cf) * res ≤ 1e6) :
    let m : FView := ⟨va, cf, (rmtxYp A e ne y p).1, (rmtxYp A e ne y p).2⟩
    m.ray2pixel A res (m.pixel2ray A res (pixelCentre i j)) = ((i : ℤ), (j : ℤ)) := by
  obtain ⟨a, b⟩ := C163_rotations h e ne y p
  exact C163_round_trip (m := ⟨va, cf, (rmtxYp A e ne y p).1, (rmtxYp A e ne y p).2⟩) h hK hK' a b hi hj hw

/-- the conditions can be met with rounding: a 180 degree image of 4096 pixels -/
example : shrink.Ok ∧ (0 : ℝ) < 180 * 1 ∧ (180 : ℝ) * 1 ≤ 180.0001 ∧ NearOrth 1e-10 1 ∧
    180 / (180 * 1 : ℝ) * (4096 : ℕ) ≤ 1e6 :=
  ⟨shrink_ok, by norm_num, by norm_num, nearOrth_one (by norm_num), by norm_num⟩

end Verif.Fp
