import Verif.Props.RoundedSquare
import Verif.Props.SquareNear

/-! C180 Directions through coordinates and back in rounded arithmetic. -/

namespace Verif.Fp
open Verif.Geo Verif.Map Real

theorem near_sq {G : ℝ} (h : |G - 1| ≤ 2.6e-14) : G ^ 2 ≤ 1.01 := by
  have p := near_pos h (by norm_num)
  obtain ⟨l, u⟩ := abs_le.mp h
  nlinarith

/-- the height of a unit vector and the radius of its point on the disk -/
theorem disk_le {x y z S : ℝ} (h : x ^ 2 + y ^ 2 + z ^ 2 = 1) (hS : S ^ 2 = 1 + |z|) : (x / S) ^ 2 + (y / S) ^ 2 ≤ 1 ∧ |z| ≤ 1 ∧
    |x / S| ≤ 1 ∧ |y / S| ≤ 1 := by
  have z0 := abs_nonneg z
  have a : (x / S) ^ 2 + (y / S) ^ 2 ≤ 1 := by
    rw [show (x / S) ^ 2 + (y / S) ^ 2 = (x ^ 2 + y ^ 2) / S ^ 2 by ring, hS, div_le_one (by linarith)]
    nlinarith [sq_nonneg z]
  refine ⟨a, ?_, ?_, ?_⟩ <;> rw [← sq_le_one_iff_abs_le_one]
  · nlinarith [sq_nonneg x, sq_nonneg y]
  · nlinarith [sq_nonneg (y / S)]
  · nlinarith [sq_nonneg (x / S)]

section
variable {A : Arith} (h : A.Ok)
include h

/-- centred coordinates to directions: what is computed and what is meant -/
theorem sq2xyz_near (xs n a b : ℝ) (hx : |xs| = 1) (hn : |n| = 1) (ha : |a| ≤ 1.00001) (hb : |b| ≤ 1.00001) :
    |(sq2xyz A (xs * n) n a b).x - (onSquare xs n ((a + 1) / 2) ((b + 1) / 2)).x| ≤ 2.5e-14 ∧
    |(sq2xyz A (xs * n) n a b).y - (onSquare xs n ((a + 1) / 2) ((b + 1) / 2)).y| ≤ 2.5e-14 ∧
    |(sq2xyz A (xs * n) n a b).z - (onSquare xs n ((a + 1) / 2) ((b + 1) / 2)).z| ≤ 2.5e-14 := by
  obtain ⟨a', b', da, db, er, dphi⟩ := polar_near h a b
  replace da : |a' - a| ≤ 1.01e-15 := da.trans (by norm_num at *; linarith)
  replace db : |b' - b| ≤ 1.01e-15 := db.trans (by norm_num at *; linarith)
  set r := sqR A a b with hrd
  have hr : |r| ≤ 1.00001 := by
    rw [hrd]; unfold sqR
    split_ifs
    · exact ha
    · norm_num
    · exact hb
  have hr2 : r ^ 2 ≤ 1.0001 := by
    rw [← sq_abs]; exact (pow_le_pow_left₀ (abs_nonneg r) hr 2).trans (by norm_num)
  set φ := Geo.sqPhi a' b' with hφ
  have hcos : |A.cos (sqPhi A a b) - Real.cos φ| ≤ 6e-15 := by
    have h1 := cosA h (sqPhi A a b)
    have h2 := (abs_cos_sub_le (sqPhi A a b) φ).trans dphi
    have := abs_sub_le (A.cos (sqPhi A a b)) (Real.cos (sqPhi A a b)) (Real.cos φ)
    norm_num at *
    linarith
  have hsin : |A.sin (sqPhi A a b) - Real.sin φ| ≤ 6e-15 := by
    have h1 := sinA h (sqPhi A a b)
    have h2 := (abs_sin_sub_le (sqPhi A a b) φ).trans dphi
    have := abs_sub_le (A.sin (sqPhi A a b)) (Real.sin (sqPhi A a b)) (Real.sin φ)
    norm_num at *
    linarith
  have hR : max |a'| |b'| ^ 2 = r ^ 2 := by
    rw [← disk_radius, sqXY_sq, ← er, sq]
  obtain ⟨gl, al, el⟩ := liftR h (hr.trans (by norm_num))
  set L := r * √(2 - r ^ 2) with hL
  have hLb : |L| ≤ 1.42 := by
    rw [hL, abs_mul, abs_of_nonneg (sqrt_nonneg _)]
    have h1 : √(2 - r ^ 2) ≤ 1.4143 := by
      rw [sqrt_le_left (by norm_num)]; nlinarith [sq_nonneg r]
    have := mul_le_mul hr h1 (sqrt_nonneg _) (by norm_num)
    norm_num at *
    linarith
  -- one component on the disk
  have comp : ∀ {c cf t : ℝ}, |cf - c| ≤ 6e-15 → |c| ≤ 1 → (∃ g, |g - 1| ≤ 5e-16 ∧ t = cf * sphterm A r * g) →
      |t - c * L| ≤ 1.2e-14 := by
    rintro c cf t hc hc1 ⟨g, ag, eg⟩
    have hG := near_mul al ag (by norm_num)
    have e : t - c * L = (c * (gl * g - 1) + ((cf - c) + (cf - c) * (gl * g - 1))) * L := by rw [eg, el]; ring
    have b1 := abs_mul_le hc1 hG
    have b2 := abs_mul_le hc hG
    have b3 := abs_add_le (c * (gl * g - 1)) ((cf - c) + (cf - c) * (gl * g - 1))
    have b4 := abs_add_le (cf - c) ((cf - c) * (gl * g - 1))
    rw [e]
    refine (abs_mul_le (s := 7.7e-15) ?_ hLb).trans (by norm_num)
    norm_num at *
    linarith
  have hs1 : |xs * n| = 1 := by rw [abs_mul, hx, hn, one_mul]
  have hX : |(sq2xyz A (xs * n) n a b).x - xs * n * Real.cos φ * L| ≤ 1.2e-14 := by
    obtain ⟨g1, a1, e1⟩ := mulR h (xs * n) (A.cos (sqPhi A a b))
    obtain ⟨g2, a2, e2⟩ := mulR h (A.mul (xs * n) (A.cos (sqPhi A a b))) (sphterm A r)
    refine comp (cf := xs * n * A.cos (sqPhi A a b)) ?_ ?_ ⟨g1 * g2, (near_mul a1 a2 (by norm_num)).trans (by norm_num), ?_⟩
    · rw [← mul_sub, abs_mul, hs1, one_mul]; exact hcos
    · rw [abs_mul, hs1, one_mul]; exact abs_cos_le_one φ
    · unfold sq2xyz; simp only; rw [← hrd, e2, e1]; ring
  have hY : |(sq2xyz A (xs * n) n a b).y - Real.sin φ * L| ≤ 1.2e-14 := by
    obtain ⟨g2, a2, e2⟩ := mulR h (A.sin (sqPhi A a b)) (sphterm A r)
    refine comp (cf := A.sin (sqPhi A a b)) hsin (abs_sin_le_one φ) ⟨g2, a2.trans (by norm_num), ?_⟩
    unfold sq2xyz; simp only; rw [← hrd, e2]
  have hZ : |(sq2xyz A (xs * n) n a b).z - n * (1 - r ^ 2)| ≤ 1e-15 := by
    unfold sq2xyz
    simp only
    rw [← hrd]
    obtain ⟨g1, a1, e1⟩ := mulR h r r
    obtain ⟨g2, a2, e2⟩ := subR h 1 (A.mul r r)
    obtain ⟨g3, a3, e3⟩ := mulR h n (A.sub 1 (A.mul r r))
    have hr0 := sq_nonneg r
    have b1 : |r ^ 2 * (g1 - 1)| ≤ 2.31e-16 :=
      (abs_mul_le (s := 1.0001) (by rw [abs_of_nonneg hr0]; exact hr2) a1).trans (by norm_num)
    obtain ⟨l1, u1⟩ := abs_le.mp b1
    have b2 : |(1 - r * r * g1) * (g2 * g3 - 1)| ≤ 4.8e-16 := by
      refine (abs_mul_le (s := 1.001) ?_ (near_mul a2 a3 (by norm_num))).trans (by norm_num)
      have e : 1 - r * r * g1 = 1 - r ^ 2 - r ^ 2 * (g1 - 1) := by ring
      rw [e, abs_le]; constructor <;> linarith
    have e : A.mul n (A.sub 1 (A.mul r r)) - n * (1 - r ^ 2) = n * ((1 - r * r * g1) * (g2 * g3 - 1) - r ^ 2 * (g1 - 1)) := by
      rw [e3, e2, e1]; ring
    rw [e, abs_mul, hn, one_mul]
    have := abs_sub ((1 - r * r * g1) * (g2 * g3 - 1)) (r ^ 2 * (g1 - 1))
    norm_num at *
    linarith
  -- the point of the square that was really converted
  have hon : (onSquare xs n ((a' + 1) / 2) ((b' + 1) / 2)).x = xs * n * Real.cos φ * L ∧
      (onSquare xs n ((a' + 1) / 2) ((b' + 1) / 2)).y = Real.sin φ * L ∧
      (onSquare xs n ((a' + 1) / 2) ((b' + 1) / 2)).z = n * (1 - r ^ 2) := by
    unfold onSquare
    simp only
    rw [show 2 * ((a' + 1) / 2) - 1 = a' by ring, show 2 * ((b' + 1) / 2) - 1 = b' by ring, hR]
    refine ⟨?_, ?_, rfl⟩
    · unfold sqX; rw [← er, ← hφ, hL]; ring
    · unfold sqY; rw [← er, ← hφ, hL]; ring
  obtain ⟨o1, o2, o3⟩ := hon
  have mm : ∀ {x y x' y' : ℝ}, |x| ≤ 1.00001 → |y| ≤ 1.00001 → |x' - x| ≤ 1.01e-15 → |y' - y| ≤ 1.01e-15 →
      max |2 * ((x' + 1) / 2) - 1| |2 * ((y' + 1) / 2) - 1| ≤ 1.0001 := by
    intro x y x' y' h1 h2 h3 h4
    rw [show 2 * ((x' + 1) / 2) - 1 = x' by ring, show 2 * ((y' + 1) / 2) - 1 = y' by ring]
    have t1 := abs_add_le (x' - x) x
    have t2 := abs_add_le (y' - y) y
    rw [sub_add_cancel] at t1 t2
    apply max_le <;> norm_num at * <;> linarith
  obtain ⟨l1, l2, l3⟩ := square_lip xs n hx hn (f := (a' + 1) / 2) (f' := (a + 1) / 2) (v := (b' + 1) / 2) (v' := (b + 1) / 2)
    (d := 5.1e-16) (M := 1.0001) le_rfl (mm ha hb da db) (mm ha hb (by rw [sub_self, abs_zero]; norm_num) (by rw [sub_self, abs_zero]; norm_num))
    (by rw [show (a' + 1) / 2 - (a + 1) / 2 = (a' - a) / 2 by ring, abs_div, abs_two]; norm_num at *; linarith)
    (by rw [show (b' + 1) / 2 - (b + 1) / 2 = (b' - b) / 2 by ring, abs_div, abs_two]; norm_num at *; linarith)
  rw [o1] at l1
  rw [o2] at l2
  rw [o3] at l3
  have fin : ∀ {x y z e e' : ℝ}, |x - y| ≤ e → |y - z| ≤ e' → e + e' ≤ 2.5e-14 → |x - z| ≤ 2.5e-14 := by
    intro x y z e e' h1 h2 h3
    have := abs_sub_le x y z
    linarith
  exact ⟨fin hX l1 (by norm_num), fin hY l2 (by norm_num), fin hZ l3 (by norm_num)⟩

/-- coordinates to directions, forward error, also a little outside of the rectangle -/
theorem uv2xyz_near (xs : ℝ) (hx : |xs| = 1) (U V : ℝ) (hU : -1e-6 ≤ U) (hU' : U ≤ 2 + 1e-6) (hV : -1e-6 ≤ V) (hV' : V ≤ 1 + 1e-6) :
    |(uv2xyz A xs (U, V)).x - (onSquare xs (hemi U) (Geo.foldU U) V).x| ≤ 4e-14 ∧
    |(uv2xyz A xs (U, V)).y - (onSquare xs (hemi U) (Geo.foldU U) V).y| ≤ 4e-14 ∧
    |(uv2xyz A xs (U, V)).z - (onSquare xs (hemi U) (Geo.foldU U) V).z| ≤ 4e-14 := by
  have tw : ∀ {f : ℝ}, |f| ≤ 1.00001 → |2 * f - 1| ≤ 1.000003 → |twice A f - (2 * f - 1)| ≤ 7.2e-16 := by
    intro f hf hf'
    obtain ⟨g1, a1, e1⟩ := mulR h 2 f
    obtain ⟨g2, a2, e2⟩ := subR h (A.mul 2 f) 1
    have b2 := abs_mul_le hf a1
    have hm : |A.mul 2 f - 1| ≤ 1.00001 := by
      rw [e1, show 2 * f * g1 - 1 = (2 * f - 1) + 2 * (f * (g1 - 1)) by ring]
      have := abs_add_le (2 * f - 1) (2 * (f * (g1 - 1)))
      rw [abs_mul 2, abs_two] at this
      norm_num at *
      linarith
    have b1 := abs_mul_le hm a2
    unfold twice
    have e : A.sub (A.mul 2 f) 1 - (2 * f - 1) = (A.mul 2 f - 1) * (g2 - 1) + 2 * (f * (g1 - 1)) := by
      rw [e2, e1]; ring
    have := abs_add_le ((A.mul 2 f - 1) * (g2 - 1)) (2 * (f * (g1 - 1)))
    rw [abs_mul 2, abs_two] at this
    rw [e]
    norm_num at *
    linarith
  have hf0 : -1e-6 ≤ Geo.foldU U ∧ Geo.foldU U ≤ 1 + 1e-6 := by
    unfold Geo.foldU; split_ifs <;> constructor <;> linarith
  have hf : |foldU A U - Geo.foldU U| ≤ 2.31e-16 := by
    unfold foldU Geo.foldU
    split_ifs with c
    · obtain ⟨g, a, e⟩ := subR h U 1
      rw [e, show (U - 1) * g - (U - 1) = (U - 1) * (g - 1) by ring]
      refine (abs_mul_le (s := 1.00001) ?_ a).trans (by norm_num)
      rw [abs_le]; constructor <;> norm_num at * <;> linarith
    · rw [sub_self, abs_zero]; norm_num
  obtain ⟨f1, f2⟩ := abs_le.mp hf
  obtain ⟨f3, f4⟩ := hf0
  have t1 := tw (f := foldU A U) (abs_le.mpr ⟨by norm_num at *; linarith, by norm_num at *; linarith⟩)
    (abs_le.mpr ⟨by norm_num at *; linarith, by norm_num at *; linarith⟩)
  have t2 := tw (f := V) (abs_le.mpr ⟨by norm_num at *; linarith, by norm_num at *; linarith⟩)
    (abs_le.mpr ⟨by norm_num at *; linarith, by norm_num at *; linarith⟩)
  have hn : |hemi U| = 1 := by unfold hemi; split_ifs <;> norm_num
  have da : |twice A (foldU A U) - (2 * Geo.foldU U - 1)| ≤ 1.2e-15 := by
    have := abs_sub_le (twice A (foldU A U)) (2 * foldU A U - 1) (2 * Geo.foldU U - 1)
    rw [show 2 * foldU A U - 1 - (2 * Geo.foldU U - 1) = 2 * (foldU A U - Geo.foldU U) by ring, abs_mul, abs_two] at this
    norm_num at *
    linarith
  obtain ⟨d1, d2⟩ := abs_le.mp da
  obtain ⟨d3, d4⟩ := abs_le.mp t2
  have ma : |twice A (foldU A U)| ≤ 1.00001 := abs_le.mpr ⟨by norm_num at *; linarith, by norm_num at *; linarith⟩
  have mb : |twice A V| ≤ 1.00001 := abs_le.mpr ⟨by norm_num at *; linarith, by norm_num at *; linarith⟩
  obtain ⟨k1, k2, k3⟩ := sq2xyz_near h xs (hemi U) (twice A (foldU A U)) (twice A V) hx hn ma mb
  obtain ⟨l1, l2, l3⟩ := square_lip xs (hemi U) hx hn (f := (twice A (foldU A U) + 1) / 2) (f' := Geo.foldU U)
    (v := (twice A V + 1) / 2) (v' := V) (d := 6.1e-16) (M := 1.0001) le_rfl
    (by
      rw [show 2 * ((twice A (foldU A U) + 1) / 2) - 1 = twice A (foldU A U) by ring, show 2 * ((twice A V + 1) / 2) - 1 = twice A V by ring]
      exact max_le (ma.trans (by norm_num)) (mb.trans (by norm_num)))
    (max_le (abs_le.mpr ⟨by norm_num at *; linarith, by norm_num at *; linarith⟩) (abs_le.mpr ⟨by norm_num at *; linarith, by norm_num at *; linarith⟩))
    (by rw [abs_le]; constructor <;> norm_num at * <;> linarith) (by rw [abs_le]; constructor <;> norm_num at * <;> linarith)
  unfold uv2xyz
  simp only
  have fin : ∀ {x y z e e' : ℝ}, |x - y| ≤ e → |y - z| ≤ e' → e + e' ≤ 4e-14 → |x - z| ≤ 4e-14 := by
    intro x y z e e' h1 h2 h3
    have := abs_sub_le x y z
    linarith
  exact ⟨fin k1 l1 (by norm_num), fin k2 l2 (by norm_num), fin k3 l3 (by norm_num)⟩

/-- coordinates that are off by 1e-13 give directions that are off by 5e-12 -/
theorem dir_near (xs : ℝ) (hx : xs = 1 ∨ xs = -1) (uv w : ℝ × ℝ) (hw : InRect w) (h1 : |uv.1 - w.1| ≤ 1e-13) (h2 : |uv.2 - w.2| ≤ 1e-13) :
    |(uv2xyz A xs uv).x - (Geo.uv2xyz xs w).x| ≤ 4.5e-12 ∧ |(uv2xyz A xs uv).y - (Geo.uv2xyz xs w).y| ≤ 4.5e-12 ∧
    |(uv2xyz A xs uv).z - (Geo.uv2xyz xs w).z| ≤ 4.5e-12 := by
  obtain ⟨U, V⟩ := uv
  obtain ⟨w1, w2, w3, w4⟩ := id hw
  simp only at h1 h2
  obtain ⟨p1, p2⟩ := abs_le.mp h1
  obtain ⟨q1, q2⟩ := abs_le.mp h2
  have hxs : |xs| = 1 := by rcases hx with h | h <;> rw [h] <;> norm_num
  obtain ⟨k1, k2, k3⟩ := uv2xyz_near h xs hxs U V (by linarith) (by linarith) (by linarith) (by linarith)
  have hn : |hemi U| = 1 := by unfold hemi; split_ifs <;> norm_num
  -- the nearest point of the rectangle
  obtain ⟨U', u1, u2, u3, u4, u5, u6⟩ : ∃ U', 0 ≤ U' ∧ U' ≤ 2 ∧ |U - U'| ≤ 1e-13 ∧ |U' - w.1| ≤ 1e-13 ∧ hemi U' = hemi U ∧
      Geo.foldU U - Geo.foldU U' = U - U' := by
    rcases lt_or_ge U 0 with c | c
    · refine ⟨0, le_rfl, by norm_num, abs_le.mpr ⟨by linarith, by linarith⟩, abs_le.mpr ⟨by linarith, by linarith⟩, ?_, ?_⟩
      · unfold hemi; rw [if_neg (by norm_num), if_neg (by linarith)]
      · unfold Geo.foldU; rw [if_neg (by linarith), if_neg (by norm_num)]
    · rcases lt_or_ge 2 U with c' | c'
      · refine ⟨2, by norm_num, le_rfl, abs_le.mpr ⟨by linarith, by linarith⟩, abs_le.mpr ⟨by linarith, by linarith⟩, ?_, ?_⟩
        · unfold hemi; rw [if_pos (by norm_num), if_pos (by linarith)]
        · unfold Geo.foldU; rw [if_pos (by linarith), if_pos (by norm_num)]; ring
      · exact ⟨U, c, c', by rw [sub_self, abs_zero]; norm_num, h1, rfl, by ring⟩
  obtain ⟨V', v1, v2, v3, v4⟩ : ∃ V', 0 ≤ V' ∧ V' ≤ 1 ∧ |V - V'| ≤ 1e-13 ∧ |V' - w.2| ≤ 1e-13 := by
    rcases lt_or_ge V 0 with c | c
    · exact ⟨0, le_rfl, by norm_num, abs_le.mpr ⟨by linarith, by linarith⟩, abs_le.mpr ⟨by linarith, by linarith⟩⟩
    · rcases lt_or_ge 1 V with c' | c'
      · exact ⟨1, by norm_num, le_rfl, abs_le.mpr ⟨by linarith, by linarith⟩, abs_le.mpr ⟨by linarith, by linarith⟩⟩
      · exact ⟨V, c, c', by rw [sub_self, abs_zero]; norm_num, h2⟩
  have hF' : 0 ≤ Geo.foldU U' ∧ Geo.foldU U' ≤ 1 := by
    unfold Geo.foldU; split_ifs <;> constructor <;> linarith
  obtain ⟨x1, x2⟩ := abs_le.mp u3
  obtain ⟨y1, y2⟩ := abs_le.mp v3
  obtain ⟨l1, l2, l3⟩ := square_lip xs (hemi U) hxs hn (f := Geo.foldU U) (f' := Geo.foldU U') (v := V) (v' := V') (d := 1e-13)
    (M := 1.0001) le_rfl
    (max_le (abs_le.mpr ⟨by linarith [hF'.1], by linarith [hF'.2]⟩) (abs_le.mpr ⟨by linarith, by linarith⟩))
    ((rect_max hF'.1 hF'.2 v1 v2).trans (by norm_num)) (by rw [u6]; exact u3) v3
  rw [← u5, ← uv2xyz_square xs (U', V')] at l1 l2 l3
  rw [← u5] at k1 k2 k3
  obtain ⟨m1, m2, m3⟩ := C179_join xs hx (U', V') w 1e-13 ⟨u1, u2, v1, v2⟩ hw u4 v4
  have fin : ∀ {x y z t e e' e'' : ℝ}, |x - y| ≤ e → |y - z| ≤ e' → |z - t| ≤ e'' → e + e' + e'' ≤ 4.5e-12 → |x - t| ≤ 4.5e-12 := by
    intro x y z t e e' e'' h1 h2 h3 h4
    have t1 := abs_sub_le x y t
    have t2 := abs_sub_le y z t
    linarith
  rw [u5] at k1 k2 k3 l1 l2 l3
  exact ⟨fin k1 l1 m1 (by norm_num), fin k2 l2 m2 (by norm_num), fin k3 l3 m3 (by norm_num)⟩

/-- the scale between disk and sphere -/
theorem unlift_near {z : ℝ} (hz : |z| ≤ 1.1) : ∃ g, |g - 1| ≤ 1.1e-15 ∧ unlift A z = √(1 + |z|) * g ∧ 0 < unlift A z := by
  obtain ⟨g1, a1, e1⟩ := mulR h (zsign z) z
  obtain ⟨g2, a2, e2⟩ := subR h 1 (A.mul (zsign z) z)
  obtain ⟨g3, a3, e3⟩ := subR h 2 (A.sub 1 (A.mul (zsign z) z))
  rw [zsign_mul] at e1
  have z0 := abs_nonneg z
  set m := |z| with hm
  have hQ : 0 < 1 + m := by linarith
  have b1 : |m * (g1 - 1)| ≤ 2.6e-16 := (abs_mul_le (s := 1.1) (by rw [abs_of_nonneg z0]; exact hz) a1).trans (by norm_num)
  obtain ⟨l1, u1⟩ := abs_le.mp b1
  have b2 : |(1 - m * g1) * (g2 - 1)| ≤ 2.4e-16 := by
    refine (abs_mul_le (s := 1.01) ?_ a2).trans (by norm_num)
    rw [show m * g1 = m + m * (g1 - 1) by ring, abs_le]; constructor <;> linarith
  obtain ⟨l2, u2⟩ := abs_le.mp b2
  have hin : ∃ g, |g - 1| ≤ 5.1e-16 ∧ 2 - A.sub 1 (A.mul (zsign z) z) = (1 + m) * g := by
    refine rel (by norm_num) ?_
    rw [abs_of_pos hQ, e2, e1, show 2 - (1 - m * g1) * g2 - (1 + m) = m * (g1 - 1) - (1 - m * g1) * (g2 - 1) by ring, abs_le]
    constructor <;> linarith
  obtain ⟨g4, a4, e4⟩ := hin
  have p3 := near_pos a3 (by norm_num)
  have p4 := near_pos a4 (by norm_num)
  have hS0 : 0 ≤ A.sub 2 (A.sub 1 (A.mul (zsign z) z)) := by rw [e3, e4]; positivity
  obtain ⟨g5, a5, e5⟩ := sqrtR h hS0
  obtain ⟨g6, a6, e6⟩ := sqrt_near (S := A.sub 2 (A.sub 1 (A.mul (zsign z) z))) hQ.le ⟨g4 * g3, near_mul a4 a3 (by norm_num), by rw [e3, e4]; ring⟩ (by norm_num)
  have p5 := near_pos a5 (by norm_num)
  have p6 := near_pos a6 (by norm_num)
  have hs := sqrt_pos.mpr hQ
  have e : unlift A z = √(1 + m) * (g6 * g5) := by unfold unlift; rw [e5, e6]; ring
  exact ⟨g6 * g5, (near_mul a6 a5 (by norm_num)).trans (by norm_num), e, by rw [e]; positivity⟩

/-- the square coordinates that are computed, for a direction of length one up to rounding -/
theorem xyz2sq_near (q : V3) (hq : q.normSq = 1) (t : ℝ) (ht : |t - 1| ≤ 1.2e-14) :
    |(disk2sq A (A.div (t * q.x) (unlift A (t * q.z))) (A.div (t * q.y) (unlift A (t * q.z)))).1 - (xyz2sq q.x q.y q.z).1| ≤ 1.8e-13 ∧
    |(disk2sq A (A.div (t * q.x) (unlift A (t * q.z))) (A.div (t * q.y) (unlift A (t * q.z)))).2 - (xyz2sq q.x q.y q.z).2| ≤ 1.8e-13 := by
  have tp := near_pos ht (by norm_num)
  obtain ⟨t1, t2⟩ := abs_le.mp ht
  unfold V3.normSq at hq
  obtain ⟨hR, hz1, hX, hY⟩ := disk_le hq (sq_sqrt (show 0 ≤ 1 + |q.z| by have := abs_nonneg q.z; linarith))
  have z0 := abs_nonneg q.z
  have hz : |t * q.z| ≤ 1.1 := by
    rw [abs_mul, abs_of_pos tp]; nlinarith
  obtain ⟨g, ag, eg, hp⟩ := unlift_near h hz
  have hS : ∃ g, |g - 1| ≤ 1.2e-14 ∧ 1 + |t * q.z| = (1 + |q.z|) * g := by
    refine rel (by norm_num) ?_
    rw [abs_of_pos (show 0 < 1 + |q.z| by linarith), abs_mul, abs_of_pos tp, show 1 + t * |q.z| - (1 + |q.z|) = (t - 1) * |q.z| by ring,
      abs_mul, abs_abs]
    exact mul_le_mul ht (by linarith) z0 (by norm_num)
  obtain ⟨g2, a2, e2⟩ := sqrt_near (by linarith : 0 ≤ 1 + |q.z|) hS (by norm_num)
  have hsq : xyz2sq q.x q.y q.z = Geo.disk2sq (q.x / √(1 + |q.z|)) (q.y / √(1 + |q.z|)) := by
    unfold xyz2sq; rw [zsign_mul, show 2 - (1 - |q.z|) = 1 + |q.z| by ring]
  rw [hsq]
  have hs : 0 < √(1 + |q.z|) := sqrt_pos.mpr (by linarith)
  have ss := sq_sqrt (show 0 ≤ 1 + |q.z| by linarith)
  set S := √(1 + |q.z|) with hSd
  have p1 := near_pos ag (by norm_num)
  have p2 := near_pos a2 (by norm_num)
  have one : ∀ x : ℝ, ∃ G, |G - 1| ≤ 2.6e-14 ∧ A.div (t * x) (unlift A (t * q.z)) = x / S * G := by
    intro x
    obtain ⟨g3, a3, e3⟩ := divR h (t * x) hp.ne'
    refine ⟨t * (1 / (g2 * g)) * g3, ?_, ?_⟩
    · have n1 := near_mul a2 ag (by norm_num)
      have n2 := near_inv (n1.trans (show _ ≤ (1.32e-14 : ℝ) by norm_num)) (by norm_num)
      exact (near_mul (near_mul ht n2 (by norm_num)) a3 (by norm_num)).trans (by norm_num)
    · rw [e3, eg, e2]; field_simp
  obtain ⟨G1, n1, E1⟩ := one q.x
  obtain ⟨G2, n2, E2⟩ := one q.y
  rw [E1, E2]
  set X := q.x / S
  set Y := q.y / S
  have D : √((X * G1 - X) ^ 2 + (Y * G2 - Y) ^ 2) ≤ 2.6e-14 := by
    rw [sqrt_le_left (by norm_num)]
    have s1 : (G1 - 1) ^ 2 ≤ (2.6e-14) ^ 2 := by rw [← sq_abs]; exact pow_le_pow_left₀ (abs_nonneg _) n1 2
    have s2 : (G2 - 1) ^ 2 ≤ (2.6e-14) ^ 2 := by rw [← sq_abs]; exact pow_le_pow_left₀ (abs_nonneg _) n2 2
    have e1 : (X * G1 - X) ^ 2 = X ^ 2 * (G1 - 1) ^ 2 := by ring
    have e2 : (Y * G2 - Y) ^ 2 = Y ^ 2 * (G2 - 1) ^ 2 := by ring
    rw [e1, e2]
    have m1 := mul_le_mul_of_nonneg_left s1 (sq_nonneg X)
    have m2 := mul_le_mul_of_nonneg_left s2 (sq_nonneg Y)
    have m3 := mul_le_mul_of_nonneg_right hR (show (0 : ℝ) ≤ (2.6e-14) ^ 2 by norm_num)
    linarith
  have R2 : √((X * G1) ^ 2 + (Y * G2) ^ 2) ≤ 1.01 := by
    rw [sqrt_le_left (by norm_num)]
    have m1 := mul_le_mul_of_nonneg_left (near_sq n1) (sq_nonneg X)
    have m2 := mul_le_mul_of_nonneg_left (near_sq n2) (sq_nonneg Y)
    rw [mul_pow, mul_pow]
    have m3 := mul_le_mul_of_nonneg_right hR (show (0 : ℝ) ≤ 1.01 by norm_num)
    have m4 : (1 : ℝ) * 1.01 ≤ 1.01 ^ 2 := by norm_num
    linarith
  obtain ⟨k1, k2⟩ := disk2sq_near h (X * G1) (Y * G2)
  obtain ⟨l1, l2⟩ := disk2sq_lip (X * G1) (Y * G2) X Y
  constructor
  · have := abs_sub_le (disk2sq A (X * G1) (Y * G2)).1 (Geo.disk2sq (X * G1) (Y * G2)).1 (Geo.disk2sq X Y).1
    norm_num at *
    linarith
  · have := abs_sub_le (disk2sq A (X * G1) (Y * G2)).2 (Geo.disk2sq (X * G1) (Y * G2)).2 (Geo.disk2sq X Y).2
    norm_num at *
    linarith

/-- a direction of length one up to 1e-14 -/
theorem unit_near {p : V3} (hp : |p.normSq - 1| ≤ 1e-14) :
    ∃ q : V3, ∃ t : ℝ, q.normSq = 1 ∧ |t - 1| ≤ 1.2e-14 ∧ 0 < t ∧ p = ⟨t * q.x, t * q.y, t * q.z⟩ := by
  obtain ⟨l, u⟩ := abs_le.mp hp
  have h0 : 0 < p.normSq := by linarith
  have t0 := sqrt_pos.mpr h0
  have ts := sq_sqrt h0.le
  refine ⟨⟨p.x / √p.normSq, p.y / √p.normSq, p.z / √p.normSq⟩, √p.normSq, ?_, ?_, t0, ?_⟩
  · rw [show (⟨p.x / √p.normSq, p.y / √p.normSq, p.z / √p.normSq⟩ : V3).normSq = p.normSq / √p.normSq ^ 2 by
      unfold V3.normSq; ring, ts, div_self h0.ne']
  · rw [abs_le]; constructor
    · have : 1 - 1.2e-14 ≤ √p.normSq := le_sqrt_of_sq_le (by norm_num at *; linarith)
      linarith
    · have : √p.normSq ≤ 1 + 1.2e-14 := by
        rw [sqrt_le_left (by norm_num)]; norm_num at *; linarith
      linarith
  · refine V3.ext ?_ ?_ ?_ <;> simp only <;> field_simp

theorem xyz2uv_near (flipu : Bool) (q : V3) (hq : q.normSq = 1) (t : ℝ) (ht : |t - 1| ≤ 1.2e-14) :
    |(xyz2uv A flipu ⟨t * q.x, t * q.y, t * q.z⟩).1 - (Geo.xyz2uv flipu q).1| ≤ 1e-13 ∧
    |(xyz2uv A flipu ⟨t * q.x, t * q.y, t * q.z⟩).2 - (Geo.xyz2uv flipu q).2| ≤ 1e-13 := by
  have tp := near_pos ht (by norm_num)
  obtain ⟨k1, k2⟩ := xyz2sq_near h q hq t ht
  have hsign : zsign (t * q.z) = zsign q.z := by
    unfold zsign
    by_cases c : q.z < 0
    · rw [if_pos c, if_pos (mul_neg_of_pos_of_neg tp c)]
    · rw [if_neg c, if_neg (not_lt.mpr (mul_nonneg tp.le (not_lt.mp c)))]
  have hb : |(xyz2sq q.x q.y q.z).1| ≤ 1 ∧ |(xyz2sq q.x q.y q.z).2| ≤ 1 := by
    obtain ⟨⟨r1, r2, r3, r4⟩, r5⟩ := C23_in_rect Axes.std Axes.std_ok false q hq
    unfold xyz2uvA Geo.sq2uv at r1 r2 r3 r4 r5
    simp only [Bool.false_eq_true, if_false, Axes.std, V3.get] at r1 r2 r3 r4 r5
    have hr5 : q.z < 0 ↔ 1 < ((xyz2sq q.x q.y q.z).1 + 2 - zsign q.z) / 2 := r5
    have hr1 : 0 ≤ ((xyz2sq q.x q.y q.z).1 + 2 - zsign q.z) / 2 := r1
    have hr2 : ((xyz2sq q.x q.y q.z).1 + 2 - zsign q.z) / 2 ≤ 2 := r2
    constructor
    · rw [abs_le]
      by_cases c : q.z < 0
      · have := hr5.mp c
        unfold zsign at this hr2
        rw [if_pos c] at this hr2
        constructor <;> linarith
      · have := not_lt.mp (fun hh => c (hr5.mpr hh))
        unfold zsign at this hr1
        rw [if_neg c] at this hr1
        constructor <;> linarith
    · rw [abs_le]; constructor <;> linarith
  obtain ⟨b1, b2⟩ := hb
  unfold xyz2uv Geo.xyz2uv xyz2uvA sq2uv Geo.sq2uv
  simp only [Bool.false_eq_true, if_false, Axes.std, V3.get]
  rw [hsign]
  set P := disk2sq A (A.div (t * q.x) (unlift A (t * q.z))) (A.div (t * q.y) (unlift A (t * q.z)))
  change |_ - (if flipu then ((if zsign q.z < 0 then 3 else 1) - (xyz2sq q.x q.y q.z).1 * zsign q.z) / 2
    else ((xyz2sq q.x q.y q.z).1 + 2 - zsign q.z) / 2)| ≤ _ ∧ |_ - ((xyz2sq q.x q.y q.z).2 + 1) / 2| ≤ _
  set a := (xyz2sq q.x q.y q.z).1
  set n := zsign q.z with hn
  have hn1 : n = 1 ∨ n = -1 := by rw [hn]; unfold zsign; split_ifs <;> simp
  have hna : |n| = 1 := by rcases hn1 with e | e <;> rw [e] <;> norm_num
  have hP : |P.1| ≤ 1.01 := by
    have := abs_add_le (P.1 - a) a
    rw [sub_add_cancel] at this
    norm_num at *
    linarith
  refine ⟨?_, (second_near h b2 k2).trans (by norm_num)⟩
  cases flipu
  · simp only [Bool.false_eq_true, if_false]
    obtain ⟨g1, r1, e1⟩ := addR h P.1 2
    obtain ⟨g2, r2, e2⟩ := subR h (A.add P.1 2) n
    have hPb : |P.1 + 2| ≤ 3.01 := by
      have := abs_add_le P.1 2
      rw [abs_two] at this
      norm_num at *
      linarith
    have t1 := abs_mul_le hPb r1
    have hg2 : |g2| ≤ 1.001 := by
      obtain ⟨l, u⟩ := abs_le.mp r2
      rw [abs_le]; constructor <;> norm_num at * <;> linarith
    have hb4 : |a + 2 - n| ≤ 4 := by
      have := abs_add_three a 2 (-n)
      rw [abs_neg, hna, abs_two, ← sub_eq_add_neg] at this
      linarith
    refine (halve_near h (t := A.sub (A.add P.1 2) n) (x := a + 2 - n) (e := 1.85e-13) hb4
      ⟨g2, r2.trans (by norm_num), ?_⟩ (by norm_num)).trans (by norm_num)
    rw [e2, e1, show ((P.1 + 2) * g1 - n) * g2 - (a + 2 - n) * g2 = ((P.1 + 2) * (g1 - 1) + (P.1 - a)) * g2 by ring]
    refine (abs_mul_le (s := 1.81e-13) ?_ hg2).trans (by norm_num)
    have := abs_add_le ((P.1 + 2) * (g1 - 1)) (P.1 - a)
    norm_num at *
    linarith
  · simp only [if_true]
    set k : ℝ := if n < 0 then 3 else 1 with hk
    have hkb : |k| ≤ 3 := by rw [hk]; split_ifs <;> norm_num
    obtain ⟨g1, r1, e1⟩ := mulR h P.1 n
    obtain ⟨g2, r2, e2⟩ := subR h k (A.mul P.1 n)
    have hPb : |P.1 * n| ≤ 1.01 := by rw [abs_mul, hna, mul_one]; exact hP
    have t1 := abs_mul_le hPb r1
    have hg2 : |g2| ≤ 1.001 := by
      obtain ⟨l, u⟩ := abs_le.mp r2
      rw [abs_le]; constructor <;> norm_num at * <;> linarith
    have hb4 : |k - a * n| ≤ 4 := by
      have := abs_sub k (a * n)
      rw [abs_mul, hna, mul_one] at this
      linarith
    refine (halve_near h (t := A.sub k (A.mul P.1 n)) (x := k - a * n) (e := 1.85e-13) hb4
      ⟨g2, r2.trans (by norm_num), ?_⟩ (by norm_num)).trans (by norm_num)
    rw [e2, e1, show (k - P.1 * n * g1) * g2 - (k - a * n) * g2 = (-(P.1 * n * (g1 - 1)) + (a - P.1) * n) * g2 by ring]
    refine (abs_mul_le (s := 1.81e-13) ?_ hg2).trans (by norm_num)
    have := abs_add_le (-(P.1 * n * (g1 - 1))) ((a - P.1) * n)
    rw [abs_neg, abs_mul (a - P.1), hna, mul_one, abs_sub_comm a] at this
    norm_num at *
    linarith

/-- **C180** every direction of length one up to 1e-14, to coordinates and back as the mappers do it: the direction
returns up to 5e-12, on the whole sphere, also where the hemisphere is lost (C178_edge). -/
theorem C180_direction (p : V3) (hp : |p.normSq - 1| ≤ 1e-14) :
    |(uv2xyz A (-1) (xyz2uv A true p)).x - p.x| ≤ 5e-12 ∧ |(uv2xyz A (-1) (xyz2uv A true p)).y - p.y| ≤ 5e-12 ∧
    |(uv2xyz A (-1) (xyz2uv A true p)).z - p.z| ≤ 5e-12 := by
  obtain ⟨q, t, hq, ht, t0, rfl⟩ := unit_near h hp
  obtain ⟨k1, k2⟩ := xyz2uv_near h true q hq t ht
  obtain ⟨l1, l2, l3⟩ := dir_near h (-1) (Or.inr rfl) _ _ (C23_in_rect Axes.std Axes.std_ok true q hq).1 k1 k2
  have e : Geo.uv2xyz (-1) (xyz2uvA false Axes.std true q) = q := C23_xyz_uv_xyz V3.zero Axes.std Axes.std_ok q hq
  rw [e] at l1 l2 l3
  unfold V3.normSq at hq
  have fin : ∀ {x c : ℝ}, |x - c| ≤ 4.5e-12 → c ^ 2 ≤ 1 → |x - t * c| ≤ 5e-12 := by
    intro x c hx hc
    have t1 := abs_add_le (x - c) ((1 - t) * c)
    rw [show x - c + (1 - t) * c = x - t * c from by ring] at t1
    have t2 := abs_mul_le (a := 1 - t) (s := 1.2e-14) (by rw [abs_sub_comm]; exact ht) (abs_le_one_iff_mul_self_le_one.mpr (by linarith [sq c]) : |c| ≤ 1)
    linarith
  exact ⟨fin l1 (by nlinarith [sq_nonneg q.y, sq_nonneg q.z]), fin l2 (by nlinarith [sq_nonneg q.x, sq_nonneg q.z]),
    fin l3 (by nlinarith [sq_nonneg q.x, sq_nonneg q.y])⟩

/-- **C180** the same above the horizon in the orientation of the sky patches -/
theorem C180_sky (p : V3) (hp : |p.normSq - 1| ≤ 1e-14) (hz : 0 ≤ p.z) :
    |(uv2xyz A 1 (xyz2uv A false p)).x - p.x| ≤ 5e-12 ∧ |(uv2xyz A 1 (xyz2uv A false p)).y - p.y| ≤ 5e-12 ∧
    |(uv2xyz A 1 (xyz2uv A false p)).z - p.z| ≤ 5e-12 := by
  obtain ⟨q, t, hq, ht, t0, rfl⟩ := unit_near h hp
  obtain ⟨k1, k2⟩ := xyz2uv_near h false q hq t ht
  obtain ⟨l1, l2, l3⟩ := dir_near h 1 (Or.inl rfl) _ _ (C23_in_rect Axes.std Axes.std_ok false q hq).1 k1 k2
  have qz : ¬ q.z < 0 := fun hc => absurd (mul_neg_of_pos_of_neg t0 hc) (not_lt.mpr hz)
  have e : Geo.uv2xyz 1 (xyz2uvA false Axes.std false q) = q := by
    have := C25_sky_orientation q hq
    rw [if_neg qz] at this
    exact this
  rw [e] at l1 l2 l3
  unfold V3.normSq at hq
  have fin : ∀ {x c : ℝ}, |x - c| ≤ 4.5e-12 → c ^ 2 ≤ 1 → |x - t * c| ≤ 5e-12 := by
    intro x c hx hc
    have t1 := abs_add_le (x - c) ((1 - t) * c)
    rw [show x - c + (1 - t) * c = x - t * c from by ring] at t1
    have t2 := abs_mul_le (a := 1 - t) (s := 1.2e-14) (by rw [abs_sub_comm]; exact ht) (abs_le_one_iff_mul_self_le_one.mpr (by linarith [sq c]) : |c| ≤ 1)
    linarith
  exact ⟨fin l1 (by nlinarith [sq_nonneg q.y, sq_nonneg q.z]), fin l2 (by nlinarith [sq_nonneg q.x, sq_nonneg q.z]),
    fin l3 (by nlinarith [sq_nonneg q.x, sq_nonneg q.y])⟩

end

/-- a direction that is not a unit vector exactly -/
example : binary64.Ok ∧ |(⟨0.6, 0.8, 1e-9⟩ : V3).normSq - 1| ≤ 1e-14 :=
  ⟨binary64_ok, by norm_num [V3.normSq, abs_le]⟩

end Verif.Fp
