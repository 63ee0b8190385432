import Verif.Model.RoundedSquare
import Verif.Lemmas.SquareLipschitz
import Verif.Lemmas.Binary64Order
import Verif.Props.RoundedCells

/-! C178 The Shirley-Chiu square in rounded arithmetic. -/

namespace Verif.Fp
open Verif.Geo Verif.Map Real

/-! ### From the disk to the square -/

/-- an affine piece stays close to the boundary just outside its sector -/
theorem near_sector {f g : ℝ → ℝ} (hf : ∀ s t, |f s - f t| ≤ |s - t|) (hg : ∀ s t, |g s - g t| ≤ |s - t|) {l u : ℝ}
    (hlu : l ≤ u) (h : ∀ s, l ≤ s → s ≤ u → f s = g s) {s e : ℝ} (h1 : l - e ≤ s) (h2 : s ≤ u + e) (he : 0 ≤ e) :
    |f s - g s| ≤ 2 * e := by
  have key : ∀ s0, l ≤ s0 → s0 ≤ u → |s - s0| ≤ e → |f s - g s| ≤ 2 * e := fun s0 a b c => by
    have e1 := abs_sub_le (f s) (f s0) (g s)
    rw [h s0 a b] at e1
    have e2 := hg s0 s
    rw [abs_sub_comm s0 s] at e2
    have e3 := hf s s0
    rw [h s0 a b] at e3
    linarith
  rcases lt_or_ge s l with c | c
  · exact key l le_rfl hlu (abs_le.mpr ⟨by linarith, by linarith⟩)
  rcases lt_or_ge u s with d | d
  · exact key u hlu le_rfl (abs_le.mpr ⟨by linarith, by linarith⟩)
  · exact key s c d (by rw [sub_self, abs_zero]; exact he)

theorem lip_const (c : ℝ) (s t : ℝ) : |c - c| ≤ |s - t| := by rw [sub_self, abs_zero]; exact abs_nonneg _

/-- the values of the boundary on the four sides -/
theorem side_values (s : ℝ) :
    (-1 ≤ s → s ≤ 1 → sideA s = 1 ∧ sideB s = s) ∧ (1 ≤ s → s ≤ 3 → sideA s = 2 - s ∧ sideB s = 1) ∧
    (3 ≤ s → s ≤ 5 → sideA s = -1 ∧ sideB s = 4 - s) ∧ (5 ≤ s → s ≤ 7 → sideA s = s - 6 ∧ sideB s = -1) := by
  unfold sideA sideB
  refine ⟨fun a b => ?_, fun a b => ?_, fun a b => ?_, fun a b => ?_⟩
  · rw [abs_of_nonpos (by linarith), abs_of_nonpos (by linarith), min_eq_left (by linarith), max_eq_right (by norm_num),
      min_eq_right (by linarith), max_eq_right (by linarith)]
    exact ⟨rfl, by ring⟩
  · have e2 : min 1 (2 - |s - 2|) = 1 := by
      apply min_eq_left
      have : |s - 2| ≤ 1 := abs_le.mpr ⟨by linarith, by linarith⟩
      linarith
    rw [e2, abs_of_nonpos (by linarith), min_eq_right (by linarith), max_eq_right (by linarith), max_eq_right (by norm_num)]
    exact ⟨by ring, rfl⟩
  · have e2 : max (-1) (min 1 (|s - 4| - 2)) = -1 := by
      apply max_eq_left
      have : |s - 4| ≤ 1 := abs_le.mpr ⟨by linarith, by linarith⟩
      exact (min_le_right _ _).trans (by linarith)
    rw [e2, abs_of_nonneg (by linarith), min_eq_right (by linarith), max_eq_right (by linarith)]
    exact ⟨rfl, by ring⟩
  · rw [abs_of_nonneg (by linarith), abs_of_nonneg (by linarith), min_eq_right (by linarith), max_eq_right (by linarith),
      min_eq_right (by linarith), max_eq_left (by linarith)]
    exact ⟨by ring, rfl⟩

section
variable {A : Arith} (h : A.Ok)
include h

theorem quarterR : ∃ g, |g - 1| ≤ 4.7e-16 ∧ A.div A.pi 4 = π / 4 * g := by
  obtain ⟨g1, a1, e1⟩ := piR h
  obtain ⟨g2, a2, e2⟩ := divR h A.pi (show (4 : ℝ) ≠ 0 by norm_num)
  refine ⟨g1 * g2, (near_mul a1 a2 (by norm_num)).trans (by norm_num), ?_⟩
  rw [e2, e1]; ring

theorem times_quarterR (k : ℝ) : ∃ g, |g - 1| ≤ 7.1e-16 ∧ A.mul k (A.div A.pi 4) = k * (π / 4) * g := by
  obtain ⟨g1, a1, e1⟩ := quarterR h
  obtain ⟨g2, a2, e2⟩ := mulR h k (A.div A.pi 4)
  refine ⟨g1 * g2, (near_mul a1 a2 (by norm_num)).trans (by norm_num), ?_⟩
  rw [e2, e1]; ring

/-- a coordinate along a side of the square -/
theorem along_near {r rf q qf : ℝ} (hr : 0 ≤ r) (hrf : ∃ g, |g - 1| ≤ 7e-16 ∧ rf = r * g) (hq : |q| ≤ 0.8)
    (hqf : |qf - q| ≤ 5e-15) : |A.div (A.mul qf rf) (A.div A.pi 4) - r * (4 * q / π)| ≤ 1.2e-14 * r := by
  have hp := pi_gt_d2
  have hp0 := pi_pos
  obtain ⟨gr, ar, er⟩ := hrf
  obtain ⟨g1, a1, e1⟩ := mulR h qf rf
  obtain ⟨g2, a2, e2⟩ := quarterR h
  have p2 := near_pos a2 (by norm_num)
  have hne : A.div A.pi 4 ≠ 0 := by rw [e2]; positivity
  obtain ⟨g3, a3, e3⟩ := divR h (A.mul qf rf) hne
  have n1 := near_mul (near_mul (near_mul ar a1 (by norm_num)) (near_inv a2 (by norm_num)) (by norm_num)) a3 (by norm_num)
  set G := gr * g1 * (1 / g2) * g3 with hG
  have hGn : |G - 1| ≤ 1.7e-15 := n1.trans (by norm_num)
  have e : A.div (A.mul qf rf) (A.div A.pi 4) = r * (4 / π) * (qf * G) := by
    rw [e3, e1, e2, er, hG]; field_simp
  rw [e, show r * (4 / π) * (qf * G) - r * (4 * q / π) = r * (4 / π * (qf * G - q)) by ring, abs_mul, abs_of_nonneg hr,
    mul_comm (1.2e-14) r]
  refine mul_le_mul_of_nonneg_left ?_ hr
  rw [abs_mul, abs_of_pos (by positivity)]
  have h4 : 4 / π ≤ 1.28 := by rw [div_le_iff₀ hp0]; linarith
  have h5 : |qf * G - q| ≤ 8e-15 := by
    have e5 : qf * G - q = (qf - q) + (qf - q) * (G - 1) + q * (G - 1) := by ring
    have b1 := abs_mul_le hqf hGn
    have b2 := abs_mul_le hq hGn
    have := abs_add_three (qf - q) ((qf - q) * (G - 1)) (q * (G - 1))
    rw [e5]
    norm_num at *
    linarith
  calc 4 / π * |qf * G - q| ≤ 1.28 * 8e-15 := mul_le_mul h4 h5 (abs_nonneg _) (by norm_num)
    _ ≤ 1.2e-14 := by norm_num

/-- the angle before and after the wrap -/
theorem wrap_near (x y : ℝ) :
    (A.atan2 y x < -A.div A.pi 4 ∧ arctan2 y x < -(π / 4) + 3.4e-15 ∧ |wrapPhi A x y - (arctan2 y x + 2 * π)| ≤ 9e-15) ∨
    (¬ A.atan2 y x < -A.div A.pi 4 ∧ -(π / 4) - 3.4e-15 ≤ arctan2 y x ∧ |wrapPhi A x y - arctan2 y x| ≤ 4e-15) := by
  have hp := pi_gt_d2
  have hp' := pi_lt_d2
  obtain ⟨t0, t1⟩ := arctan2_mem y x
  set t := arctan2 y x with ht
  have tb : |t| ≤ 3.15 := abs_le.mpr ⟨by linarith, by linarith⟩
  obtain ⟨g1, a1, e1⟩ := atanR h y x
  rw [← ht] at e1
  have d1 : |A.atan2 y x - t| ≤ 2.9e-15 := by
    rw [e1, show t * g1 - t = t * (g1 - 1) by ring]
    exact (abs_mul_le tb a1).trans (by norm_num)
  obtain ⟨g2, a2, e2⟩ := quarterR h
  have d2 : |A.div A.pi 4 - π / 4| ≤ 4e-16 := by
    rw [e2, show π / 4 * g2 - π / 4 = π / 4 * (g2 - 1) by ring]
    exact (abs_mul_le (s := 0.79) (by rw [abs_of_pos (by linarith)]; linarith) a2).trans (by norm_num)
  obtain ⟨l1, u1⟩ := abs_le.mp d1
  obtain ⟨l2, u2⟩ := abs_le.mp d2
  by_cases hc : A.atan2 y x < -A.div A.pi 4
  · left
    refine ⟨hc, by norm_num at *; linarith, ?_⟩
    unfold wrapPhi
    rw [if_pos hc]
    obtain ⟨gp, ap, ep⟩ := piR h
    obtain ⟨gm, am, em⟩ := mulR h 2 A.pi
    obtain ⟨ga, aa, ea⟩ := addR h (A.atan2 y x) (A.mul 2 A.pi)
    have d3 : |A.mul 2 A.pi - 2 * π| ≤ 2.98e-15 := by
      rw [em, ep, show 2 * (π * gp) * gm - 2 * π = 2 * π * (gp * gm - 1) by ring]
      exact (abs_mul_le (s := 6.3) (by rw [abs_of_pos (by linarith)]; linarith)
        (near_mul ap am (by norm_num))).trans (by norm_num)
    have d4 : |A.atan2 y x + A.mul 2 A.pi - (t + 2 * π)| ≤ 5.88e-15 := by
      have := abs_add_le (A.atan2 y x - t) (A.mul 2 A.pi - 2 * π)
      rw [show A.atan2 y x + A.mul 2 A.pi - (t + 2 * π) = (A.atan2 y x - t) + (A.mul 2 A.pi - 2 * π) by ring]
      norm_num at *
      linarith
    set S := A.atan2 y x + A.mul 2 A.pi with hS
    have hSb : |S| ≤ 9.5 := by
      obtain ⟨l4, u4⟩ := abs_le.mp d4
      rw [abs_le]
      constructor <;> norm_num at * <;> linarith
    have d5 := abs_mul_le hSb aa
    rw [ea, show S * ga - (t + 2 * π) = S * (ga - 1) + (S - (t + 2 * π)) by ring]
    have := abs_add_le (S * (ga - 1)) (S - (t + 2 * π))
    norm_num at *
    linarith
  · right
    refine ⟨hc, by norm_num at *; linarith, ?_⟩
    unfold wrapPhi
    rw [if_neg hc]
    obtain ⟨ga, aa, ea⟩ := addR h (A.atan2 y x) 0
    have hSb : |A.atan2 y x| ≤ 3.2 := by
      rw [abs_le]
      constructor <;> norm_num at * <;> linarith
    have d5 := abs_mul_le hSb aa
    rw [ea, add_zero, show A.atan2 y x * ga - t = A.atan2 y x * (ga - 1) + (A.atan2 y x - t) by ring]
    have := abs_add_le (A.atan2 y x * (ga - 1)) (A.atan2 y x - t)
    norm_num at *
    linarith

/-- the place on the boundary of the square is right up to rounding, also where the angle jumps -/
theorem place_near (x y : ℝ) :
    (-1 - 2e-14 ≤ 4 * wrapPhi A x y / π ∧ 4 * wrapPhi A x y / π ≤ 7 + 2e-14) ∧
    ∀ f : ℝ → ℝ, (∀ s t, |f s - f t| ≤ |s - t|) → f (-1) = f 7 →
      |f (4 * wrapPhi A x y / π) - f (4 * Geo.wrapPhi x y / π)| ≤ 2.5e-14 := by
  have hp := pi_gt_d2
  have hp' := pi_lt_d2
  have hp0 := pi_pos
  obtain ⟨t0, t1⟩ := arctan2_mem y x
  have sc : ∀ z w e : ℝ, |z - w| ≤ e → |4 * z / π - 4 * w / π| ≤ 1.28 * e := fun z w e hz => by
    rw [show 4 * z / π - 4 * w / π = 4 / π * (z - w) by ring, abs_mul, abs_of_pos (by positivity)]
    refine mul_le_mul ?_ hz (abs_nonneg _) (by norm_num)
    rw [div_le_iff₀ hp0]; linarith
  have s7 : 4 * (7 * (π / 4)) / π = 7 := by field_simp
  have s1 : 4 * (-(π / 4)) / π = -1 := by field_simp
  unfold Geo.wrapPhi
  rcases wrap_near h x y with ⟨-, c1, c2⟩ | ⟨-, c1, c2⟩
  · obtain ⟨l2, u2⟩ := abs_le.mp c2
    refine ⟨⟨?_, ?_⟩, fun f hf he => ?_⟩
    · rw [le_div_iff₀ hp0]; norm_num at *; linarith
    · have : wrapPhi A x y - 7 * (π / 4) ≤ 1.24e-14 := by norm_num at *; linarith
      rw [div_le_iff₀ hp0]; norm_num at *; linarith
    · by_cases hw : arctan2 y x < -(π / 4)
      · rw [if_pos hw]
        refine (hf _ _).trans ((sc _ _ _ c2).trans (by norm_num))
      · rw [if_neg hw, add_zero]
        push Not at hw
        have b1 : |wrapPhi A x y - 7 * (π / 4)| ≤ 1.25e-14 := by
          rw [abs_le]; constructor <;> norm_num at * <;> linarith
        have b2 : |-(π / 4) - arctan2 y x| ≤ 3.4e-15 := by
          rw [abs_le]; constructor <;> norm_num at * <;> linarith
        have k1 := (hf _ _).trans (sc _ _ _ b1)
        have k2 := (hf _ _).trans (sc _ _ _ b2)
        rw [s7] at k1
        rw [s1, he] at k2
        have := abs_sub_le (f (4 * wrapPhi A x y / π)) (f 7) (f (4 * arctan2 y x / π))
        norm_num at *
        linarith
  · obtain ⟨l2, u2⟩ := abs_le.mp c2
    refine ⟨⟨?_, ?_⟩, fun f hf he => ?_⟩
    · have : -7.5e-15 ≤ wrapPhi A x y + π / 4 := by norm_num at *; linarith
      rw [le_div_iff₀ hp0]; norm_num at *; linarith
    · rw [div_le_iff₀ hp0]; norm_num at *; linarith
    · by_cases hw : arctan2 y x < -(π / 4)
      · rw [if_pos hw]
        have b1 : |wrapPhi A x y - -(π / 4)| ≤ 7.5e-15 := by
          rw [abs_le]; constructor <;> norm_num at * <;> linarith
        have b2 : |7 * (π / 4) - (arctan2 y x + 2 * π)| ≤ 3.4e-15 := by
          rw [abs_le]; constructor <;> norm_num at * <;> linarith
        have k1 := (hf _ _).trans (sc _ _ _ b1)
        have k2 := (hf _ _).trans (sc _ _ _ b2)
        rw [s1, he] at k1
        rw [s7] at k2
        have := abs_sub_le (f (4 * wrapPhi A x y / π)) (f 7) (f (4 * (arctan2 y x + 2 * π) / π))
        norm_num at *
        linarith
      · rw [if_neg hw, add_zero]
        refine (hf _ _).trans ((sc _ _ _ c2).trans (by norm_num))

set_option maxHeartbeats 1000000 in
/-- the pieces as computed follow the boundary -/
theorem wedge_near {r rf : ℝ} (hr : 0 ≤ r) (hrf : ∃ g, |g - 1| ≤ 7e-16 ∧ rf = r * g) {phi : ℝ}
    (h0 : -1 - 2e-14 ≤ 4 * phi / π) (h1 : 4 * phi / π ≤ 7 + 2e-14) :
    |(wedge A rf phi).1 - r * sideA (4 * phi / π)| ≤ 5.3e-14 * r ∧ |(wedge A rf phi).2 - r * sideB (4 * phi / π)| ≤ 5.3e-14 * r := by
  have hp := pi_gt_d2
  have hp' := pi_lt_d2
  have hp0 := pi_pos
  obtain ⟨s, hs⟩ : ∃ s, s = 4 * phi / π := ⟨_, rfl⟩
  have ephi : phi = s * (π / 4) := by rw [hs]; field_simp
  rw [← hs] at h0 h1 ⊢
  obtain ⟨g1, a1, e1⟩ := quarterR h
  obtain ⟨g3, a3, e3⟩ := times_quarterR h 3
  obtain ⟨g5, a5, e5⟩ := times_quarterR h 5
  obtain ⟨l1, u1⟩ := abs_le.mp a1
  obtain ⟨l3, u3⟩ := abs_le.mp a3
  obtain ⟨l5, u5⟩ := abs_le.mp a5
  have hrr : |rf - r| ≤ 7e-16 * r := by
    obtain ⟨g, ag, eg⟩ := hrf
    rw [eg, show r * g - r = r * (g - 1) by ring, abs_mul, abs_of_nonneg hr, mul_comm]
    exact mul_le_mul_of_nonneg_right ag hr
  -- from a bound on the side to a bound on the coordinate
  have join : ∀ (c F G : ℝ), |c - r * F| ≤ 1.2e-14 * r → |G - F| ≤ 2 * 2e-14 → |c - r * G| ≤ 5.3e-14 * r := by
    intro c F G hc hG
    have e : c - r * G = (c - r * F) + r * (F - G) := by ring
    have b : |r * (F - G)| ≤ 4e-14 * r := by
      rw [abs_mul, abs_of_nonneg hr, abs_sub_comm, mul_comm]
      exact mul_le_mul_of_nonneg_right (hG.trans (by norm_num)) hr
    have := abs_add_le (c - r * F) (r * (F - G))
    rw [e]
    norm_num at *
    linarith
  have one : |rf - r * 1| ≤ 1.2e-14 * r := by rw [mul_one]; norm_num at *; linarith
  have mone : |-rf - r * -1| ≤ 1.2e-14 * r := by
    rw [show -rf - r * -1 = -(rf - r) by ring, abs_neg]; norm_num at *; linarith
  have along : ∀ {q qf : ℝ}, |q| ≤ 0.8 → |qf - q| ≤ 5e-15 →
      |A.div (A.mul qf rf) (A.div A.pi 4) - r * (4 * q / π)| ≤ 1.2e-14 * r := along_near h hr hrf
  have lA := sideA_lip
  have lB := sideB_lip
  have hsub : ∀ c cf : ℝ, |cf - c| ≤ 4e-15 → |phi - c| ≤ 0.8 → |A.sub phi cf - (phi - c)| ≤ 5e-15 := by
    intro c cf hc hd
    obtain ⟨g, ag, eg⟩ := subR h phi cf
    have b : |phi - cf| ≤ 0.81 := by
      have := abs_sub_le phi c cf
      rw [abs_sub_comm c cf] at this
      norm_num at *
      linarith
    have b2 := abs_mul_le b ag
    rw [eg, show (phi - cf) * g - (phi - c) = (phi - cf) * (g - 1) - (cf - c) by ring]
    have := abs_sub ((phi - cf) * (g - 1)) (cf - c)
    norm_num at *
    linarith
  have within : ∀ k : ℝ, -1.001 ≤ s - k → s - k ≤ 1.001 → |phi - k * (π / 4)| ≤ 0.8 := fun k a b => by
    rw [ephi, show s * (π / 4) - k * (π / 4) = (s - k) * (π / 4) by ring]
    refine (abs_mul_le (s := 1.001) (t := 0.79) (abs_le.mpr ⟨a, b⟩) ?_).trans (by norm_num)
    rw [abs_of_pos (by positivity)]; linarith
  unfold wedge
  by_cases c1 : phi < A.div A.pi 4
  · rw [if_pos c1]
    have hu : s ≤ 1 + 2e-14 := by
      rw [e1, ephi] at c1
      have : s * (π / 4) < g1 * (π / 4) := by linarith
      have := lt_of_mul_lt_mul_right this (by positivity)
      norm_num at *
      linarith
    have vA := near_sector (g := fun _ => 1) lA (fun s t => lip_const 1 s t) (show (-1 : ℝ) ≤ 1 by norm_num)
      (fun s a b => ((side_values s).1 a b).1) h0 hu (by norm_num)
    have vB := near_sector (g := fun s => s) lB (fun s t => le_rfl) (show (-1 : ℝ) ≤ 1 by norm_num)
      (fun s a b => ((side_values s).1 a b).2) h0 hu (by norm_num)
    refine ⟨join _ 1 _ one vA, join _ s _ ?_ vB⟩
    have hb : |phi| ≤ 0.8 := by
      have := within 0 (by norm_num at *; linarith) (by norm_num at *; linarith)
      rwa [zero_mul, sub_zero] at this
    have := along (q := phi) (qf := phi) hb (by rw [sub_self, abs_zero]; norm_num)
    rwa [← hs] at this
  rw [if_neg c1]
  have hl1 : 1 - 2e-14 ≤ s := by
    rw [e1, ephi] at c1
    push Not at c1
    have : g1 * (π / 4) ≤ s * (π / 4) := by linarith
    have := le_of_mul_le_mul_right this (by positivity)
    norm_num at *
    linarith
  by_cases c2 : phi < A.mul 3 (A.div A.pi 4)
  · rw [if_pos c2]
    have hu : s ≤ 3 + 2e-14 := by
      rw [e3, ephi] at c2
      have : s * (π / 4) < 3 * g3 * (π / 4) := by linarith
      have := lt_of_mul_lt_mul_right this (by positivity)
      norm_num at *
      linarith
    have vA := near_sector (g := fun s => 2 - s) lA (fun s t => by rw [show (2 - s) - (2 - t) = -(s - t) by ring, abs_neg])
      (show (1 : ℝ) ≤ 3 by norm_num) (fun s a b => ((side_values s).2.1 a b).1) hl1 hu (by norm_num)
    have vB := near_sector (g := fun _ => 1) lB (fun s t => lip_const 1 s t) (show (1 : ℝ) ≤ 3 by norm_num)
      (fun s a b => ((side_values s).2.1 a b).2) hl1 hu (by norm_num)
    refine ⟨join _ (2 - s) _ ?_ vA, join _ 1 _ one vB⟩
    obtain ⟨gp, ap, ep⟩ := piR h
    obtain ⟨gd, ad, ed⟩ := divR h A.pi (show (2 : ℝ) ≠ 0 by norm_num)
    have hc : |A.div A.pi 2 - 2 * (π / 4)| ≤ 4e-15 := by
      rw [ed, ep, show π * gp / 2 * gd - 2 * (π / 4) = π / 2 * (gp * gd - 1) by ring]
      exact (abs_mul_le (s := 1.6) (by rw [abs_of_pos (by positivity)]; linarith) (near_mul ap ad (by norm_num))).trans
        (by norm_num)
    have hw := within 2 (by norm_num at *; linarith) (by norm_num at *; linarith)
    have hq := hsub _ _ hc hw
    have := along (q := -(phi - 2 * (π / 4))) (qf := -A.sub phi (A.div A.pi 2)) (by rw [abs_neg]; exact hw)
      (by rw [show -A.sub phi (A.div A.pi 2) - -(phi - 2 * (π / 4)) = -(A.sub phi (A.div A.pi 2) - (phi - 2 * (π / 4))) by ring,
        abs_neg]; exact hq)
    rw [show 4 * -(phi - 2 * (π / 4)) / π = 2 - s by rw [hs]; field_simp; ring] at this
    exact this
  rw [if_neg c2]
  have hl3 : 3 - 2e-14 ≤ s := by
    rw [e3, ephi] at c2
    push Not at c2
    have : 3 * g3 * (π / 4) ≤ s * (π / 4) := by linarith
    have := le_of_mul_le_mul_right this (by positivity)
    norm_num at *
    linarith
  by_cases c3 : phi < A.mul 5 (A.div A.pi 4)
  · rw [if_pos c3]
    have hu : s ≤ 5 + 2e-14 := by
      rw [e5, ephi] at c3
      have : s * (π / 4) < 5 * g5 * (π / 4) := by linarith
      have := lt_of_mul_lt_mul_right this (by positivity)
      norm_num at *
      linarith
    have vA := near_sector (g := fun _ => -1) lA (fun s t => lip_const (-1) s t) (show (3 : ℝ) ≤ 5 by norm_num)
      (fun s a b => ((side_values s).2.2.1 a b).1) hl3 hu (by norm_num)
    have vB := near_sector (g := fun s => 4 - s) lB (fun s t => by rw [show (4 - s) - (4 - t) = -(s - t) by ring, abs_neg])
      (show (3 : ℝ) ≤ 5 by norm_num) (fun s a b => ((side_values s).2.2.1 a b).2) hl3 hu (by norm_num)
    refine ⟨join _ (-1) _ mone vA, join _ (4 - s) _ ?_ vB⟩
    obtain ⟨gp, ap, ep⟩ := piR h
    have hc : |A.pi - 4 * (π / 4)| ≤ 4e-15 := by
      rw [ep, show π * gp - 4 * (π / 4) = π * (gp - 1) by ring]
      exact (abs_mul_le (s := 3.15) (by rw [abs_of_pos (by positivity)]; linarith) ap).trans (by norm_num)
    have hw := within 4 (by norm_num at *; linarith) (by norm_num at *; linarith)
    have hq := hsub _ _ hc hw
    have := along (q := -(phi - 4 * (π / 4))) (qf := -A.sub phi A.pi) (by rw [abs_neg]; exact hw)
      (by rw [show -A.sub phi A.pi - -(phi - 4 * (π / 4)) = -(A.sub phi A.pi - (phi - 4 * (π / 4))) by ring,
        abs_neg]; exact hq)
    rw [show 4 * -(phi - 4 * (π / 4)) / π = 4 - s by rw [hs]; field_simp; ring] at this
    exact this
  rw [if_neg c3]
  have hl5 : 5 - 2e-14 ≤ s := by
    rw [e5, ephi] at c3
    push Not at c3
    have : 5 * g5 * (π / 4) ≤ s * (π / 4) := by linarith
    have := le_of_mul_le_mul_right this (by positivity)
    norm_num at *
    linarith
  have vA := near_sector (g := fun s => s - 6) lA (fun s t => by rw [show (s - 6) - (t - 6) = s - t by ring])
    (show (5 : ℝ) ≤ 7 by norm_num) (fun s a b => ((side_values s).2.2.2 a b).1) hl5 h1 (by norm_num)
  have vB := near_sector (g := fun _ => -1) lB (fun s t => lip_const (-1) s t) (show (5 : ℝ) ≤ 7 by norm_num)
    (fun s a b => ((side_values s).2.2.2 a b).2) hl5 h1 (by norm_num)
  refine ⟨join _ (s - 6) _ ?_ vA, join _ (-1) _ mone vB⟩
  obtain ⟨gp, ap, ep⟩ := piR h
  obtain ⟨gm, am, em⟩ := mulR h 3 A.pi
  obtain ⟨gd, ad, ed⟩ := divR h (A.mul 3 A.pi) (show (2 : ℝ) ≠ 0 by norm_num)
  have hc : |A.div (A.mul 3 A.pi) 2 - 6 * (π / 4)| ≤ 4e-15 := by
    rw [ed, em, ep, show 3 * (π * gp) * gm / 2 * gd - 6 * (π / 4) = 3 * π / 2 * (gp * gm * gd - 1) by ring]
    exact (abs_mul_le (s := 4.75) (by rw [abs_of_pos (by positivity)]; linarith) (three_near ap am ad)).trans (by norm_num)
  have hw := within 6 (by norm_num at *; linarith) (by norm_num at *; linarith)
  have hq := hsub _ _ hc hw
  have := along hw hq
  rw [show 4 * (phi - 6 * (π / 4)) / π = s - 6 by rw [hs]; field_simp] at this
  exact this

/-- The square coordinates of a point of the disk are computed up to rounding. -/
theorem disk2sq_near (x y : ℝ) :
    |(disk2sq A x y).1 - (Geo.disk2sq x y).1| ≤ 8e-14 * √(x ^ 2 + y ^ 2) ∧
    |(disk2sq A x y).2 - (Geo.disk2sq x y).2| ≤ 8e-14 * √(x ^ 2 + y ^ 2) := by
  obtain ⟨⟨p1, p2⟩, pf⟩ := place_near h x y
  have hr := sqrt_nonneg (x ^ 2 + y ^ 2)
  obtain ⟨w1, w2⟩ := wedge_near h hr (hypR h x y) p1 p2
  obtain ⟨e1, e2, e3, e4⟩ := side_ends
  have k1 := pf sideA sideA_lip (by rw [e1, e2])
  have k2 := pf sideB sideB_lip (by rw [e3, e4])
  obtain ⟨t0, t1⟩ := arctan2_mem y x
  have ex : Geo.disk2sq x y = (√(x ^ 2 + y ^ 2) * sideA (4 * Geo.wrapPhi x y / π), √(x ^ 2 + y ^ 2) * sideB (4 * Geo.wrapPhi x y / π)) := by
    unfold Geo.disk2sq
    exact wedge_side _ (wrap_mem t0 t1).1 (wrap_mem t0 t1).2
  rw [ex]
  unfold disk2sq
  set r := √(x ^ 2 + y ^ 2)
  have fin : ∀ c F G : ℝ, |c - r * F| ≤ 5.3e-14 * r → |F - G| ≤ 2.5e-14 → |c - r * G| ≤ 8e-14 * r := by
    intro c F G hc hG
    have b : |r * (F - G)| ≤ 2.5e-14 * r := by
      rw [abs_mul, abs_of_nonneg hr, mul_comm]
      exact mul_le_mul_of_nonneg_right hG hr
    have := abs_add_le (c - r * F) (r * (F - G))
    rw [show c - r * G = (c - r * F) + r * (F - G) by ring]
    norm_num at *
    linarith
  exact ⟨fin _ _ _ w1 k1, fin _ _ _ w2 k2⟩

end

/-! ### From the square to the disk -/

theorem sqrt_near {Q S s : ℝ} (hQ : 0 ≤ Q) (hS : ∃ g, |g - 1| ≤ s ∧ S = Q * g) (hs : s ≤ 1e-3) :
    ∃ g, |g - 1| ≤ s ∧ √S = √Q * g := by
  obtain ⟨g, ag, eg⟩ := hS
  have p := near_pos ag hs
  obtain ⟨l, u⟩ := abs_le.mp ag
  refine ⟨√g, ?_, by rw [eg, sqrt_mul hQ]⟩
  have h0 := sqrt_nonneg g
  have h2 := sq_sqrt p.le
  rw [abs_le]
  constructor
  · by_contra hc
    push Not at hc
    nlinarith
  · by_contra hc
    push Not at hc
    nlinarith

section
variable {A : Arith} (h : A.Ok)
include h

/-- the comparison of the squares as computed -/
theorem cond_near {a b : ℝ} (hc : A.mul b b < A.mul a a) : b ^ 2 * (1 - 5e-16) < a ^ 2 ∧ a ≠ 0 := by
  obtain ⟨g1, a1, e1⟩ := mulR h a a
  obtain ⟨g2, a2, e2⟩ := mulR h b b
  obtain ⟨l1, u1⟩ := abs_le.mp a1
  obtain ⟨l2, u2⟩ := abs_le.mp a2
  rw [e1, e2] at hc
  have ha : a ≠ 0 := by
    rintro rfl
    nlinarith [mul_self_nonneg b, near_pos a2 (by norm_num)]
  refine ⟨?_, ha⟩
  have h1 : a * a * g1 ≤ a ^ 2 * (1 + 2.3e-16) := by
    rw [← sq]; exact mul_le_mul_of_nonneg_left (by linarith) (sq_nonneg a)
  have h2 : b ^ 2 * (1 - 2.3e-16) ≤ b * b * g2 := by
    rw [← sq]; exact mul_le_mul_of_nonneg_left (by linarith) (sq_nonneg b)
  have h3 : b ^ 2 * (1 - 2.3e-16) < a ^ 2 * (1 + 2.3e-16) := by linarith
  have h4 : b ^ 2 * (1 - 5e-16) * (1 + 2.3e-16) ≤ b ^ 2 * (1 - 2.3e-16) := by
    rw [mul_assoc]; exact mul_le_mul_of_nonneg_left (by norm_num) (sq_nonneg b)
  have h5 : b ^ 2 * (1 - 5e-16) * (1 + 2.3e-16) < a ^ 2 * (1 + 2.3e-16) := lt_of_le_of_lt h4 h3
  exact lt_of_mul_lt_mul_right h5 (by norm_num)

theorem cond_near' {a b : ℝ} (hc : ¬ A.mul b b < A.mul a a) : a ^ 2 * (1 - 5e-16) ≤ b ^ 2 := by
  obtain ⟨g1, a1, e1⟩ := mulR h a a
  obtain ⟨g2, a2, e2⟩ := mulR h b b
  obtain ⟨l1, u1⟩ := abs_le.mp a1
  obtain ⟨l2, u2⟩ := abs_le.mp a2
  rw [e1, e2] at hc
  push Not at hc
  have h1 : a ^ 2 * (1 - 2.3e-16) ≤ a * a * g1 := by
    rw [← sq]; exact mul_le_mul_of_nonneg_left (by linarith) (sq_nonneg a)
  have h2 : b * b * g2 ≤ b ^ 2 * (1 + 2.3e-16) := by
    rw [← sq]; exact mul_le_mul_of_nonneg_left (by linarith) (sq_nonneg b)
  have h3 : a ^ 2 * (1 - 2.3e-16) ≤ b ^ 2 * (1 + 2.3e-16) := by linarith
  have h4 : a ^ 2 * (1 - 5e-16) * (1 + 2.3e-16) ≤ a ^ 2 * (1 - 2.3e-16) := by
    rw [mul_assoc]; exact mul_le_mul_of_nonneg_left (by norm_num) (sq_nonneg a)
  exact le_of_mul_le_mul_right (h4.trans h3) (by norm_num)

/-- quotient of a coordinate and twice the other one -/
theorem halfR (b : ℝ) {a : ℝ} (ha : a ≠ 0) : ∃ g, |g - 1| ≤ 4.8e-16 ∧ A.div b (A.mul 2 a) = b / (2 * a) * g := by
  obtain ⟨g1, a1, e1⟩ := mulR h 2 a
  have p1 := near_pos a1 (by norm_num)
  have hne : A.mul 2 a ≠ 0 := by rw [e1]; exact mul_ne_zero (mul_ne_zero two_ne_zero ha) p1.ne'
  obtain ⟨g2, a2, e2⟩ := divR h b hne
  refine ⟨1 / g1 * g2, (near_mul (near_inv a1 (by norm_num)) a2 (by norm_num)).trans (by norm_num), ?_⟩
  rw [e2, e1]; field_simp

theorem half_pi_near {q qf e : ℝ} (hq : |q| ≤ 1.51) (hqf : |qf - q| ≤ e) (he : e ≤ 1e-3) :
    |A.div (A.mul qf A.pi) 2 - q * π / 2| ≤ 1.8e-15 + 1.6 * e := by
  have hp' := pi_lt_d2
  have hp0 := pi_pos
  obtain ⟨gp, ap, ep⟩ := piR h
  obtain ⟨gm, am, em⟩ := mulR h qf A.pi
  obtain ⟨gd, ad, ed⟩ := divR h (A.mul qf A.pi) (show (2 : ℝ) ≠ 0 by norm_num)
  have hG := three_near ap am ad
  set G := gp * gm * gd with hGd
  have e0 : 0 ≤ e := (abs_nonneg _).trans hqf
  have e1 : A.div (A.mul qf A.pi) 2 - q * π / 2 = π / 2 * (q * (G - 1) + ((qf - q) + (qf - q) * (G - 1))) := by
    rw [ed, em, ep, hGd]; ring
  have b1 := abs_mul_le hq hG
  have b2 := abs_mul_le hqf hG
  have b3 := abs_add_le (q * (G - 1)) ((qf - q) + (qf - q) * (G - 1))
  have b4 := abs_add_le (qf - q) ((qf - q) * (G - 1))
  have b5 : |q * (G - 1) + ((qf - q) + (qf - q) * (G - 1))| ≤ 1.1e-15 + 1.01 * e := by
    norm_num at *
    linarith
  rw [e1]
  refine (abs_mul_le (s := 1.576) (by rw [abs_of_pos (by positivity)]; linarith) b5).trans ?_
  norm_num
  linarith

/-- The radius and the angle as computed are those of a point of the square within rounding. -/
theorem polar_near (a b : ℝ) :
    ∃ a' b', |a' - a| ≤ 1e-15 * |a| ∧ |b' - b| ≤ 1e-15 * |b| ∧ sqR A a b = Geo.sqR a' b' ∧ |sqPhi A a b - Geo.sqPhi a' b'| ≤ 5e-15 := by
  have shrinkable : ∀ x : ℝ, |x * (1 - 1e-15) - x| ≤ 1e-15 * |x| := fun x => by
    rw [show x * (1 - 1e-15) - x = (-1e-15) * x by ring, abs_mul, abs_neg, abs_of_pos (by norm_num)]
  have sq_lt : ∀ x y : ℝ, x ^ 2 * (1 - 5e-16) < y ^ 2 ∨ (x ^ 2 * (1 - 5e-16) ≤ y ^ 2 ∧ x ≠ 0) →
      (x * (1 - 1e-15)) * (x * (1 - 1e-15)) < y * y := fun x y hxy => by
    have e : (x * (1 - 1e-15)) * (x * (1 - 1e-15)) = x ^ 2 * (1 - 1e-15) ^ 2 := by ring
    rw [e, ← sq y]
    rcases hxy with g | ⟨g, hx⟩
    · exact lt_of_le_of_lt (mul_le_mul_of_nonneg_left (by norm_num) (sq_nonneg x)) g
    · exact lt_of_lt_of_le (mul_lt_mul_of_pos_left (by norm_num) (by positivity)) g
  -- the quotient of the smaller and the larger one
  have quot : ∀ x y : ℝ, y ≠ 0 → x ^ 2 * (1 - 5e-16) ≤ y ^ 2 → |x / (2 * y)| ≤ 0.51 := fun x y hy hxy => by
    rw [abs_div, abs_mul, abs_two, div_le_iff₀ (by positivity)]
    rw [← sq_abs x, ← sq_abs y] at hxy
    have hy' := abs_pos.mpr hy
    by_contra hc
    push Not at hc
    have : 1.02 * |y| < |x| := by linarith
    have := mul_self_lt_mul_self (by positivity) this
    nlinarith
  by_cases c1 : A.mul a a > A.mul b b
  · obtain ⟨k1, k2⟩ := cond_near h c1
    have hlt := sq_lt b a (Or.inl k1)
    refine ⟨a, b * (1 - 1e-15), by rw [sub_self, abs_zero]; positivity, shrinkable b, ?_, ?_⟩
    · unfold sqR Geo.sqR
      rw [if_pos c1, if_pos hlt]
    · unfold sqPhi Geo.sqPhi
      rw [if_pos c1, if_pos hlt]
      obtain ⟨g, ag, eg⟩ := halfR h b k2
      have hq := quot b a k2 k1.le
      have hq' : |b * (1 - 1e-15) / (2 * a)| ≤ 1.51 := by
        rw [show b * (1 - 1e-15) / (2 * a) = b / (2 * a) * (1 - 1e-15) by ring]
        refine (abs_mul_le hq (t := 1) ?_).trans (by norm_num)
        norm_num
      have hd : |A.div b (A.mul 2 a) - b * (1 - 1e-15) / (2 * a)| ≤ 1e-15 := by
        rw [eg, show b / (2 * a) * g - b * (1 - 1e-15) / (2 * a) = b / (2 * a) * ((g - 1) + 1e-15) by ring]
        refine (abs_mul_le hq (t := 1.48e-15) ?_).trans (by norm_num)
        have := abs_add_le (g - 1) 1e-15
        rw [abs_of_pos (show (0 : ℝ) < 1e-15 by norm_num)] at this
        norm_num at *
        linarith
      refine (half_pi_near h hq' hd (by norm_num)).trans (by norm_num)
  · have k1 := cond_near' h c1
    by_cases c2 : b = 0
    · have a0 : a = 0 := by
        rw [c2] at k1
        have : a ^ 2 ≤ 0 := by
          have h2 : a ^ 2 * (1 - 5e-16) ≤ 0 * (1 - 5e-16) := by rw [zero_mul]; simpa using k1
          exact le_of_mul_le_mul_right h2 (by norm_num)
        exact pow_eq_zero_iff two_ne_zero |>.mp (le_antisymm this (sq_nonneg a))
      refine ⟨0, 0, by rw [a0]; norm_num, by rw [c2]; norm_num, ?_, ?_⟩
      · unfold sqR Geo.sqR
        rw [if_neg c1, if_pos c2]; simp
      · unfold sqPhi Geo.sqPhi
        rw [if_neg c1, if_pos c2]
        have := half_pi_near h (q := 0) (qf := 0) (e := 0) (by norm_num) (by norm_num) (by norm_num)
        simp only [gt_iff_lt, lt_self_iff_false, if_false, if_true]
        refine this.trans (by norm_num)
    · have hnot : ¬ (a * (1 - 1e-15)) * (a * (1 - 1e-15)) > b * b := by
        rcases eq_or_ne a 0 with rfl | ha0
        · have := mul_self_nonneg b
          simp only [zero_mul]
          linarith
        · have := sq_lt a b (Or.inr ⟨k1, ha0⟩)
          linarith
      refine ⟨a * (1 - 1e-15), b, shrinkable a, by rw [sub_self, abs_zero]; positivity, ?_, ?_⟩
      · unfold sqR Geo.sqR
        rw [if_neg c1, if_neg c2, if_neg hnot]
      · unfold sqPhi Geo.sqPhi
        rw [if_neg c1, if_neg c2, if_neg hnot, if_neg c2]
        obtain ⟨g, ag, eg⟩ := halfR h a c2
        have hq := quot a b c2 k1
        set q := a / (2 * b) with hqd
        have eq' : a * (1 - 1e-15) / (2 * b) = q * (1 - 1e-15) := by rw [hqd]; ring
        obtain ⟨gs, as, es⟩ := subR h 1 (A.div a (A.mul 2 b))
        have hqg := abs_mul_le hq ag
        have hq1 : |q * (1e-15)| ≤ 0.51 * 1e-15 := abs_mul_le hq (by norm_num)
        have hb1 : |1 - q * (1 - 1e-15)| ≤ 1.51 := by
          have t1 := abs_mul_le hq (t := 1) (b := 1 - 1e-15) (by norm_num)
          have := abs_sub 1 (q * (1 - 1e-15))
          norm_num at *
          linarith
        have hd : |A.sub 1 (A.div a (A.mul 2 b)) - (1 - a * (1 - 1e-15) / (2 * b))| ≤ 1.2e-15 := by
          have hm : |1 - q * g| ≤ 1.52 := by
            have e : 1 - q * g = 1 - q - q * (g - 1) := by ring
            have t1 := abs_sub (1 - q) (q * (g - 1))
            have t2 := abs_sub 1 q
            rw [e]
            norm_num at *
            linarith
          have hm2 := abs_mul_le hm as
          rw [es, eg, eq', show (1 - q * g) * gs - (1 - q * (1 - 1e-15)) = (1 - q * g) * (gs - 1) + (-(q * (g - 1)) + -(q * 1e-15)) by ring]
          have t1 := abs_add_le ((1 - q * g) * (gs - 1)) (-(q * (g - 1)) + -(q * 1e-15))
          have t2 := abs_add_le (-(q * (g - 1))) (-(q * 1e-15))
          rw [abs_neg, abs_neg] at t2
          norm_num at *
          linarith
        rw [← eq'] at hb1
        refine (half_pi_near h hb1 hd (by norm_num)).trans (by norm_num)

/-- the scale between the disk and the sphere -/
theorem liftR {r : ℝ} (hr : |r| ≤ 1.01) :
    ∃ g, |g - 1| ≤ 1e-15 ∧ sphterm A r = r * √(2 - r ^ 2) * g := by
  have hr2 : r ^ 2 ≤ 1.0201 := by
    rw [← sq_abs]; exact (pow_le_pow_left₀ (abs_nonneg r) hr 2).trans (by norm_num)
  obtain ⟨g1, a1, e1⟩ := mulR h r r
  obtain ⟨g2, a2, e2⟩ := subR h 2 (A.mul r r)
  have hQ : 0 ≤ 2 - r ^ 2 := by linarith
  have hmul : |A.mul r r - r ^ 2| ≤ 2.35e-16 := by
    rw [e1, show r * r * g1 - r ^ 2 = r ^ 2 * (g1 - 1) by ring]
    refine (abs_mul_le (s := 1.0201) (by rw [abs_of_nonneg (sq_nonneg r)]; exact hr2) a1).trans (by norm_num)
  have hin : ∃ g, |g - 1| ≤ 2.4e-16 ∧ 2 - A.mul r r = (2 - r ^ 2) * g := by
    refine rel (by norm_num) ?_
    rw [abs_of_nonneg hQ, show 2 - A.mul r r - (2 - r ^ 2) = -(A.mul r r - r ^ 2) by ring, abs_neg]
    linarith
  obtain ⟨g3, a3, e3⟩ := hin
  have p2 := near_pos a2 (by norm_num)
  have p3 := near_pos a3 (by norm_num)
  have hS0 : 0 ≤ A.sub 2 (A.mul r r) := by rw [e2, e3]; positivity
  obtain ⟨g4, a4, e4⟩ := sqrtR h hS0
  obtain ⟨g5, a5, e5⟩ := sqrt_near (S := A.sub 2 (A.mul r r)) hQ ⟨g3 * g2, near_mul a3 a2 (by norm_num), by rw [e2, e3]; ring⟩ (by norm_num)
  obtain ⟨g6, a6, e6⟩ := mulR h r (A.sqrt (A.sub 2 (A.mul r r)))
  refine ⟨g5 * g4 * g6, (near_mul (near_mul a5 a4 (by norm_num)) a6 (by norm_num)).trans (by norm_num), ?_⟩
  unfold sphterm
  rw [e6, e4, e5]; ring

/-- the same scale from the height -/
theorem unliftR {r n z : ℝ} (hr : |r| ≤ 1) (hz : |zsign z * z - (1 - r ^ 2)| ≤ 8e-16) :
    ∃ g, |g - 1| ≤ 2.1e-15 ∧ unlift A z = √(2 - r ^ 2) * g ∧ 0 < unlift A z := by
  have hr2 : r ^ 2 ≤ 1 := by rw [← sq_abs]; nlinarith [abs_nonneg r]
  have hr0 := sq_nonneg r
  obtain ⟨g1, a1, e1⟩ := mulR h (zsign z) z
  obtain ⟨g2, a2, e2⟩ := subR h 1 (A.mul (zsign z) z)
  obtain ⟨g3, a3, e3⟩ := subR h 2 (A.sub 1 (A.mul (zsign z) z))
  have hQ : 0 < 2 - r ^ 2 := by linarith
  set m := zsign z * z with hm
  obtain ⟨lz, uz⟩ := abs_le.mp hz
  have b1 : |m * g1 - m| ≤ 2.31e-16 := by
    rw [show m * g1 - m = m * (g1 - 1) by ring]
    refine (abs_mul_le (s := 1.0001) ?_ a1).trans (by norm_num)
    rw [abs_le]; constructor <;> linarith
  obtain ⟨l1, u1⟩ := abs_le.mp b1
  have b2 : |(1 - m * g1) * (g2 - 1)| ≤ 2.31e-16 := by
    refine (abs_mul_le (s := 1.0001) ?_ a2).trans (by norm_num)
    rw [abs_le]; constructor <;> linarith
  obtain ⟨l2, u2⟩ := abs_le.mp b2
  have hin : ∃ g, |g - 1| ≤ 1.3e-15 ∧ 2 - A.sub 1 (A.mul (zsign z) z) = (2 - r ^ 2) * g := by
    refine rel (by norm_num) ?_
    rw [abs_of_pos hQ, e2, e1, show 2 - (1 - m * g1) * g2 - (2 - r ^ 2) =
      (m - (1 - r ^ 2)) + (m * g1 - m) - (1 - m * g1) * (g2 - 1) by ring]
    rw [abs_le]
    constructor <;> linarith
  obtain ⟨g4, a4, e4⟩ := hin
  have p3 := near_pos a3 (by norm_num)
  have p4 := near_pos a4 (by norm_num)
  have hS0 : 0 ≤ A.sub 2 (A.sub 1 (A.mul (zsign z) z)) := by rw [e3, e4]; positivity
  obtain ⟨g5, a5, e5⟩ := sqrtR h hS0
  obtain ⟨g6, a6, e6⟩ := sqrt_near (S := A.sub 2 (A.sub 1 (A.mul (zsign z) z))) hQ.le ⟨g4 * g3, near_mul a4 a3 (by norm_num), by rw [e3, e4]; ring⟩ (by norm_num)
  have p5 := near_pos a5 (by norm_num)
  have p6 := near_pos a6 (by norm_num)
  have hs := sqrt_pos.mpr hQ
  have e : unlift A z = √(2 - r ^ 2) * (g6 * g5) := by unfold unlift; rw [e5, e6]; ring
  exact ⟨g6 * g5, (near_mul a6 a5 (by norm_num)).trans (by norm_num), e, by rw [e]; positivity⟩

/-- one coordinate on the disk, there and back -/
theorem coordDisk_near {r z c cf t : ℝ} (hr : |r| ≤ 1) (hz : |zsign z * z - (1 - r ^ 2)| ≤ 8e-16) (hc : |cf - c| ≤ 6.2e-15)
    (hc1 : |c| ≤ 1) (ht : ∃ g, |g - 1| ≤ 5e-16 ∧ t = cf * sphterm A r * g) :
    |A.div t (unlift A z) - c * r| ≤ 1.1e-14 := by
  obtain ⟨g1, a1, e1⟩ := liftR h (hr.trans (by norm_num))
  obtain ⟨g2, a2, e2, hp⟩ := unliftR h (n := 0) hr hz
  obtain ⟨g3, a3, e3⟩ := ht
  obtain ⟨g4, a4, e4⟩ := divR h t hp.ne'
  have hr2 : r ^ 2 ≤ 1 := by rw [← sq_abs]; nlinarith [abs_nonneg r]
  have hs : 0 < √(2 - r ^ 2) := sqrt_pos.mpr (by linarith)
  have p2 := near_pos a2 (by norm_num)
  have n1 := near_mul (near_mul (near_mul a1 a3 (by norm_num)) (near_inv a2 (by norm_num)) (by norm_num)) a4 (by norm_num)
  set G := g1 * g3 * (1 / g2) * g4 with hG
  have hGn : |G - 1| ≤ 4e-15 := n1.trans (by norm_num)
  have e : A.div t (unlift A z) = cf * r * G := by
    rw [e4, e3, e1, e2, hG]; field_simp
  have hcf : |cf| ≤ 1.01 := by
    obtain ⟨l, u⟩ := abs_le.mp hc
    obtain ⟨l', u'⟩ := abs_le.mp hc1
    rw [abs_le]; constructor <;> norm_num at * <;> linarith
  have b1 := abs_mul_le (abs_mul_le hcf hr) hGn
  have b2 := abs_mul_le hc hr
  have := abs_add_le (cf * r * (G - 1)) ((cf - c) * r)
  rw [e, show cf * r * G - c * r = cf * r * (G - 1) + (cf - c) * r by ring]
  norm_num at *
  linarith

/-- **Square to sphere to square** for centred coordinates: the sign of the height is given. -/
theorem sq_round (s n a b : ℝ) (hs : s = 1 ∨ s = -1) (hn : n = 1 ∨ n = -1) (ha : |a| ≤ 1) (hb : |b| ≤ 1)
    (hz : zsign (sq2xyz A s n a b).z = n) :
    |(disk2sq A (A.div (sq2xyz A s n a b).x (unlift A (sq2xyz A s n a b).z))
      (A.div (sq2xyz A s n a b).y (unlift A (sq2xyz A s n a b).z))).1 - s * a| ≤ 1.7e-13 ∧
    |(disk2sq A (A.div (sq2xyz A s n a b).x (unlift A (sq2xyz A s n a b).z))
      (A.div (sq2xyz A s n a b).y (unlift A (sq2xyz A s n a b).z))).2 - b| ≤ 1.7e-13 := by
  obtain ⟨a', b', da, db, er, dphi⟩ := polar_near h a b
  replace da : |a' - a| ≤ 1e-15 := da.trans (mul_le_of_le_one_right (by norm_num) ha)
  replace db : |b' - b| ≤ 1e-15 := db.trans (mul_le_of_le_one_right (by norm_num) hb)
  set r := sqR A a b with hrd
  have hr : |r| ≤ 1 := by
    rw [hrd]; unfold sqR
    split_ifs
    · exact ha
    · norm_num
    · exact hb
  have hr2 : r ^ 2 ≤ 1 := by rw [← sq_abs]; nlinarith [abs_nonneg r]
  set φ := Geo.sqPhi a' b' with hφ
  have hcos : |A.cos (sqPhi A a b) - Real.cos φ| ≤ 6e-15 := by
    have h1 := cosA h (sqPhi A a b)
    have h2 := (abs_cos_sub_le (sqPhi A a b) φ).trans dphi
    have := abs_sub_le (A.cos (sqPhi A a b)) (Real.cos (sqPhi A a b)) (Real.cos φ)
    norm_num at *
    linarith
  have hsin : |A.sin (sqPhi A a b) - Real.sin φ| ≤ 6e-15 := by
    have h1 := sinA h (sqPhi A a b)
    have h2 := (abs_sin_sub_le (sqPhi A a b) φ).trans dphi
    have := abs_sub_le (A.sin (sqPhi A a b)) (Real.sin (sqPhi A a b)) (Real.sin φ)
    norm_num at *
    linarith
  set z := (sq2xyz A s n a b).z with hzd
  have hheight : |zsign z * z - (1 - r ^ 2)| ≤ 8e-16 := by
    rw [hz, hzd]
    unfold sq2xyz
    simp only
    rw [← hrd]
    obtain ⟨g1, a1, e1⟩ := mulR h r r
    obtain ⟨g2, a2, e2⟩ := subR h 1 (A.mul r r)
    obtain ⟨g3, a3, e3⟩ := mulR h n (A.sub 1 (A.mul r r))
    have hn2 : n * n = 1 := by rcases hn with rfl | rfl <;> norm_num
    have hr0 := sq_nonneg r
    have b1 : |r ^ 2 * (g1 - 1)| ≤ 2.31e-16 :=
      (abs_mul_le (s := 1) (by rw [abs_of_nonneg hr0]; exact hr2) a1).trans (by norm_num)
    obtain ⟨l1, u1⟩ := abs_le.mp b1
    have b2 : |(1 - r * r * g1) * (g2 * g3 - 1)| ≤ 4.7e-16 := by
      refine (abs_mul_le (s := 1.0001) ?_ (near_mul a2 a3 (by norm_num))).trans (by norm_num)
      have e : 1 - r * r * g1 = 1 - r ^ 2 - r ^ 2 * (g1 - 1) := by ring
      rw [e, abs_le]; constructor <;> linarith
    have e : n * A.mul n (A.sub 1 (A.mul r r)) - (1 - r ^ 2) = (1 - r * r * g1) * (g2 * g3 - 1) - r ^ 2 * (g1 - 1) := by
      rw [e3, e2, e1]
      linear_combination ((1 - r * r * g1) * g2 * g3) * hn2
    rw [e]
    have := abs_sub ((1 - r * r * g1) * (g2 * g3 - 1)) (r ^ 2 * (g1 - 1))
    norm_num at *
    linarith
  have hs1 : |s| = 1 := by rcases hs with rfl | rfl <;> norm_num
  have hx : |A.div (sq2xyz A s n a b).x (unlift A z) - s * Real.cos φ * r| ≤ 1.1e-14 := by
    obtain ⟨g1, a1, e1⟩ := mulR h s (A.cos (sqPhi A a b))
    obtain ⟨g2, a2, e2⟩ := mulR h (A.mul s (A.cos (sqPhi A a b))) (sphterm A r)
    refine coordDisk_near h (cf := s * A.cos (sqPhi A a b)) hr hheight ?_ ?_ ⟨g1 * g2, (near_mul a1 a2 (by norm_num)).trans (by norm_num), ?_⟩
    · rw [← mul_sub, abs_mul, hs1, one_mul]; exact hcos.trans (by norm_num)
    · rw [abs_mul, hs1, one_mul]; exact abs_cos_le_one φ
    · unfold sq2xyz; simp only; rw [← hrd, e2, e1]; ring
  have hy : |A.div (sq2xyz A s n a b).y (unlift A z) - Real.sin φ * r| ≤ 1.1e-14 := by
    obtain ⟨g2, a2, e2⟩ := mulR h (A.sin (sqPhi A a b)) (sphterm A r)
    refine coordDisk_near h (cf := A.sin (sqPhi A a b)) hr hheight (hsin.trans (by norm_num)) (abs_sin_le_one φ)
      ⟨g2, a2.trans (by norm_num), ?_⟩
    unfold sq2xyz; simp only; rw [← hrd, e2]
  set X := A.div (sq2xyz A s n a b).x (unlift A z)
  set Y := A.div (sq2xyz A s n a b).y (unlift A z)
  have hXb : |X| ≤ 1.01 := by
    have t1 : |s * Real.cos φ * r| ≤ 1 := by
      rw [abs_mul, abs_mul, hs1, one_mul]
      exact (mul_le_mul (abs_cos_le_one φ) hr (abs_nonneg _) (by norm_num)).trans (by norm_num)
    have := abs_add_le (X - s * Real.cos φ * r) (s * Real.cos φ * r)
    rw [sub_add_cancel] at this
    norm_num at *
    linarith
  have hYb : |Y| ≤ 1.01 := by
    have t1 : |Real.sin φ * r| ≤ 1 := by
      rw [abs_mul]
      exact (mul_le_mul (abs_sin_le_one φ) hr (abs_nonneg _) (by norm_num)).trans (by norm_num)
    have := abs_add_le (Y - Real.sin φ * r) (Real.sin φ * r)
    rw [sub_add_cancel] at this
    norm_num at *
    linarith
  have hR : √(X ^ 2 + Y ^ 2) ≤ 1.5 := by
    rw [sqrt_le_left (by norm_num)]
    have t1 : X ^ 2 ≤ 1.01 ^ 2 := by rw [← sq_abs]; exact pow_le_pow_left₀ (abs_nonneg _) hXb 2
    have t2 : Y ^ 2 ≤ 1.01 ^ 2 := by rw [← sq_abs]; exact pow_le_pow_left₀ (abs_nonneg _) hYb 2
    norm_num at *
    linarith
  obtain ⟨k1, k2⟩ := disk2sq_near h X Y
  obtain ⟨m1, m2⟩ := disk2sq_lip X Y (s * Real.cos φ * r) (Real.sin φ * r)
  have hD : √((X - s * Real.cos φ * r) ^ 2 + (Y - Real.sin φ * r) ^ 2) ≤ 1.6e-14 := by
    rw [sqrt_le_left (by norm_num)]
    have t1 : (X - s * Real.cos φ * r) ^ 2 ≤ (1.1e-14) ^ 2 := by
      rw [← sq_abs]; exact pow_le_pow_left₀ (abs_nonneg _) hx 2
    have t2 : (Y - Real.sin φ * r) ^ 2 ≤ (1.1e-14) ^ 2 := by
      rw [← sq_abs]; exact pow_le_pow_left₀ (abs_nonneg _) hy 2
    norm_num at *
    linarith
  have back : Geo.disk2sq (s * Real.cos φ * r) (Real.sin φ * r) = (s * a', b') := by
    have e := disk2sq_sq a' b'
    unfold sqX sqY at e
    rw [← hφ, ← er] at e
    rcases hs with rfl | rfl
    · rw [one_mul, one_mul]; exact e
    · rw [show (-1 : ℝ) * Real.cos φ * r = -(Real.cos φ * r) by ring, disk2sq_mirror, e]; simp
  rw [back] at m1 m2
  simp only at m1 m2
  constructor
  · have t1 : |s * a' - s * a| ≤ 1e-15 := by rw [← mul_sub, abs_mul, hs1, one_mul]; exact da
    have t2 := abs_sub_le (disk2sq A X Y).1 (Geo.disk2sq X Y).1 (s * a')
    have t3 := abs_sub_le (disk2sq A X Y).1 (s * a') (s * a)
    norm_num at *
    linarith
  · have t2 := abs_sub_le (disk2sq A X Y).2 (Geo.disk2sq X Y).2 b'
    have t3 := abs_sub_le (disk2sq A X Y).2 b' b
    norm_num at *
    linarith

end

/-! ### The claims -/

section
variable {A : Arith} (h : A.Ok) (w : A.Whole)
include h w

theorem twice_near {u : ℝ} (h0 : 0 ≤ u) (h1 : u ≤ 1) : |twice A u| ≤ 1 ∧ |twice A u - (2 * u - 1)| ≤ 7e-16 := by
  obtain ⟨g1, a1, e1⟩ := mulR h 2 u
  obtain ⟨g2, a2, e2⟩ := subR h (A.mul 2 u) 1
  have p1 := near_pos a1 (by norm_num)
  have m0 : 0 ≤ A.mul 2 u := by rw [e1]; positivity
  have m2 : A.mul 2 u ≤ 2 := (le_abs_self _).trans (w.double_le u (by rw [abs_of_nonneg h0]; exact h1))
  have hm : |A.mul 2 u - 1| ≤ 1 := abs_le.mpr ⟨by linarith, by linarith⟩
  refine ⟨w.sub_le _ _ hm, ?_⟩
  have b1 := abs_mul_le hm a2
  have b2 : |u * (g1 - 1)| ≤ 1 * 2.3e-16 := abs_mul_le (by rw [abs_of_nonneg h0]; exact h1) a1
  unfold twice
  have e : A.sub (A.mul 2 u) 1 - (2 * u - 1) = (A.mul 2 u - 1) * (g2 - 1) + 2 * (u * (g1 - 1)) := by
    rw [e2, e1]; ring
  have := abs_add_le ((A.mul 2 u - 1) * (g2 - 1)) (2 * (u * (g1 - 1)))
  rw [abs_mul 2, abs_two] at this
  rw [e]
  norm_num at *
  linarith

theorem fold_near {u : ℝ} (h0 : 0 ≤ u) (h2 : u ≤ 2) :
    0 ≤ foldU A u ∧ foldU A u ≤ 1 ∧ |foldU A u - Geo.foldU u| ≤ 2.3e-16 := by
  unfold foldU Geo.foldU
  split_ifs with hc
  · obtain ⟨g, a, e⟩ := subR h u 1
    have hb : |u - 1| ≤ 1 := abs_le.mpr ⟨by linarith, by linarith⟩
    refine ⟨?_, (le_abs_self _).trans (w.sub_le u 1 hb), ?_⟩
    · rw [e]; exact mul_nonneg (by linarith) (near_pos a (by norm_num)).le
    · rw [e, show (u - 1) * g - (u - 1) = (u - 1) * (g - 1) by ring]
      exact (abs_mul_le hb a).trans (by norm_num)
  · exact ⟨h0, by linarith, by rw [sub_self, abs_zero]; norm_num⟩

omit w in
theorem upper_sign {s a b : ℝ} (ha : |a| ≤ 1) (hb : |b| ≤ 1) : zsign (sq2xyz A s 1 a b).z = 1 := by
  unfold sq2xyz
  simp only
  set r := sqR A a b with hrd
  have hr : |r| ≤ 1 := by
    rw [hrd]; unfold sqR
    split_ifs
    · exact ha
    · norm_num
    · exact hb
  have hq := (le_abs_self _).trans (h.mul_le r r hr hr)
  obtain ⟨g2, a2, e2⟩ := subR h 1 (A.mul r r)
  obtain ⟨g3, a3, e3⟩ := mulR h 1 (A.sub 1 (A.mul r r))
  have p2 := near_pos a2 (by norm_num)
  have p3 := near_pos a3 (by norm_num)
  unfold zsign
  rw [if_neg]
  push Not
  rw [e3, e2, one_mul]
  exact mul_nonneg (mul_nonneg (by linarith) p2.le) p3.le

omit w in
theorem lower_sign {s a b : ℝ} (ha : |a| ≤ 1 - 1e-15) (hb : |b| ≤ 1 - 1e-15) : zsign (sq2xyz A s (-1) a b).z = -1 := by
  unfold sq2xyz
  simp only
  set r := sqR A a b with hrd
  have hr : |r| ≤ 1 - 1e-15 := by
    rw [hrd]; unfold sqR
    split_ifs
    · exact ha
    · norm_num
    · exact hb
  obtain ⟨g1, a1, e1⟩ := mulR h r r
  obtain ⟨g2, a2, e2⟩ := subR h 1 (A.mul r r)
  obtain ⟨g3, a3, e3⟩ := mulR h (-1) (A.sub 1 (A.mul r r))
  have p1 := near_pos a1 (by norm_num)
  have p2 := near_pos a2 (by norm_num)
  have p3 := near_pos a3 (by norm_num)
  have hq : A.mul r r < 1 := by
    rw [e1, ← abs_mul_abs_self]
    have h1 := mul_le_mul hr hr (abs_nonneg r) (by norm_num)
    have h2 := mul_le_mul h1 (show g1 ≤ 1 + 2.3e-16 by have := (abs_le.mp a1).2; linarith) p1.le (by norm_num)
    refine lt_of_le_of_lt h2 (by norm_num)
  unfold zsign
  rw [if_pos]
  rw [e3, e2]
  have : 0 < (1 - A.mul r r) * g2 * g3 := mul_pos (mul_pos (by linarith) p2) p3
  linarith

omit w in
/-- halving the shifted coordinate -/
theorem halve_near {t x e : ℝ} (hx : |x| ≤ 4) (ht : ∃ g, |g - 1| ≤ 5e-16 ∧ |t - x * g| ≤ e) (he : e ≤ 1e-3) :
    |A.div t 2 - x / 2| ≤ 2e-15 + 0.501 * e := by
  obtain ⟨g1, a1, b1⟩ := ht
  obtain ⟨g2, a2, e2⟩ := divR h t (show (2 : ℝ) ≠ 0 by norm_num)
  have e0 : 0 ≤ e := (abs_nonneg _).trans b1
  have hn := near_mul a1 a2 (by norm_num)
  have t1 := abs_mul_le hx hn
  have t2 := abs_mul_le b1 a2
  have t3 := abs_add_three ((t - x * g1) * (g2 - 1)) (t - x * g1) (x * (g1 * g2 - 1))
  have e : 2 * (A.div t 2 - x / 2) = (t - x * g1) * (g2 - 1) + (t - x * g1) + x * (g1 * g2 - 1) := by rw [e2]; ring
  rw [← e, abs_mul, abs_two] at t3
  norm_num at *
  linarith

omit w in
theorem second_near {b c : ℝ} (hb : |b| ≤ 1) (hc : |c - b| ≤ 1.8e-13) : |A.div (A.add c 1) 2 - (b + 1) / 2| ≤ 9.5e-14 := by
  obtain ⟨g, a, e⟩ := addR h c 1
  obtain ⟨l, u⟩ := abs_le.mp hb
  have p := near_pos a (by norm_num)
  have hg := (abs_le.mp a).2
  refine (halve_near h (x := b + 1) (e := 1.81e-13) (abs_le.mpr ⟨by linarith, by linarith⟩) ⟨g, a.trans (by norm_num), ?_⟩
    (by norm_num)).trans (by norm_num)
  rw [e, show (c + 1) * g - (b + 1) * g = (c - b) * g by ring]
  refine (abs_mul_le hc (t := 1.001) ?_).trans (by norm_num)
  rw [abs_of_pos p]; norm_num at *; linarith

/-- **C178** coordinates of the upper square, to directions and back, as the sky patches use them: nothing is lost but
rounding, on the whole square with its edges and diagonals. -/
theorem C178_upper (u v : ℝ) (hu0 : 0 ≤ u) (hu1 : u ≤ 1) (hv0 : 0 ≤ v) (hv1 : v ≤ 1) :
    |(xyz2uv A false (uv2xyz A 1 (u, v))).1 - u| ≤ 1e-13 ∧ |(xyz2uv A false (uv2xyz A 1 (u, v))).2 - v| ≤ 1e-13 ∧
    0 ≤ (uv2xyz A 1 (u, v)).z := by
  have hn : hemi u = 1 := by unfold hemi; rw [if_neg (by linarith)]
  have hf : foldU A u = u := by unfold foldU; rw [if_neg (by linarith)]
  obtain ⟨a1, a2⟩ := twice_near h w hu0 hu1
  obtain ⟨b1, b2⟩ := twice_near h w hv0 hv1
  have hz := upper_sign h (s := 1) a1 b1
  have ez : 0 ≤ (sq2xyz A 1 1 (twice A u) (twice A v)).z := by
    by_contra hc
    push Not at hc
    unfold zsign at hz
    rw [if_pos hc] at hz
    norm_num at hz
  obtain ⟨k1, k2⟩ := sq_round h 1 1 _ _ (Or.inl rfl) (Or.inl rfl) a1 b1 hz
  unfold xyz2uv uv2xyz sq2uv
  simp only [hn, hf, mul_one, Bool.false_eq_true, if_false]
  rw [hz]
  set P := disk2sq A (A.div (sq2xyz A 1 1 (twice A u) (twice A v)).x (unlift A (sq2xyz A 1 1 (twice A u) (twice A v)).z))
    (A.div (sq2xyz A 1 1 (twice A u) (twice A v)).y (unlift A (sq2xyz A 1 1 (twice A u) (twice A v)).z))
  rw [one_mul] at k1
  have c1 : |P.1 - (2 * u - 1)| ≤ 1.8e-13 := by
    have := abs_sub_le P.1 (twice A u) (2 * u - 1); norm_num at *; linarith
  have c2 : |P.2 - (2 * v - 1)| ≤ 1.8e-13 := by
    have := abs_sub_le P.2 (twice A v) (2 * v - 1); norm_num at *; linarith
  have hub : |2 * u - 1| ≤ 1 := abs_le.mpr ⟨by linarith, by linarith⟩
  have hvb : |2 * v - 1| ≤ 1 := abs_le.mpr ⟨by linarith, by linarith⟩
  refine ⟨?_, ?_, ez⟩
  · obtain ⟨g1, r1, e1⟩ := addR h P.1 2
    obtain ⟨g2, r2, e2⟩ := subR h (A.add P.1 2) 1
    have hPb : |P.1 + 2| ≤ 3.01 := by
      obtain ⟨l, u⟩ := abs_le.mp c1
      obtain ⟨l', u'⟩ := abs_le.mp hub
      rw [abs_le]; constructor <;> norm_num at * <;> linarith
    have t1 := abs_mul_le hPb r1
    have hg2 : |g2| ≤ 1.001 := by
      obtain ⟨l, u⟩ := abs_le.mp r2
      rw [abs_le]; constructor <;> norm_num at * <;> linarith
    have := halve_near h (t := A.sub (A.add P.1 2) 1) (x := 2 * u) (e := 1.85e-13) (abs_le.mpr ⟨by linarith, by linarith⟩)
      ⟨g2, r2.trans (by norm_num), ?_⟩ (by norm_num)
    · rw [show 2 * u / 2 = u by ring] at this
      exact this.trans (by norm_num)
    · rw [e2, e1, show ((P.1 + 2) * g1 - 1) * g2 - 2 * u * g2 = ((P.1 + 2) * (g1 - 1) + (P.1 - (2 * u - 1))) * g2 by ring]
      refine (abs_mul_le (s := 1.81e-13) ?_ hg2).trans (by norm_num)
      have := abs_add_le ((P.1 + 2) * (g1 - 1)) (P.1 - (2 * u - 1))
      norm_num at *
      linarith
  · have := second_near h hvb c2
    rw [show (2 * v - 1 + 1) / 2 = v by ring] at this
    exact this.trans (by norm_num)

/-- **C178** coordinates of both hemispheres, as the mappers use them (`xsign=-1`, `flipu=True`). Below the horizon the
point must be 1e-14 away from the edge of its square, where the height is rounded to 0 and the hemisphere is lost. -/
theorem C178_both_partial (u v : ℝ) (hu0 : 0 ≤ u) (hu2 : u ≤ 2) (hv0 : 0 ≤ v) (hv1 : v ≤ 1)
    (hl : 1 < u → 1 + 1e-14 ≤ u ∧ u ≤ 2 - 1e-14 ∧ 1e-14 ≤ v ∧ v ≤ 1 - 1e-14) :
    |(xyz2uv A true (uv2xyz A (-1) (u, v))).1 - u| ≤ 1e-13 ∧ |(xyz2uv A true (uv2xyz A (-1) (u, v))).2 - v| ≤ 1e-13 := by
  obtain ⟨f0, f1, f2⟩ := fold_near h w hu0 hu2
  obtain ⟨a1, a2⟩ := twice_near h w f0 f1
  obtain ⟨b1, b2⟩ := twice_near h w hv0 hv1
  set n := hemi u with hn
  have hn1 : n = 1 ∨ n = -1 := by rw [hn]; unfold hemi; split_ifs <;> simp
  have hs1 : (-1 : ℝ) * n = 1 ∨ (-1 : ℝ) * n = -1 := by rcases hn1 with e | e <;> rw [e] <;> norm_num
  have da : |twice A (foldU A u) - (2 * Geo.foldU u - 1)| ≤ 1.2e-15 := by
    have := abs_sub_le (twice A (foldU A u)) (2 * foldU A u - 1) (2 * Geo.foldU u - 1)
    rw [show 2 * foldU A u - 1 - (2 * Geo.foldU u - 1) = 2 * (foldU A u - Geo.foldU u) by ring, abs_mul, abs_two] at this
    norm_num at *
    linarith
  have hz : zsign (sq2xyz A (-1 * n) n (twice A (foldU A u)) (twice A v)).z = n := by
    by_cases hc : u > 1
    · have e : n = -1 := by rw [hn]; unfold hemi; rw [if_pos hc]
      obtain ⟨l1, l2, l3, l4⟩ := hl hc
      rw [e]
      have ef : Geo.foldU u = u - 1 := by unfold Geo.foldU; rw [if_pos hc]
      rw [ef] at da
      obtain ⟨x1, x2⟩ := abs_le.mp da
      obtain ⟨y1, y2⟩ := abs_le.mp b2
      refine lower_sign h ?_ ?_ <;> rw [abs_le] <;> constructor <;> norm_num at * <;> linarith
    · have e : n = 1 := by rw [hn]; unfold hemi; rw [if_neg hc]
      rw [e]
      exact upper_sign h a1 b1
  obtain ⟨k1, k2⟩ := sq_round h (-1 * n) n _ _ hs1 hn1 a1 b1 hz
  unfold xyz2uv uv2xyz sq2uv
  simp only [← hn, if_true]
  rw [hz]
  set q := sq2xyz A (-1 * n) n (twice A (foldU A u)) (twice A v)
  set P := disk2sq A (A.div q.x (unlift A q.z)) (A.div q.y (unlift A q.z))
  have hub : |2 * Geo.foldU u - 1| ≤ 1 := by
    unfold Geo.foldU
    rw [abs_le]
    split_ifs <;> constructor <;> linarith
  have hvb : |2 * v - 1| ≤ 1 := abs_le.mpr ⟨by linarith, by linarith⟩
  have hna : |n| = 1 := by rcases hn1 with e | e <;> rw [e] <;> norm_num
  have hnn : n * n = 1 := by rcases hn1 with e | e <;> rw [e] <;> norm_num
  have c1 : |P.1 - -1 * n * (2 * Geo.foldU u - 1)| ≤ 1.8e-13 := by
    have t1 := abs_sub_le P.1 (-1 * n * twice A (foldU A u)) (-1 * n * (2 * Geo.foldU u - 1))
    rw [← mul_sub, abs_mul, abs_mul, hna] at t1
    norm_num at *
    linarith
  have c2 : |P.2 - (2 * v - 1)| ≤ 1.8e-13 := by
    have := abs_sub_le P.2 (twice A v) (2 * v - 1); norm_num at *; linarith
  refine ⟨?_, ?_⟩
  · obtain ⟨g1, r1, e1⟩ := mulR h P.1 n
    set k : ℝ := if n < 0 then 3 else 1 with hk
    obtain ⟨g2, r2, e2⟩ := subR h k (A.mul P.1 n)
    have ek : k + (2 * Geo.foldU u - 1) = 2 * u := by
      rw [hk, hn]
      unfold hemi Geo.foldU
      by_cases hc : u > 1
      · simp only [hc, if_true]; norm_num; ring
      · simp only [hc, if_false]; norm_num
    have hPb : |P.1 * n| ≤ 1.01 := by
      have t1 := abs_add_le (P.1 - -1 * n * (2 * Geo.foldU u - 1)) (-1 * n * (2 * Geo.foldU u - 1))
      rw [sub_add_cancel] at t1
      have t2 : |-1 * n * (2 * Geo.foldU u - 1)| ≤ 1 := by
        rw [abs_mul, abs_mul, hna, abs_neg, abs_one, one_mul, one_mul]; exact hub
      rw [abs_mul, hna, mul_one]
      norm_num at *
      linarith
    have t1 := abs_mul_le hPb r1
    have hg2 : |g2| ≤ 1.001 := by
      obtain ⟨l, u⟩ := abs_le.mp r2
      rw [abs_le]; constructor <;> norm_num at * <;> linarith
    have := halve_near h (t := A.sub k (A.mul P.1 n)) (x := 2 * u) (e := 1.85e-13) (abs_le.mpr ⟨by linarith, by linarith⟩)
      ⟨g2, r2.trans (by norm_num), ?_⟩ (by norm_num)
    · rw [show 2 * u / 2 = u by ring] at this
      exact this.trans (by norm_num)
    · have e : (k - P.1 * n * g1) * g2 - 2 * u * g2 =
          (-(P.1 * n * (g1 - 1)) + -((P.1 - -1 * n * (2 * Geo.foldU u - 1)) * n)) * g2 := by
        rw [← ek]
        linear_combination ((2 * Geo.foldU u - 1) * g2) * hnn
      rw [e2, e1, e]
      refine (abs_mul_le (s := 1.81e-13) ?_ hg2).trans (by norm_num)
      have := abs_add_le (-(P.1 * n * (g1 - 1))) (-((P.1 - -1 * n * (2 * Geo.foldU u - 1)) * n))
      rw [abs_neg, abs_neg, abs_mul _ n, hna, mul_one] at this
      refine this.trans ?_
      norm_num at t1 c1 ⊢
      linarith
  · have := second_near h hvb c2
    rw [show (2 * v - 1 + 1) / 2 = v by ring] at this
    exact this.trans (by norm_num)

/-- **C178** the direction of every sky patch falls into that patch, for up to 10¹² patches along a side. -/
theorem C178_patches (side b : ℤ) (hs : 1 ≤ side) (hs' : side ≤ 10 ^ 12) (h0 : 0 ≤ b) (h1 : b < side ^ 2) :
    xyz2skybin A side (skybin2xyz A b side) = b := by
  have hsR : (1 : ℝ) ≤ side := by exact_mod_cast hs
  have hsR' : (side : ℝ) ≤ 10 ^ 12 := by exact_mod_cast hs'
  have hs0 : (0 : ℝ) < side := by linarith
  set q := b / side with hq
  have eb : b = q * side + b % side := by have := Int.mul_ediv_add_emod b side; rw [hq]; linarith
  have m0 : 0 ≤ b % side := Int.emod_nonneg _ (by omega)
  have m1 : b % side < side := Int.emod_lt_of_pos _ (by omega)
  have q0 : 0 ≤ q := Int.ediv_nonneg h0 (by omega)
  have q1 : q < side := by
    by_contra hc
    push Not at hc
    nlinarith
  have q0R : (0 : ℝ) ≤ q := by exact_mod_cast q0
  have q1R : (q : ℝ) + 1 ≤ side := by exact_mod_cast q1
  have m0R : (0 : ℝ) ≤ (b % side : ℤ) := by exact_mod_cast m0
  have m1R : ((b % side : ℤ) : ℝ) + 1 ≤ side := by exact_mod_cast m1
  have hdiv : |A.div ((b - b % side : ℤ) : ℝ) side - q| ≤ 2.3e-16 * q := by
    have e1 : ((b - b % side : ℤ) : ℝ) / side = q := by
      have : b - b % side = q * side := by omega
      rw [this]; push_cast; field_simp
    obtain ⟨g, hg, eg⟩ := divR h ((b - b % side : ℤ) : ℝ) hs0.ne'
    rw [eg, e1, show (q : ℝ) * g - q = q * (g - 1) by ring, abs_mul, abs_of_nonneg q0R, mul_comm]
    exact mul_le_mul_of_nonneg_right hg q0R
  obtain ⟨u1, -, -⟩ := cell_near h hs0 q0R hdiv (o := 1 / 2) (by norm_num) (by norm_num)
  obtain ⟨v1, -, -⟩ := cell_near h (k' := ((b % side : ℤ) : ℝ)) hs0 m0R (by rw [sub_self, abs_zero]; positivity)
    (o := 1 / 2) (by norm_num) (by norm_num)
  set U := (bin2uv A b side (1 / 2)).1 with hU
  set V := (bin2uv A b side (1 / 2)).2 with hV
  -- a coordinate inside its cell, and inside (0, 1)
  have inside : ∀ (k : ℤ) (x : ℝ), (0 : ℝ) ≤ k → (k : ℝ) + 1 ≤ side → |side * x - (k + 1 / 2)| ≤ 1e-15 * ((k : ℝ) + 1) →
      0 ≤ x ∧ x ≤ 1 ∧ ∀ y, |y - x| ≤ 1e-13 → y < 1 ∧ ⌊A.mul side y⌋ = k := by
    intro k x k0 k1 hx
    obtain ⟨l, r⟩ := abs_le.mp hx
    have hk : 1e-15 * ((k : ℝ) + 1) ≤ 1e-15 * side := mul_le_mul_of_nonneg_left k1 (by norm_num)
    have hsm : (1e-13 : ℝ) * side ≤ 0.1 := by linarith
    have hsm' : (1e-15 : ℝ) * side ≤ 0.001 := by linarith
    have x0 : 0 ≤ x := by
      by_contra hc
      push Not at hc
      have := mul_neg_of_pos_of_neg hs0 hc
      linarith
    have x1 : x ≤ 1 := by
      by_contra hc
      push Not at hc
      have := mul_lt_mul_of_pos_left hc hs0
      linarith
    refine ⟨x0, x1, fun y hy => ?_⟩
    have hy' : |side * y - side * x| ≤ 0.1 := by
      rw [← mul_sub, abs_mul, abs_of_pos hs0]
      have := mul_le_mul_of_nonneg_left hy hs0.le
      linarith
    obtain ⟨yl, yr⟩ := abs_le.mp hy'
    have y1 : y < 1 := by
      by_contra hc
      push Not at hc
      have := mul_le_mul_of_nonneg_left hc hs0.le
      linarith
    refine ⟨y1, ?_⟩
    obtain ⟨g, ag, eg⟩ := mulR h side y
    have hb : |(side : ℝ) * y| ≤ side + 1 := by
      rw [abs_le]; constructor <;> linarith
    have t := abs_mul_le hb ag
    refine floor_near (o := 1 / 2) (d := 0.2) ?_ (by norm_num) (by norm_num)
    rw [eg, show (side : ℝ) * y * g - (k + 1 / 2) = side * y * (g - 1) + (side * y - side * x) + (side * x - (k + 1 / 2)) by ring]
    have := abs_add_three (side * y * (g - 1)) (side * y - side * x) (side * x - (k + 1 / 2))
    linarith
  obtain ⟨U0, U1, hUy⟩ := inside q U q0R q1R u1
  obtain ⟨V0, V1, hVy⟩ := inside (b % side) V m0R m1R v1
  obtain ⟨c1, c2, c3⟩ := C178_upper h w U V U0 U1 V0 V1
  have ed : skybin2xyz A b side = uv2xyz A 1 (U, V) := by
    unfold skybin2xyz
    have : bin2uv A b side (1 / 2) = (U, V) := rfl
    rw [this, if_neg (not_lt.mpr c3)]
  rw [ed]
  unfold xyz2skybin uv2bin uv2ij axisBin
  obtain ⟨d1, d2⟩ := hUy _ c1
  obtain ⟨-, d4⟩ := hVy _ c2
  simp only [if_true]
  rw [d2, d4, if_neg (not_le.mpr d1), Int.emod_eq_of_lt q0 q1, Int.emod_emod, add_zero]
  exact eb.symm

end

/-! ### Arithmetics that meet the contract -/

theorem exact_whole : exact.Whole where
  double_le a ha := by
    simp only [exact]
    rw [abs_mul, abs_two]; linarith
  sub_le a b hab := hab

theorem binary64_whole : binary64.Whole where
  double_le a ha := by
    simp only [binary64]
    rw [show (2 : ℝ) * a = a * 2 ^ (1 : ℤ) by rw [zpow_one]; ring, rnd_scale, abs_mul]
    have := rnd_le_one ha
    rw [zpow_one, abs_two]
    linarith
  sub_le a b hab := rnd_le_one hab

/-- **C178** for binary64 -/
theorem C178_binary64 (side b : ℤ) (hs : 1 ≤ side) (hs' : side ≤ 10 ^ 12) (h0 : 0 ≤ b) (h1 : b < side ^ 2) :
    xyz2skybin binary64 side (skybin2xyz binary64 b side) = b :=
  C178_patches binary64_ok binary64_whole side b hs hs' h0 h1

example : xyz2skybin binary64 1000003 (skybin2xyz binary64 123456789 1000003) = 123456789 :=
  C178_binary64 _ _ (by norm_num) (by norm_num) (by norm_num) (by norm_num)

example : |(xyz2uv binary64 true (uv2xyz binary64 (-1) (1.3, 0.3))).1 - 1.3| ≤ 1e-13 :=
  (C178_both_partial binary64_ok binary64_whole 1.3 0.3 (by norm_num) (by norm_num) (by norm_num) (by norm_num)
    (fun _ => ⟨by norm_num, by norm_num, by norm_num, by norm_num⟩)).1

/-- the exact functions are the rounded ones without rounding -/
theorem C178_exact (xsign : ℝ) (flipu : Bool) (uv : ℝ × ℝ) (p : V3) :
    uv2xyz exact xsign uv = Geo.uv2xyz xsign uv ∧ xyz2uv exact flipu p = Geo.xyz2uv flipu p := by
  constructor
  · unfold uv2xyz Geo.uv2xyz uv2xyzOn sq2xyz
    rfl
  · have hd : ∀ x y, disk2sq exact x y = Geo.disk2sq x y := fun x y => by
      have : hyp exact x y = √(x ^ 2 + y ^ 2) := by unfold hyp; simp only [exact, sq]
      unfold disk2sq
      rw [this]
      rfl
    unfold xyz2uv Geo.xyz2uv xyz2uvA
    simp only [Bool.false_eq_true, if_false]
    rw [hd]
    rfl

/-- **C178** the margin of `C178_both_partial` is needed: just inside the edge of the lower square the height is rounded to 0, and
the way back ends in the other hemisphere. -/
theorem C178_edge : (xyz2uv binary64 true (uv2xyz binary64 (-1) (3 / 2, 2⁻¹ ^ 60))).1 ≤ 0.6 := by
  have r0 : rnd 0 = 0 := rnd_zero
  have r1 : rnd 1 = 1 := by have := rnd_whole (k := 1) (by norm_num); simpa using this
  have rm : rnd (-1) = -1 := by have := rnd_whole (k := -1) (by norm_num); simpa using this
  have half : rnd (1 / 2) = 1 / 2 := by have := rnd_float (k := 1) (-1) (by norm_num); norm_num at this ⊢; exact this
  have tiny : rnd (2 * 2⁻¹ ^ 60) = 2 * 2⁻¹ ^ 60 := by
    have := rnd_float (k := 1) (-59) (by norm_num); norm_num at this ⊢; exact this
  have edge : rnd (2 * 2⁻¹ ^ 60 - 1) = -1 := by
    rw [rnd_eq (x := 2 * 2⁻¹ ^ 60 - 1) (-1) (-2 ^ 53) (by rw [abs_of_neg (by norm_num)]; norm_num)
      (by rw [abs_of_neg (by norm_num)]; norm_num) (by rw [abs_lt]; constructor <;> norm_num)]
    norm_num
  have ha : twice binary64 (foldU binary64 (3 / 2)) = 0 := by
    unfold foldU
    rw [if_pos (by norm_num)]
    simp only [binary64, twice]
    rw [show (3 / 2 - 1 : ℝ) = 1 / 2 by norm_num, half, show (2 * (1 / 2) : ℝ) = 1 by norm_num, r1, sub_self, r0]
  have hb : twice binary64 (2⁻¹ ^ 60) = -1 := by
    simp only [binary64, twice]
    rw [tiny, edge]
  have hn : hemi (3 / 2) = -1 := by unfold hemi; rw [if_pos (by norm_num)]
  have hr : sqR binary64 0 (-1) = -1 := by
    have c : ¬ binary64.mul 0 0 > binary64.mul (-1) (-1) := by
      simp only [binary64]
      rw [show (0 : ℝ) * 0 = 0 by norm_num, show (-1 : ℝ) * -1 = 1 by norm_num, r0, r1]
      norm_num
    unfold sqR
    rw [if_neg c, if_neg (by norm_num)]
  have same : sq2xyz binary64 1 (-1) 0 (-1) = sq2xyz binary64 1 1 0 (-1) := by
    unfold sq2xyz
    rw [hr]
    have : binary64.sub 1 (binary64.mul (-1) (-1)) = 0 := by
      simp only [binary64]
      rw [show (-1 : ℝ) * -1 = 1 by norm_num, r1, sub_self, r0]
    rw [this]
    simp only [binary64, mul_zero]
  have h := binary64_ok
  have hz := upper_sign h (s := 1) (a := 0) (b := -1) (by norm_num) (by norm_num)
  obtain ⟨k, -⟩ := sq_round h 1 1 0 (-1) (Or.inl rfl) (Or.inl rfl) (by norm_num) (by norm_num) hz
  unfold xyz2uv uv2xyz sq2uv
  simp only [hn, ha, hb, if_true]
  rw [show (-1 : ℝ) * -1 = 1 by norm_num, same, hz]
  set P := disk2sq binary64 (binary64.div (sq2xyz binary64 1 1 0 (-1)).x (unlift binary64 (sq2xyz binary64 1 1 0 (-1)).z))
    (binary64.div (sq2xyz binary64 1 1 0 (-1)).y (unlift binary64 (sq2xyz binary64 1 1 0 (-1)).z))
  rw [if_neg (by norm_num)]
  obtain ⟨g1, a1, e1⟩ := mulR h P.1 1
  obtain ⟨g2, a2, e2⟩ := subR h 1 (binary64.mul P.1 1)
  obtain ⟨g3, a3, e3⟩ := divR h (binary64.sub 1 (binary64.mul P.1 1)) (show (2 : ℝ) ≠ 0 by norm_num)
  have t1 := abs_mul_le k a1
  rw [mul_zero, sub_zero] at k t1
  have n1 := near_mul a2 a3 (by norm_num)
  have hx : 1 - P.1 * 1 * g1 ≤ 1.01 := by
    have e : 1 - P.1 * 1 * g1 = 1 - P.1 - P.1 * (g1 - 1) := by ring
    obtain ⟨l, u⟩ := abs_le.mp k
    obtain ⟨l', u'⟩ := abs_le.mp t1
    rw [e]
    norm_num at *
    linarith
  have hg : g2 * g3 ≤ 1.01 := by
    obtain ⟨l, u⟩ := abs_le.mp n1
    norm_num at *
    linarith
  have p2 := near_pos a2 (by norm_num)
  have p3 := near_pos a3 (by norm_num)
  rw [e3, e2, e1, show (1 - P.1 * 1 * g1) * g2 / 2 * g3 = (1 - P.1 * 1 * g1) * (g2 * g3) / 2 by ring]
  have := mul_le_mul hx hg (mul_pos p2 p3).le (by norm_num)
  norm_num at *
  linarith

/-- The full statement of C178 for the whole rectangle, in binary64: both coordinates come back. -/
def C178_statement : Prop := ∀ u v : ℝ, 0 ≤ u → u < 2 → 0 ≤ v → v ≤ 1 →
  |(xyz2uv binary64 true (uv2xyz binary64 (-1) (u, v))).1 - u| ≤ 1e-13 ∧
  |(xyz2uv binary64 true (uv2xyz binary64 (-1) (u, v))).2 - v| ≤ 1e-13

/-- **C178** is false on the edge strip of the lower square. -/
theorem C178_refuted : ¬ C178_statement := by
  intro h
  have a := (abs_le.mp (h (3 / 2) (2⁻¹ ^ 60) (by norm_num) (by norm_num) (by norm_num) (by norm_num)).1).1
  have b := C178_edge
  norm_num at a b
  linarith

end Verif.Fp
