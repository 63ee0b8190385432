import Verif.Model.RoundedAxis
import Verif.Props.RoundedView

/-! C209: the direction in the centre of a view, in rounded arithmetic. -/

namespace Verif.Fp
open Verif.Geo Real

/-- adding to pi never rounds below pi -/
def AboveπOk (A : Arith) : Prop := ∀ a, 0 ≤ a → A.pi ≤ A.add a A.pi

/-- the direction of a vector, stated here on its own -/
noncomputable def dir (v : V3) : V3 :=
  ⟨v.x / √(v.x ^ 2 + v.y ^ 2 + v.z ^ 2), v.y / √(v.x ^ 2 + v.y ^ 2 + v.z ^ 2), v.z / √(v.x ^ 2 + v.y ^ 2 + v.z ^ 2)⟩

/-- a normalised vector is the direction up to rounding -/
theorem norm_dir {A : Arith} (h : A.Ok) {v p : V3} (h0 : v ≠ ⟨0, 0, 0⟩) (hp : normF A v = some p) :
    Near p (dir v) 1.5e-15 ∧ |len2 p - 1| ≤ 1e-14 := by
  obtain ⟨g1, g2, g3, a1, a2, a3, rfl⟩ := norm_comp h h0 hp
  have hu := unit_of_len (len_pos h0)
  unfold dir
  set x := v.x / √(v.x ^ 2 + v.y ^ 2 + v.z ^ 2)
  set y := v.y / √(v.x ^ 2 + v.y ^ 2 + v.z ^ 2)
  set z := v.z / √(v.x ^ 2 + v.y ^ 2 + v.z ^ 2)
  have one : ∀ t : ℝ, t ^ 2 ≤ 1 → |t| ≤ 1 := fun t ht => abs_le_of_sq_le_sq (by linarith) (by norm_num)
  have k : ∀ t g : ℝ, |t| ≤ 1 → |g - 1| ≤ 1.5e-15 → |t * g - t| ≤ 1.5e-15 := fun t g ht hg => by
    rw [show t * g - t = t * (g - 1) by ring]
    have := abs_mul_le ht hg
    linarith
  have sx := sq_nonneg x
  have sy := sq_nonneg y
  have sz := sq_nonneg z
  refine ⟨⟨k x g1 (one x (by linarith)) a1, k y g2 (one y (by linarith)) a2, k z g3 (one z (by linarith)) a3⟩, ?_⟩
  unfold len2
  simp only
  have e : (x * g1) ^ 2 + (y * g2) ^ 2 + (z * g3) ^ 2 - 1 =
      x ^ 2 * (g1 * g1 - 1) + y ^ 2 * (g2 * g2 - 1) + z ^ 2 * (g3 * g3 - 1) := by linear_combination (1) * hu
  have n : ∀ g : ℝ, |g - 1| ≤ 1.5e-15 → |g * g - 1| ≤ 5e-15 := fun g hg =>
    (near_mul hg hg (by norm_num)).trans (by norm_num)
  have c1 := abs_mul_le (abs_of_nonneg sx).le (n g1 a1)
  have c2 := abs_mul_le (abs_of_nonneg sy).le (n g2 a2)
  have c3 := abs_mul_le (abs_of_nonneg sz).le (n g3 a3)
  have := abs_add_three (x ^ 2 * (g1 * g1 - 1)) (y ^ 2 * (g2 * g2 - 1)) (z ^ 2 * (g3 * g3 - 1))
  rw [e]
  linarith

/-- turning the axis with nearly orthonormal matrices -/
theorem v2w_near {A : Arith} (h : A.Ok) {va cf : ℝ} {Y P : M3} (hy : NearOrth 1e-14 Y) (hp : NearOrth 1e-14 P) :
    Near ((FView.mk va cf Y P).v2w A ⟨0, 0, 1⟩) (M3.app Y.transpose (M3.app P.transpose ⟨0, 0, 1⟩)) 3e-14 := by
  have eY : ∀ i j, |Y.transpose i j| ≤ 1.01 := fun i j => hy.entry (by norm_num) j i
  have eP : ∀ i j, |P.transpose i j| ≤ 1.01 := fun i j => hp.entry (by norm_num) j i
  have b1 : Bounded (⟨0, 0, 1⟩ : V3) 1 := ⟨by norm_num, by norm_num, by norm_num⟩
  have n1 := app_near h eP b1
  have b2 := app_bounded eP b1
  have b3 := n1.bounded b2
  have n2 := app_near h eY b3
  unfold FView.v2w
  simp only
  set w := app A P.transpose ⟨0, 0, 1⟩ with hw
  set w' := M3.app P.transpose ⟨0, 0, 1⟩ with hw'
  have n3 : Near (M3.app Y.transpose w) (M3.app Y.transpose w') (3.03 * 3e-15) := by
    have k : ∀ i, |(Y.transpose i 0 * w.x + Y.transpose i 1 * w.y + Y.transpose i 2 * w.z) -
        (Y.transpose i 0 * w'.x + Y.transpose i 1 * w'.y + Y.transpose i 2 * w'.z)| ≤ 3.03 * 3e-15 := fun i => by
      have a := abs_mul_le (eY i 0) n1.1
      have b := abs_mul_le (eY i 1) n1.2.1
      have c := abs_mul_le (eY i 2) n1.2.2
      have := abs_add_three (Y.transpose i 0 * (w.x - w'.x)) (Y.transpose i 1 * (w.y - w'.y)) (Y.transpose i 2 * (w.z - w'.z))
      rw [show (Y.transpose i 0 * w.x + Y.transpose i 1 * w.y + Y.transpose i 2 * w.z) -
        (Y.transpose i 0 * w'.x + Y.transpose i 1 * w'.y + Y.transpose i 2 * w'.z) =
        Y.transpose i 0 * (w.x - w'.x) + Y.transpose i 1 * (w.y - w'.y) + Y.transpose i 2 * (w.z - w'.z) by ring]
      linarith
    exact ⟨k 0, k 1, k 2⟩
  exact (n2.trans n3).mono (by norm_num)

/-- what the two matrices make of the axis, for computed angles -/
theorem axis_angles {A : Arith} (h : A.Ok) (y p : ℝ) :
    Near (M3.app (rmtxYp A false false y p).1.transpose (M3.app (rmtxYp A false false y p).2.transpose ⟨0, 0, 1⟩))
      ⟨sin y * sin p, cos y * sin p, cos p⟩ 2e-15 := by
  have e : M3.app (rmtxYp A false false y p).1.transpose (M3.app (rmtxYp A false false y p).2.transpose ⟨0, 0, 1⟩) =
      ⟨A.sin y * A.sin p, A.cos y * A.sin p, A.cos p⟩ := by
    simp [M3.app, rmtxYp]
  rw [e]
  have cy := cosA h y
  have sy := sinA h y
  have cp := cosA h p
  have sp := sinA h p
  have k : ∀ a b a' b' : ℝ, |a - a'| ≤ 9.2e-16 → |b - b'| ≤ 9.2e-16 → |a'| ≤ 1 → |b'| ≤ 1 → |a * b - a' * b'| ≤ 2e-15 := by
    intro a b a' b' ha hb ha' hb'
    rw [show a * b - a' * b' = (a - a') * (b - b') + (a - a') * b' + a' * (b - b') by ring]
    have c1 := abs_mul_le ha hb
    have c2 := abs_mul_le ha hb'
    have c3 := abs_mul_le ha' hb
    have := abs_add_three ((a - a') * (b - b')) ((a - a') * b') (a' * (b - b'))
    linarith
  exact ⟨k _ _ _ _ sy sp (abs_sin_le_one y) (abs_sin_le_one p), k _ _ _ _ cy sp (abs_cos_le_one y) (abs_sin_le_one p),
    cp.trans (by norm_num)⟩

/-- the computed pi -/
theorem pi_near {A : Arith} (h : A.Ok) : |A.pi - π| ≤ 8e-16 := by
  have := h.pi
  have := h.small
  have := h.u0
  have := pi_lt_d2
  have := pi_gt_three
  nlinarith

/-- the rounded arc cosine -/
theorem acos_near {A : Arith} (h : A.Ok) {acos : ℝ → ℝ} (hc : AcosOk A acos) {c : ℝ} (h0 : -1 ≤ c) (h1 : c ≤ 1) :
    |acos c - arccos c| ≤ 3e-15 ∧ 0 ≤ acos c := by
  have k := hc c h0 h1
  have := h.small
  have := h.u0
  have := pi_lt_d2
  have a0 := arccos_nonneg c
  have a1 := arccos_le_pi c
  have k1 : 4 * A.u * arccos c ≤ 3e-15 := by nlinarith
  have k2 : 4 * A.u * arccos c ≤ arccos c := by nlinarith
  exact ⟨k.trans k1, by linarith [(abs_le.mp k).1]⟩

/-- the polar angle does not wrap if the direction is not too close to straight down -/
theorem pol_near {A : Arith} (h : A.Ok) {acos : ℝ → ℝ} (hc : AcosOk A acos) (ha : AboveπOk A) {p : V3} (h0 : -1 ≤ p.z)
    (h1 : p.z ≤ 1) (hz : arccos p.z ≤ π - 1e-9) : |polF A acos p - arccos p.z| ≤ 5e-15 := by
  obtain ⟨k1, k2⟩ := acos_near h hc h0 h1
  have hp := abs_le.mp (pi_near h)
  have hb := h.add (acos p.z) A.pi
  have hl := ha _ k2
  have := h.small
  have := h.u0
  have := pi_lt_d2
  have := pi_gt_three
  have k1' := abs_le.mp k1
  have hs : |acos p.z + A.pi| ≤ 6.31 := by rw [abs_le]; constructor <;> linarith
  have hb' : |A.add (acos p.z) A.pi - (acos p.z + A.pi)| ≤ 1.5e-15 := by
    refine hb.trans ?_
    have := mul_le_mul ‹A.u ≤ 2.3e-16› hs (abs_nonneg _) (by norm_num)
    linarith
  have hb2 := abs_le.mp hb'
  have hpos : 0 < A.pi := by linarith
  have hf : ⌊A.add (acos p.z) A.pi / A.pi⌋ = 1 := by
    rw [Int.floor_eq_iff]
    constructor
    · rw [le_div_iff₀ hpos]; push_cast; linarith
    · rw [div_lt_iff₀ hpos]; push_cast; linarith
  unfold polF modF
  rw [hf, abs_le]
  push_cast
  constructor <;> linarith

/-- the azimuth, up to whole turns -/
theorem azi_near {A : Arith} (h : A.Ok) {acos : ℝ → ℝ} {p : V3} {φ : ℝ} (h0 : |φ| ≤ π)
    (hφ : |phiF A acos p - φ| ≤ 3e-15) :
    ∃ m : ℤ, |aziF A acos p - (φ + m * (2 * π))| ≤ 1e-14 ∧ |aziF A acos p| ≤ 9.5 := by
  have hp := abs_le.mp (pi_near h)
  have hu := h.small
  have hu0 := h.u0
  have g2 := pi_lt_d2
  have g3 := pi_gt_three
  have hm := h.mul 2 A.pi
  unfold aziF
  set b := A.mul 2 A.pi with hb
  have hm' : |b - 2 * A.pi| ≤ 1.5e-15 := by
    refine hm.trans ?_
    have : |2 * A.pi| ≤ 6.31 := by rw [abs_le]; constructor <;> linarith
    have := mul_le_mul hu this (abs_nonneg _) (by norm_num)
    linarith
  have hm2 := abs_le.mp hm'
  have hφ2 := abs_le.mp hφ
  have h02 := abs_le.mp h0
  have hd := h.add (phiF A acos p) b
  have hd' : |A.add (phiF A acos p) b - (phiF A acos p + b)| ≤ 2.3e-15 := by
    refine hd.trans ?_
    have : |phiF A acos p + b| ≤ 9.5 := by rw [abs_le]; constructor <;> linarith
    have := mul_le_mul hu this (abs_nonneg _) (by norm_num)
    linarith
  have hd2 := abs_le.mp hd'
  set a := A.add (phiF A acos p) b
  have hpos : 0 < b := by linarith
  unfold modF
  rcases lt_or_ge a b with hlt | hge
  · have hf : ⌊a / b⌋ = 0 := by
      rw [Int.floor_eq_iff]
      constructor
      · rw [le_div_iff₀ hpos]; push_cast; linarith
      · rw [div_lt_iff₀ hpos]; push_cast; linarith
    refine ⟨1, ?_, ?_⟩ <;> rw [hf, abs_le] <;> push_cast <;> constructor <;> linarith
  · have hf : ⌊a / b⌋ = 1 := by
      rw [Int.floor_eq_iff]
      constructor
      · rw [le_div_iff₀ hpos]; push_cast; linarith
      · rw [div_lt_iff₀ hpos]; push_cast; linarith
    refine ⟨0, ?_, ?_⟩ <;> rw [hf, abs_le] <;> push_cast <;> constructor <;> linarith

/-- the yaw of the view, as used by the sine and the cosine -/
theorem yaw_near {A : Arith} (h : A.Ok) {z φ : ℝ} {m : ℤ} (hz : |z - (φ + m * (2 * π))| ≤ 1e-14) (hb : |z| ≤ 9.5) :
    |sin (A.sub (A.div (A.mul 3 A.pi) 2) z) - -cos φ| ≤ 2e-14 ∧
    |cos (A.sub (A.div (A.mul 3 A.pi) 2) z) - -sin φ| ≤ 2e-14 := by
  have hp := abs_le.mp (pi_near h)
  have hu := h.small
  have g2 := pi_lt_d2
  have g3 := pi_gt_three
  have m1 : |A.mul 3 A.pi - 3 * A.pi| ≤ 2.2e-15 := by
    refine (h.mul 3 A.pi).trans ?_
    have : |3 * A.pi| ≤ 9.5 := by rw [abs_le]; constructor <;> linarith
    have := mul_le_mul hu this (abs_nonneg _) (by norm_num)
    linarith
  have m1' := abs_le.mp m1
  have m2 : |A.div (A.mul 3 A.pi) 2 - A.mul 3 A.pi / 2| ≤ 1.1e-15 := by
    refine (h.div _ 2 (by norm_num)).trans ?_
    have : |A.mul 3 A.pi / 2| ≤ 4.75 := by rw [abs_le]; constructor <;> linarith
    have := mul_le_mul hu this (abs_nonneg _) (by norm_num)
    linarith
  have m2' := abs_le.mp m2
  have hb' := abs_le.mp hb
  have hz' := abs_le.mp hz
  have m3 : |A.sub (A.div (A.mul 3 A.pi) 2) z - (A.div (A.mul 3 A.pi) 2 - z)| ≤ 3.4e-15 := by
    refine (h.sub _ z).trans ?_
    have : |A.div (A.mul 3 A.pi) 2 - z| ≤ 14.3 := by rw [abs_le]; constructor <;> linarith
    have := mul_le_mul hu this (abs_nonneg _) (by norm_num)
    linarith
  have m3' := abs_le.mp m3
  have hy : |A.sub (A.div (A.mul 3 A.pi) 2) z - (3 * π / 2 - φ - m * (2 * π))| ≤ 2e-14 := by
    rw [abs_le]; constructor <;> linarith
  have s : sin (3 * π / 2 - φ - m * (2 * π)) = -cos φ := by
    rw [sin_sub_int_mul_two_pi, show 3 * π / 2 - φ = π / 2 - φ + π by ring, sin_add_pi, sin_pi_div_two_sub]
  have c : cos (3 * π / 2 - φ - m * (2 * π)) = -sin φ := by
    rw [cos_sub_int_mul_two_pi, show 3 * π / 2 - φ = π / 2 - φ + π by ring, cos_add_pi, cos_pi_div_two_sub]
  exact ⟨s ▸ (abs_sin_sub_le _ _).trans hy, c ▸ (abs_cos_sub_le _ _).trans hy⟩

/-- the axis of the view from its polar angle and its azimuth -/
theorem axis_of_angles {A : Arith} (h : A.Ok) {acos : ℝ → ℝ} {p : V3} {θ φ : ℝ} (hp : ¬ allClose p ⟨0, 0, 1⟩)
    (hn : ¬ allClose p ⟨0, 0, -1⟩) (h0 : |φ| ≤ π) (hφ : |phiF A acos p - φ| ≤ 3e-15)
    (hθ : |polF A acos p - θ| ≤ 5e-15) :
    Near (axisF A acos p) ⟨sin θ * cos φ, sin θ * sin φ, cos θ⟩ 1e-13 := by
  obtain ⟨m, a1, a2⟩ := azi_near h h0 hφ
  obtain ⟨s1, c1⟩ := yaw_near h a1 a2
  unfold axisF rotF
  simp only [hp, hn, decide_false]
  set y := A.sub (A.div (A.mul 3 A.pi) 2) (aziF A acos p)
  obtain ⟨o1, o2⟩ := rotations_near h false false y (-polF A acos p)
  have n1 := v2w_near h (va := 0) (cf := 0) o1 o2
  have n2 := axis_angles h y (-polF A acos p)
  refine ((n1.trans n2).trans (f := 5e-14) ?_).mono (by norm_num)
  have sp := (abs_sin_sub_le (polF A acos p) θ).trans hθ
  have cp := (abs_cos_sub_le (polF A acos p) θ).trans hθ
  rw [sin_neg, cos_neg]
  have k : ∀ a a' b b' : ℝ, |a - -a'| ≤ 2e-14 → |b - b'| ≤ 5e-15 → |a'| ≤ 1 → |b'| ≤ 1 → |a * -b - b' * a'| ≤ 5e-14 := by
    intro a a' b b' ha hb ha' hb'
    rw [show a * -b - b' * a' = -((a - -a') * (b - b')) + -((a - -a') * b') + a' * (b - b') by ring]
    have c1 := abs_mul_le ha hb
    have c2 := abs_mul_le ha hb'
    have c3 := abs_mul_le ha' hb
    have := abs_add_three (-((a - -a') * (b - b'))) (-((a - -a') * b')) (a' * (b - b'))
    rw [abs_neg, abs_neg] at this
    linarith
  exact ⟨k _ _ _ _ s1 sp (abs_cos_le_one φ) (abs_sin_le_one θ), k _ _ _ _ c1 sp (abs_sin_le_one φ) (abs_sin_le_one θ),
    cp.trans (by norm_num)⟩

/-- the vector that is turned by the setter of `dxyz`: normalised by the setter and again by `rmtx_yp` -/
theorem setter_dir {A : Arith} (h : A.Ok) {v p : V3} (h0 : v ≠ ⟨0, 0, 0⟩) (hp : normF A (norm1F A v) = some p) :
    Near p (dir v) 2e-14 ∧ |len2 p - 1| ≤ 1e-14 := by
  obtain ⟨g, ag, eg⟩ := nrmR h v
  have hn : nrm A v ≠ 0 := by rw [eg]; exact (mul_pos (len_pos h0) (near_pos ag (by norm_num))).ne'
  have e1 : normF A v = some (norm1F A v) := by unfold normF norm1F; rw [if_neg hn, if_neg hn]
  set d := norm1F A v
  obtain ⟨n1, l1⟩ := norm_dir h h0 e1
  have l1' := abs_le.mp l1
  have d0 : d ≠ ⟨0, 0, 0⟩ := by
    intro hd
    rw [hd] at l1'
    unfold len2 at l1'
    norm_num at l1'
  obtain ⟨n2, l2⟩ := norm_dir h d0 hp
  refine ⟨?_, l2⟩
  have n3 : Near (dir d) d 1.6e-14 := by
    have hl := len_pos d0
    unfold len2 at l1'
    unfold dir
    have hs : √(d.x ^ 2 + d.y ^ 2 + d.z ^ 2) ^ 2 = d.x ^ 2 + d.y ^ 2 + d.z ^ 2 := sq_sqrt (by positivity)
    have hu := unit_of_len hl
    set T := √(d.x ^ 2 + d.y ^ 2 + d.z ^ 2)
    have hT : |T - 1| ≤ 1e-14 := by
      rw [abs_le]
      constructor <;> nlinarith
    have k : ∀ t : ℝ, (t / T) ^ 2 ≤ 1 → |t / T - t| ≤ 1.6e-14 := fun t ht => by
      have h1 : |t / T| ≤ 1 := abs_le_of_sq_le_sq (by linarith) (by norm_num)
      have h2 : t / T - t = t / T * -(T - 1) := by field_simp; ring
      rw [h2]
      have := abs_mul_le h1 ((abs_neg (T - 1)).le.trans hT)
      linarith
    have q1 := sq_nonneg (d.x / T)
    have q2 := sq_nonneg (d.y / T)
    have q3 := sq_nonneg (d.z / T)
    exact ⟨k _ (by linarith), k _ (by linarith), k _ (by linarith)⟩
  exact ((n2.trans n3).trans n1).mono (by norm_num)

/-- the sine of the polar angle and the distance from the vertical -/
theorem sin_hyp {p : V3} (hl : |len2 p - 1| ≤ 1e-14) (h0 : -1 ≤ p.z) (h1 : p.z ≤ 1) :
    |sin (arccos p.z) - √(p.x ^ 2 + p.y ^ 2)| ≤ 1e-7 ∧
    ∀ ρ, 0 < ρ → ρ ≤ √(p.x ^ 2 + p.y ^ 2) → |sin (arccos p.z) - √(p.x ^ 2 + p.y ^ 2)| ≤ 1e-14 / ρ := by
  rw [sin_arccos]
  have hz : 0 ≤ 1 - p.z ^ 2 := by nlinarith
  have hr := sqrt_nonneg (p.x ^ 2 + p.y ^ 2)
  have hr2 : √(p.x ^ 2 + p.y ^ 2) ^ 2 = p.x ^ 2 + p.y ^ 2 := sq_sqrt (by positivity)
  have hd : |1 - p.z ^ 2 - √(p.x ^ 2 + p.y ^ 2) ^ 2| ≤ 1e-14 := by
    rw [hr2, ← abs_neg]
    convert hl using 2
    unfold len2
    ring
  constructor
  · refine (abs_sqrt_sub_le hz hr).trans ?_
    rw [sqrt_le_left (by norm_num)]
    refine hd.trans (by norm_num)
  · intro ρ p0 hρ
    have hs := sqrt_nonneg (1 - p.z ^ 2)
    rw [le_div_iff₀ p0]
    have e : 1 - p.z ^ 2 - √(p.x ^ 2 + p.y ^ 2) ^ 2 =
        (√(1 - p.z ^ 2) - √(p.x ^ 2 + p.y ^ 2)) * (√(1 - p.z ^ 2) + √(p.x ^ 2 + p.y ^ 2)) := by
      linear_combination (-1) * sq_sqrt hz
    rw [e, abs_mul, abs_of_nonneg (by positivity : 0 ≤ √(1 - p.z ^ 2) + √(p.x ^ 2 + p.y ^ 2))] at hd
    refine le_trans ?_ hd
    exact mul_le_mul_of_nonneg_left (by linarith) (abs_nonneg _)

theorem arctan2_cos_sin (x y : ℝ) :
    √(x ^ 2 + y ^ 2) * cos (arctan2 y x) = x ∧ √(x ^ 2 + y ^ 2) * sin (arctan2 y x) = y := by
  have hn : ‖(⟨x, y⟩ : ℂ)‖ = √(x ^ 2 + y ^ 2) := by
    rw [Complex.norm_def, Complex.normSq_mk]; congr 1; ring
  unfold arctan2
  rw [← hn]
  exact ⟨Complex.norm_mul_cos_arg _, Complex.norm_mul_sin_arg _⟩

/-- the usual branch of the azimuth -/
theorem axis_usual {A : Arith} (h : A.Ok) {acos : ℝ → ℝ} (hc : AcosOk A acos) (ha : AboveπOk A) {p : V3} {ε : ℝ}
    (h0 : -1 ≤ p.z) (h1 : p.z ≤ 1) (hz : arccos p.z ≤ π - 1e-9) (hp : ¬ allClose p ⟨0, 0, 1⟩)
    (hn : ¬ allClose p ⟨0, 0, -1⟩) (c1 : ¬ isclose (acos p.z) 0 1e-10) (c2 : ¬ isclose (acos p.z) A.pi 1e-10)
    (hε : |sin (arccos p.z) - √(p.x ^ 2 + p.y ^ 2)| ≤ ε) : Near (axisF A acos p) p (1e-13 + ε) := by
  obtain ⟨m1, m2⟩ := arctan2_mem p.y p.x
  have hm : |arctan2 p.y p.x| ≤ π := abs_le.mpr ⟨m1.le, m2⟩
  have hφ : |phiF A acos p - arctan2 p.y p.x| ≤ 3e-15 := by
    unfold phiF
    rw [if_neg c1, if_neg c2]
    refine (h.atan2 _ _).trans ?_
    have := h.small
    have := h.u0
    have := pi_lt_d2
    have := abs_nonneg (arctan2 p.y p.x)
    nlinarith
  refine (axis_of_angles h hp hn hm hφ (pol_near h hc ha h0 h1 hz)).trans ?_
  obtain ⟨e1, e2⟩ := arctan2_cos_sin p.x p.y
  set φ := arctan2 p.y p.x
  set r := √(p.x ^ 2 + p.y ^ 2)
  have ε0 : 0 ≤ ε := (abs_nonneg _).trans hε
  refine ⟨?_, ?_, ?_⟩
  · simp only
    rw [← e1, ← sub_mul]
    have := abs_mul_le hε (abs_cos_le_one φ)
    linarith
  · simp only
    rw [← e2, ← sub_mul]
    have := abs_mul_le hε (abs_sin_le_one φ)
    linarith
  · simp only
    rw [cos_arccos h0 h1, sub_self, abs_zero]
    exact ε0

/-- the branch of directions that are close to vertical, where the azimuth is pi -/
theorem axis_steep {A : Arith} (h : A.Ok) {acos : ℝ → ℝ} (hc : AcosOk A acos) (ha : AboveπOk A) {p : V3} {σ : ℝ}
    (h0 : -1 ≤ p.z) (h1 : p.z ≤ 1) (hz : arccos p.z ≤ π - 1e-9) (hp : ¬ allClose p ⟨0, 0, 1⟩)
    (hn : ¬ allClose p ⟨0, 0, -1⟩) (hl : |len2 p - 1| ≤ 1e-14)
    (c : isclose (acos p.z) 0 1e-10 ∨ isclose (acos p.z) A.pi 1e-10) (hσ : sin (arccos p.z) ≤ σ) :
    Near (axisF A acos p) p (1.1e-7 + 2 * σ) := by
  have hφ : |phiF A acos p - π| ≤ 3e-15 := by
    have : phiF A acos p = A.pi := by
      unfold phiF
      split_ifs with c1 c2
      · rfl
      · rfl
      · exact absurd c (by tauto)
    rw [this]
    exact (pi_near h).trans (by norm_num)
  have hm : |π| ≤ π := (abs_of_pos pi_pos).le
  refine ((axis_of_angles h hp hn hm hφ (pol_near h hc ha h0 h1 hz)).trans (f := 1e-7 + 2 * σ) ?_).mono (by linarith)
  have s0 := sin_nonneg_of_nonneg_of_le_pi (arccos_nonneg p.z) (arccos_le_pi p.z)
  have hr := abs_le.mp (sin_hyp hl h0 h1).1
  have bx : |p.x| ≤ √(p.x ^ 2 + p.y ^ 2) := abs_le_sqrt (by nlinarith [sq_nonneg p.y])
  have bY : |p.y| ≤ √(p.x ^ 2 + p.y ^ 2) := abs_le_sqrt (by nlinarith [sq_nonneg p.x])
  have bx' := abs_le.mp bx
  have bY' := abs_le.mp bY
  rw [cos_pi, sin_pi, cos_arccos h0 h1]
  refine ⟨?_, ?_, ?_⟩
  · rw [abs_le]; constructor <;> simp only <;> linarith
  · rw [abs_le]; constructor <;> simp only <;> linarith
  · simp only
    rw [sub_self, abs_zero]
    linarith

open Classical in
/-- straight up or straight down within the tolerance of the test -/
theorem axis_vertical {A : Arith} (h : A.Ok) {acos : ℝ → ℝ} {p : V3} (hl : |len2 p - 1| ≤ 1e-14)
    (c : allClose p ⟨0, 0, 1⟩ ∨ allClose p ⟨0, 0, -1⟩) : Near (axisF A acos p) p 2e-8 := by
  have hz : ∀ s : ℝ, s = 1 ∨ s = -1 → allClose p ⟨0, 0, s⟩ → Near ⟨0, 0, s⟩ p 1.1e-8 := by
    intro s hs hc
    obtain ⟨x, y, z⟩ := hc
    unfold isclose at x y z
    simp only [sub_zero, abs_zero, mul_zero, add_zero] at x y
    unfold len2 at hl
    have hl' := abs_le.mp hl
    have x' := abs_le.mp x
    have y' := abs_le.mp y
    have sx : p.x ^ 2 ≤ 1e-16 := by nlinarith
    have sy : p.y ^ 2 ≤ 1e-16 := by nlinarith
    refine ⟨?_, ?_, ?_⟩
    · simp only [zero_sub, abs_neg]; linarith
    · simp only [zero_sub, abs_neg]; linarith
    · simp only
      have z' := abs_le.mp z
      rcases hs with rfl | rfl
      · norm_num at z'
        rw [abs_le]; constructor <;> nlinarith [sq_nonneg p.x, sq_nonneg p.y]
      · norm_num at z'
        rw [abs_le]; constructor <;> nlinarith [sq_nonneg p.x, sq_nonneg p.y]
  unfold axisF rotF
  obtain ⟨o1, o2⟩ := rotations_near h (decide (allClose p ⟨0, 0, 1⟩)) (decide (allClose p ⟨0, 0, -1⟩))
    (A.sub (A.div (A.mul 3 A.pi) 2) (aziF A acos p)) (-polF A acos p)
  have n1 := v2w_near h (va := 0) (cf := 0) o1 o2
  refine (n1.trans (f := 1.1e-8) ?_).mono (by norm_num)
  by_cases hn : allClose p ⟨0, 0, -1⟩
  · have := hz (-1) (Or.inr rfl) hn
    convert this using 1
    simp [hn, M3.app, rmtxYp]
  · have hp := c.resolve_right hn
    have := hz 1 (Or.inl rfl) hp
    convert this using 1
    simp [hn, hp, M3.app, rmtxYp]

/-- polar angles of directions off straight down -/
theorem arccos_off {c δ : ℝ} (h0 : 0 ≤ δ) (h1 : -1 ≤ c) (h2 : c ≤ 1) (h : -1 + δ ^ 2 / 2 ≤ c) : arccos c ≤ π - δ := by
  by_contra hc
  push Not at hc
  have hb := arccos_le_pi c
  have := one_sub_sq_div_two_le_cos (x := π - arccos c)
  rw [cos_pi_sub, cos_arccos h1 h2] at this
  nlinarith

/-- the axis of every direction that is not too close to straight down -/
theorem axis_all {A : Arith} (h : A.Ok) {acos : ℝ → ℝ} (hc : AcosOk A acos) (ha : AboveπOk A) {p : V3}
    (hl : |len2 p - 1| ≤ 1e-14) (hz : |p.z| ≤ 1) (ho : -1 + 1e-16 ≤ p.z ∨ allClose p ⟨0, 0, -1⟩) :
    Near (axisF A acos p) p 9e-5 := by
  obtain ⟨h0, h1⟩ := abs_le.mp hz
  by_cases hv : allClose p ⟨0, 0, 1⟩ ∨ allClose p ⟨0, 0, -1⟩
  · exact (axis_vertical h hl hv).mono (by norm_num)
  push Not at hv
  have ho' := ho.resolve_right hv.2
  have hd : arccos p.z ≤ π - 1e-8 := arccos_off (by norm_num) h0 h1 (by norm_num at ho' ⊢; linarith)
  have hd' : arccos p.z ≤ π - 1e-9 := by linarith
  have k := abs_le.mp (acos_near h hc h0 h1).1
  have hp := abs_le.mp (pi_near h)
  have g2 := pi_lt_d2
  have g3 := pi_gt_three
  have a0 := arccos_nonneg p.z
  by_cases c1 : isclose (acos p.z) 0 1e-10
  · refine (axis_steep h hc ha h0 h1 hd' hv.1 hv.2 hl (Or.inl c1) (σ := 2e-10) ?_).mono (by norm_num)
    unfold isclose at c1
    have c1' := abs_le.mp c1
    norm_num at c1'
    exact (sin_le a0).trans (by linarith)
  by_cases c2 : isclose (acos p.z) A.pi 1e-10
  · refine (axis_steep h hc ha h0 h1 hd' hv.1 hv.2 hl (Or.inr c2) (σ := 4e-5) ?_).mono (by norm_num)
    unfold isclose at c2
    rw [abs_of_pos (by linarith : 0 < A.pi)] at c2
    have c2' := abs_le.mp c2
    rw [← sin_pi_sub]
    exact (sin_le (by linarith)).trans (by linarith)
  exact (axis_usual h hc ha h0 h1 hd' hv.1 hv.2 c1 c2 (sin_hyp hl h0 h1).1).mono (by norm_num)

/-- the axis of directions that are not within a hundredth of a degree of straight down -/
theorem axis_upper {A : Arith} (h : A.Ok) {acos : ℝ → ℝ} (hc : AcosOk A acos) (ha : AboveπOk A) {p : V3}
    (hl : |len2 p - 1| ≤ 1e-14) (hz : |p.z| ≤ 1) (ho : -1 + 1e-9 ≤ p.z) : Near (axisF A acos p) p 1.2e-7 := by
  obtain ⟨h0, h1⟩ := abs_le.mp hz
  by_cases hv : allClose p ⟨0, 0, 1⟩ ∨ allClose p ⟨0, 0, -1⟩
  · exact (axis_vertical h hl hv).mono (by norm_num)
  push Not at hv
  have hd : arccos p.z ≤ π - 4e-5 := arccos_off (by norm_num) h0 h1 (by norm_num at ho ⊢; linarith)
  have hd' : arccos p.z ≤ π - 1e-9 := by linarith
  have k := abs_le.mp (acos_near h hc h0 h1).1
  have hp := abs_le.mp (pi_near h)
  have g2 := pi_lt_d2
  have g3 := pi_gt_three
  have a0 := arccos_nonneg p.z
  by_cases c1 : isclose (acos p.z) 0 1e-10
  · refine (axis_steep h hc ha h0 h1 hd' hv.1 hv.2 hl (Or.inl c1) (σ := 2e-10) ?_).mono (by norm_num)
    unfold isclose at c1
    have c1' := abs_le.mp c1
    norm_num at c1'
    exact (sin_le a0).trans (by linarith)
  have c2 : ¬ isclose (acos p.z) A.pi 1e-10 := by
    intro c2
    unfold isclose at c2
    rw [abs_of_pos (by linarith : 0 < A.pi)] at c2
    have c2' := abs_le.mp c2
    linarith
  exact (axis_usual h hc ha h0 h1 hd' hv.1 hv.2 c1 c2 (sin_hyp hl h0 h1).1).mono (by norm_num)

/-- the axis of directions off the vertical -/
theorem axis_sharp {A : Arith} (h : A.Ok) {acos : ℝ → ℝ} (hc : AcosOk A acos) (ha : AboveπOk A) {p : V3}
    (hl : |len2 p - 1| ≤ 1e-14) (hz : |p.z| ≤ 1) (ho : 1e-3 ≤ √(p.x ^ 2 + p.y ^ 2)) :
    Near (axisF A acos p) p 1.02e-11 := by
  obtain ⟨h0, h1⟩ := abs_le.mp hz
  obtain ⟨s1, s2⟩ := sin_hyp hl h0 h1
  have s1' := abs_le.mp s1
  have a0 := arccos_nonneg p.z
  have a1 := arccos_le_pi p.z
  have b1 : sin (arccos p.z) ≤ arccos p.z := sin_le a0
  have b2 : sin (arccos p.z) ≤ π - arccos p.z := by rw [← sin_pi_sub]; exact sin_le (by linarith)
  have hv : ∀ s, ¬ allClose p ⟨0, 0, s⟩ := by
    rintro s ⟨x, y, _⟩
    unfold isclose at x y
    simp only [sub_zero, abs_zero, mul_zero, add_zero] at x y
    have x' := abs_le.mp x
    have y' := abs_le.mp y
    have : √(p.x ^ 2 + p.y ^ 2) ≤ 1e-7 := by
      rw [sqrt_le_left (by norm_num)]
      norm_num at x' y' ⊢
      nlinarith
    linarith
  have k := abs_le.mp (acos_near h hc h0 h1).1
  have hp := abs_le.mp (pi_near h)
  have g2 := pi_lt_d2
  have g3 := pi_gt_three
  have c1 : ¬ isclose (acos p.z) 0 1e-10 := by
    intro c1
    unfold isclose at c1
    have c1' := abs_le.mp c1
    norm_num at c1'
    linarith
  have c2 : ¬ isclose (acos p.z) A.pi 1e-10 := by
    intro c2
    unfold isclose at c2
    rw [abs_of_pos (by linarith : 0 < A.pi)] at c2
    have c2' := abs_le.mp c2
    linarith
  exact (axis_usual h hc ha h0 h1 (by linarith) (hv 1) (hv (-1)) c1 c2 (s2 1e-3 (by norm_num) ho)).mono (by norm_num)

/-- **C209** the direction in the centre of a view is the view direction that was set, to 1e-4, for every direction that
is at least 4e-7 rad off straight down, in rounded arithmetic -/
theorem C209_axis_partial {A : Arith} (h : A.Ok) {acos : ℝ → ℝ} (hc : AcosOk A acos) (ha : AboveπOk A) {v p : V3}
    (h0 : v ≠ ⟨0, 0, 0⟩) (hp : normF A (norm1F A v) = some p) (hz : |p.z| ≤ 1) (ho : -1 + 5e-14 ≤ (dir v).z) :
    Near (axisF A acos p) (dir v) 1e-4 := by
  obtain ⟨n, l⟩ := setter_dir h h0 hp
  have n' := abs_le.mp n.2.2
  exact ((axis_all h hc ha l hz (Or.inl (by norm_num at ho n' ⊢; linarith))).trans n).mono (by norm_num)

/-- **C209** and to 2e-7 outside the cone of a hundredth of a degree around straight down -/
theorem C209_upper_partial {A : Arith} (h : A.Ok) {acos : ℝ → ℝ} (hc : AcosOk A acos) (ha : AboveπOk A) {v p : V3}
    (h0 : v ≠ ⟨0, 0, 0⟩) (hp : normF A (norm1F A v) = some p) (hz : |p.z| ≤ 1) (ho : -1 + 1.1e-9 ≤ (dir v).z) :
    Near (axisF A acos p) (dir v) 2e-7 := by
  obtain ⟨n, l⟩ := setter_dir h h0 hp
  have n' := abs_le.mp n.2.2
  exact ((axis_upper h hc ha l hz (by norm_num at ho n' ⊢; linarith)).trans n).mono (by norm_num)

/-- **C209** and to 2e-11 for directions a fifteenth of a degree off the vertical -/
theorem C209_sharp_partial {A : Arith} (h : A.Ok) {acos : ℝ → ℝ} (hc : AcosOk A acos) (ha : AboveπOk A) {v p : V3}
    (h0 : v ≠ ⟨0, 0, 0⟩) (hp : normF A (norm1F A v) = some p) (hz : |p.z| ≤ 1)
    (ho : 1.1e-3 ≤ √((dir v).x ^ 2 + (dir v).y ^ 2)) : Near (axisF A acos p) (dir v) 2e-11 := by
  obtain ⟨n, l⟩ := setter_dir h h0 hp
  refine ((axis_sharp h hc ha l hz ?_).trans n).mono (by norm_num)
  have hx := abs_le.mp n.1
  have hy := abs_le.mp n.2.1
  have hu : (dir v).x ^ 2 + (dir v).y ^ 2 ≤ 1 := by
    have := unit_of_len (len_pos h0)
    have := sq_nonneg (v.z / √(v.x ^ 2 + v.y ^ 2 + v.z ^ 2))
    unfold dir
    simp only
    linarith
  have hq : (1.1e-3 : ℝ) ^ 2 ≤ (dir v).x ^ 2 + (dir v).y ^ 2 := (le_sqrt' (by norm_num)).mp ho
  have ax : |(dir v).x| ≤ 1 := abs_le_of_sq_le_sq (by nlinarith [sq_nonneg (dir v).y]) (by norm_num)
  have ay : |(dir v).y| ≤ 1 := abs_le_of_sq_le_sq (by nlinarith [sq_nonneg (dir v).x]) (by norm_num)
  have k : ∀ a b : ℝ, |a - b| ≤ 2e-14 → |b| ≤ 1 → b ^ 2 - 1e-13 ≤ a ^ 2 := by
    intro a b hab hb
    have := abs_mul_le hb hab
    have := (abs_le.mp this).1
    nlinarith [sq_nonneg (a - b)]
  have kx := k _ _ n.1 ax
  have ky := k _ _ n.2.1 ay
  apply le_sqrt_of_sq_le
  norm_num at hq kx ky ⊢
  linarith

/-- what is rounded is a double -/
theorem isDouble_rnd (x : ℝ) : IsDouble (rnd x) := by
  rcases eq_or_ne x 0 with rfl | hx
  · rw [rnd_zero]; exact isDouble_zero
  obtain ⟨a, b⟩ := log_bounds (abs_pos.mpr hx)
  have hu := ulp_pos x
  have hq : |x / ulp x| ≤ ((2 ^ 53 : ℤ) : ℝ) := by
    rw [abs_div, abs_of_pos hu, div_le_iff₀ hu]
    refine b.le.trans (le_of_eq ?_)
    unfold ulp
    rw [show Int.log 2 |x| + 1 = 53 + (Int.log 2 |x| - 52) by ring, zpow_add₀ two_ne_zero]
    norm_num
  obtain ⟨q1, q2⟩ := abs_le.mp hq
  have c2 : rne (x / ulp x) ≤ 2 ^ 53 := by rw [← rne_int (2 ^ 53)]; exact rne_mono q2
  have c1 : -(2 ^ 53) ≤ rne (x / ulp x) := by
    rw [← rne_int (-(2 ^ 53))]
    apply rne_mono
    push_cast at q1 ⊢
    exact q1
  rcases (abs_le.mpr ⟨c1, c2⟩).lt_or_eq with h | h
  · exact ⟨_, Int.log 2 |x| - 52, h, rfl⟩
  · have e : (2 : ℝ) ^ (Int.log 2 |x| + 1) = 2 ^ 53 * 2 ^ (Int.log 2 |x| - 52) := by
      rw [show Int.log 2 |x| + 1 = 53 + (Int.log 2 |x| - 52) by ring, zpow_add₀ two_ne_zero]; norm_num
    rcases (abs_eq (by norm_num)).mp h with h | h
    · refine ⟨1, Int.log 2 |x| + 1, by norm_num, ?_⟩
      unfold rnd
      rw [h, e]
      unfold ulp
      push_cast
      ring
    · refine ⟨-1, Int.log 2 |x| + 1, by norm_num, ?_⟩
      unfold rnd
      rw [h, e]
      unfold ulp
      push_cast
      ring

/-- the double after -1 -/
theorem double_after {z : ℝ} (h : IsDouble z) (hz : -1 < z) : -1 + 1e-16 ≤ z := by
  obtain ⟨k, e, hk, rfl⟩ := h
  by_contra hc
  push Not at hc
  have he : -53 ≤ e := by
    by_contra he
    push Not at he
    have h1 : (2 : ℝ) ^ e ≤ 2 ^ (-54 : ℤ) := zpow_le_zpow_right₀ (by norm_num) (by omega)
    have h0 : (0 : ℝ) < 2 ^ e := by positivity
    have hk' : |(k : ℝ)| ≤ 2 ^ 53 := by exact_mod_cast hk.le
    have := abs_mul_le hk' ((abs_of_pos h0).le.trans h1)
    have := (abs_le.mp this).1
    norm_num at this hc
    linarith
  obtain ⟨d, hd⟩ : ∃ d : ℕ, e + 53 = d := ⟨(e + 53).toNat, by omega⟩
  have e1 : (k : ℝ) * 2 ^ e * 2 ^ 53 = ((k * 2 ^ d : ℤ) : ℝ) := by
    push_cast
    rw [mul_assoc, ← zpow_natCast (2 : ℝ) d, ← hd, zpow_add₀ two_ne_zero]
    norm_num
  have h1 : ((-(2 ^ 53) : ℤ) : ℝ) < ((k * 2 ^ d : ℤ) : ℝ) := by
    rw [← e1]; push_cast; nlinarith
  have h2 : -(2 ^ 53) + 1 ≤ k * 2 ^ d := by exact_mod_cast h1
  have h3 : ((-(2 ^ 53) + 1 : ℤ) : ℝ) ≤ ((k * 2 ^ d : ℤ) : ℝ) := by exact_mod_cast h2
  rw [← e1] at h3
  push_cast at h3
  norm_num at h3 hc
  linarith

theorem binary64_above : AboveπOk binary64 := by
  intro a h0
  show rnd π ≤ rnd (a + rnd π)
  have hp := rnd_nonneg pi_pos.le
  calc rnd π = rnd (rnd π) := (rnd_idem π pi_pos.le).symm
    _ ≤ _ := rnd_mono hp (by linarith)

theorem norm1_double {v : V3} : IsDouble3 (norm1F binary64 v) := by
  unfold norm1F
  split_ifs
  · exact ⟨isDouble_rnd _, isDouble_rnd _, isDouble_rnd _⟩
  · exact ⟨isDouble_rnd _, isDouble_rnd _, isDouble_rnd _⟩

/-- **C209** in the arithmetic of doubles the axis is the view direction to 1e-4 for every vector, except
where the normalised vector has z = -1 and is not taken as straight down -/
theorem C209_binary64_partial {acos : ℝ → ℝ} (hc : AcosOk binary64 acos) {v : V3} (h0 : v ≠ ⟨0, 0, 0⟩) :
    ∃ p, normF binary64 (norm1F binary64 v) = some p ∧ Near p (dir v) 2e-14 ∧
      (¬ (p.z = -1 ∧ ¬ allClose p ⟨0, 0, -1⟩) → Near (axisF binary64 acos p) (dir v) 1e-4) := by
  have hd0 : norm1F binary64 v ≠ ⟨0, 0, 0⟩ := by
    obtain ⟨g, ag, eg⟩ := nrmR binary64_ok v
    have hn : nrm binary64 v ≠ 0 := by rw [eg]; exact (mul_pos (len_pos h0) (near_pos ag (by norm_num))).ne'
    have e1 : normF binary64 v = some (norm1F binary64 v) := by unfold normF norm1F; rw [if_neg hn, if_neg hn]
    obtain ⟨_, l1⟩ := norm_dir binary64_ok h0 e1
    intro hd
    rw [hd] at l1
    unfold len2 at l1
    norm_num at l1
  obtain ⟨p, hp, _, _, hz⟩ := C167_norm norm1_double hd0
  obtain ⟨n, l⟩ := setter_dir binary64_ok h0 hp
  refine ⟨p, hp, n, fun hx => ?_⟩
  refine ((axis_all binary64_ok hc binary64_above l hz ?_).trans n).mono (by norm_num)
  by_cases hn : allClose p ⟨0, 0, -1⟩
  · exact Or.inr hn
  · have hzn : p.z ≠ -1 := fun h => hx ⟨h, hn⟩
    refine Or.inl (double_after ?_ (lt_of_le_of_ne (abs_le.mp hz).1 (Ne.symm hzn)))
    unfold normF at hp
    split_ifs at hp
    rw [← Option.some.inj hp]
    exact isDouble_rnd _

/-- **C209** in the exception the view is turned over: it looks straight up though the direction points down -/
theorem C209_reversed {acos : ℝ → ℝ} (hπ : acos (-1) = binary64.pi) {p : V3} (hz : p.z = -1)
    (hn : ¬ allClose p ⟨0, 0, -1⟩) : Near (axisF binary64 acos p) ⟨0, 0, 1⟩ 1e-13 := by
  have hp : ¬ allClose p ⟨0, 0, 1⟩ := by
    rintro ⟨_, _, z⟩
    unfold isclose at z
    rw [hz] at z
    norm_num at z
  have hpp := abs_le.mp (pi_near binary64_ok)
  have g3 := pi_gt_three
  have hpos : 0 < binary64.pi := by linarith
  have e2 : binary64.add binary64.pi binary64.pi = 2 * binary64.pi := by
    show rnd (rnd π + rnd π) = 2 * rnd π
    have := rnd_scale (rnd π) 1
    rw [rnd_idem π pi_pos.le, zpow_one] at this
    rw [show rnd π + rnd π = rnd π * 2 by ring, this]
    ring
  have hpol : polF binary64 acos p = 0 := by
    unfold polF modF
    rw [hz, hπ, e2, mul_div_assoc, div_self hpos.ne']
    norm_num
    ring
  have hφ : |phiF binary64 acos p - π| ≤ 3e-15 := by
    have : phiF binary64 acos p = binary64.pi := by
      unfold phiF
      rw [hz, hπ, if_pos (show isclose binary64.pi binary64.pi 1e-10 by unfold isclose; rw [sub_self, abs_zero]; positivity),
        ite_self]
    rw [this]
    exact (pi_near binary64_ok).trans (by norm_num)
  have := axis_of_angles binary64_ok (θ := 0) hp hn (abs_of_pos pi_pos).le hφ (by rw [hpol, sub_zero, abs_zero]; norm_num)
  simpa using this

/-- **C209** the property, in the arithmetic of doubles: the view looks into the half space of the direction that was
set -/
def C209_statement : Prop :=
  ∀ (acos : ℝ → ℝ) (v p : V3), AcosOk binary64 acos → acos (-1) = binary64.pi → IsDouble3 v → v ≠ ⟨0, 0, 0⟩ →
    normF binary64 (norm1F binary64 v) = some p → Near (axisF binary64 acos p) (dir v) 1

theorem acos_rnd : AcosOk binary64 (fun c => rnd (arccos c)) ∧ (fun c => rnd (arccos c)) (-1) = binary64.pi := by
  constructor
  · intro c _ _
    have h0 := arccos_nonneg c
    have := rnd_near (arccos c)
    rw [abs_of_nonneg h0] at this
    refine this.trans ?_
    show _ ≤ 4 * (2⁻¹ ^ 52 : ℝ) * arccos c
    exact mul_le_mul_of_nonneg_right (by norm_num) h0
  · show rnd (arccos (-1)) = rnd π
    rw [arccos_neg_one]

/-- the double vector (2 ^ -26, 0, -1) is its own normalised vector -/
theorem down_norm : nrm binary64 ⟨2 ^ (-26 : ℤ), 0, -1⟩ = 1 := by
  have r1 : rnd 1 = 1 := by simpa using rnd_whole (k := 1) (by norm_num)
  have e52 : rnd ((2 : ℝ) ^ (-26 : ℤ) * 2 ^ (-26 : ℤ)) = 2 ^ (-52 : ℤ) := by
    rw [← zpow_add₀ two_ne_zero]; exact rnd_pow _
  have e1 : rnd ((2 : ℝ) ^ (-52 : ℤ) + 1) = 2 ^ (-52 : ℤ) + 1 := by
    have := rnd_float (k := 2 ^ 52 + 1) (-52) (by norm_num)
    have e : ((2 ^ 52 + 1 : ℤ) : ℝ) * 2 ^ (-52 : ℤ) = 2 ^ (-52 : ℤ) + 1 := by norm_num
    rwa [e] at this
  have s : rnd √((2 : ℝ) ^ (-52 : ℤ) + 1) = 1 := by
    have h1 : 1 ≤ √((2 : ℝ) ^ (-52 : ℤ) + 1) := by
      apply le_sqrt_of_sq_le; norm_num
    have h2 : √((2 : ℝ) ^ (-52 : ℤ) + 1) < 1 + 2⁻¹ ^ 53 := by
      rw [sqrt_lt' (by norm_num)]; norm_num
    have := rnd_eq (x := √((2 : ℝ) ^ (-52 : ℤ) + 1)) 0 (2 ^ 52) (by rw [abs_of_pos (by linarith)]; simpa using h1)
      (by rw [abs_of_pos (by linarith)]; norm_num at h2 ⊢; linarith)
      (by
        generalize √((2 : ℝ) ^ (-52 : ℤ) + 1) = T at h1 h2
        norm_num at h2 ⊢
        rw [abs_lt]
        constructor <;> linarith)
    rw [this]
    norm_num
  have r52 : rnd ((2 : ℝ) ^ (-52 : ℤ)) = 2 ^ (-52 : ℤ) := rnd_pow _
  unfold nrm binary64
  simp only [mul_zero, rnd_zero, neg_mul_neg, mul_one, r1, add_zero, e52, r52, e1, s]

/-- **C209** is false: set to (2 ^ -26, 0, -1), almost straight down, the view looks straight up -/
theorem C209_refuted : ¬ C209_statement := by
  intro hs
  have e26 : rnd ((2 : ℝ) ^ (-26 : ℤ)) = 2 ^ (-26 : ℤ) := rnd_pow _
  have rm : rnd (-1) = -1 := by simpa using rnd_whole (k := -1) (by norm_num)
  have n := down_norm
  have e1 : norm1F binary64 ⟨2 ^ (-26 : ℤ), 0, -1⟩ = ⟨2 ^ (-26 : ℤ), 0, -1⟩ := by
    unfold norm1F
    rw [n, if_neg one_ne_zero]
    simp only [binary64, div_one, e26, rnd_zero, rm]
  have e2 : normF binary64 ⟨2 ^ (-26 : ℤ), 0, -1⟩ = some ⟨2 ^ (-26 : ℤ), 0, -1⟩ := by
    unfold normF
    rw [n, if_neg one_ne_zero]
    simp only [binary64, div_one, e26, rnd_zero, rm]
  have hn : ¬ allClose ⟨2 ^ (-26 : ℤ), 0, -1⟩ ⟨0, 0, -1⟩ := by
    rintro ⟨x, _, _⟩
    unfold isclose at x
    norm_num at x
  have hr := C209_reversed (acos := fun c => rnd (arccos c)) acos_rnd.2 (p := ⟨2 ^ (-26 : ℤ), 0, -1⟩) rfl hn
  have h0 : (⟨2 ^ (-26 : ℤ), 0, -1⟩ : V3) ≠ ⟨0, 0, 0⟩ := by simp
  have hh := hs (fun c => rnd (arccos c)) ⟨2 ^ (-26 : ℤ), 0, -1⟩ _ acos_rnd.1 acos_rnd.2
    ⟨⟨1, -26, by norm_num, by norm_num⟩, isDouble_zero, ⟨-1, 0, by norm_num, by norm_num⟩⟩ h0 (by rw [e1]; exact e2)
  have z1 := abs_le.mp hh.2.2
  have z2 := abs_le.mp hr.2.2
  obtain ⟨nd, _⟩ := norm_dir binary64_ok h0 e2
  have z3 := abs_le.mp nd.2.2
  simp only at z1 z2 z3
  generalize (dir ⟨2 ^ (-26 : ℤ), 0, -1⟩).z = a at z1 z3
  generalize (axisF binary64 (fun c => rnd (arccos c)) ⟨2 ^ (-26 : ℤ), 0, -1⟩).z = b at z1 z2
  linarith [z1.2, z2.1, z3.1]

/-- the hypotheses are met: the view along y, and a view that is the exception -/
example : IsDouble3 ⟨0, 2, 0⟩ ∧ (⟨0, 2, 0⟩ : V3) ≠ ⟨0, 0, 0⟩ ∧ (∃ acos, AcosOk binary64 acos ∧ acos (-1) = binary64.pi) ∧
    AboveπOk binary64 ∧ (∃ p, normF binary64 (norm1F binary64 ⟨0, 2, 0⟩) = some p ∧ |p.z| ≤ 1) ∧
    -1 + 1.1e-9 ≤ (dir ⟨0, 2, 0⟩).z ∧ 1.1e-3 ≤ √((dir ⟨0, 2, 0⟩).x ^ 2 + (dir ⟨0, 2, 0⟩).y ^ 2) ∧
    ¬ allClose ⟨2 ^ (-26 : ℤ), 0, -1⟩ ⟨0, 0, -1⟩ := by
  have e : dir ⟨0, 2, 0⟩ = ⟨0, 1, 0⟩ := by
    unfold dir
    have : √((0 : ℝ) ^ 2 + 2 ^ 2 + 0 ^ 2) = 2 := by
      rw [show ((0 : ℝ) ^ 2 + 2 ^ 2 + 0 ^ 2) = 2 ^ 2 by norm_num]; exact sqrt_sq (by norm_num)
    simp [this]
  refine ⟨⟨isDouble_zero, ⟨2, 0, by norm_num, by norm_num⟩, isDouble_zero⟩, by simp, ⟨_, acos_rnd⟩, binary64_above, ?_,
    by rw [e]; norm_num, by rw [e]; norm_num, ?_⟩
  · obtain ⟨p, hp, n, _⟩ := C209_binary64_partial acos_rnd.1 (v := ⟨0, 2, 0⟩) (by simp)
    refine ⟨p, hp, ?_⟩
    have := n.2.2
    rw [e] at this
    simp only [sub_zero] at this
    linarith
  · rintro ⟨x, _, _⟩
    unfold isclose at x
    norm_num at x

end Verif.Fp
