import Verif.Lemmas.SquareImage
import Verif.Lemmas.SquareLipschitz
import Mathlib.Analysis.Complex.Basic

/-! The other way: from the angular image to the square, distances grow by less than a factor 3 * sqrt 2. -/

namespace Verif.Geo
open Real

/-- distance from the centre of the square of a point drawn at distance `ρ` from the centre of the image -/
noncomputable def kap (ρ : ℝ) : ℝ := √2 * sin (π / 2 * ρ)

theorem kap_le {ρ : ℝ} (h : 0 ≤ ρ) : |kap ρ| ≤ √2 * (π / 2) * ρ := by
  unfold kap
  have hp := pi_pos
  rw [abs_mul, abs_of_nonneg (sqrt_nonneg 2), mul_assoc]
  have : |sin (π / 2 * ρ)| ≤ |π / 2 * ρ| := abs_sin_le_abs
  rw [abs_of_nonneg (show 0 ≤ π / 2 * ρ by positivity)] at this
  gcongr

theorem kap_lip (ρ ρ' : ℝ) : |kap ρ - kap ρ'| ≤ √2 * (π / 2) * |ρ - ρ'| := by
  unfold kap
  have hp := pi_pos
  rw [← mul_sub, abs_mul, abs_of_nonneg (sqrt_nonneg 2), mul_assoc]
  have := sin_lip (π / 2 * ρ) (π / 2 * ρ')
  rw [← mul_sub, abs_mul, abs_of_nonneg (show 0 ≤ π / 2 by positivity)] at this
  gcongr

/-- two points of one quarter -/
theorem sector_lip {f : ℝ → ℝ} (hf : ∀ s t, |f s - f t| ≤ |s - t|) (hb : ∀ s, |f s| ≤ 1) {ρ ρ' φ φ' : ℝ}
    (h0 : 0 ≤ ρ) (h0' : 0 ≤ ρ') (hφ : |φ - φ'| ≤ π / 2) :
    |kap ρ * f (4 * φ / π) - kap ρ' * f (4 * φ' / π)|
      ≤ √2 * (π / 2) * √3 * √((ρ * cos φ - ρ' * cos φ') ^ 2 + (ρ * sin φ - ρ' * sin φ') ^ 2) := by
  wlog hle : ρ ≤ ρ' generalizing ρ ρ' φ φ'
  · have := this h0' h0 (by rwa [abs_sub_comm]) (not_le.mp hle).le
    rw [abs_sub_comm]
    refine this.trans_eq ?_
    congr 2; ring
  have hp := pi_pos
  set δ := φ - φ' with hδ
  have e : kap ρ * f (4 * φ / π) - kap ρ' * f (4 * φ' / π) =
      kap ρ * (f (4 * φ / π) - f (4 * φ' / π)) + (kap ρ - kap ρ') * f (4 * φ' / π) := by ring
  have s1 : |f (4 * φ / π) - f (4 * φ' / π)| ≤ 4 / π * |δ| := by
    refine (hf _ _).trans_eq ?_
    rw [show 4 * φ / π - 4 * φ' / π = 4 / π * δ by rw [hδ]; ring, abs_mul, abs_of_pos (by positivity)]
  have s2 : |kap ρ * f (4 * φ / π) - kap ρ' * f (4 * φ' / π)| ≤ √2 * (π / 2) * (ρ * (4 / π * |δ|) + |ρ - ρ'|) := by
    rw [e]
    refine (abs_add_le _ _).trans ?_
    rw [abs_mul, abs_mul]
    have a1 : |kap ρ| * |f (4 * φ / π) - f (4 * φ' / π)| ≤ √2 * (π / 2) * ρ * (4 / π * |δ|) := by
      gcongr
      exact kap_le h0
    have a2 : |kap ρ - kap ρ'| * |f (4 * φ' / π)| ≤ √2 * (π / 2) * |ρ - ρ'| * 1 := by
      gcongr
      · exact kap_lip _ _
      · exact hb _
    linarith
  refine s2.trans ?_
  rw [mul_assoc (√2 * (π / 2))]
  have hc : 0 ≤ √2 * (π / 2) := by positivity
  refine mul_le_mul_of_nonneg_left ?_ hc
  -- the chord
  set X := 2 * ρ * sin (|δ| / 2) with hX
  have hd2 : sin (|δ| / 2) ^ 2 = sin (δ / 2) ^ 2 := by
    rcases abs_choice δ with h | h <;> rw [h]
    rw [neg_div, sin_neg, neg_sq]
  have chord : (ρ * cos φ - ρ' * cos φ') ^ 2 + (ρ * sin φ - ρ' * sin φ') ^ 2 = (ρ - ρ') ^ 2 + 4 * ρ * ρ' * sin (δ / 2) ^ 2 := by
    have h1 : cos δ = 1 - 2 * sin (δ / 2) ^ 2 := by
      have := cos_two_mul (δ / 2)
      rw [mul_div_cancel₀ _ (by norm_num : (2 : ℝ) ≠ 0)] at this
      rw [this, cos_sq']; ring
    have h2 : cos δ = cos φ * cos φ' + sin φ * sin φ' := cos_sub _ _
    have c1 := sin_sq_add_cos_sq φ
    have c2 := sin_sq_add_cos_sq φ'
    rw [h1] at h2
    linear_combination ρ ^ 2 * c1 + ρ' ^ 2 * c2 + 2 * ρ * ρ' * h2
  have hX2 : X ^ 2 ≤ 4 * ρ * ρ' * sin (δ / 2) ^ 2 := by
    rw [hX, mul_pow, hd2]
    have : ρ * ρ ≤ ρ * ρ' := by gcongr
    nlinarith [sq_nonneg (sin (δ / 2))]
  have hXl : ρ * (4 / π * |δ|) ≤ √2 * X := by
    have h2 : √2 * √2 = (2 : ℝ) := mul_self_sqrt (by norm_num)
    have k := Verif.Map.sin_ratio (w := |δ| / 2) (t := π / 4) (by positivity) (by linarith) (by positivity) (by linarith)
    rw [sin_pi_div_four] at k
    have k2 : 4 / π * |δ| ≤ 2 * (√2 * sin (|δ| / 2)) := by
      rw [div_mul_eq_mul_div, div_le_iff₀ hp]
      have : √2 * (|δ| / 2 * (√2 / 2)) ≤ √2 * (π / 4 * sin (|δ| / 2)) := by gcongr
      have e2 : √2 * (|δ| / 2 * (√2 / 2)) = |δ| / 2 := by linear_combination |δ| / 4 * h2
      linarith
    have : ρ * (4 / π * |δ|) ≤ ρ * (2 * (√2 * sin (|δ| / 2))) := by gcongr
    rw [hX]; linarith
  rw [chord, ← sqrt_mul (by norm_num)]
  apply le_sqrt_of_sq_le
  have h2 : √2 ^ 2 = (2 : ℝ) := sq_sqrt (by norm_num)
  have hle2 : (ρ * (4 / π * |δ|) + |ρ - ρ'|) ^ 2 ≤ (√2 * X + |ρ - ρ'|) ^ 2 := by gcongr
  have cs : (√2 * X + |ρ - ρ'|) ^ 2 ≤ 3 * ((ρ - ρ') ^ 2 + X ^ 2) := by
    have := sq_abs (ρ - ρ')
    nlinarith [sq_nonneg (√2 * |ρ - ρ'| - X)]
  linarith

/-- two halves of the plane -/
theorem glueC {f : ℂ → ℝ} {S : Set ℂ} (hS : Convex ℝ S) {L : ℝ} (α β : ℝ)
    (hpos : ∀ q ∈ S, ∀ q' ∈ S, 0 ≤ α * q.re + β * q.im → 0 ≤ α * q'.re + β * q'.im → |f q - f q'| ≤ L * dist q q')
    (hneg : ∀ q ∈ S, ∀ q' ∈ S, α * q.re + β * q.im ≤ 0 → α * q'.re + β * q'.im ≤ 0 → |f q - f q'| ≤ L * dist q q') :
    ∀ q ∈ S, ∀ q' ∈ S, |f q - f q'| ≤ L * dist q q' := by
  have main : ∀ q ∈ S, ∀ q' ∈ S, 0 < α * q.re + β * q.im → α * q'.re + β * q'.im < 0 → |f q - f q'| ≤ L * dist q q' := by
    intro q hq q' hq' h h'
    set s := α * q.re + β * q.im with hs
    set s' := α * q'.re + β * q'.im with hs'
    have hd : 0 < s - s' := by linarith
    set t := s / (s - s') with ht
    have t0 : 0 ≤ t := by positivity
    have t1 : t ≤ 1 := by rw [ht, div_le_one hd]; linarith
    have hm : AffineMap.lineMap q q' t ∈ S := hS.lineMap_mem hq hq' ⟨t0, t1⟩
    set m := AffineMap.lineMap q q' t with hmm
    have m0 : α * m.re + β * m.im = 0 := by
      have e1 : m.re = q.re + t * (q'.re - q.re) := by rw [hmm, AffineMap.lineMap_apply]; simp; ring
      have e2 : m.im = q.im + t * (q'.im - q.im) := by rw [hmm, AffineMap.lineMap_apply]; simp; ring
      rw [e1, e2]
      have : t * (s - s') = s := by rw [ht]; field_simp
      rw [hs, hs'] at this
      linear_combination -this
    have i1 := hpos q hq m hm h.le m0.ge
    have i2 := hneg m hm q' hq' m0.le h'.le
    have d1 : dist q m = t * dist q q' := by
      rw [hmm, dist_left_lineMap, Real.norm_of_nonneg t0]
    have d2 : dist m q' = (1 - t) * dist q q' := by
      rw [hmm, dist_lineMap_right, Real.norm_of_nonneg (by linarith)]
    rw [d1] at i1
    rw [d2] at i2
    have := abs_sub_le (f q) (f m) (f q')
    nlinarith
  intro q hq q' hq'
  rcases le_or_gt 0 (α * q.re + β * q.im) with h | h <;> rcases le_or_gt 0 (α * q'.re + β * q'.im) with h' | h'
  · exact hpos q hq q' hq' h h'
  · rcases h.eq_or_lt with h | h
    · exact hneg q hq q' hq' h.ge h'.le
    · exact main q hq q' hq' h h'
  · rcases h'.eq_or_lt with h' | h'
    · exact hneg q hq q' hq' h.le h'.ge
    · rw [abs_sub_comm, dist_comm]; exact main q' hq' q hq h' h
  · exact hneg q hq q' hq' h.le h'.le

/-- the point of the square drawn at a point of the image (relative to its centre) -/
noncomputable def unimg (z : ℂ) : ℝ × ℝ := disk2sq (kap ‖z‖ / ‖z‖ * z.re) (kap ‖z‖ / ‖z‖ * z.im)

/-- the four rays between the quarters belong to both -/
theorem unimg_polar {ρ φ : ℝ} (h0 : 0 ≤ ρ) (h1 : ρ < 2) (hφ : -(π / 4) ≤ φ) (hφ' : φ ≤ 7 * (π / 4)) :
    unimg ⟨ρ * cos φ, ρ * sin φ⟩ = (kap ρ * sideA (4 * φ / π), kap ρ * sideB (4 * φ / π)) := by
  have hp := pi_pos
  have hn : ‖(⟨ρ * cos φ, ρ * sin φ⟩ : ℂ)‖ = ρ := by
    rw [Complex.norm_eq_sqrt_sq_add_sq]
    exact sqrt_polar h0 φ
  unfold unimg
  rw [hn]
  simp only
  rcases h0.eq_or_lt with rfl | h
  · have : kap 0 = 0 := by simp [kap]
    rw [this]; simp [disk2sq_zero]
  have hk : 0 < kap ρ := by
    unfold kap
    have : 0 < sin (π / 2 * ρ) := sin_pos_of_pos_of_lt_pi (by positivity) (by nlinarith)
    positivity
  have e1 : kap ρ / ρ * (ρ * cos φ) = kap ρ * cos φ := by field_simp
  have e2 : kap ρ / ρ * (ρ * sin φ) = kap ρ * sin φ := by field_simp
  rw [e1, e2]
  rcases hφ'.eq_or_lt with rfl | hφ'
  · have c : cos (7 * (π / 4)) = cos (-(π / 4)) := by
      rw [show 7 * (π / 4) = -(π / 4) + 2 * π by ring, cos_add_two_pi]
    have s : sin (7 * (π / 4)) = sin (-(π / 4)) := by
      rw [show 7 * (π / 4) = -(π / 4) + 2 * π by ring, sin_add_two_pi]
    rw [c, s, disk2sq_polar hk (by linarith) (by linarith), if_neg (by linarith), add_zero, wedge_side _ le_rfl (by linarith)]
    rw [show 4 * -(π / 4) / π = -1 by field_simp, show 4 * (7 * (π / 4)) / π = 7 by field_simp]
    obtain ⟨a, b, c, d⟩ := side_ends
    rw [a, b, c, d]
  · rw [← wedge_side _ hφ hφ']
    rcases le_or_gt φ π with h3 | h3
    · rw [disk2sq_polar hk (by linarith) h3, if_neg (by linarith), add_zero]
    · rw [show cos φ = cos (φ - 2 * π) by rw [cos_sub_two_pi], show sin φ = sin (φ - 2 * π) by rw [sin_sub_two_pi],
        disk2sq_polar hk (by linarith) (by linarith), if_pos (by linarith)]
      congr 1; ring

/-- polar form in the right quarter -/
theorem polar_right {x y : ℝ} (h : |y| ≤ x) : ∃ ρ φ, 0 ≤ ρ ∧ -(π / 4) ≤ φ ∧ φ ≤ π / 4 ∧ x = ρ * cos φ ∧ y = ρ * sin φ := by
  have hp := pi_pos
  rcases ((abs_nonneg y).trans h).eq_or_lt with hx | hx
  · have : y = 0 := by rw [← hx] at h; exact abs_nonpos_iff.mp h
    exact ⟨0, 0, le_rfl, by linarith, by linarith, by rw [← hx]; ring, by rw [this]; ring⟩
  obtain ⟨y1, y2⟩ := abs_le.mp h
  have hs : 0 < √(1 + (y / x) ^ 2) := by positivity
  refine ⟨x * √(1 + (y / x) ^ 2), arctan (y / x), by positivity, ?_, ?_, ?_, ?_⟩
  · rw [← arctan_one, ← arctan_neg]
    exact arctan_mono (by rw [le_div_iff₀ hx]; linarith)
  · rw [← arctan_one]
    exact arctan_mono (by rw [div_le_iff₀ hx]; linarith)
  · rw [cos_arctan]; field_simp
  · rw [sin_arctan]; field_simp

theorem turn_quarter (t : ℝ) : cos (t + π / 2) = -sin t ∧ sin (t + π / 2) = cos t := ⟨cos_add_pi_div_two t, sin_add_pi_div_two t⟩

/-- two points of the image, with polar forms in one quarter -/
theorem unimg_sector {z z' : ℂ} {ρ ρ' φ φ' : ℝ} (h0 : 0 ≤ ρ) (h0' : 0 ≤ ρ') (h1 : ‖z‖ < 2) (h1' : ‖z'‖ < 2)
    (e1 : z.re = ρ * cos φ) (e2 : z.im = ρ * sin φ) (e1' : z'.re = ρ' * cos φ') (e2' : z'.im = ρ' * sin φ')
    (a : -(π / 4) ≤ φ) (b : φ ≤ 7 * (π / 4)) (a' : -(π / 4) ≤ φ') (b' : φ' ≤ 7 * (π / 4)) (hφ : |φ - φ'| ≤ π / 2) :
    |(unimg z).1 - (unimg z').1| ≤ √2 * (π / 2) * √3 * dist z z' ∧ |(unimg z).2 - (unimg z').2| ≤ √2 * (π / 2) * √3 * dist z z' := by
  have hz : z = ⟨ρ * cos φ, ρ * sin φ⟩ := Complex.ext e1 e2
  have hz' : z' = ⟨ρ' * cos φ', ρ' * sin φ'⟩ := Complex.ext e1' e2'
  have hn : ‖z‖ = ρ := by
    rw [hz, Complex.norm_eq_sqrt_sq_add_sq]
    exact sqrt_polar h0 φ
  have hn' : ‖z'‖ = ρ' := by
    rw [hz', Complex.norm_eq_sqrt_sq_add_sq]
    exact sqrt_polar h0' φ'
  have hd : dist z z' = √((ρ * cos φ - ρ' * cos φ') ^ 2 + (ρ * sin φ - ρ' * sin φ') ^ 2) := by
    rw [Complex.dist_eq_re_im, e1, e2, e1', e2']
  rw [hd, hz, hz', unimg_polar h0 (hn ▸ h1) a b, unimg_polar h0' (hn' ▸ h1') a' b']
  exact ⟨sector_lip sideA_lip sideA_le h0 h0' hφ, sector_lip sideB_lip sideB_le h0 h0' hφ⟩

/-- the disk -/
theorem disk_convex (α β : ℝ) : Convex ℝ {z : ℂ | ‖z‖ < 2 ∧ 0 ≤ α * z.re + β * z.im} := by
  rintro p ⟨p1, p2⟩ q ⟨q1, q2⟩ s t hs ht hst
  constructor
  · have := convex_ball (0 : ℂ) 2 (mem_ball_zero_iff.mpr p1) (mem_ball_zero_iff.mpr q1) hs ht hst
    exact mem_ball_zero_iff.mp this
  · simp only [Complex.add_re, Complex.add_im, Complex.real_smul, Complex.re_ofReal_mul, Complex.im_ofReal_mul]
    nlinarith

/-- from the image to the square without tearing -/
theorem unimg_lip (z : ℂ) (hz : ‖z‖ < 2) (z' : ℂ) (hz' : ‖z'‖ < 2) :
    |(unimg z).1 - (unimg z').1| ≤ √2 * (π / 2) * √3 * dist z z' ∧ |(unimg z).2 - (unimg z').2| ≤ √2 * (π / 2) * √3 * dist z z' := by
  have hp := pi_pos
  have near : ∀ {c x y : ℝ}, c - π / 4 ≤ x → x ≤ c + π / 4 → c - π / 4 ≤ y → y ≤ c + π / 4 → |x - y| ≤ π / 2 :=
    fun h1 h2 h3 h4 => abs_le.mpr ⟨by linarith, by linarith⟩
  have quarters : ∀ g : ℝ × ℝ → ℝ, (∀ z z' : ℂ, |(unimg z).1 - (unimg z').1| ≤ √2 * (π / 2) * √3 * dist z z' ∧
      |(unimg z).2 - (unimg z').2| ≤ √2 * (π / 2) * √3 * dist z z' → |g (unimg z) - g (unimg z')| ≤ √2 * (π / 2) * √3 * dist z z') →
      |g (unimg z) - g (unimg z')| ≤ √2 * (π / 2) * √3 * dist z z' := by
    intro g hg
    have right : ∀ q q' : ℂ, ‖q‖ < 2 → ‖q'‖ < 2 → |q.im| ≤ q.re → |q'.im| ≤ q'.re →
        |g (unimg q) - g (unimg q')| ≤ √2 * (π / 2) * √3 * dist q q' := by
      intro q q' hq hq' k k'
      obtain ⟨ρ, φ, r0, f1, f2, e1, e2⟩ := polar_right k
      obtain ⟨ρ', φ', r0', f1', f2', e1', e2'⟩ := polar_right k'
      exact hg q q' (unimg_sector r0 r0' hq hq' e1 e2 e1' e2' f1 (by linarith) f1' (by linarith)
        (near (c := 0) (by linarith) (by linarith) (by linarith) (by linarith)))
    have up : ∀ q q' : ℂ, ‖q‖ < 2 → ‖q'‖ < 2 → |-q.re| ≤ q.im → |-q'.re| ≤ q'.im →
        |g (unimg q) - g (unimg q')| ≤ √2 * (π / 2) * √3 * dist q q' := by
      intro q q' hq hq' k k'
      obtain ⟨ρ, φ, r0, f1, f2, e1, e2⟩ := polar_right k
      obtain ⟨ρ', φ', r0', f1', f2', e1', e2'⟩ := polar_right k'
      refine hg q q' (unimg_sector (φ := φ + π / 2) (φ' := φ' + π / 2) r0 r0' hq hq' ?_ ?_ ?_ ?_ (by linarith) (by linarith)
        (by linarith) (by linarith) (near (c := π / 2) (by linarith) (by linarith) (by linarith) (by linarith)))
      · rw [(turn_quarter _).1]; linarith
      · rw [(turn_quarter _).2]; exact e1
      · rw [(turn_quarter _).1]; linarith
      · rw [(turn_quarter _).2]; exact e1'
    have left : ∀ q q' : ℂ, ‖q‖ < 2 → ‖q'‖ < 2 → |-q.im| ≤ -q.re → |-q'.im| ≤ -q'.re →
        |g (unimg q) - g (unimg q')| ≤ √2 * (π / 2) * √3 * dist q q' := by
      intro q q' hq hq' k k'
      obtain ⟨ρ, φ, r0, f1, f2, e1, e2⟩ := polar_right k
      obtain ⟨ρ', φ', r0', f1', f2', e1', e2'⟩ := polar_right k'
      refine hg q q' (unimg_sector (φ := φ + π) (φ' := φ' + π) r0 r0' hq hq' ?_ ?_ ?_ ?_ (by linarith) (by linarith)
        (by linarith) (by linarith) (near (c := π) (by linarith) (by linarith) (by linarith) (by linarith)))
      · rw [cos_add_pi]; linarith
      · rw [sin_add_pi]; linarith
      · rw [cos_add_pi]; linarith
      · rw [sin_add_pi]; linarith
    have down : ∀ q q' : ℂ, ‖q‖ < 2 → ‖q'‖ < 2 → |q.re| ≤ -q.im → |q'.re| ≤ -q'.im →
        |g (unimg q) - g (unimg q')| ≤ √2 * (π / 2) * √3 * dist q q' := by
      intro q q' hq hq' k k'
      obtain ⟨ρ, φ, r0, f1, f2, e1, e2⟩ := polar_right k
      obtain ⟨ρ', φ', r0', f1', f2', e1', e2'⟩ := polar_right k'
      refine hg q q' (unimg_sector (φ := φ + π / 2 + π) (φ' := φ' + π / 2 + π) r0 r0' hq hq' ?_ ?_ ?_ ?_ (by linarith)
        (by linarith) (by linarith) (by linarith) (near (c := π / 2 + π) (by linarith) (by linarith) (by linarith) (by linarith)))
      · rw [cos_add_pi, (turn_quarter _).1]; linarith
      · rw [sin_add_pi, (turn_quarter _).2]; linarith
      · rw [cos_add_pi, (turn_quarter _).1]; linarith
      · rw [sin_add_pi, (turn_quarter _).2]; linarith
    have upperright := glueC (f := fun z => g (unimg z)) (disk_convex 1 1) (L := √2 * (π / 2) * √3) 1 (-1)
      (fun q hq q' hq' l l' => right q q' hq.1 hq'.1 (abs_le.mpr ⟨by linarith [hq.2], by linarith [hq.2]⟩)
        (abs_le.mpr ⟨by linarith [hq'.2], by linarith [hq'.2]⟩))
      (fun q hq q' hq' l l' => up q q' hq.1 hq'.1 (abs_le.mpr ⟨by linarith [hq.2], by linarith [hq.2]⟩)
        (abs_le.mpr ⟨by linarith [hq'.2], by linarith [hq'.2]⟩))
    have lowerleft := glueC (f := fun z => g (unimg z)) (disk_convex (-1) (-1)) (L := √2 * (π / 2) * √3) 1 (-1)
      (fun q hq q' hq' l l' => down q q' hq.1 hq'.1 (abs_le.mpr ⟨by linarith [hq.2], by linarith [hq.2]⟩)
        (abs_le.mpr ⟨by linarith [hq'.2], by linarith [hq'.2]⟩))
      (fun q hq q' hq' l l' => left q q' hq.1 hq'.1 (abs_le.mpr ⟨by linarith [hq.2], by linarith [hq.2]⟩)
        (abs_le.mpr ⟨by linarith [hq'.2], by linarith [hq'.2]⟩))
    exact glueC (f := fun z => g (unimg z)) (disk_convex 0 0) 1 1
      (fun q hq q' hq' l l' => upperright q ⟨hq.1, l⟩ q' ⟨hq'.1, l'⟩)
      (fun q hq q' hq' l l' => lowerleft q ⟨hq.1, by linarith⟩ q' ⟨hq'.1, by linarith⟩)
      z ⟨hz, by simp⟩ z' ⟨hz', by simp⟩
  exact ⟨quarters Prod.fst fun _ _ h => h.1, quarters Prod.snd fun _ _ h => h.2⟩

/-- the two maps undo each other -/
theorem unimg_img {q : ℝ × ℝ} (hq : q ∈ box) : unimg ⟨imgA q, imgB q⟩ = q := by
  have hp := pi_pos
  set r := sqR q.1 q.2 with hr
  have hr1 : r * r ≤ 1 := sqR_le (abs_le.mpr ⟨hq.1, hq.2.1⟩) (abs_le.mpr ⟨hq.2.2.1, hq.2.2.2⟩)
  have h2 : (0 : ℝ) < √2 := by positivity
  have hs : √2 * √2 = (2 : ℝ) := mul_self_sqrt (by norm_num)
  have habs : |r / √2| ≤ 1 := by
    rw [abs_le]
    constructor
    · rw [le_div_iff₀ h2]; nlinarith
    · rw [div_le_iff₀ h2]; nlinarith
  obtain ⟨l1, l2⟩ := abs_le.mp habs
  have hn : ‖(⟨imgA q, imgB q⟩ : ℂ)‖ = |rho r| := by
    rw [Complex.norm_eq_sqrt_sq_add_sq, ← sqrt_sq_eq_abs]
    congr 1
    unfold imgA imgB
    rw [← hr]
    have := sin_sq_add_cos_sq (sqPhi q.1 q.2)
    simp only
    linear_combination rho r ^ 2 * this
  have hk : kap |rho r| / |rho r| * rho r = r := by
    have hodd : kap |rho r| / |rho r| * rho r = kap (rho r) := by
      rcases eq_or_ne (rho r) 0 with h | h
      · rw [h]; simp [kap]
      rcases lt_or_gt_of_ne h with h | h
      · rw [abs_of_neg h]
        have : kap (-rho r) = -kap (rho r) := by unfold kap; rw [mul_neg, sin_neg, mul_neg]
        rw [this, neg_div_neg_eq]; field_simp
      · rw [abs_of_pos h]; field_simp
    rw [hodd]
    unfold kap rho
    rw [show π / 2 * (2 * arcsin (r / √2) / π) = arcsin (r / √2) by field_simp, sin_arcsin l1 l2]
    field_simp
  unfold unimg
  rw [hn]
  have e1 : kap |rho r| / |rho r| * imgA q = sqX q.1 q.2 := by
    unfold imgA sqX
    rw [← hr, ← mul_assoc, hk]; ring
  have e2 : kap |rho r| / |rho r| * imgB q = sqY q.1 q.2 := by
    unfold imgB sqY
    rw [← hr, ← mul_assoc, hk]; ring
  simp only
  rw [e1, e2, disk2sq_sq]

theorem unfactor_lt : √2 * (π / 2) * √3 * (√2 / 2) < 3 := by
  have hs : √2 * √2 = (2 : ℝ) := mul_self_sqrt (by norm_num)
  have h3 : √3 < (1.7321 : ℝ) := by rw [sqrt_lt' (by norm_num)]; norm_num
  have hp := pi_lt_d2
  have e : √2 * (π / 2) * √3 * (√2 / 2) = π / 2 * √3 := by linear_combination π / 4 * √3 * hs
  rw [e]
  have := pi_pos
  calc π / 2 * √3 ≤ 3.15 / 2 * 1.7321 := by gcongr
    _ < 3 := by norm_num

end Verif.Geo
