import Verif.Props.Project
import Mathlib.Analysis.Convex.Segment
import Mathlib.Topology.MetricSpace.Lipschitz
import Mathlib.Analysis.Normed.Affine.AddTorsor

/-! Where the angular image of a point of the square is: the map from the square to the angular image moves no two
points apart by more than a factor 3/2. -/

namespace Verif.Geo
open Real

/-- signed distance from the centre of the image of a point at distance `r` from the centre of the square -/
noncomputable def rho (r : ℝ) : ℝ := 2 * arcsin (r / √2) / π

/-- the angular image, relative to its centre, of a point of the centred square -/
noncomputable def imgA (q : ℝ × ℝ) : ℝ := rho (sqR q.1 q.2) * cos (sqPhi q.1 q.2)
noncomputable def imgB (q : ℝ × ℝ) : ℝ := rho (sqR q.1 q.2) * sin (sqPhi q.1 q.2)

theorem rho_zero : rho 0 = 0 := by simp [rho]

theorem rho_neg (r : ℝ) : rho (-r) = -rho r := by
  unfold rho; rw [neg_div, arcsin_neg]; ring

/-- the angle behind `rho` -/
theorem half_angle_mem {r : ℝ} (h0 : 0 ≤ r) (h1 : r ≤ 1) :
    0 ≤ arcsin (r / √2) ∧ arcsin (r / √2) ≤ π / 4 ∧ √2 * sin (arcsin (r / √2)) = r := by
  have h2 : (0 : ℝ) < √2 := by positivity
  have hs : √2 * √2 = (2 : ℝ) := mul_self_sqrt (by norm_num)
  have hle : r / √2 ≤ √2 / 2 := by rw [div_le_div_iff₀ h2 (by norm_num)]; linarith
  have h12 : √2 / 2 ≤ 1 := by nlinarith
  have hge : 0 ≤ r / √2 := by positivity
  refine ⟨arcsin_nonneg.mpr (by positivity), ?_, ?_⟩
  · rw [arcsin_le_iff_le_sin ⟨by linarith, by linarith⟩ ⟨by linarith [pi_pos], by linarith [pi_pos]⟩, sin_pi_div_four]
    exact hle
  · rw [sin_arcsin (by linarith) (by linarith), mul_div_cancel₀ _ h2.ne']

theorem rho_nonneg {r : ℝ} (h0 : 0 ≤ r) (h1 : r ≤ 1) : 0 ≤ rho r := by
  obtain ⟨a, -, -⟩ := half_angle_mem h0 h1
  unfold rho; have := pi_pos; positivity

/-- the image shrinks: a point at distance `r` is drawn within `r / 2` of the centre -/
theorem rho_le {r : ℝ} (h0 : 0 ≤ r) (h1 : r ≤ 1) : rho r ≤ r / 2 := by
  have hp := pi_pos
  obtain ⟨a, b, c⟩ := half_angle_mem h0 h1
  have := Verif.Map.sin_ratio a b (by linarith) (by linarith)
  rw [sin_pi_div_four] at this
  have hs : √2 * √2 = (2 : ℝ) := mul_self_sqrt (by norm_num)
  have h2 : (0 : ℝ) < √2 := by positivity
  unfold rho
  set α := arcsin (r / √2)
  rw [div_le_iff₀ hp, ← c]
  have : √2 * (α * (√2 / 2)) ≤ √2 * (π / 4 * sin α) := by gcongr
  have e : √2 * (α * (√2 / 2)) = α := by linear_combination α / 2 * hs
  linarith

theorem rho_lip {r r' : ℝ} (h0 : 0 ≤ r) (hr : r ≤ r') (h1 : r' ≤ 1) : |rho r - rho r'| ≤ 2 / π * (r' - r) := by
  have hp := pi_pos
  obtain ⟨a, b, c⟩ := half_angle_mem h0 (hr.trans h1)
  obtain ⟨a', b', c'⟩ := half_angle_mem (h0.trans hr) h1
  have hm : arcsin (r / √2) ≤ arcsin (r' / √2) := monotone_arcsin (by gcongr)
  unfold rho
  set α := arcsin (r / √2)
  set β := arcsin (r' / √2)
  have key : β - α ≤ r' - r := by
    rw [← c, ← c']
    have hs : √2 * √2 = (2 : ℝ) := mul_self_sqrt (by norm_num)
    have h2 : (0 : ℝ) < √2 := by positivity
    have k := (convex_Icc (0 : ℝ) (π / 4)).mul_sub_le_image_sub_of_le_deriv (f := sin) (C := √2 / 2)
      continuous_sin.continuousOn differentiable_sin.differentiableOn (fun x hx => by
        rw [interior_Icc] at hx
        rw [Real.deriv_sin, ← cos_pi_div_four]
        exact cos_le_cos_of_nonneg_of_le_pi hx.1.le (by linarith) hx.2.le) α ⟨a, b⟩ β ⟨a', b'⟩ hm
    have k2 : √2 * (√2 / 2 * (β - α)) ≤ √2 * (sin β - sin α) := by gcongr
    have e : √2 * (√2 / 2 * (β - α)) = β - α := by linear_combination (β - α) / 2 * hs
    linarith
  rw [abs_of_nonpos (by rw [sub_nonpos]; gcongr), neg_sub, ← sub_div, div_le_iff₀ hp]
  have : 2 / π * (r' - r) * π = 2 * (r' - r) := by field_simp
  rw [this]; linarith

/-- one quarter of the square -/
theorem quarter_lip {f : ℝ → ℝ} (hf : ∀ s t, |f s - f t| ≤ |s - t|) (hb : ∀ s, |f s| ≤ 1) {x y x' y' D : ℝ}
    (hx : x ≤ 1) (hx' : x' ≤ 1) (hy : |y| ≤ x) (hy' : |y'| ≤ x') (h1 : |x - x'| ≤ D) (h2 : |y - y'| ≤ D) :
    |rho x * f (π / 4 * (y / x)) - rho x' * f (π / 4 * (y' / x'))| ≤ (2 / π + π / 4) * D := by
  wlog hle : x ≤ x' generalizing x y x' y'
  · rw [abs_sub_comm]
    exact this hx' hx hy' hy (by rwa [abs_sub_comm]) (by rwa [abs_sub_comm]) (not_le.mp hle).le
  have hp := pi_pos
  have x0 : 0 ≤ x := (abs_nonneg y).trans hy
  have x0' : 0 ≤ x' := (abs_nonneg y').trans hy'
  have e : rho x * f (π / 4 * (y / x)) - rho x' * f (π / 4 * (y' / x')) =
      rho x * (f (π / 4 * (y / x)) - f (π / 4 * (y' / x'))) + (rho x - rho x') * f (π / 4 * (y' / x')) := by ring
  rw [e]
  refine (abs_add_le _ _).trans ?_
  rw [abs_mul, abs_mul]
  have a1 : |rho x - rho x'| * |f (π / 4 * (y' / x'))| ≤ 2 / π * D := by
    have h3 := rho_lip x0 hle hx'
    have h4 : x' - x ≤ D := by have := neg_abs_le (x - x'); linarith
    have h5 : 2 / π * (x' - x) ≤ 2 / π * D := by gcongr
    calc |rho x - rho x'| * |f (π / 4 * (y' / x'))| ≤ |rho x - rho x'| * 1 := by gcongr; exact hb _
      _ ≤ 2 / π * D := by linarith
  have a2 : |rho x| * |f (π / 4 * (y / x)) - f (π / 4 * (y' / x'))| ≤ π / 4 * D := by
    rcases x0.eq_or_lt with h | h
    · rw [← h, rho_zero, abs_zero, zero_mul]
      have : 0 ≤ D := (abs_nonneg _).trans h1
      positivity
    have h' : 0 < x' := h.trans_le hle
    rw [abs_of_nonneg (rho_nonneg x0 hx)]
    have b1 : |f (π / 4 * (y / x)) - f (π / 4 * (y' / x'))| ≤ π / 4 * |y / x - y' / x'| := by
      refine (hf _ _).trans_eq ?_
      rw [← mul_sub, abs_mul, abs_of_pos (by positivity)]
    have b2 : x * |y / x - y' / x'| ≤ 2 * D := by
      have : x * |y / x - y' / x'| = |y - y' + y' / x' * (x' - x)| := by
        rw [← abs_of_pos h, ← abs_mul, abs_of_pos h]
        congr 1; field_simp; ring
      rw [this]
      refine (abs_add_le _ _).trans ?_
      have c : |y' / x'| ≤ 1 := by rw [abs_div, abs_of_pos h', div_le_one h']; exact hy'
      rw [abs_mul]
      have : |y' / x'| * |x' - x| ≤ 1 * |x' - x| := by gcongr
      rw [abs_sub_comm] at h1
      linarith
    have := rho_le x0 hx
    calc rho x * |f (π / 4 * (y / x)) - f (π / 4 * (y' / x'))|
        ≤ x / 2 * (π / 4 * |y / x - y' / x'|) := by gcongr
      _ = π / 8 * (x * |y / x - y' / x'|) := by ring
      _ ≤ π / 8 * (2 * D) := by gcongr
      _ = π / 4 * D := by ring
  linarith

/-- two halves of a convex set -/
theorem glue {f : ℝ × ℝ → ℝ} {S : Set (ℝ × ℝ)} (hS : Convex ℝ S) {L : ℝ} (hL : 0 ≤ L) (α β : ℝ)
    (hpos : ∀ q ∈ S, ∀ q' ∈ S, 0 ≤ α * q.1 + β * q.2 → 0 ≤ α * q'.1 + β * q'.2 → |f q - f q'| ≤ L * dist q q')
    (hneg : ∀ q ∈ S, ∀ q' ∈ S, α * q.1 + β * q.2 ≤ 0 → α * q'.1 + β * q'.2 ≤ 0 → |f q - f q'| ≤ L * dist q q') :
    ∀ q ∈ S, ∀ q' ∈ S, |f q - f q'| ≤ L * dist q q' := by
  have main : ∀ q ∈ S, ∀ q' ∈ S, 0 < α * q.1 + β * q.2 → α * q'.1 + β * q'.2 < 0 → |f q - f q'| ≤ L * dist q q' := by
    intro q hq q' hq' h h'
    set s := α * q.1 + β * q.2 with hs
    set s' := α * q'.1 + β * q'.2 with hs'
    have hd : 0 < s - s' := by linarith
    set t := s / (s - s') with ht
    have t0 : 0 ≤ t := by positivity
    have t1 : t ≤ 1 := by rw [ht, div_le_one hd]; linarith
    have hm : AffineMap.lineMap q q' t ∈ S := hS.lineMap_mem hq hq' ⟨t0, t1⟩
    set m := AffineMap.lineMap q q' t with hmm
    have m0 : α * m.1 + β * m.2 = 0 := by
      have e1 : m.1 = q.1 + t * (q'.1 - q.1) := by rw [hmm, AffineMap.lineMap_apply]; simp; ring
      have e2 : m.2 = q.2 + t * (q'.2 - q.2) := by rw [hmm, AffineMap.lineMap_apply]; simp; ring
      rw [e1, e2]
      have : t * (s - s') = s := by rw [ht]; field_simp
      rw [hs, hs'] at this
      linear_combination -this
    have i1 := hpos q hq m hm h.le m0.ge
    have i2 := hneg m hm q' hq' m0.le h'.le
    have d1 : dist q m = t * dist q q' := by
      rw [hmm, dist_left_lineMap, Real.norm_of_nonneg t0]
    have d2 : dist m q' = (1 - t) * dist q q' := by
      rw [hmm, dist_lineMap_right, Real.norm_of_nonneg (by linarith)]
    rw [d1] at i1
    rw [d2] at i2
    have := abs_sub_le (f q) (f m) (f q')
    nlinarith
  intro q hq q' hq'
  rcases lt_trichotomy (α * q.1 + β * q.2) 0 with h | h | h <;> rcases lt_trichotomy (α * q'.1 + β * q'.2) 0 with h' | h' | h'
  · exact hneg q hq q' hq' h.le h'.le
  · exact hneg q hq q' hq' h.le h'.le
  · rw [abs_sub_comm, dist_comm]; exact main q' hq' q hq h' h
  · exact hneg q hq q' hq' h.le h'.le
  · exact hneg q hq q' hq' h.le h'.le
  · exact hpos q hq q' hq' h.ge h'.le
  · exact main q hq q' hq' h h'
  · exact hpos q hq q' hq' h.le h'.ge
  · exact hpos q hq q' hq' h.le h'.le

/-- left and right quarters -/
theorem img_horiz {a b : ℝ} (h : |b| ≤ |a|) :
    imgA (a, b) = rho a * cos (π / 4 * (b / a)) ∧ imgB (a, b) = rho a * sin (π / 4 * (b / a)) := by
  unfold imgA imgB sqR sqPhi
  simp only
  by_cases c : a * a > b * b
  · rw [if_pos c, if_pos c, show b / (2 * a) * π / 2 = π / 4 * (b / a) by ring]
    exact ⟨rfl, rfl⟩
  rw [if_neg c, if_neg c]
  have e : |a| = |b| := by
    refine le_antisymm ?_ h
    by_contra hc
    push Not at hc
    apply c
    rw [← abs_mul_abs_self a, ← abs_mul_abs_self b]
    nlinarith [abs_nonneg b]
  by_cases hb : b = 0
  · subst hb
    have : a = 0 := by simpa using e
    subst this
    simp [rho_zero]
  rw [if_neg hb, if_neg hb]
  rcases abs_eq_abs.mp e with rfl | rfl
  · rw [show (1 - a / (2 * a)) * π / 2 = π / 4 by field_simp; ring, show π / 4 * (a / a) = π / 4 by field_simp]
    exact ⟨rfl, rfl⟩
  · rw [show (1 - -b / (2 * b)) * π / 2 = 3 * π / 4 by field_simp; ring, show π / 4 * (b / -b) = -(π / 4) by field_simp,
      rho_neg, cos_neg, sin_neg, show 3 * π / 4 = π - π / 4 by ring, cos_pi_sub, sin_pi_sub]
    exact ⟨by ring, by ring⟩

/-- upper and lower quarters -/
theorem img_vert {a b : ℝ} (h : |a| ≤ |b|) :
    imgA (a, b) = rho b * sin (π / 4 * (a / b)) ∧ imgB (a, b) = rho b * cos (π / 4 * (a / b)) := by
  have c : ¬ a * a > b * b := by
    rw [← abs_mul_abs_self a, ← abs_mul_abs_self b]
    have := mul_self_le_mul_self (abs_nonneg a) h
    linarith
  unfold imgA imgB sqR sqPhi
  simp only
  rw [if_neg c, if_neg c]
  by_cases hb : b = 0
  · subst hb; simp [rho_zero]
  rw [if_neg hb, if_neg hb, show (1 - a / (2 * b)) * π / 2 = π / 2 - π / 4 * (a / b) by ring, cos_pi_div_two_sub,
    sin_pi_div_two_sub]
  exact ⟨rfl, rfl⟩

theorem cos_lip (s t : ℝ) : |cos s - cos t| ≤ |s - t| := by
  rw [cos_sub_cos, abs_mul, abs_mul, abs_neg, abs_two]
  have h1 : |sin ((s - t) / 2)| ≤ |(s - t) / 2| := abs_sin_le_abs
  rw [abs_div, abs_two] at h1
  nlinarith [abs_sin_le_one ((s + t) / 2), abs_nonneg (sin ((s - t) / 2)), abs_nonneg (sin ((s + t) / 2))]

theorem sin_lip (s t : ℝ) : |sin s - sin t| ≤ |s - t| := by
  rw [sin_sub_sin, abs_mul, abs_mul, abs_two]
  have h1 : |sin ((s - t) / 2)| ≤ |(s - t) / 2| := abs_sin_le_abs
  rw [abs_div, abs_two] at h1
  nlinarith [abs_cos_le_one ((s + t) / 2), abs_nonneg (sin ((s - t) / 2)), abs_nonneg (cos ((s + t) / 2))]

/-- the square -/
def box : Set (ℝ × ℝ) := {q | -1 ≤ q.1 ∧ q.1 ≤ 1 ∧ -1 ≤ q.2 ∧ q.2 ≤ 1}

theorem box_convex (α β : ℝ) : Convex ℝ {q : ℝ × ℝ | q ∈ box ∧ 0 ≤ α * q.1 + β * q.2} := by
  rintro p ⟨⟨p1, p2, p3, p4⟩, p5⟩ q ⟨⟨q1, q2, q3, q4⟩, q5⟩ s t hs ht hst
  obtain rfl : s = 1 - t := by linarith
  refine ⟨⟨?_, ?_, ?_, ?_⟩, ?_⟩ <;> simp only [Prod.fst_add, Prod.snd_add, Prod.smul_fst, Prod.smul_snd, smul_eq_mul] <;>
    nlinarith

/-- a function given by the four quarters -/
theorem box_lip {g h : ℝ → ℝ} {F : ℝ × ℝ → ℝ}
    (hg : ∀ s t, |g s - g t| ≤ |s - t|) (hg1 : ∀ s, |g s| ≤ 1) (hh : ∀ s t, |h s - h t| ≤ |s - t|) (hh1 : ∀ s, |h s| ≤ 1)
    (e1 : ∀ a b : ℝ, |b| ≤ |a| → F (a, b) = rho a * g (π / 4 * (b / a)))
    (e2 : ∀ a b : ℝ, |a| ≤ |b| → F (a, b) = rho b * h (π / 4 * (a / b))) :
    ∀ q ∈ box, ∀ q' ∈ box, |F q - F q'| ≤ (2 / π + π / 4) * dist q q' := by
  have hp := pi_pos
  have hL : 0 ≤ 2 / π + π / 4 := by positivity
  have comp : ∀ q q' : ℝ × ℝ, |q.1 - q'.1| ≤ dist q q' ∧ |q.2 - q'.2| ≤ dist q q' := fun q q' => by
    rw [Prod.dist_eq, ← Real.dist_eq, ← Real.dist_eq]; exact ⟨le_max_left _ _, le_max_right _ _⟩
  -- the right, upper, left and lower quarters
  have right : ∀ q q' : ℝ × ℝ, q ∈ box → q' ∈ box → |q.2| ≤ q.1 → |q'.2| ≤ q'.1 →
      |F q - F q'| ≤ (2 / π + π / 4) * dist q q' := by
    rintro ⟨a, b⟩ ⟨a', b'⟩ hq hq' k k'
    obtain ⟨c1, c2⟩ := comp (a, b) (a', b')
    rw [e1 a b (k.trans (le_abs_self a)), e1 a' b' (k'.trans (le_abs_self a'))]
    exact quarter_lip hg hg1 hq.2.1 hq'.2.1 k k' c1 c2
  have up : ∀ q q' : ℝ × ℝ, q ∈ box → q' ∈ box → |q.1| ≤ q.2 → |q'.1| ≤ q'.2 →
      |F q - F q'| ≤ (2 / π + π / 4) * dist q q' := by
    rintro ⟨a, b⟩ ⟨a', b'⟩ hq hq' k k'
    obtain ⟨c1, c2⟩ := comp (a, b) (a', b')
    rw [e2 a b (k.trans (le_abs_self b)), e2 a' b' (k'.trans (le_abs_self b'))]
    exact quarter_lip hh hh1 hq.2.2.2 hq'.2.2.2 k k' c2 c1
  have left : ∀ q q' : ℝ × ℝ, q ∈ box → q' ∈ box → |q.2| ≤ -q.1 → |q'.2| ≤ -q'.1 →
      |F q - F q'| ≤ (2 / π + π / 4) * dist q q' := by
    rintro ⟨a, b⟩ ⟨a', b'⟩ hq hq' k k'
    obtain ⟨c1, c2⟩ := comp (a, b) (a', b')
    rw [e1 a b (k.trans (neg_le_abs a)), e1 a' b' (k'.trans (neg_le_abs a'))]
    have := quarter_lip hg hg1 (x := -a) (x' := -a') (y := -b) (y' := -b') (D := dist (a, b) (a', b'))
      (by linarith [hq.1]) (by linarith [hq'.1]) (by rw [abs_neg]; exact k) (by rw [abs_neg]; exact k')
      (by rw [← abs_neg]; refine le_of_eq_of_le ?_ c1; congr 1; simp; ring)
      (by rw [← abs_neg]; refine le_of_eq_of_le ?_ c2; congr 1; simp; ring)
    rw [rho_neg, rho_neg, neg_div_neg_eq, neg_div_neg_eq] at this
    refine le_of_eq_of_le ?_ this
    rw [← abs_neg]; congr 1; ring
  have down : ∀ q q' : ℝ × ℝ, q ∈ box → q' ∈ box → |q.1| ≤ -q.2 → |q'.1| ≤ -q'.2 →
      |F q - F q'| ≤ (2 / π + π / 4) * dist q q' := by
    rintro ⟨a, b⟩ ⟨a', b'⟩ hq hq' k k'
    obtain ⟨c1, c2⟩ := comp (a, b) (a', b')
    rw [e2 a b (k.trans (neg_le_abs b)), e2 a' b' (k'.trans (neg_le_abs b'))]
    have := quarter_lip hh hh1 (x := -b) (x' := -b') (y := -a) (y' := -a') (D := dist (a, b) (a', b'))
      (by linarith [hq.2.2.1]) (by linarith [hq'.2.2.1]) (by rw [abs_neg]; exact k) (by rw [abs_neg]; exact k')
      (by rw [← abs_neg]; refine le_of_eq_of_le ?_ c2; congr 1; simp; ring)
      (by rw [← abs_neg]; refine le_of_eq_of_le ?_ c1; congr 1; simp; ring)
    rw [rho_neg, rho_neg, neg_div_neg_eq, neg_div_neg_eq] at this
    refine le_of_eq_of_le ?_ this
    rw [← abs_neg]; congr 1; ring
  -- two by two
  have upperright : ∀ q ∈ {q : ℝ × ℝ | q ∈ box ∧ 0 ≤ 1 * q.1 + 1 * q.2}, ∀ q' ∈ {q : ℝ × ℝ | q ∈ box ∧ 0 ≤ 1 * q.1 + 1 * q.2},
      |F q - F q'| ≤ (2 / π + π / 4) * dist q q' := by
    refine glue (box_convex 1 1) hL 1 (-1) ?_ ?_
    · rintro q ⟨hq, k⟩ q' ⟨hq', k'⟩ l l'
      exact right q q' hq hq' (abs_le.mpr ⟨by linarith, by linarith⟩) (abs_le.mpr ⟨by linarith, by linarith⟩)
    · rintro q ⟨hq, k⟩ q' ⟨hq', k'⟩ l l'
      exact up q q' hq hq' (abs_le.mpr ⟨by linarith, by linarith⟩) (abs_le.mpr ⟨by linarith, by linarith⟩)
  have lowerleft : ∀ q ∈ {q : ℝ × ℝ | q ∈ box ∧ 0 ≤ (-1) * q.1 + (-1) * q.2},
      ∀ q' ∈ {q : ℝ × ℝ | q ∈ box ∧ 0 ≤ (-1) * q.1 + (-1) * q.2}, |F q - F q'| ≤ (2 / π + π / 4) * dist q q' := by
    refine glue (box_convex (-1) (-1)) hL 1 (-1) ?_ ?_
    · rintro q ⟨hq, k⟩ q' ⟨hq', k'⟩ l l'
      exact down q q' hq hq' (abs_le.mpr ⟨by linarith, by linarith⟩) (abs_le.mpr ⟨by linarith, by linarith⟩)
    · rintro q ⟨hq, k⟩ q' ⟨hq', k'⟩ l l'
      exact left q q' hq hq' (abs_le.mpr ⟨by linarith, by linarith⟩) (abs_le.mpr ⟨by linarith, by linarith⟩)
  have all := glue (box_convex 0 0) hL (f := F) 1 1
    (fun q hq q' hq' l l' => upperright q ⟨hq.1, l⟩ q' ⟨hq'.1, l'⟩)
    (fun q hq q' hq' l l' => lowerleft q ⟨hq.1, by linarith⟩ q' ⟨hq'.1, by linarith⟩)
  intro q hq q' hq'
  exact all q ⟨hq, by simp⟩ q' ⟨hq', by simp⟩

/-- the image of the square is drawn without tearing -/
theorem img_lip (q : ℝ × ℝ) (hq : q ∈ box) (q' : ℝ × ℝ) (hq' : q' ∈ box) :
    |imgA q - imgA q'| ≤ (2 / π + π / 4) * dist q q' ∧ |imgB q - imgB q'| ≤ (2 / π + π / 4) * dist q q' :=
  ⟨box_lip cos_lip abs_cos_le_one sin_lip abs_sin_le_one (fun _ _ h => (img_horiz h).1) (fun _ _ h => (img_vert h).1) q hq q' hq',
   box_lip sin_lip abs_sin_le_one cos_lip abs_cos_le_one (fun _ _ h => (img_horiz h).2) (fun _ _ h => (img_vert h).2) q hq q' hq'⟩

theorem factor_lt : 2 / π + π / 4 < 3 / 2 := by
  have h1 := pi_gt_three
  have h2 := pi_lt_four
  rw [div_add_div _ _ pi_pos.ne' (by norm_num), div_lt_div_iff₀ (by positivity) (by norm_num)]
  nlinarith

end Verif.Geo
