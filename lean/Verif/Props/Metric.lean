import Verif.Model.Metric
import Verif.Props.PosIdx

/-! C66-C71 and C80: the metric formulas on a constructed metric set. -/

namespace Verif.Metric
open Verif.Geo Verif.Map Verif.Pos Real

/-! sums -/

@[simp] theorem sumBy_nil (f : Ray → ℝ) : sumBy f [] = 0 := rfl
@[simp] theorem sumBy_cons (f : Ray → ℝ) (r : Ray) (l : List Ray) : sumBy f (r :: l) = f r + sumBy f l := by
  simp [sumBy]

theorem sumBy_append (f : Ray → ℝ) (a b : List Ray) : sumBy f (a ++ b) = sumBy f a + sumBy f b := by
  simp [sumBy]

theorem sumBy_perm (f : Ray → ℝ) {a b : List Ray} (h : a.Perm b) : sumBy f a = sumBy f b :=
  (h.map f).sum_eq

theorem sumBy_nonneg {f : Ray → ℝ} {l : List Ray} (h : ∀ r ∈ l, 0 ≤ f r) : 0 ≤ sumBy f l := by
  apply List.sum_nonneg
  intro x hx
  obtain ⟨r, hr, rfl⟩ := List.mem_map.mp hx
  exact h r hr

theorem sumBy_congr {f g : Ray → ℝ} {l : List Ray} (h : ∀ r ∈ l, f r = g r) : sumBy f l = sumBy g l := by
  unfold sumBy; rw [List.map_congr_left h]

theorem sumBy_split (f : Ray → ℝ) (p : Ray → Bool) (l : List Ray) :
    sumBy f (l.filter p) + sumBy f (l.filter fun r => !p r) = sumBy f l := by
  induction l with
  | nil => simp
  | cons r l ih =>
    cases hp : p r <;> simp [hp, ← ih] <;> ring

theorem omSum_eq (l : List Ray) : omSum l = sumBy Ray.om l := rfl

/-! C67 -/

/-- **C67** the sources and the background are the rays of the view, each exactly once: no ray is in both and
none is lost -/
theorem C67_partition (s : MS) :
    (s.sources ++ s.background).Perm s.rays ∧
    (∀ r ∈ s.rays, (r ∈ s.sources ∧ r ∉ s.background) ∨ (r ∉ s.sources ∧ r ∈ s.background)) ∧
    (∀ r, r ∈ s.sources → s.threshold < r.lum * s.o.scale) ∧
    (∀ r, r ∈ s.background → r.lum * s.o.scale ≤ s.threshold) := by
  unfold MS.sources MS.background
  refine ⟨?_, ?_, ?_, ?_⟩
  · exact List.filter_append_perm _ _
  · intro r hr
    cases h : s.src r
    · right; simp [List.mem_filter, h, hr]
    · left; simp [List.mem_filter, h, hr]
  · intro r hr
    have := (List.mem_filter.mp hr).2
    simpa [MS.src] using this
  · intro r hr
    have := (List.mem_filter.mp hr).2
    simpa [MS.src] using this

/-- **C67** `srcillum` plus the illuminance of the background is `illum`, and `backlum*pi` is the latter -/
theorem C67_illum (s : MS) :
    s.srcillum + sumBy (fun r => s.ct r * r.lum * r.om) s.background * s.o.scale = s.illum ∧
    s.backlum * π = sumBy (fun r => s.ct r * r.lum * r.om) s.background * s.o.scale := by
  have h : s.srcillum + sumBy (fun r => s.ct r * r.lum * r.om) s.background * s.o.scale = s.illum := by
    unfold MS.srcillum MS.illum MS.sources MS.background
    rw [← sumBy_split (fun r => s.ct r * r.lum * r.om) s.src s.rays]; ring
  refine ⟨h, ?_⟩
  unfold MS.backlum
  rw [div_mul_cancel₀ _ pi_ne_zero, ← h]; ring

/-- **C67** the background luminance is nonnegative when the rays are in front of the viewer and carry nonnegative
luminance and solid angle -/
theorem C67_backlum (s : MS) (hs : 0 ≤ s.o.scale)
    (h : ∀ r ∈ s.rays, 0 ≤ s.ct r ∧ 0 ≤ r.lum ∧ 0 ≤ r.om) : 0 ≤ s.backlum := by
  have h1 := (C67_illum s).2
  have h2 : 0 ≤ sumBy (fun r => s.ct r * r.lum * r.om) s.background := by
    apply sumBy_nonneg
    intro r hr
    obtain ⟨a, b, c⟩ := h r (List.mem_filter.mp hr).1
    positivity
  have h3 : 0 ≤ s.backlum * π := by rw [h1]; positivity
  exact nonneg_of_mul_nonneg_left h3 pi_pos

/-! C66 -/

theorem weighted_var (w : Ray → ℝ) (t : ℝ) (l : List Ray) :
    sumBy (fun r => w r * (r.lum - t) ^ 2) l
      = sumBy (fun r => r.lum * r.lum * w r) l - 2 * t * sumBy (fun r => r.lum * w r) l + t ^ 2 * sumBy w l := by
  induction l with
  | nil => simp
  | cons r l ih => simp only [sumBy_cons, ih]; ring

/-- Cauchy-Schwarz for weighted rays -/
theorem cauchy (w : Ray → ℝ) (l : List Ray) (hw : ∀ r ∈ l, 0 ≤ w r) :
    sumBy (fun r => r.lum * w r) l ^ 2 ≤ sumBy w l * sumBy (fun r => r.lum * r.lum * w r) l := by
  have hW : 0 ≤ sumBy w l := sumBy_nonneg hw
  rcases eq_or_lt_of_le hW with h0 | hpos
  · have hz : ∀ r ∈ l, w r = 0 := by
      intro r hr
      exact List.all_zero_of_le_zero_le_of_sum_eq_zero (l := l.map w)
        (by intro x hx; obtain ⟨r, hr, rfl⟩ := List.mem_map.mp hx; exact hw r hr) h0.symm (List.mem_map_of_mem hr)
    have : sumBy (fun r => r.lum * w r) l = 0 := by
      rw [sumBy_congr (g := fun _ => 0) (fun r hr => by simp [hz r hr])]
      unfold sumBy; simp
    rw [this, ← h0]; simp
  · have h1 : 0 ≤ sumBy (fun r => w r * (r.lum - sumBy (fun r => r.lum * w r) l / sumBy w l) ^ 2) l :=
      sumBy_nonneg fun r hr => mul_nonneg (hw r hr) (sq_nonneg _)
    rw [weighted_var] at h1
    generalize sumBy (fun r => r.lum * w r) l = T at *
    generalize sumBy (fun r => r.lum * r.lum * w r) l = S at *
    generalize sumBy w l = W at *
    have h2 : S - 2 * (T / W) * T + (T / W) ^ 2 * W = (W * S - T ^ 2) / W := by field_simp; ring
    rw [h2] at h1
    have := (div_nonneg_iff.mp h1).resolve_right (fun h => by linarith [h.2])
    linarith [this.1]

/-- the contrast ratio for weights `W = sum w`, `T = sum lum*w`, `S = sum lum^2*w` -/
theorem ratio_eq {S T A c : ℝ} (hA : A ≠ 0) (hc : c ≠ 0) (hT : T ≠ 0) :
    S * c ^ 2 / A / (T * c / A) ^ 2 = S * A / T ^ 2 := by field_simp

/-- **C66** when the view area is the sum of the solid angles, `gcr >= 1` and `loggcr >= 0` -/
theorem C66_gcr_ge_one (s : MS) (hA : s.area = omSum s.rays) (hom : ∀ r ∈ s.rays, 0 ≤ r.om) :
    1 ≤ s.gcr ∧ 0 ≤ s.loggcr := by
  have key : 1 ≤ s.gcr := by
    unfold MS.gcr
    split_ifs with h
    · unfold MS.avglum at *
      have hc : s.o.scale ≠ 0 := by rintro h0; rw [h0] at h; simp at h
      have hA0 : s.area ≠ 0 := by rintro h0; rw [h0] at h; simp at h
      have hT : sumBy (fun r => r.lum * r.om) s.rays ≠ 0 := by rintro h0; rw [h0] at h; simp at h
      rw [ratio_eq hA0 hc hT, le_div_iff₀ (by positivity), one_mul, hA, omSum_eq, mul_comm]
      exact cauchy Ray.om s.rays hom
    · exact le_rfl
  exact ⟨key, logb_nonneg (by norm_num) key⟩

theorem pw_nonneg (s : MS) {r : Ray} (h : 0 ≤ r.om) : 0 ≤ s.pw r := by unfold MS.pw; positivity

/-- **C66** `pwgcr >= 1` and `logpwgcr >= 0` for every set of nonnegative solid angles -/
theorem C66_pwgcr_ge_one (s : MS) (hom : ∀ r ∈ s.rays, 0 ≤ r.om) : 1 ≤ s.pwgcr ∧ 0 ≤ s.logpwgcr := by
  have key : 1 ≤ s.pwgcr := by
    unfold MS.pwgcr
    split_ifs with h
    · unfold MS.pwavglum at *
      have hc : s.o.scale ≠ 0 := by rintro h0; rw [h0] at h; simp at h
      have hA0 : s.pwArea ≠ 0 := by rintro h0; rw [h0] at h; simp at h
      have hT : sumBy (fun r => r.lum * s.pw r) s.rays ≠ 0 := by rintro h0; rw [h0] at h; simp at h
      rw [ratio_eq hA0 hc hT, le_div_iff₀ (by positivity), one_mul, mul_comm]
      exact cauchy s.pw s.rays fun r hr => pw_nonneg s (hom r hr)
    · exact le_rfl
  exact ⟨key, logb_nonneg (by norm_num) key⟩

theorem uniform_sums (w : Ray → ℝ) (c : ℝ) (l : List Ray) (h : ∀ r ∈ l, r.lum = c) :
    sumBy (fun r => r.lum * w r) l = c * sumBy w l ∧ sumBy (fun r => r.lum * r.lum * w r) l = c ^ 2 * sumBy w l := by
  induction l with
  | nil => simp
  | cons r l ih =>
    obtain ⟨a, b⟩ := ih fun r hr => h r (List.mem_cons_of_mem _ hr)
    simp only [sumBy_cons, a, b, h r List.mem_cons_self]
    constructor <;> ring

theorem ratio_uniform {c W : ℝ} (hc : c ≠ 0) (hW : W ≠ 0) : c ^ 2 * W * W / (c * W) ^ 2 = 1 := by
  field_simp

/-- **C66** uniform luminance has contrast 1 (`gcr` when the view area is the sum of the solid angles) -/
theorem C66_uniform (s : MS) (c : ℝ) (h : ∀ r ∈ s.rays, r.lum = c) :
    (s.area = omSum s.rays → s.gcr = 1) ∧ s.pwgcr = 1 := by
  refine ⟨fun hA => ?_, ?_⟩
  · unfold MS.gcr
    split_ifs with h1
    · unfold MS.avglum at *
      obtain ⟨a, b⟩ := uniform_sums Ray.om c s.rays h
      rw [a] at h1 ⊢
      rw [b, hA, omSum_eq] at *
      have hc : s.o.scale ≠ 0 := by rintro h0; rw [h0] at h1; simp at h1
      have hW : sumBy Ray.om s.rays ≠ 0 := by rintro h0; rw [h0] at h1; simp at h1
      have hc' : c ≠ 0 := by rintro h0; rw [h0] at h1; simp at h1
      rw [ratio_eq hW hc (mul_ne_zero hc' hW), ratio_uniform hc' hW]
    · rfl
  · unfold MS.pwgcr
    split_ifs with h1
    · unfold MS.pwavglum MS.pwArea at *
      obtain ⟨a, b⟩ := uniform_sums s.pw c s.rays h
      rw [a] at h1 ⊢
      rw [b]
      have hc : s.o.scale ≠ 0 := by rintro h0; rw [h0] at h1; simp at h1
      have hW : sumBy s.pw s.rays ≠ 0 := by rintro h0; rw [h0] at h1; simp at h1
      have hc' : c ≠ 0 := by rintro h0; rw [h0] at h1; simp at h1
      rw [ratio_eq hW hc (mul_ne_zero hc' hW), ratio_uniform hc' hW]
    · rfl

/-- **C66** a black view has contrast 1 and log contrast 0 -/
theorem C66_black (s : MS) (h : ∀ r ∈ s.rays, r.lum = 0) :
    s.gcr = 1 ∧ s.pwgcr = 1 ∧ s.loggcr = 0 ∧ s.logpwgcr = 0 := by
  have h1 : s.gcr = 1 := by
    unfold MS.gcr MS.avglum
    rw [(uniform_sums Ray.om 0 s.rays h).1]; simp
  have h2 : s.pwgcr = 1 := by
    unfold MS.pwgcr MS.pwavglum
    rw [(uniform_sums s.pw 0 s.rays h).1]; simp
  exact ⟨h1, h2, by unfold MS.loggcr; rw [h1, logb_one], by unfold MS.logpwgcr; rw [h2, logb_one]⟩

/-- luminances multiplied by `c` -/
def scaleLum (c : ℝ) (l : List Ray) : List Ray := l.map fun r => ⟨r.v, r.om, c * r.lum⟩

theorem sumBy_scale (f g : Ray → ℝ) (k c : ℝ) (h : ∀ r : Ray, f ⟨r.v, r.om, c * r.lum⟩ = k * g r) (l : List Ray) :
    sumBy f (scaleLum c l) = k * sumBy g l := by
  induction l with
  | nil => simp [scaleLum]
  | cons r l ih =>
    have : scaleLum c (r :: l) = ⟨r.v, r.om, c * r.lum⟩ :: scaleLum c l := rfl
    rw [this, sumBy_cons, sumBy_cons, ih, h]; ring

/-- the same metric set with luminances multiplied by `c` -/
def MS.scaled (s : MS) (c : ℝ) : MS := { s with rays := scaleLum c s.rays }

/-- **C66** the contrast metrics do not change when all luminances are multiplied by a positive factor -/
theorem C66_scale_invariant (s : MS) (k : ℝ) (hk : 0 < k) :
    (s.scaled k).gcr = s.gcr ∧ (s.scaled k).pwgcr = s.pwgcr := by
  have e1 : (s.scaled k).avglum = k * s.avglum := by
    unfold MS.avglum MS.scaled
    simp only
    rw [sumBy_scale _ (fun r => r.lum * r.om) k k (fun r => by ring)]; ring
  have e3 : (s.scaled k).pwArea = s.pwArea := by
    have : sumBy s.pw (scaleLum k s.rays) = 1 * sumBy s.pw s.rays :=
      sumBy_scale s.pw s.pw 1 k (fun r => by rw [one_mul]; rfl) s.rays
    rw [one_mul] at this
    exact this
  have e2 : (s.scaled k).pwavglum = k * s.pwavglum := by
    unfold MS.pwavglum
    rw [e3]
    have : sumBy (fun r => r.lum * s.pw r) (scaleLum k s.rays) = k * sumBy (fun r => r.lum * s.pw r) s.rays :=
      sumBy_scale _ _ k k (fun r => by show k * r.lum * s.pw r = _; ring) s.rays
    show sumBy (fun r => r.lum * s.pw r) (scaleLum k s.rays) * s.o.scale / s.pwArea = _
    rw [this]; ring
  constructor
  · unfold MS.gcr
    have hc : ((s.scaled k).avglum > 0) ↔ s.avglum > 0 := by
      rw [e1]; exact mul_pos_iff_of_pos_left hk
    simp only [hc]
    split_ifs with h
    · rw [e1]
      show sumBy (fun r => r.lum * r.lum * r.om) (scaleLum k s.rays) * s.o.scale ^ 2 / s.area / _ = _
      rw [sumBy_scale _ (fun r => r.lum * r.lum * r.om) (k ^ 2) k (fun r => by ring)]
      have h2 : (k * s.avglum) ^ 2 = k ^ 2 * s.avglum ^ 2 := by ring
      rw [h2]
      have h1 : k ^ 2 * sumBy (fun r => r.lum * r.lum * r.om) s.rays * s.o.scale ^ 2 / s.area
          = k ^ 2 * (sumBy (fun r => r.lum * r.lum * r.om) s.rays * s.o.scale ^ 2 / s.area) := by ring
      rw [h1, mul_div_mul_left _ _ (pow_ne_zero 2 hk.ne')]
    · rfl
  · unfold MS.pwgcr
    have hc : ((s.scaled k).pwavglum > 0) ↔ s.pwavglum > 0 := by
      rw [e2]; exact mul_pos_iff_of_pos_left hk
    simp only [hc]
    split_ifs with h
    · rw [e2, e3]
      show sumBy (fun r => r.lum * r.lum * s.pw r) (scaleLum k s.rays) * s.o.scale ^ 2 / s.pwArea / _ = _
      rw [sumBy_scale _ (fun r => r.lum * r.lum * s.pw r) (k ^ 2) k
        (fun r => by show k * r.lum * (k * r.lum) * s.pw r = _; ring)]
      have h2 : (k * s.pwavglum) ^ 2 = k ^ 2 * s.pwavglum ^ 2 := by ring
      rw [h2]
      have h1 : k ^ 2 * sumBy (fun r => r.lum * r.lum * s.pw r) s.rays * s.o.scale ^ 2 / s.pwArea
          = k ^ 2 * (sumBy (fun r => r.lum * r.lum * s.pw r) s.rays * s.o.scale ^ 2 / s.pwArea) := by ring
      rw [h1, mul_div_mul_left _ _ (pow_ne_zero 2 hk.ne')]
    · rfl

/-! C68 -/

theorem pwsl2_nonneg (s : MS) (hom : ∀ r ∈ s.rays, 0 ≤ r.om) : 0 ≤ s.pwsl2 := by
  apply sumBy_nonneg
  intro r hr
  have := hom r (List.mem_filter.mp hr).1
  positivity

theorem logGc_nonneg (s : MS) (hom : ∀ r ∈ s.rays, 0 ≤ r.om) (hi : 0 < s.illum) : 0 ≤ s.logGc := by
  unfold MS.logGc
  apply logb_nonneg (by norm_num)
  have := pwsl2_nonneg s hom
  have : 0 ≤ s.pwsl2 / s.illum ^ (1.87 : ℝ) := by positivity
  linarith

theorem dgp_sum (s : MS) (hom : ∀ r ∈ s.rays, 0 ≤ r.om) (hi : 0 < s.illum) : 0.16 ≤ s.dgpT1 + s.dgpT2 + 0.16 := by
  have h1 : 0 ≤ s.dgpT1 := by unfold MS.dgpT1; positivity
  have h2 : 0 ≤ s.dgpT2 := by unfold MS.dgpT2; have := logGc_nonneg s hom hi; positivity
  linarith

/-- **C68** the low light factor lies in (0,1) when it applies and is 1 otherwise -/
theorem C68_lowlight (s : MS) :
    0 < s.ll ∧ s.ll ≤ 1 ∧ (s.o.lowlight = true → s.illum < 500 → s.ll < 1) ∧
    (s.o.lowlight = false ∨ 500 ≤ s.illum → s.ll = 1) := by
  have he := exp_pos (0.024 * s.illum - 4)
  have h1 : exp (0.024 * s.illum - 4) / (1 + exp (0.024 * s.illum - 4)) < 1 := by
    rw [div_lt_one (by positivity)]; linarith
  have h0 : 0 < exp (0.024 * s.illum - 4) / (1 + exp (0.024 * s.illum - 4)) := by positivity
  unfold MS.ll
  split_ifs with h
  · refine ⟨h0, h1.le, fun _ _ => h1, ?_⟩
    rintro (h2 | h2)
    · rw [h2] at h; simp at h
    · linarith [h.2]
  · refine ⟨one_pos, le_rfl, fun a b => absurd ⟨a, b⟩ h, fun _ => rfl⟩

/-- **C68** `dgp` is at most 1; with positive illuminance it is positive, and at least 0.16 when the low light
correction does not apply -/
theorem C68_dgp (s : MS) (hom : ∀ r ∈ s.rays, 0 ≤ r.om) :
    s.dgp ≤ 1 ∧ (0 < s.illum → 0 < s.dgp) ∧
    (0 < s.illum → (s.o.lowlight = false ∨ 500 ≤ s.illum) → 0.16 ≤ s.dgp) := by
  obtain ⟨l0, -, -, l1⟩ := C68_lowlight s
  unfold MS.dgp
  refine ⟨min_le_right _ _, fun hi => ?_, fun hi hl => ?_⟩
  · have := dgp_sum s hom hi
    apply lt_min _ one_pos
    apply mul_pos l0
    linarith [show (0 : ℝ) < 0.16 by norm_num]
  · rw [l1 hl, one_mul]
    exact le_min (dgp_sum s hom hi) (by norm_num)

/-- **C68** `ugr` is never negative; `ugp` lies strictly between 0 and 1. This is about the formulas: without a background
luminance numpy's quotient is infinite or nan, see `C169_ugr`. -/
theorem C68_ugr_ugp (s : MS) : 0 ≤ s.ugr ∧ 0 < s.ugp ∧ s.ugp < 1 := by
  refine ⟨le_max_left _ _, ?_, ?_⟩
  · unfold MS.ugp MS.ugpOf
    have : 0 < (10 : ℝ) ^ (-(s.ugr + 5) / 40) := by positivity
    positivity
  · unfold MS.ugp MS.ugpOf
    have : 0 < (10 : ℝ) ^ (-(s.ugr + 5) / 40) := by positivity
    exact zpow_lt_one_of_neg₀ (by linarith) (by norm_num)

/-- **C68** `ugp` is increasing in `ugr` -/
theorem C68_ugp_mono : StrictMono MS.ugpOf := by
  intro a b hab
  unfold MS.ugpOf
  have h1 : (10 : ℝ) ^ (-(b + 5) / 40) < (10 : ℝ) ^ (-(a + 5) / 40) :=
    rpow_lt_rpow_of_exponent_lt (by norm_num) (by linarith)
  have h0 : 0 < (10 : ℝ) ^ (-(b + 5) / 40) := by positivity
  rw [zpow_neg, zpow_neg]
  apply inv_strictAnti₀
  · positivity
  · have h3 : (1 + 2 / 7 * (10 : ℝ) ^ (-(b + 5) / 40)) < (1 + 2 / 7 * (10 : ℝ) ^ (-(a + 5) / 40)) := by linarith
    have := pow_lt_pow_left₀ h3 (by positivity) (n := 10) (by norm_num)
    exact_mod_cast this

/-- `ugp` reaches 1/2-level comfort values: it is not constant -/
example : MS.ugpOf 0 < MS.ugpOf 30 := C68_ugp_mono (by norm_num)

/-! C70 -/

/-- values of additive metrics -/
theorem parts_add (s s1 s2 : MS) (hm1 : s1.m = s.m) (hm2 : s2.m = s.m) (ho1 : s1.o = s.o) (ho2 : s2.o = s.o)
    (ha1 : s1.area = s.area) (ha2 : s2.area = s.area) (ht : s.o.thr > 100)
    (hr : s.rays.Perm (s1.rays ++ s2.rays)) :
    s.illum = s1.illum + s2.illum ∧ s.avglum = s1.avglum + s2.avglum ∧ s.density = s1.density + s2.density ∧
    s.pwsl2 = s1.pwsl2 + s2.pwsl2 ∧ s.srcillum = s1.srcillum + s2.srcillum := by
  have hct1 : s1.ct = s.ct := by funext r; unfold MS.ct; rw [hm1]
  have hct2 : s2.ct = s.ct := by funext r; unfold MS.ct; rw [hm2]
  have hp1 : s1.pos = s.pos := by funext r; unfold MS.pos; rw [hm1, ho1]
  have hp2 : s2.pos = s.pos := by funext r; unfold MS.pos; rw [hm2, ho2]
  have hs1 : s1.src = s.src := by funext r; unfold MS.src MS.threshold; rw [ho1, if_pos ht, if_pos ht]
  have hs2 : s2.src = s.src := by funext r; unfold MS.src MS.threshold; rw [ho2, if_pos ht, if_pos ht]
  have hsrc : s.sources.Perm (s1.sources ++ s2.sources) := by
    unfold MS.sources
    rw [hs1, hs2, ← List.filter_append]
    exact hr.filter _
  refine ⟨?_, ?_, ?_, ?_, ?_⟩
  · unfold MS.illum
    rw [hct1, hct2, ho1, ho2, sumBy_perm _ hr, sumBy_append]; ring
  · unfold MS.avglum
    rw [ho1, ho2, ha1, ha2, sumBy_perm _ hr, sumBy_append]; ring
  · unfold MS.density
    rw [ha1, ha2, hr.length_eq, List.length_append]; push_cast; ring
  · unfold MS.pwsl2
    rw [hp1, hp2, ho1, ho2, sumBy_perm _ hsrc, sumBy_append]
  · unfold MS.srcillum
    rw [hct1, hct2, ho1, ho2, sumBy_perm _ hsrc, sumBy_append]; ring

/-- **C70** every list of metrics accepted by `MetricSet.check_safe2sum` is additive over a split of the rays into
two groups evaluated with the same view, options and view area and a fixed threshold (`> 100`) -/
theorem C70_additive (s s1 s2 : MS) (hm1 : s1.m = s.m) (hm2 : s2.m = s.m) (ho1 : s1.o = s.o) (ho2 : s2.o = s.o)
    (ha1 : s1.area = s.area) (ha2 : s2.area = s.area) (ht : s.o.thr > 100)
    (hr : s.rays.Perm (s1.rays ++ s2.rays)) (names : List String) (hn : checkSafe msSafe names = true) :
    ∀ n ∈ names, ∃ x y, msAttr s1 n = .ok x ∧ msAttr s2 n = .ok y ∧ msAttr s n = .ok (x + y) := by
  obtain ⟨a, b, c, d, e⟩ := parts_add s s1 s2 hm1 hm2 ho1 ho2 ha1 ha2 ht hr
  intro n hmem
  have hin : n ∈ msSafe := by
    have := (List.all_eq_true.mp hn) n hmem
    simpa using this
  simp only [msSafe, baseSafe, List.cons_append, List.nil_append, List.mem_cons, List.not_mem_nil, or_false] at hin
  rcases hin with rfl | rfl | rfl | rfl | rfl <;> simp [msAttr, baseAttr, a, b, c, d, e]

/-- **C70** the same for the colour channels of `irradiance`: rays travel with their channel values -/
theorem C70_irradiance {M : ℕ} (c c1 c2 : CMS M) (hm1 : c1.s.m = c.s.m) (hm2 : c2.s.m = c.s.m)
    (ho1 : c1.s.o = c.s.o) (ho2 : c2.s.o = c.s.o)
    (hr : (List.zip c.s.rays c.rgb).Perm (List.zip c1.s.rays c1.rgb ++ List.zip c2.s.rays c2.rgb)) (j : Fin M) :
    c.irradiance j = c1.irradiance j + c2.irradiance j := by
  have hct1 : c1.s.ct = c.s.ct := by funext r; unfold MS.ct; rw [hm1]
  have hct2 : c2.s.ct = c.s.ct := by funext r; unfold MS.ct; rw [hm2]
  unfold CMS.irradiance
  rw [hct1, hct2, ho1, ho2, (hr.map _).sum_eq, List.map_append, List.sum_append]; ring

/-- what `check_safe2sum` accepts: subsets of the five (six with colour) names, in any order and repetition -/
theorem C70_accepts (safe names : List String) : checkSafe safe names = true ↔ ∀ n ∈ names, n ∈ safe := by
  unfold checkSafe; simp

example : checkSafe msSafe ["density", "illum", "pwsl2"] = true ∧ checkSafe msSafe ["illum", "dgp"] = false := by
  decide +kernel

/-! C71 -/

/-- **C71** the names returned are the known ones in request order, and with `raise_error` an error comes exactly
when some name is unknown -/
theorem C71_check (all metrics : List String) :
    checkMetrics all metrics false = .ok (metrics.filter (all.contains ·)) ∧
    (checkMetrics all metrics true = .error .AttributeError ↔ ∃ m ∈ metrics, m ∉ all) ∧
    ((∀ m ∈ metrics, m ∈ all) → ∀ b, checkMetrics all metrics b = .ok metrics) := by
  have hlen : (metrics.filter (all.contains ·)).length = metrics.length ↔ ∀ m ∈ metrics, m ∈ all := by
    rw [List.length_filter_eq_length_iff]; simp
  refine ⟨by simp [checkMetrics], ?_, ?_⟩
  · unfold checkMetrics
    by_cases h : ∀ m ∈ metrics, m ∈ all
    · rw [if_neg (by simp only [Bool.true_and, decide_eq_true_eq, not_not]; exact hlen.mpr h)]
      constructor
      · intro h2; exact absurd h2 (by simp)
      · rintro ⟨m, a, b⟩; exact absurd (h m a) b
    · rw [if_pos (by simp only [Bool.true_and, decide_eq_true_eq]; exact fun h2 => h (hlen.mp h2))]
      push Not at h
      simpa using h
  · intro h b
    unfold checkMetrics
    rw [if_neg (by simp only [Bool.and_eq_true, decide_eq_true_eq, not_and, not_not]; exact fun _ => hlen.mpr h)]
    congr 1
    rw [List.filter_eq_self]
    simpa using h

theorem collect_ok {β : Type} (attr : String → Except Py.PyErr β) (val : String → β) (l : List String)
    (h : ∀ n ∈ l, attr n = .ok (val n)) : collect attr l = .ok (l.map val) := by
  induction l with
  | nil => rfl
  | cons n l ih =>
    unfold collect
    rw [h n List.mem_cons_self, ih fun m hm => h m (List.mem_cons_of_mem _ hm)]
    rfl

/-- every name of `MetricSet.allmetrics` is a property with a value -/
theorem msAttr_defined (s : MS) (n : String) (h : n ∈ msAll) : ∃ x, msAttr s n = .ok x := by
  simp only [msAll, baseAll, baseDefault, List.cons_append, List.nil_append, List.mem_cons, List.not_mem_nil,
    or_false] at h
  rcases h with rfl | rfl | rfl | rfl | rfl | rfl | rfl | rfl | rfl | rfl | rfl | rfl | rfl | rfl | rfl | rfl |
    rfl | rfl | rfl | rfl | rfl | rfl | rfl | rfl | rfl <;> simp [msAttr, baseAttr]

/-- every name of `BaseMetricSet.allmetrics` has a value when the view holds a ray -/
theorem baseAttr_defined (s : MS) (hr : s.rays ≠ []) (n : String) (h : n ∈ baseAll) : ∃ x, baseAttr s n = .ok x := by
  have hl : s.rays.length > 0 := List.length_pos_iff.mpr hr
  simp only [baseAll, baseDefault, List.cons_append, List.nil_append, List.mem_cons, List.not_mem_nil,
    or_false] at h
  rcases h with rfl | rfl | rfl | rfl | rfl | rfl | rfl | rfl | rfl | rfl <;>
    simp [baseAttr, MS.maxlumBase, hl]

/-- **C71** calling a `MetricSet` with names returns, for every request, one value per name in request order, each
the value of the property of that name; with an unknown name it raises and returns nothing -/
theorem C71_call (s : MS) (dflt names : List String) :
    ((∀ n ∈ names, n ∈ msAll) →
      ∃ vals, call msAll dflt (msAttr s) (some names) = .ok vals ∧ vals.length = names.length ∧
        ∀ (i : ℕ) (n : String), names[i]? = some n → ∃ x, msAttr s n = .ok x ∧ vals[i]? = some x) ∧
    ((∃ n ∈ names, n ∉ msAll) → call msAll dflt (msAttr s) (some names) = .error .AttributeError) := by
  refine ⟨fun h => ?_, fun h => ?_⟩
  · choose! val hval using fun n (hn : n ∈ names) => msAttr_defined s n (h n hn)
    refine ⟨names.map val, ?_, by simp, ?_⟩
    · unfold call
      simp only
      rw [(C71_check msAll names).2.2 h true]
      exact collect_ok _ val names hval
    · intro i n hi
      exact ⟨val n, hval n (List.mem_of_getElem? hi), by simp [hi]⟩
  · unfold call
    simp only
    rw [(C71_check msAll names).2.1.mpr h]; rfl

/-- **C71** the same for a `BaseMetricSet` whose view is not empty -/
theorem C71_call_base (s : MS) (hr : s.rays ≠ []) (dflt names : List String) (h : ∀ n ∈ names, n ∈ baseAll) :
    ∃ vals, call baseAll dflt (baseAttr s) (some names) = .ok vals ∧ vals.length = names.length ∧
      ∀ (i : ℕ) (n : String), names[i]? = some n → ∃ x, baseAttr s n = .ok x ∧ vals[i]? = some x := by
  choose! val hval using fun n (hn : n ∈ names) => baseAttr_defined s hr n (h n hn)
  refine ⟨names.map val, ?_, by simp, ?_⟩
  · unfold call
    simp only
    rw [(C71_check baseAll names).2.2 h true]
    exact collect_ok _ val names hval
  · intro i n hi
    exact ⟨val n, hval n (List.mem_of_getElem? hi), by simp [hi]⟩

/-- **C71** without arguments the names are the default ones, or those given to (and checked by) the constructor -/
theorem C71_call_default (s : MS) (dflt : List String) (h : ∀ n ∈ dflt, n ∈ msAll) :
    call msAll dflt (msAttr s) none = call msAll dflt (msAttr s) (some dflt) := by
  unfold call
  simp only
  rw [(C71_check msAll dflt).2.2 h true]; rfl

example : (∀ n ∈ msDefault, n ∈ msAll) ∧ (∀ n ∈ colDefault, n ∈ colAll) ∧ (∀ n ∈ baseDefault, n ∈ baseAll) := by
  decide +kernel

/-! C80 -/

theorem colAttr_defined {M : ℕ} (c : CMS M) (n : String) (h : n ∈ colAll) :
    ∃ l, colAttr c n = .ok l ∧ l.length = if n = "irradiance" then M else 1 := by
  unfold colAttr
  by_cases hi : n = "irradiance"
  · exact ⟨_, if_pos hi, by rw [if_pos hi]; simp⟩
  · have : n ∈ msAll := by
      simp only [colAll, List.mem_append, List.mem_cons, List.not_mem_nil, or_false] at h
      rcases h with h | rfl | h
      · exact h
      · decide +kernel
      · exact absurd h hi
    obtain ⟨x, hx⟩ := msAttr_defined c.s n this
    refine ⟨[x], ?_, by rw [if_neg hi]; rfl⟩
    rw [if_neg hi, hx]; rfl

/-- **C80** calling a `ColorMetricSet` returns the values of the requested metrics in request order, one number for
each scalar metric and one per channel for `irradiance` -/
theorem C80_call {M : ℕ} (c : CMS M) (dflt names : List String) (h : ∀ n ∈ names, n ∈ colAll) :
    ∃ parts : List (List ℝ), colCall c dflt (some names) = .ok parts.flatten ∧ parts.length = names.length ∧
      ∀ (i : ℕ) (n : String), names[i]? = some n → ∃ l, parts[i]? = some l ∧ colAttr c n = .ok l ∧
        l.length = if n = "irradiance" then M else 1 := by
  choose! val hval using fun n (hn : n ∈ names) => colAttr_defined c n (h n hn)
  refine ⟨names.map val, ?_, by simp, ?_⟩
  · unfold colCall call
    simp only
    rw [(C71_check colAll names).2.2 h true]
    show Except.map List.flatten (collect (colAttr c) names) = _
    rw [collect_ok _ val names fun n hn => (hval n hn).1]
    rfl
  · intro i n hi
    exact ⟨val n, by simp [hi], (hval n (List.mem_of_getElem? hi)).1, (hval n (List.mem_of_getElem? hi)).2⟩

/-- rays and channel rows in step -/
def InStep {M : ℕ} (w : Fin M → ℝ) : List Ray → List (Fin M → ℝ) → Prop :=
  List.Forall₂ fun r c => r.lum = rgb2rad w c

theorem weights_dot {M : ℕ} (w : Fin M → ℝ) (ct : Ray → ℝ) {l : List Ray} {g : List (Fin M → ℝ)} (h : InStep w l g) :
    ∑ j, w j * ((List.zip l g).map fun p => ct p.1 * p.2 j * p.1.om).sum
      = sumBy (fun r => ct r * r.lum * r.om) l := by
  induction h with
  | nil => simp
  | @cons r c l g hrc hlg ih =>
    simp only [List.zip_cons_cons, List.map_cons, List.sum_cons, sumBy_cons, ← ih, hrc, rgb2rad, mul_add,
      Finset.sum_add_distrib]
    congr 1
    rw [Finset.mul_sum, Finset.sum_mul]
    exact Finset.sum_congr rfl fun j _ => by ring

theorem setOmega_lum_keep (m : View) (c : Bool) (l : List Ray) (fuel : ℕ) {l' : List Ray} {A : ℝ}
    (h : setOmega m c l fuel = some (l', A)) : l'.map Ray.lum = l.map Ray.lum ∧ l'.map Ray.v = l.map Ray.v := by
  unfold setOmega at h
  split_ifs at h
  · simp only [Option.map_eq_some_iff, Prod.mk.injEq] at h
    obtain ⟨k, -, rfl, -⟩ := h
    unfold applyAdjust
    simp [Function.comp_def]
  · simp only [Option.some.injEq, Prod.mk.injEq] at h
    rw [← h.1]; simp

theorem kept_lt (m : View) (rays : List Ray) {i : ℕ} (h : i ∈ kept m rays) : i < rays.length := by
  unfold kept at h
  split_ifs at h
  · simpa using h
  · simpa using (List.mem_filter.mp h).1

/-- the luminance the constructor keeps for each ray is that of the channel row it keeps -/
theorem build_inStep {M : ℕ} (m : View) (o : Opts) (w : Fin M → ℝ) (rays : List (CRay M)) (fuel : ℕ) (c : CMS M)
    (h : buildColor m o w rays fuel = some c) : InStep w c.s.rays c.rgb := by
  unfold buildColor build at h
  simp only [Option.map_map, Option.map_eq_some_iff, Function.comp] at h
  obtain ⟨⟨l', A⟩, hs, rfl⟩ := h
  obtain ⟨hl, -⟩ := setOmega_lum_keep _ _ _ _ hs
  simp only
  unfold InStep
  have h1 : List.Forall₂ (fun (x : ℝ) (c : Fin M → ℝ) => x = rgb2rad w c) (l'.map Ray.lum)
      ((kept m (rays.map (CRay.toRay w))).map fun i => (rays.getD i ⟨V3.zero, 0, fun _ => 0⟩).rgb) := by
    rw [hl]
    unfold viewRays
    rw [List.map_map, List.forall₂_map_left_iff, List.forall₂_map_right_iff, List.forall₂_same]
    intro i hi
    have hlt := kept_lt _ _ hi
    rw [List.length_map] at hlt
    have : (raw (rays.map (CRay.toRay w)) i).lum = rgb2rad w (rays.getD i ⟨V3.zero, 0, fun _ => 0⟩).rgb := by
      unfold raw
      simp [List.getD, List.getElem?_map, hlt, CRay.toRay]
    simp only [Function.comp]
    split_ifs <;> exact this
  rw [List.forall₂_map_left_iff] at h1
  exact h1

/-- **C80** the channel weights dotted with `irradiance` give `illum`, for every ray set, view, weights and options -/
theorem C80_irradiance {M : ℕ} (m : View) (o : Opts) (w : Fin M → ℝ) (rays : List (CRay M)) (fuel : ℕ) (c : CMS M)
    (h : buildColor m o w rays fuel = some c) : ∑ j, w j * c.irradiance j = c.s.illum := by
  have := weights_dot w c.s.ct (build_inStep m o w rays fuel c h)
  unfold MS.illum CMS.irradiance
  rw [← this, Finset.sum_mul]
  exact Finset.sum_congr rfl fun j _ => by ring

end Verif.Metric
