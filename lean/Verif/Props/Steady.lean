import Verif.Props.Metric
import Verif.Props.PosIdx
import Verif.Props.Rgbe
import Mathlib.Analysis.Complex.ExponentialBounds

/-! C211: metrics change little when luminances change little, for instance when a picture is saved and read. -/

namespace Verif.Metric
open Verif.Geo Verif.Map Verif.Pos Real

/-- the same ray with a luminance that differs by at most the fraction `ε` -/
def Relum (ε : ℝ) (r r' : Ray) : Prop := r'.v = r.v ∧ r'.om = r.om ∧ |r'.lum - r.lum| ≤ ε * r.lum

/-- the same metric set with luminances that differ by at most the fraction `ε` -/
structure Close (ε : ℝ) (s s' : MS) : Prop where
  m : s'.m = s.m
  o : s'.o = s.o
  area : s'.area = s.area
  rays : List.Forall₂ (Relum ε) s.rays s'.rays

/-- what the arguments of a metric set are: no negative numbers -/
structure Sane (s : MS) : Prop where
  lum : ∀ r ∈ s.rays, 0 ≤ r.lum
  om : ∀ r ∈ s.rays, 0 ≤ r.om
  ct : ∀ r ∈ s.rays, 0 ≤ s.ct r
  scale : 0 ≤ s.o.scale
  area : 0 ≤ s.area

/-- a sum that is linear in the luminance -/
theorem lin_close {ε : ℝ} {l l' : List Ray} (h : List.Forall₂ (Relum ε) l l') (g : V3 → ℝ → ℝ)
    (hg : ∀ r ∈ l, 0 ≤ g r.v r.om) :
    |sumBy (fun r => g r.v r.om * r.lum) l' - sumBy (fun r => g r.v r.om * r.lum) l| ≤
      ε * sumBy (fun r => g r.v r.om * r.lum) l := by
  induction h with
  | nil => simp [sumBy]
  | @cons a b l l' hab _ ih =>
    obtain ⟨e1, e2, e3⟩ := hab
    have ih := abs_le.mp (ih fun r hr => hg r (List.mem_cons_of_mem _ hr))
    have g0 := hg a List.mem_cons_self
    have e3 := abs_le.mp e3
    have k1 := mul_le_mul_of_nonneg_left e3.1 g0
    have k2 := mul_le_mul_of_nonneg_left e3.2 g0
    unfold sumBy at ih ⊢
    simp only [List.map_cons, List.sum_cons]
    rw [e1, e2, abs_le]
    constructor <;> linarith

/-- a sum that is quadratic in the luminance -/
theorem sq_close {ε : ℝ} (e1 : ε ≤ 1) {l l' : List Ray} (h : List.Forall₂ (Relum ε) l l')
    (g : V3 → ℝ → ℝ) (hg : ∀ r ∈ l, 0 ≤ g r.v r.om) (hl : ∀ r ∈ l, 0 ≤ r.lum) :
    (1 - ε) ^ 2 * sumBy (fun r => g r.v r.om * r.lum ^ 2) l ≤ sumBy (fun r => g r.v r.om * r.lum ^ 2) l' ∧
    sumBy (fun r => g r.v r.om * r.lum ^ 2) l' ≤ (1 + ε) ^ 2 * sumBy (fun r => g r.v r.om * r.lum ^ 2) l := by
  induction h with
  | nil => simp [sumBy]
  | @cons a b l l' hab _ ih =>
    obtain ⟨f1, f2, f3⟩ := hab
    obtain ⟨i1, i2⟩ := ih (fun r hr => hg r (List.mem_cons_of_mem _ hr)) fun r hr => hl r (List.mem_cons_of_mem _ hr)
    have g0 := hg a List.mem_cons_self
    have l0 := hl a List.mem_cons_self
    have f3 := abs_le.mp f3
    have b1 : (1 - ε) * a.lum ≤ b.lum := by linarith
    have b2 : b.lum ≤ (1 + ε) * a.lum := by linarith
    have b0 : 0 ≤ (1 - ε) * a.lum := mul_nonneg (by linarith) l0
    have k1 := mul_le_mul_of_nonneg_left (pow_le_pow_left₀ b0 b1 2) g0
    have k2 := mul_le_mul_of_nonneg_left (pow_le_pow_left₀ (b0.trans b1) b2 2) g0
    rw [mul_pow] at k1 k2
    unfold sumBy at i1 i2 ⊢
    simp only [List.map_cons, List.sum_cons]
    rw [f1, f2]
    constructor <;> linarith

/-- a mask that does not depend on the change -/
theorem filter_close {ε : ℝ} {l l' : List Ray} (h : List.Forall₂ (Relum ε) l l') (p p' : Ray → Bool)
    (hp : ∀ r ∈ l, ∀ r', Relum ε r r' → p' r' = p r) : List.Forall₂ (Relum ε) (l.filter p) (l'.filter p') := by
  induction h with
  | nil => exact List.Forall₂.nil
  | @cons a b l l' hab _ ih =>
    have ih := ih fun r hr => hp r (List.mem_cons_of_mem _ hr)
    have e := hp a List.mem_cons_self b hab
    rw [List.filter_cons, List.filter_cons, e]
    split_ifs
    · exact List.Forall₂.cons hab ih
    · exact ih

/-- solid angles are the same -/
theorem om_close {ε : ℝ} {l l' : List Ray} (h : List.Forall₂ (Relum ε) l l') : omSum l' = omSum l := by
  induction h with
  | nil => rfl
  | cons hab _ ih =>
    unfold omSum at ih ⊢
    rw [List.map_cons, List.sum_cons, List.map_cons, List.sum_cons, ih, hab.2.1]

variable {ε : ℝ} {s s' : MS}

theorem scaled_close {a b c ε : ℝ} (h : |a - b| ≤ ε * b) (hc : 0 ≤ c) : |a * c - b * c| ≤ ε * (b * c) := by
  rw [← sub_mul, abs_mul, abs_of_nonneg hc, ← mul_assoc]
  exact mul_le_mul_of_nonneg_right h hc

/-- a linear metric over part of the rays -/
theorem part_close (h : Close ε s s') (hs : Sane s) {l l' : List Ray} (hl : List.Forall₂ (Relum ε) l l')
    (hsub : ∀ r ∈ l, r ∈ s.rays) (g : V3 → ℝ → ℝ) (hg : ∀ r ∈ s.rays, 0 ≤ g r.v r.om) {d : ℝ} (hd : 0 ≤ d) :
    |sumBy (fun r => g r.v r.om * r.lum) l' * s'.o.scale / d - sumBy (fun r => g r.v r.om * r.lum) l * s.o.scale / d| ≤
      ε * (sumBy (fun r => g r.v r.om * r.lum) l * s.o.scale / d) := by
  rw [h.o]
  have := scaled_close (lin_close hl g fun r hr => hg r (hsub r hr)) (mul_nonneg hs.scale (inv_nonneg.mpr hd))
  simpa only [div_eq_mul_inv, mul_assoc] using this

/-- **C211** illuminance and the averages of the luminance change by no more than the luminances -/
theorem C211_averages (h : Close ε s s') (hs : Sane s) :
    |s'.illum - s.illum| ≤ ε * s.illum ∧ |s'.avglum - s.avglum| ≤ ε * s.avglum ∧
    |s'.pwavglum - s.pwavglum| ≤ ε * s.pwavglum ∧ |s'.tasklum - s.tasklum| ≤ ε * s.tasklum ∧
    |s'.avgraylum - s.avgraylum| ≤ ε * s.avgraylum := by
  have hm := h.m
  have ho := h.o
  have epw : s'.pwArea = s.pwArea := by
    unfold MS.pwArea
    have : ∀ {l l' : List Ray}, List.Forall₂ (Relum ε) l l' → sumBy s'.pw l' = sumBy s.pw l := by
      intro l l' hl
      induction hl with
      | nil => rfl
      | cons hab _ ih =>
        unfold sumBy at ih ⊢
        rw [List.map_cons, List.sum_cons, List.map_cons, List.sum_cons, ih]
        unfold MS.pw MS.pos
        rw [hm, ho, hab.1, hab.2.1]
    exact this h.rays
  have pw0 : 0 ≤ s.pwArea := by
    unfold MS.pwArea sumBy
    apply List.sum_nonneg
    intro x hx
    obtain ⟨r, hr, rfl⟩ := List.mem_map.mp hx
    exact div_nonneg (hs.om r hr) (sq_nonneg _)
  refine ⟨?_, ?_, ?_, ?_, ?_⟩
  · have := part_close h hs h.rays (fun r hr => hr) (fun v om => Geo.ctheta s.m.dxyz v * om)
      (fun r hr => mul_nonneg (hs.ct r hr) (hs.om r hr)) zero_le_one
    unfold MS.illum MS.ct
    rw [hm]
    simpa only [div_one, mul_right_comm _ (Ray.om _) (Ray.lum _)] using this
  · have := part_close h hs h.rays (fun r hr => hr) (fun _ om => om) (fun r hr => hs.om r hr) hs.area
    unfold MS.avglum
    rw [h.area]
    simpa only [mul_comm (Ray.lum _)] using this
  · have := part_close h hs h.rays (fun r hr => hr) (fun v om => om / positions s.o.guth s.m v ^ 2)
      (fun r hr => div_nonneg (hs.om r hr) (sq_nonneg _)) pw0
    unfold MS.pwavglum
    rw [epw]
    unfold MS.pw MS.pos
    rw [hm]
    simp only [mul_comm (Ray.lum _)]
    rw [ho] at this ⊢
    exact this
  · have hf : List.Forall₂ (Relum ε) (s.rays.filter fun r => decide (s.m.degrees r.v < s.o.tradius))
        (s'.rays.filter fun r => decide (s'.m.degrees r.v < s'.o.tradius)) :=
      filter_close h.rays _ _ fun r _ r' hr => by rw [hm, ho, hr.1]
    have hsub : ∀ r ∈ s.rays.filter fun r => decide (s.m.degrees r.v < s.o.tradius), r ∈ s.rays :=
      fun r hr => (List.mem_filter.mp hr).1
    have o0 : 0 ≤ omSum (s.rays.filter fun r => decide (s.m.degrees r.v < s.o.tradius)) := by
      unfold omSum
      apply List.sum_nonneg
      intro x hx
      obtain ⟨r, hr, rfl⟩ := List.mem_map.mp hx
      exact hs.om r (hsub r hr)
    have := part_close h hs hf hsub (fun _ om => om) (fun r hr => hs.om r hr) o0
    unfold MS.tasklum
    rw [om_close hf]
    simpa only [mul_comm (Ray.lum _)] using this
  · have := part_close h hs h.rays (fun r hr => hr) (fun _ _ => 1) (fun r hr => zero_le_one)
      (Nat.cast_nonneg s.rays.length)
    unfold MS.avgraylum avg
    rw [List.length_map, List.length_map, ← h.rays.length_eq]
    unfold sumBy at this
    simp only [one_mul] at this
    simpa only [div_eq_mul_inv, mul_right_comm _ (s.o.scale), mul_right_comm _ (s'.o.scale)] using this

/-- a fraction of numbers that change little -/
theorem ratio_close {a a' b b' l u m n : ℝ} (ha : 0 ≤ a) (hb : 0 < b) (hm : 0 < m) (hl : 0 ≤ l) (h1 : l * a ≤ a')
    (h2 : a' ≤ u * a) (h3 : m * b ≤ b') (h4 : b' ≤ n * b) : l / n * (a / b) ≤ a' / b' ∧ a' / b' ≤ u / m * (a / b) := by
  have b0 : 0 < b' := lt_of_lt_of_le (mul_pos hm hb) h3
  have n0 : 0 < n := by
    by_contra hc
    push Not at hc
    nlinarith
  have la : 0 ≤ l * a := mul_nonneg hl ha
  constructor
  · rw [div_mul_div_comm]
    exact div_le_div₀ (la.trans h1) h1 b0 h4
  · rw [div_mul_div_comm]
    exact div_le_div₀ ((la.trans h1).trans h2) h2 (mul_pos hm hb) h3

/-- **C211** the contrast ratio changes by at most the square of `(1 + ε) / (1 - ε)` -/
theorem C211_contrast (e1 : ε < 1) (h : Close ε s s') (hs : Sane s) (hA : 0 < s.avglum) :
    (1 - ε) ^ 2 / (1 + ε) ^ 2 * s.gcr ≤ s'.gcr ∧ s'.gcr ≤ (1 + ε) ^ 2 / (1 - ε) ^ 2 * s.gcr := by
  have k := abs_le.mp (C211_averages h hs).2.1
  have b1 : (1 - ε) * s.avglum ≤ s'.avglum := by linarith
  have b2 : s'.avglum ≤ (1 + ε) * s.avglum := by linarith
  have p1 : 0 < (1 - ε) * s.avglum := mul_pos (by linarith) hA
  have A' : 0 < s'.avglum := lt_of_lt_of_le p1 b1
  obtain ⟨q1, q2⟩ := sq_close e1.le h.rays (fun _ om => om) hs.om hs.lum
  unfold MS.gcr
  rw [if_pos hA, if_pos A', h.area, h.o]
  have e : ∀ l : List Ray, sumBy (fun r => r.lum * r.lum * r.om) l = sumBy (fun r => r.om * r.lum ^ 2) l := fun l =>
    sumBy_congr fun r _ => by ring
  rw [e, e]
  have S0 : 0 ≤ sumBy (fun r => r.om * r.lum ^ 2) s.rays :=
    sumBy_nonneg fun r hr => mul_nonneg (hs.om r hr) (sq_nonneg _)
  have c0 : 0 ≤ s.o.scale ^ 2 / s.area := div_nonneg (sq_nonneg _) hs.area
  have m1 := mul_le_mul_of_nonneg_right q1 c0
  have m2 := mul_le_mul_of_nonneg_right q2 c0
  have z1 := pow_le_pow_left₀ p1.le b1 2
  have z2 := pow_le_pow_left₀ A'.le b2 2
  rw [mul_pow] at z1 z2
  rw [mul_assoc] at m1 m2
  have := ratio_close (mul_nonneg S0 c0) (pow_pos hA 2) (pow_pos (by linarith : 0 < 1 - ε) 2) (sq_nonneg (1 - ε)) m1 m2 z1 z2
  simpa only [mul_div_assoc] using this

/-- **C211** the same for the contrast ratio with weights by position -/
theorem C211_pwcontrast (e1 : ε < 1) (h : Close ε s s') (hs : Sane s) (hA : 0 < s.pwavglum) :
    (1 - ε) ^ 2 / (1 + ε) ^ 2 * s.pwgcr ≤ s'.pwgcr ∧ s'.pwgcr ≤ (1 + ε) ^ 2 / (1 - ε) ^ 2 * s.pwgcr := by
  have k := abs_le.mp (C211_averages h hs).2.2.1
  have b1 : (1 - ε) * s.pwavglum ≤ s'.pwavglum := by linarith
  have b2 : s'.pwavglum ≤ (1 + ε) * s.pwavglum := by linarith
  have p1 : 0 < (1 - ε) * s.pwavglum := mul_pos (by linarith) hA
  have A' : 0 < s'.pwavglum := lt_of_lt_of_le p1 b1
  have ep : s'.pos = s.pos := by funext r; unfold MS.pos; rw [h.m, h.o]
  have ew : s'.pw = s.pw := by funext r; unfold MS.pw; rw [ep]
  have w0 : ∀ r ∈ s.rays, 0 ≤ r.om / positions s.o.guth s.m r.v ^ 2 := fun r hr => div_nonneg (hs.om r hr) (sq_nonneg _)
  have epw : s'.pwArea = s.pwArea := by
    unfold MS.pwArea
    rw [ew]
    have : ∀ l : List Ray, sumBy s.pw l = omSum (l.map fun r => ⟨r.v, s.pw r, 0⟩) := fun l => by
      unfold sumBy omSum
      rw [List.map_map]
      rfl
    rw [this, this]
    refine om_close (ε := 0) ?_
    rw [List.forall₂_map_left_iff, List.forall₂_map_right_iff]
    exact h.rays.imp fun r r' a => ⟨a.1, by simp only [MS.pw, MS.pos, a.1, a.2.1], by simp⟩
  obtain ⟨q1, q2⟩ := sq_close e1.le h.rays (fun v om => om / positions s.o.guth s.m v ^ 2) w0 hs.lum
  unfold MS.pwgcr
  rw [if_pos hA, if_pos A', epw, h.o, ew]
  have e : ∀ l : List Ray, sumBy (fun r => r.lum * r.lum * s.pw r) l =
      sumBy (fun r => r.om / positions s.o.guth s.m r.v ^ 2 * r.lum ^ 2) l := fun l =>
    sumBy_congr fun r _ => by unfold MS.pw MS.pos; ring
  rw [e, e]
  have S0 : 0 ≤ sumBy (fun r => r.om / positions s.o.guth s.m r.v ^ 2 * r.lum ^ 2) s.rays :=
    sumBy_nonneg fun r hr => mul_nonneg (w0 r hr) (sq_nonneg _)
  have c0 : 0 ≤ s.o.scale ^ 2 / s.pwArea := div_nonneg (sq_nonneg _) (sumBy_nonneg w0)
  have m1 := mul_le_mul_of_nonneg_right q1 c0
  have m2 := mul_le_mul_of_nonneg_right q2 c0
  have z1 := pow_le_pow_left₀ p1.le b1 2
  have z2 := pow_le_pow_left₀ A'.le b2 2
  rw [mul_pow] at z1 z2
  rw [mul_assoc] at m1 m2
  have := ratio_close (mul_nonneg S0 c0) (pow_pos hA 2) (pow_pos (by linarith : 0 < 1 - ε) 2) (sq_nonneg (1 - ε)) m1 m2 z1 z2
  simpa only [mul_div_assoc] using this

/-- no ray lies at the threshold: luminance and threshold differ by more than they may change -/
def Gap (ε : ℝ) (s : MS) : Prop :=
  ∀ r ∈ s.rays, ε * (r.lum * s.o.scale + s.threshold) < |r.lum * s.o.scale - s.threshold|

theorem threshold_close (h : Close ε s s') (hs : Sane s) (ht : 0 ≤ s.o.thr) (e0 : 0 ≤ ε) :
    |s'.threshold - s.threshold| ≤ ε * s.threshold := by
  unfold MS.threshold
  rw [h.o]
  split_ifs
  · rw [sub_self, abs_zero]; positivity
  · exact scaled_close (C211_averages h hs).2.2.2.1 ht

/-- the same rays are sources -/
theorem src_close (h : Close ε s s') (hs : Sane s) (ht : 0 ≤ s.o.thr) (e0 : 0 ≤ ε) (hg : Gap ε s) :
    ∀ r ∈ s.rays, ∀ r', Relum ε r r' → s'.src r' = s.src r := by
  intro r hr r' hrr
  have k := abs_le.mp (threshold_close h hs ht e0)
  have l := abs_le.mp (scaled_close hrr.2.2 hs.scale)
  have g := hg r hr
  unfold MS.src
  rw [h.o, decide_eq_decide]
  rcases le_total (r.lum * s.o.scale) s.threshold with hle | hle
  · rw [abs_of_nonpos (by linarith)] at g
    exact ⟨fun hx => by linarith, fun hx => by linarith⟩
  · rw [abs_of_nonneg (by linarith)] at g
    exact ⟨fun hx => by nlinarith, fun hx => by linarith⟩

theorem sources_close (h : Close ε s s') (hs : Sane s) (ht : 0 ≤ s.o.thr) (e0 : 0 ≤ ε) (hg : Gap ε s) :
    List.Forall₂ (Relum ε) s.sources s'.sources ∧ List.Forall₂ (Relum ε) s.background s'.background :=
  ⟨filter_close h.rays _ _ (src_close h hs ht e0 hg),
    filter_close h.rays _ _ fun r hr r' hrr => by rw [src_close h hs ht e0 hg r hr r' hrr]⟩

theorem backlum_eq (s : MS) : s.backlum = sumBy (fun r => s.ct r * r.lum * r.om) s.background * s.o.scale / π := by
  unfold MS.backlum MS.illum MS.srcillum MS.background MS.sources
  rw [← sumBy_split _ s.src s.rays]
  ring

/-- **C211** if no ray lies at the threshold, the sources are the same rays, their area is the same, and what is computed
from them changes by no more than the luminances or their squares -/
theorem C211_sources_partial (e1 : ε ≤ 1) (h : Close ε s s') (hs : Sane s) (ht : 0 ≤ s.o.thr) (e0 : 0 ≤ ε)
    (hg : Gap ε s) :
    s'.srcarea = s.srcarea ∧ |s'.srcillum - s.srcillum| ≤ ε * s.srcillum ∧ |s'.backlum - s.backlum| ≤ ε * s.backlum ∧
    |s'.backlumTrue - s.backlumTrue| ≤ ε * s.backlumTrue ∧
    (1 - ε) ^ 2 * s.pwsl2 ≤ s'.pwsl2 ∧ s'.pwsl2 ≤ (1 + ε) ^ 2 * s.pwsl2 := by
  obtain ⟨h1, h2⟩ := sources_close h hs ht e0 hg
  have sub1 : ∀ r ∈ s.sources, r ∈ s.rays := fun r hr => (List.mem_filter.mp hr).1
  have sub2 : ∀ r ∈ s.background, r ∈ s.rays := fun r hr => (List.mem_filter.mp hr).1
  have hm := h.m
  have ho := h.o
  refine ⟨om_close h1, ?_, ?_, ?_, ?_⟩
  · have := part_close h hs h1 sub1 (fun v om => Geo.ctheta s.m.dxyz v * om)
      (fun r hr => mul_nonneg (hs.ct r hr) (hs.om r hr)) zero_le_one
    unfold MS.srcillum MS.ct
    rw [hm]
    simpa only [div_one, mul_right_comm _ (Ray.om _) (Ray.lum _)] using this
  · have := part_close h hs h2 sub2 (fun v om => Geo.ctheta s.m.dxyz v * om)
      (fun r hr => mul_nonneg (hs.ct r hr) (hs.om r hr)) pi_pos.le
    rw [backlum_eq, backlum_eq]
    unfold MS.ct
    rw [hm]
    simpa only [mul_right_comm _ (Ray.om _) (Ray.lum _)] using this
  · have o0 : 0 ≤ omSum s.background := by
      unfold omSum
      apply List.sum_nonneg
      intro x hx
      obtain ⟨r, hr, rfl⟩ := List.mem_map.mp hx
      exact hs.om r (sub2 r hr)
    have := part_close h hs h2 sub2 (fun _ om => om) (fun r hr => hs.om r hr) o0
    unfold MS.backlumTrue
    rw [om_close h2]
    simpa only [mul_comm (Ray.lum _)] using this
  · have := sq_close e1 h1 (fun v om => om * s.o.scale ^ 2 / positions s.o.guth s.m v ^ 2)
      (fun r hr => div_nonneg (mul_nonneg (hs.om r (sub1 r hr)) (sq_nonneg _)) (sq_nonneg _))
      (fun r hr => hs.lum r (sub1 r hr))
    have e : ∀ l : List Ray, sumBy (fun r => r.lum ^ 2 * r.om * s.o.scale ^ 2 / positions s.o.guth s.m r.v ^ 2) l =
        sumBy (fun r => r.om * s.o.scale ^ 2 / positions s.o.guth s.m r.v ^ 2 * r.lum ^ 2) l := fun l =>
      sumBy_congr fun r _ => by ring
    unfold MS.pwsl2 MS.pos
    rw [hm, ho, e, e]
    exact this

/-- logarithms of numbers that change little -/
theorem logb_close {q q' K : ℝ} (hq : 0 < q) (hK : 1 ≤ K) (h1 : q / K ≤ q') (h2 : q' ≤ K * q) :
    |logb 10 q' - logb 10 q| ≤ logb 10 K := by
  have k0 : 0 < K := by linarith
  have q0 : 0 < q' := lt_of_lt_of_le (div_pos hq k0) h1
  have a := logb_le_logb_of_le (b := 10) (by norm_num) (div_pos hq k0) h1
  have b := logb_le_logb_of_le (b := 10) (by norm_num) q0 h2
  rw [logb_div hq.ne' k0.ne'] at a
  rw [logb_mul k0.ne' hq.ne'] at b
  rw [abs_le]
  constructor <;> linarith

theorem sane_pwsl2 (hs : Sane s) : 0 ≤ s.pwsl2 :=
  sumBy_nonneg fun r hr => div_nonneg (mul_nonneg (mul_nonneg (sq_nonneg _) (hs.om r (List.mem_filter.mp hr).1))
    (sq_nonneg _)) (sq_nonneg _)

/-- **C211** the unified glare rating changes by at most `8 log10 ((1 + ε) / (1 - ε) ^ 2)`, the unified glare probability
accordingly -/
theorem C211_ugr_partial (e1 : ε < 1) (h : Close ε s s') (hs : Sane s) (ht : 0 ≤ s.o.thr) (e0 : 0 ≤ ε) (hg : Gap ε s)
    (hb : 0 < s.backlum) :
    |s'.ugr - s.ugr| ≤ 8 * logb 10 ((1 + ε) / (1 - ε) ^ 2) ∧
    MS.ugpOf (s.ugr - 8 * logb 10 ((1 + ε) / (1 - ε) ^ 2)) ≤ s'.ugp ∧
    s'.ugp ≤ MS.ugpOf (s.ugr + 8 * logb 10 ((1 + ε) / (1 - ε) ^ 2)) := by
  obtain ⟨-, -, kb, -, k1, k2⟩ := C211_sources_partial e1.le h hs ht e0 hg
  have kb := abs_le.mp kb
  have d0 : 0 < 1 - ε := by linarith
  have b1 : (1 - ε) * s.backlum ≤ s'.backlum := by linarith
  have b2 : s'.backlum ≤ (1 + ε) * s.backlum := by linarith
  have p0 := sane_pwsl2 hs
  have hK : 1 ≤ (1 + ε) / (1 - ε) ^ 2 := by
    rw [le_div_iff₀ (by positivity)]
    nlinarith
  have L0 : 0 ≤ logb 10 ((1 + ε) / (1 - ε) ^ 2) := logb_nonneg (by norm_num) hK
  have key : |s'.ugr - s.ugr| ≤ 8 * logb 10 ((1 + ε) / (1 - ε) ^ 2) := by
    unfold MS.ugr
    have hmax : ∀ a b : ℝ, |max 0 a - max 0 b| ≤ |a - b| := fun a b => by
      have := abs_max_sub_max_le_max 0 a 0 b
      simpa using this
    refine (hmax _ _).trans ?_
    rcases p0.eq_or_lt with hz | hz
    · have : s'.pwsl2 = 0 := by
        rw [← hz, mul_zero] at k1 k2
        linarith
      rw [this, ← hz, mul_zero, zero_div, zero_div, sub_self, abs_zero]
      positivity
    · obtain ⟨r1, r2⟩ := ratio_close p0 hb d0 (sq_nonneg (1 - ε)) k1 k2 b1 b2
      have hq : 0 < 0.25 * s.pwsl2 / s.backlum := by positivity
      rw [← mul_sub, abs_mul, show |(8 : ℝ)| = 8 by norm_num]
      refine mul_le_mul_of_nonneg_left (logb_close hq hK ?_ ?_) (by norm_num)
      · have e : 0.25 * s.pwsl2 / s.backlum / ((1 + ε) / (1 - ε) ^ 2) =
            0.25 * ((1 - ε) ^ 2 / (1 + ε) * (s.pwsl2 / s.backlum)) := by
          have : 1 + ε ≠ 0 := by linarith
          field_simp
        rw [e, mul_div_assoc]
        linarith
      · have hu : (1 + ε) ^ 2 / (1 - ε) ≤ (1 + ε) / (1 - ε) ^ 2 := by
          rw [div_le_div_iff₀ d0 (by positivity)]
          have : (1 + ε) * (1 - ε) ≤ 1 := by nlinarith
          have : 0 ≤ (1 + ε) * (1 - ε) * (1 - (1 + ε) * (1 - ε)) :=
            mul_nonneg (mul_nonneg (by linarith) d0.le) (by linarith)
          nlinarith
        have := mul_le_mul_of_nonneg_right hu (div_nonneg p0 hb.le)
        rw [mul_div_assoc, mul_div_assoc]
        linarith
  have key' := abs_le.mp key
  refine ⟨key, ?_, ?_⟩
  · exact C68_ugp_mono.monotone (by linarith)
  · exact C68_ugp_mono.monotone (by linarith)

/-- the formula of the daylight glare probability before it is cut off at one -/
theorem dgp_terms (e1 : ε < 1) (h : Close ε s s') (hs : Sane s) (ht : 0 ≤ s.o.thr) (e0 : 0 ≤ ε) (hg : Gap ε s)
    (hi : 0 < s.illum) :
    |(s'.dgpT1 + s'.dgpT2 + 0.16) - (s.dgpT1 + s.dgpT2 + 0.16)| ≤ 5.87e-5 * (ε * s.illum) + 9.18e-2 * logb 10 (((1 + ε) / (1 - ε)) ^ 2) := by
  obtain ⟨-, -, -, -, k1, k2⟩ := C211_sources_partial e1.le h hs ht e0 hg
  have ki := (C211_averages h hs).1
  have ki' := abs_le.mp ki
  have d0 : 0 < 1 - ε := by linarith
  have u0 : 0 < 1 + ε := by linarith
  have p0 := sane_pwsl2 hs
  have b1 : (1 - ε) * s.illum ≤ s'.illum := by linarith
  have b2 : s'.illum ≤ (1 + ε) * s.illum := by linarith
  have i0 : 0 < (1 - ε) * s.illum := mul_pos d0 hi
  have z1 : (1 - ε) ^ 2 * s.illum ^ (1.87 : ℝ) ≤ s'.illum ^ (1.87 : ℝ) := by
    have a := rpow_le_rpow i0.le b1 (show (0 : ℝ) ≤ 1.87 by norm_num)
    rw [mul_rpow d0.le hi.le] at a
    have b : (1 - ε) ^ 2 ≤ (1 - ε) ^ (1.87 : ℝ) := by
      rw [← rpow_natCast]
      exact rpow_le_rpow_of_exponent_ge d0 (by linarith) (by norm_num)
    exact (mul_le_mul_of_nonneg_right b (rpow_nonneg hi.le _)).trans a
  have z2 : s'.illum ^ (1.87 : ℝ) ≤ (1 + ε) ^ 2 * s.illum ^ (1.87 : ℝ) := by
    have a := rpow_le_rpow (i0.le.trans b1) b2 (show (0 : ℝ) ≤ 1.87 by norm_num)
    rw [mul_rpow u0.le hi.le] at a
    have b : (1 + ε) ^ (1.87 : ℝ) ≤ (1 + ε) ^ 2 := by
      rw [← rpow_natCast]
      exact rpow_le_rpow_of_exponent_le (by linarith) (by norm_num)
    exact a.trans (mul_le_mul_of_nonneg_right b (rpow_nonneg hi.le _))
  have hI : 0 < s.illum ^ (1.87 : ℝ) := rpow_pos_of_pos hi _
  obtain ⟨r1, r2⟩ := ratio_close p0 hI (pow_pos d0 2) (sq_nonneg (1 - ε)) k1 k2 z1 z2
  have q0 : 0 ≤ s.pwsl2 / s.illum ^ (1.87 : ℝ) := div_nonneg p0 hI.le
  have hK : 1 ≤ ((1 + ε) / (1 - ε)) ^ 2 := by
    apply one_le_pow₀
    rw [le_div_iff₀ d0]
    linarith
  have K0 : 0 < ((1 + ε) / (1 - ε)) ^ 2 := by linarith
  have kl : |s'.logGc - s.logGc| ≤ logb 10 (((1 + ε) / (1 - ε)) ^ 2) := by
    unfold MS.logGc
    refine logb_close (by linarith) hK ?_ ?_
    · rw [div_le_iff₀ K0]
      have : (1 - ε) ^ 2 / (1 + ε) ^ 2 * (s.pwsl2 / s.illum ^ (1.87 : ℝ)) * ((1 + ε) / (1 - ε)) ^ 2 =
          s.pwsl2 / s.illum ^ (1.87 : ℝ) := by field_simp
      have := mul_le_mul_of_nonneg_right r1 K0.le
      linarith
    · rw [← div_pow] at r2
      linarith
  have kl' := abs_le.mp kl
  unfold MS.dgpT1 MS.dgpT2
  norm_num
  rw [abs_le]
  norm_num at kl'
  constructor <;> linarith

/-- the logistic curve of the low light correction grows at most exponentially -/
theorem logistic_grow {x y : ℝ} (h : x ≤ y) : exp x / (1 + exp x) ≤ exp y / (1 + exp y) ∧
    exp y / (1 + exp y) ≤ exp (y - x) * (exp x / (1 + exp x)) := by
  have hx := exp_pos x
  have hy := exp_pos y
  have hxy := exp_le_exp.mpr h
  constructor
  · rw [div_le_div_iff₀ (by linarith) (by linarith)]
    nlinarith
  · rw [mul_div_assoc', ← exp_add, sub_add_cancel]
    exact div_le_div_of_nonneg_left hy.le (by linarith) (by linarith)

/-- the factor by which the low light correction may change -/
noncomputable def lowFactor (ε i : ℝ) : ℝ := (1 + exp (-8)) * exp (0.024 * (ε * min i (500 / (1 - ε))))

/-- the correction as a function of illuminance -/
theorem low_close {i i' : ℝ} (e0 : 0 ≤ ε) (e1 : ε < 1) (hi : 0 ≤ i) (h : |i' - i| ≤ ε * i) (on : Prop) [Decidable on]
    (g : ℝ → ℝ) (hg : ∀ i, g i = if on ∧ i < 500 then exp (0.024 * i - 4) / (1 + exp (0.024 * i - 4)) else 1) :
    1 ≤ lowFactor ε i ∧ 0 < g i ∧ 0 < g i' ∧ g i' ≤ lowFactor ε i * g i ∧ g i ≤ lowFactor ε i * g i' := by
  have d0 : 0 < 1 - ε := by linarith
  have h := abs_le.mp h
  have E8 := exp_pos (-8)
  have m0 : 0 ≤ 0.024 * (ε * min i (500 / (1 - ε))) := by
    have : 0 ≤ min i (500 / (1 - ε)) := le_min hi (by positivity)
    positivity
  have F : 1 ≤ exp (0.024 * (ε * min i (500 / (1 - ε)))) := one_le_exp m0
  have L1 : 1 ≤ lowFactor ε i := by unfold lowFactor; nlinarith
  have Le : exp (0.024 * (ε * min i (500 / (1 - ε)))) ≤ lowFactor ε i := by unfold lowFactor; nlinarith
  have gp : ∀ i, 0 < g i := fun i => by
    rw [hg]
    have := exp_pos (0.024 * i - 4)
    split <;> positivity
  refine ⟨L1, gp i, gp i', ?_⟩
  by_cases ho : on
  swap
  · rw [hg, hg, if_neg (fun c => ho c.1), if_neg (fun c => ho c.1)]
    exact ⟨by linarith, by linarith⟩
  by_cases hb : 500 / (1 - ε) ≤ i
  · have : 500 ≤ (1 - ε) * i := by rw [div_le_iff₀ d0] at hb; linarith
    have : 500 ≤ i := by nlinarith
    rw [hg, hg, if_neg (fun c => by linarith [c.2]), if_neg (fun c => by linarith [c.2])]
    exact ⟨by linarith, by linarith⟩
  push Not at hb
  have em : min i (500 / (1 - ε)) = i := min_eq_left hb.le
  rw [em] at Le
  -- two points of the logistic curve, the correction between them
  have key : ∀ a b : ℝ, a ≤ b → b - a ≤ ε * i → g a ≤ lowFactor ε i * g b ∧ g b ≤ lowFactor ε i * g a := by
    intro a b hab hd
    have mono : ∀ c, a ≤ c → c ≤ b → exp (0.024 * c - 4 - (0.024 * a - 4)) ≤ exp (0.024 * (ε * i)) := fun c _ hc =>
      exp_le_exp.mpr (by linarith)
    by_cases h5 : b < 500
    · obtain ⟨k1, k2⟩ := logistic_grow (show 0.024 * a - 4 ≤ 0.024 * b - 4 by linarith)
      have pa := gp a
      have pb := gp b
      rw [hg, if_pos ⟨ho, by linarith⟩] at pa ⊢
      rw [hg, if_pos ⟨ho, h5⟩] at pb ⊢
      constructor
      · nlinarith
      · exact k2.trans (mul_le_mul_of_nonneg_right ((mono b hab le_rfl).trans Le) pa.le)
    · by_cases h6 : a < 500
      · push Not at h5
        have pa := gp a
        rw [hg, if_pos ⟨ho, h6⟩] at pa ⊢
        rw [hg b, if_neg (fun c => by linarith [c.2])]
        have A := exp_pos (0.024 * a - 4)
        have le1 : exp (0.024 * a - 4) / (1 + exp (0.024 * a - 4)) ≤ 1 := by
          rw [div_le_one (by linarith)]; linarith
        refine ⟨by linarith, ?_⟩
        obtain ⟨k1, k2⟩ := logistic_grow (show 0.024 * a - 4 ≤ 8 by linarith)
        have m := mono 500 h6.le h5
        have e8 : exp (-8) = 1 / exp 8 := by rw [exp_neg, one_div]
        have one : (1 + exp (-8)) * (exp 8 / (1 + exp 8)) = 1 := by
          rw [e8]
          have := exp_pos 8
          field_simp
          ring
        have k3 : exp 8 / (1 + exp 8) ≤ exp (0.024 * (ε * i)) * (exp (0.024 * a - 4) / (1 + exp (0.024 * a - 4))) := by
          refine k2.trans (mul_le_mul_of_nonneg_right ?_ pa.le)
          refine le_trans (le_of_eq ?_) m
          norm_num
        have := mul_le_mul_of_nonneg_left k3 (show 0 ≤ 1 + exp (-8) by linarith)
        rw [one] at this
        unfold lowFactor
        rw [em]
        linarith
      · push Not at h5 h6
        rw [hg, hg, if_neg (fun c => by linarith [c.2]), if_neg (fun c => by linarith [c.2])]
        exact ⟨by linarith, by linarith⟩
  rcases le_total i i' with c | c
  · exact ⟨(key i i' c (by linarith)).2, (key i i' c (by linarith)).1⟩
  · exact ⟨(key i' i c (by linarith)).1, (key i' i c (by linarith)).2⟩

/-- cutting off at one: a factor within `L` and a change within `B` -/
theorem cut_close {l l' D D' L B : ℝ} (L1 : 1 ≤ L) (p : 0 < l) (p' : 0 < l') (h1 : l' ≤ L * l) (l1 : l ≤ 1) (d : 0 ≤ D) (d' : 0 ≤ D')
    (hB : |D' - D| ≤ B) : min (l' * D') 1 - min (l * D) 1 ≤ (L - 1) + L * B := by
  have hB := (abs_le.mp hB).2
  have B0 : 0 ≤ B := (abs_nonneg _).trans (by assumption)
  rcases le_total (l * D) 1 with c | c
  · rw [min_eq_left c]
    refine (sub_le_sub_right (min_le_left _ _) _).trans ?_
    have a1 : l' * D' ≤ L * l * D' := mul_le_mul_of_nonneg_right h1 d'
    have a2 : L * l * D' ≤ L * l * (D + B) := mul_le_mul_of_nonneg_left (by linarith) (by positivity)
    have a3 : L * (l * B) ≤ L * B := mul_le_mul_of_nonneg_left (by nlinarith) (by linarith)
    have a4 : (L - 1) * (l * D) ≤ (L - 1) * 1 := mul_le_mul_of_nonneg_left c (by linarith)
    nlinarith
  · rw [min_eq_right c]
    have := min_le_right (l' * D') 1
    have := mul_nonneg (show 0 ≤ L by linarith) B0
    linarith

/-- **C211** the daylight glare probability changes by at most `5.87e-5 ε Ev + 0.0918 log10 (((1 + ε) / (1 - ε)) ^ 2)`,
and with the low light correction by at most what the factor of that correction adds -/
theorem C211_dgp_partial (e1 : ε < 1) (h : Close ε s s') (hs : Sane s) (ht : 0 ≤ s.o.thr) (e0 : 0 ≤ ε) (hg : Gap ε s)
    (hi : 0 < s.illum) :
    (s.o.lowlight = false →
      |s'.dgp - s.dgp| ≤ 5.87e-5 * (ε * s.illum) + 9.18e-2 * logb 10 (((1 + ε) / (1 - ε)) ^ 2)) ∧
    |s'.dgp - s.dgp| ≤ (lowFactor ε s.illum - 1) +
      lowFactor ε s.illum * (5.87e-5 * (ε * s.illum) + 9.18e-2 * logb 10 (((1 + ε) / (1 - ε)) ^ 2)) := by
  have hD := dgp_terms e1 h hs ht e0 hg hi
  generalize 5.87e-5 * (ε * s.illum) + 9.18e-2 * logb 10 (((1 + ε) / (1 - ε)) ^ 2) = B at hD ⊢
  constructor
  · intro hl
    have ell : ∀ t : MS, t.o = s.o → t.ll = 1 := fun t h => by
      unfold MS.ll
      rw [h, hl]
      simp
    have hmin : ∀ a b : ℝ, |min a 1 - min b 1| ≤ |a - b| := fun a b => by
      have := abs_min_sub_min_le_max a 1 b 1
      simpa using this
    unfold MS.dgp
    refine (hmin _ _).trans ?_
    rw [ell s' h.o, ell s rfl, one_mul, one_mul]
    exact hD
  · have ki := (C211_averages h hs).1
    obtain ⟨L1, p, p', q1, q2⟩ := low_close e0 e1 hi.le ki (s.o.lowlight = true)
      (fun i => if s.o.lowlight = true ∧ i < 500 then exp (0.024 * i - 4) / (1 + exp (0.024 * i - 4)) else 1) fun _ => rfl
    have E : ∀ t : MS, t.o = s.o → t.ll = if s.o.lowlight = true ∧ t.illum < 500 then
        exp (0.024 * t.illum - 4) / (1 + exp (0.024 * t.illum - 4)) else 1 := fun t h => by
      unfold MS.ll
      rw [h]
    have one : ∀ t : MS, t.ll ≤ 1 := fun t => by
      unfold MS.ll
      split
      · have := exp_pos (0.024 * t.illum - 4)
        rw [div_le_one (by linarith)]; linarith
      · exact le_rfl
    have nn : ∀ t : MS, 0 ≤ t.illum → 0 ≤ t.pwsl2 → 0 ≤ t.dgpT1 + t.dgpT2 + 0.16 := fun t a b => by
      have : 0 ≤ t.logGc := logb_nonneg (by norm_num) (by have := div_nonneg b (rpow_nonneg a 1.87); linarith)
      unfold MS.dgpT1 MS.dgpT2
      positivity
    have i' : 0 ≤ s'.illum := by
      have := (abs_le.mp ki).1
      nlinarith
    have w' : 0 ≤ s'.pwsl2 :=
      (mul_nonneg (sq_nonneg (1 - ε)) (sane_pwsl2 hs)).trans (C211_sources_partial e1.le h hs ht e0 hg).2.2.2.2.1
    have n1 := nn s hi.le (sane_pwsl2 hs)
    have n2 := nn s' i' w'
    simp only [← E s rfl, ← E s' h.o] at p p' q1 q2
    rw [abs_le]
    unfold MS.dgp
    have c1 := cut_close L1 p p' q1 (one s) n1 n2 hD
    have c2 := cut_close L1 p' p q2 (one s') n2 n1 ((abs_sub_comm _ _).trans_le hD)
    constructor <;> linarith

/-- **C211** the property: metrics change little when a picture is saved and read (0.4 per cent), whatever the threshold -/
def C211_statement : Prop :=
  ∀ s s' : MS, Sane s → 0 ≤ s.o.thr → 0 < s.backlum → Close 0.004 s s' → |s'.ugr - s.ugr| ≤ 1

/-- one ray that is as bright as the threshold, or 0.4 per cent brighter, before a background -/
noncomputable def atRim (l : ℝ) : MS :=
  ⟨View.new ⟨0, 1, 0⟩ 180, [⟨⟨0, 1, 0⟩, 1, 1000⟩, ⟨⟨0, 1, 0⟩, 1, l⟩], 2, ⟨1, true, true, 2000, 30, false⟩⟩

theorem atRim_dxyz (l : ℝ) : (atRim l).m.dxyz = ⟨0, 1, 0⟩ := by
  simp [atRim, View.new, Geo.norm, norm1, V3.divS, V3.len, V3.normSq]

theorem atRim_ct (l : ℝ) (om x : ℝ) : (atRim l).ct ⟨⟨0, 1, 0⟩, om, x⟩ = 1 := by
  unfold MS.ct
  rw [atRim_dxyz]
  simp [Geo.ctheta, clip1, V3.dot]

theorem atRim_illum (l : ℝ) : (atRim l).illum = 1000 + l := by
  have : (atRim l).rays = [⟨⟨0, 1, 0⟩, 1, 1000⟩, ⟨⟨0, 1, 0⟩, 1, l⟩] := rfl
  unfold MS.illum
  have o : (atRim l).o.scale = 1 := rfl
  rw [this, o, sumBy_cons, sumBy_cons, sumBy_nil, atRim_ct, atRim_ct]
  ring

theorem atRim_sane {l : ℝ} (h : 0 ≤ l) : Sane (atRim l) where
  lum r hr := by
    simp [atRim] at hr
    rcases hr with rfl | rfl
    · norm_num
    · exact h
  om r hr := by
    simp [atRim] at hr
    rcases hr with rfl | rfl <;> norm_num
  ct r hr := by
    simp only [atRim, List.mem_cons, List.not_mem_nil, or_false] at hr
    rcases hr with rfl | rfl <;> rw [atRim_ct] <;> norm_num
  scale := by norm_num [atRim]
  area := by norm_num [atRim]

theorem atRim_close {l l' ε : ℝ} (e0 : 0 ≤ ε) (h : |l' - l| ≤ ε * l) : Close ε (atRim l) (atRim l') where
  m := rfl
  o := rfl
  area := rfl
  rays := List.Forall₂.cons ⟨rfl, rfl, by rw [sub_self, abs_zero]; positivity⟩
    (List.Forall₂.cons ⟨rfl, rfl, h⟩ List.Forall₂.nil)

theorem atRim_dark : (atRim 2000).sources = [] := by
  simp [MS.sources, atRim, MS.src, MS.threshold]
  norm_num

theorem atRim_bright {l : ℝ} (h : 2000 < l) : (atRim l).sources = [⟨⟨0, 1, 0⟩, 1, l⟩] := by
  have e : ∀ x, (atRim l).src ⟨⟨0, 1, 0⟩, 1, x⟩ = decide (x > 2000) := fun x => by
    simp [atRim, MS.src, MS.threshold]
    norm_num
  have : (atRim l).rays = [⟨⟨0, 1, 0⟩, 1, 1000⟩, ⟨⟨0, 1, 0⟩, 1, l⟩] := rfl
  unfold MS.sources
  rw [this, List.filter_cons, List.filter_cons, e, e]
  norm_num [h]

theorem atRim_back {l : ℝ} (h : 2000 < l) : (atRim l).backlum = 1000 / π := by
  unfold MS.backlum MS.srcillum
  rw [atRim_illum, atRim_bright h, sumBy_cons, sumBy_nil, atRim_ct]
  simp [atRim]

theorem atRim_pos : (atRim 2008).pos ⟨⟨0, 1, 0⟩, 1, 2008⟩ = 1 := by
  have c : Clear ⟨0, 1, 0⟩ := by
    refine ⟨by simp [V3.zero], Or.inl ?_⟩
    have : (Geo.norm ⟨0, 1, 0⟩).z = 0 := by simp [Geo.norm, norm1, V3.len, V3.normSq, V3.divS]
    rw [this, arccos_zero]
    exact ⟨by linarith [pi_gt_three], by linarith [pi_gt_three]⟩
  have h := C73_sight_partial ⟨0, 1, 0⟩ c 180 true
  have d := atRim_dxyz 2008
  unfold MS.pos
  have : (atRim 2008).m = View.new ⟨0, 1, 0⟩ 180 := rfl
  rw [this] at d ⊢
  rw [d] at h
  exact h

/-- **C211** is false at the threshold: a ray that is 0.4 per cent brighter becomes a source and the rating leaps -/
theorem C211_refuted : ¬ C211_statement := by
  intro h
  have p1 : (atRim 2000).pwsl2 = 0 := by unfold MS.pwsl2; rw [atRim_dark]; rfl
  have b1 : (atRim 2000).backlum = 3000 / π := by
    unfold MS.backlum MS.srcillum
    rw [atRim_illum, atRim_dark]
    norm_num
  have p2 : (atRim 2008).pwsl2 = 2008 ^ 2 := by
    unfold MS.pwsl2
    rw [atRim_bright (by norm_num), sumBy_cons, sumBy_nil, atRim_pos]
    simp [atRim]
  have b2 : (atRim 2008).backlum = 1000 / π := atRim_back (by norm_num)
  have hp := pi_gt_three
  have k := h (atRim 2000) (atRim 2008) (atRim_sane (by norm_num)) (by norm_num [atRim]) (by rw [b1]; positivity)
    (atRim_close (by norm_num) (by norm_num))
  unfold MS.ugr at k
  rw [p1, p2, b2, mul_zero, zero_div, logb_zero, mul_zero, max_self, sub_zero] at k
  have big : 1 ≤ logb 10 (0.25 * 2008 ^ 2 / (1000 / π)) := by
    rw [le_logb_iff_rpow_le (by norm_num) (by positivity), rpow_one, le_div_iff₀ (by positivity),
      mul_div_assoc', div_le_iff₀ (by linarith)]
    nlinarith
  have k := (abs_le.mp k).2
  have := (le_max_right 0 _).trans k
  linarith

/-- the metric set of a picture: a ray for each pixel of a list, with the value of the pixel as luminance -/
def ofPixels (m : View) (o : Opts) (area : ℝ) (v : ℕ × ℕ → V3) (om : ℕ × ℕ → ℝ) (px : List (ℕ × ℕ)) (ar : ℕ → ℕ → ℝ) : MS :=
  ⟨m, px.map fun p => ⟨v p, om p, ar p.1 p.2⟩, area, o⟩

theorem saved_close {f : ℝ → ℝ} (hf : Rgbe.F32 f) {e : ℝ} (s0 : 255.999 ≤ e) (s1 : e ≤ 256) {w : Fin 3 → ℝ}
    (hw : ∑ i, w i = 1) {H : ℕ} {ar : ℕ → ℕ → ℝ} (m : View) (o : Opts) (area : ℝ) (v : ℕ × ℕ → V3) (om : ℕ × ℕ → ℝ)
    {px : List (ℕ × ℕ)} (hH : ∀ p ∈ px, p.2 < H) (hi : ∀ p ∈ px, ar p.1 p.2 < 2 ^ (126 : ℤ))
    (lo : ∀ p ∈ px, ar p.1 p.2 = 0 ∨ 2e-32 < ar p.1 p.2) :
    Close 0.004 (ofPixels m o area v om px ar) (ofPixels m o area v om px (Rgbe.load f w H (Rgbe.save f e H ar))) where
  m := rfl
  o := rfl
  area := rfl
  rays := by
    unfold ofPixels
    simp only [List.forall₂_map_left_iff, List.forall₂_map_right_iff, List.forall₂_same]
    exact fun p hp => ⟨rfl, rfl, Rgbe.C207_grey hf s0 s1 hw H ar (hH p hp) (hi p hp) (lo p hp)⟩

theorem log10_gt : 2.079 < log 10 := by
  have h : log ((2 : ℝ) ^ 3) < log 10 := log_lt_log (by norm_num) (by norm_num)
  rw [log_pow] at h
  have := log_two_gt_d9
  push_cast at h
  linarith

theorem logb10_le {x : ℝ} (h : 1 ≤ x) : logb 10 x ≤ (x - 1) / 2.079 := by
  unfold logb
  have a := log_le_sub_one_of_pos (show 0 < x by linarith)
  have b := log10_gt
  exact div_le_div₀ (by linarith) a (by norm_num) b.le

/-- **C211** metrics of a picture that was saved and read: illuminance and average luminance within 0.4 per cent, the
glare ratings within 0.05 points and `0.0008 + 2.4e-7 Ev`, unless a pixel lies at the threshold -/
theorem C211_saved_partial {f : ℝ → ℝ} (hf : Rgbe.F32 f) {e : ℝ} (s0 : 255.999 ≤ e) (s1 : e ≤ 256) {w : Fin 3 → ℝ}
    (hw : ∑ i, w i = 1) {H : ℕ} {ar : ℕ → ℕ → ℝ} (m : View) (o : Opts) (area : ℝ) (v : ℕ × ℕ → V3) (om : ℕ × ℕ → ℝ)
    {px : List (ℕ × ℕ)} (hH : ∀ p ∈ px, p.2 < H) (hi : ∀ p ∈ px, ar p.1 p.2 < 2 ^ (126 : ℤ))
    (lo : ∀ p ∈ px, ar p.1 p.2 = 0 ∨ 2e-32 < ar p.1 p.2) (s s' : MS) (es : s = ofPixels m o area v om px ar)
    (es' : s' = ofPixels m o area v om px (Rgbe.load f w H (Rgbe.save f e H ar))) (hs : Sane s) :
    |s'.illum - s.illum| ≤ 0.004 * s.illum ∧ |s'.avglum - s.avglum| ≤ 0.004 * s.avglum ∧
    (0 ≤ o.thr → Gap 0.004 s → (0 < s.backlum → |s'.ugr - s.ugr| ≤ 0.05) ∧
      (0 < s.illum → o.lowlight = false → |s'.dgp - s.dgp| ≤ 2.4e-7 * s.illum + 0.0008)) := by
  have h := saved_close hf s0 s1 hw m o area v om hH hi lo
  rw [← es, ← es'] at h
  have ho : s.o = o := by rw [es]; rfl
  have ha := C211_averages h hs
  refine ⟨ha.1, ha.2.1, fun ht hg => ⟨fun hb => ?_, fun hI hl => ?_⟩⟩
  · refine (C211_ugr_partial (by norm_num) h hs (by rw [ho]; exact ht) (by norm_num) hg hb).1.trans ?_
    have := logb10_le (x := (1 + 0.004) / (1 - 0.004) ^ 2) (by norm_num)
    norm_num at this ⊢
    linarith
  · refine (C211_dgp_partial (by norm_num) h hs (by rw [ho]; exact ht) (by norm_num) hg hI).1 (by rw [ho]; exact hl) |>.trans ?_
    have := logb10_le (x := ((1 + 0.004) / (1 - 0.004)) ^ 2) (by norm_num)
    norm_num at this ⊢
    linarith

/-- the hypotheses are met: a source of 3000 before 1000, both 0.4 per cent off at most -/
example : Sane (atRim 3000) ∧ Close 0.004 (atRim 3000) (atRim 3010) ∧ Gap 0.004 (atRim 3000) ∧ 0 < (atRim 3000).illum ∧
    0 < (atRim 3000).backlum ∧ (atRim 3000).o.lowlight = false := by
  refine ⟨atRim_sane (by norm_num), atRim_close (by norm_num) (by norm_num [abs_le]), ?_, by rw [atRim_illum]; norm_num,
    by rw [atRim_back (by norm_num)]; positivity, rfl⟩
  intro r hr
  have t : (atRim 3000).threshold = 2000 := by norm_num [MS.threshold, atRim]
  rw [t]
  simp only [atRim, List.mem_cons, List.not_mem_nil, or_false] at hr ⊢
  rcases hr with rfl | rfl <;> norm_num [abs_of_neg, abs_of_pos]

variable {ε : ℝ}

/-- rays of the caller that differ only in luminance -/
theorem getD_close {l l' : List Ray} (h : List.Forall₂ (Relum ε) l l') (i : ℕ) :
    Relum ε (raw l i) (raw l' i) := by
  unfold raw
  induction h generalizing i with
  | nil => exact ⟨rfl, rfl, by simp⟩
  | cons a _ ih =>
    cases i with
    | zero => exact a
    | succ i => exact ih i

theorem avg_close {l l' : List Ray} (h : List.Forall₂ (Relum ε) l l') : |avgLum l' - avgLum l| ≤ ε * avgLum l := by
  have k := lin_close h (fun _ _ => 1) (fun _ _ => by norm_num)
  have e : ∀ l : List Ray, avgLum l = sumBy (fun r => 1 * r.lum) l / l.length := fun l => by
    unfold avgLum avg sumBy
    simp
  rw [e, e, h.length_eq, ← sub_div, mul_div_assoc', abs_div, abs_of_nonneg (by positivity : (0:ℝ) ≤ (l'.length : ℝ))]
  exact div_le_div_of_nonneg_right k (by positivity)

/-- no ray lies at ten times the average, where rays near the rim of the view are taken for strays -/
def StrayGap (ε : ℝ) (rays : List Ray) : Prop :=
  ∀ r ∈ rays, ε * (r.lum + 10 * avgLum rays) < |r.lum - 10 * avgLum rays|

theorem strays_close {m : View} {l l' : List Ray} (h : List.Forall₂ (Relum ε) l l') (e1 : ε < 1)
    (hl : ∀ r ∈ l, 0 ≤ r.lum) (hg : StrayGap ε l) : strays m l' = strays m l := by
  have ka := abs_le.mp (avg_close h)
  have a0 : 0 ≤ avgLum l := by
    unfold avgLum avg
    exact div_nonneg (List.sum_nonneg (by simpa using hl)) (by positivity)
  unfold strays
  rw [← h.length_eq]
  apply List.filter_congr
  intro i hi
  have hi : i < l.length := List.mem_range.mp hi
  obtain ⟨e1', e2, e3⟩ := getD_close h i
  have hm : raw l i ∈ l := by
    have : raw l i = l[i] := by simp [raw, hi]
    rw [this]
    exact List.getElem_mem _
  have g := hg _ hm
  have l0 := hl _ hm
  have e3 := abs_le.mp e3
  have en : nv l' i = nv l i := by unfold nv; rw [e1']
  rw [decide_eq_decide]
  unfold IsStray
  rw [en]
  have ep : avgLum l' > 0 ↔ avgLum l > 0 := by
    constructor
    · intro h
      by_contra c
      have : avgLum l = 0 := le_antisymm (not_lt.mp c) a0
      rw [this] at ka
      linarith [ka.2]
    · intro h
      have := mul_pos (sub_pos.mpr e1) h
      show 0 < avgLum l'
      linarith [ka.1]
  rw [ep]
  refine and_congr_right fun hp => and_congr_right fun _ => and_congr_right fun _ => ?_
  have hp' := ep.mpr hp
  show 10 < _ ↔ 10 < _
  rw [lt_div_iff₀ hp, lt_div_iff₀ hp']
  rcases abs_cases ((raw l i).lum - 10 * avgLum l) with ⟨q, q'⟩ | ⟨q, q'⟩ <;> rw [q] at g
  · have : 0 < (raw l i).lum - 10 * avgLum l := by
      refine lt_of_le_of_ne q' fun c => ?_
      rw [← c] at g
      nlinarith [abs_nonneg ((raw l' i).lum - (raw l i).lum), ka.1, ka.2]
    constructor <;> intro <;> linarith [ka.1, ka.2]
  · constructor <;> intro <;> linarith [ka.1, ka.2]

theorem select_close {m : View} {l l' : List Ray} (h : List.Forall₂ (Relum ε) l l') (hs : strays m l' = strays m l) :
    select m l' = select m l := by
  have r := getD_close h
  have en : nv l' = nv l := funext fun i => by unfold nv; rw [(r i).1]
  have eo : ∀ i, (raw l' i).om = (raw l i).om := fun i => (r i).2.1
  have e0 : sel0 m l' = sel0 m l := by unfold sel0; simp only [en, eo]
  have e1 : strayStep m l' = strayStep m l := by
    funext st i
    have a1 : Overlaps m l' i = Overlaps m l i := by unfold Overlaps; rw [en, eo]
    have a2 : clipOm m l' i = clipOm m l i := by unfold clipOm; rw [en, eo]
    have a3 : clipV m l' i = clipV m l i := by unfold clipV; rw [en, eo]
    unfold strayStep
    rw [a1, a2, a3, hs]
  unfold select
  rw [hs, e0, e1]

theorem viewRays_close {m : View} {l l' : List Ray} (h : List.Forall₂ (Relum ε) l l') (hs : strays m l' = strays m l) :
    List.Forall₂ (Relum ε) (viewRays m l) (viewRays m l') := by
  have r := getD_close h
  have es := select_close h hs
  have ek : kept m l' = kept m l := by unfold kept; rw [es, h.length_eq]
  have en : nv l' = nv l := funext fun i => by unfold nv; rw [(r i).1]
  unfold viewRays
  rw [ek, es, en]
  simp only [List.forall₂_map_left_iff, List.forall₂_map_right_iff, List.forall₂_same]
  intro i _
  split
  · exact ⟨rfl, (r i).2.1, (r i).2.2⟩
  · exact ⟨rfl, rfl, (r i).2.2⟩

theorem omSum_close {l l' : List Ray} (h : List.Forall₂ (Relum ε) l l') : omSum l' = omSum l := by
  unfold omSum
  induction h with
  | nil => rfl
  | cons a _ ih => rw [List.map_cons, List.map_cons, List.sum_cons, List.sum_cons, ih, a.2.1]

theorem onEdge_close {m : View} {k : ℕ} {r r' : Ray} (h : Relum ε r r') : onEdge m k r' = onEdge m k r := by
  unfold onEdge
  rw [h.1, h.2.1]

theorem edge_close {m : View} {k : ℕ} {l l' : List Ray} (h : List.Forall₂ (Relum ε) l l') :
    List.Forall₂ (Relum ε) (l.filter (onEdge m k)) (l'.filter (onEdge m k)) := by
  induction h with
  | nil => exact .nil
  | cons a _ ih =>
    rw [List.filter_cons, List.filter_cons, onEdge_close a]
    split
    · exact .cons a ih
    · exact ih

theorem adjust_close {m : View} {k : ℕ} {l l' : List Ray} (h : List.Forall₂ (Relum ε) l l') :
    adjust m k l' = adjust m k l := by
  unfold adjust edgeTotal excess
  rw [omSum_close h, omSum_close (edge_close h)]

theorem widen_close {m : View} {l l' : List Ray} (h : List.Forall₂ (Relum ε) l l') (n k : ℕ) :
    widen m l' n k = widen m l n k := by
  induction n generalizing k with
  | zero => rfl
  | succ n ih => unfold widen; rw [adjust_close h, ih]

theorem applyAdjust_close {m : View} {k : ℕ} {l l' : List Ray} (h : List.Forall₂ (Relum ε) l l') :
    List.Forall₂ (Relum ε) (applyAdjust m k l) (applyAdjust m k l') := by
  unfold applyAdjust
  rw [adjust_close h, List.forall₂_map_left_iff, List.forall₂_map_right_iff]
  refine h.imp fun r r' a => ⟨a.1, ?_, a.2.2⟩
  rw [onEdge_close a, a.2.1]

/-- **C211** the constructor: rays that differ in luminance only give metric sets that differ in luminance only, unless
a ray lies at ten times the average -/
theorem C211_build_partial {m : View} {o : Opts} {l l' : List Ray} {n : ℕ} {s : MS} (h : List.Forall₂ (Relum ε) l l')
    (e1 : ε < 1) (hl : ∀ r ∈ l, 0 ≤ r.lum) (hg : StrayGap ε l) (hs : build m o l n = some s) :
    ∃ s', build m o l' n = some s' ∧ Close ε s s' := by
  have k := viewRays_close h (strays_close (m := m) h e1 hl hg)
  unfold build setOmega at hs ⊢
  rw [← k.length_eq, widen_close k, omSum_close k]
  split at hs
  · rename_i c
    rw [if_pos c]
    cases hw : widen m (viewRays m l) n 0 with
    | none => rw [hw] at hs; simp at hs
    | some j =>
      rw [hw] at hs
      simp only [Option.map_some, Option.some.injEq] at hs ⊢
      subst hs
      exact ⟨_, rfl, rfl, rfl, rfl, applyAdjust_close k⟩
  · rename_i c
    rw [if_neg c]
    simp only [Option.map_some, Option.some.injEq] at hs ⊢
    subst hs
    exact ⟨_, rfl, rfl, rfl, rfl, k⟩

/-- the hypotheses are met by rays of 1000 and 3000, none of which is near ten times the average 2000 -/
example : StrayGap 0.004 (atRim 3000).rays ∧ ∃ s, build (View.new ⟨0, 1, 0⟩ 180) ⟨1, true, true, 2000, 30, false⟩ (atRim 3000).rays 0 = some s := by
  constructor
  · intro r hr
    have a : avgLum (atRim 3000).rays = 2000 := by norm_num [avgLum, avg, atRim]
    rw [a]
    simp only [atRim, List.mem_cons, List.not_mem_nil, or_false] at hr
    rcases hr with rfl | rfl <;> norm_num [abs_of_neg]
  · exact ⟨_, rfl⟩

end Verif.Metric
