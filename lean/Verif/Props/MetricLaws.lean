import Verif.Props.Metric

/-! C160, C161: averages, position weights and glare formulas of a metric set. -/

namespace Verif.Metric
open Verif.Geo Verif.Map Verif.Pos Real

/-! Spec -/

/-- `x` is between two bounds -/
def Between (lo hi x : ℝ) : Prop := lo ≤ x ∧ x ≤ hi

/-! Averages -/

theorem sumBy_between {w : Ray → ℝ} {l : List Ray} {lo hi : ℝ} (hw : ∀ r ∈ l, 0 ≤ w r) (hl : ∀ r ∈ l, Between lo hi r.lum) :
    lo * sumBy w l ≤ sumBy (fun r => r.lum * w r) l ∧ sumBy (fun r => r.lum * w r) l ≤ hi * sumBy w l := by
  induction l with
  | nil => simp
  | cons a l ih =>
    obtain ⟨i1, i2⟩ := ih (fun r hr => hw r (List.mem_cons_of_mem _ hr)) (fun r hr => hl r (List.mem_cons_of_mem _ hr))
    have a1 := hw a List.mem_cons_self
    obtain ⟨a2, a3⟩ := hl a List.mem_cons_self
    simp only [sumBy_cons]
    constructor <;> nlinarith [mul_le_mul_of_nonneg_right a2 a1, mul_le_mul_of_nonneg_right a3 a1]

theorem average_between {w : Ray → ℝ} {l : List Ray} {lo hi c : ℝ} (hc : 0 ≤ c) (hw : ∀ r ∈ l, 0 ≤ w r)
    (hp : 0 < sumBy w l) (hl : ∀ r ∈ l, Between lo hi r.lum) :
    Between (lo * c) (hi * c) (sumBy (fun r => r.lum * w r) l * c / sumBy w l) := by
  obtain ⟨h1, h2⟩ := sumBy_between hw hl
  constructor
  · rw [le_div_iff₀ hp]; nlinarith [mul_le_mul_of_nonneg_right h1 hc]
  · rw [div_le_iff₀ hp]; nlinarith [mul_le_mul_of_nonneg_right h2 hc]

theorem pos_pos (s : MS) (r : Ray) : 0 < s.pos r := by
  unfold MS.pos
  obtain ⟨⟨h1, -⟩, h2⟩ := C73_range s.m r.v
  cases s.o.guth
  · exact h2
  · linarith

theorem pw_pos (s : MS) {r : Ray} : (0 ≤ r.om → 0 ≤ s.pw r) ∧ (0 < r.om → 0 < s.pw r) := by
  have := pos_pos s r
  unfold MS.pw
  exact ⟨fun h => by positivity, fun h => by positivity⟩

theorem sumBy_pos {f : Ray → ℝ} {l : List Ray} (hne : l ≠ []) (h : ∀ r ∈ l, 0 < f r) : 0 < sumBy f l := by
  cases l with
  | nil => exact absurd rfl hne
  | cons a l =>
    rw [sumBy_cons]
    have := sumBy_nonneg (f := f) (l := l) fun r hr => (h r (List.mem_cons_of_mem _ hr)).le
    have := h a List.mem_cons_self
    linarith

theorem max_between {l : List ℝ} {lo hi : ℝ} (hne : l ≠ []) (h : ∀ x ∈ l, Between lo hi x) :
    Between lo hi (l.foldl max l.headI) := by
  have key : ∀ (l : List ℝ) (a : ℝ), Between lo hi a → (∀ x ∈ l, Between lo hi x) → Between lo hi (l.foldl max a) := by
    intro l
    induction l with
    | nil => intro a ha _; exact ha
    | cons b l ih =>
      intro a ha hb
      refine ih _ ⟨le_max_of_le_left ha.1, max_le ha.2 (hb b List.mem_cons_self).2⟩ fun x hx => hb x (List.mem_cons_of_mem _ hx)
  cases l with
  | nil => exact absurd rfl hne
  | cons a l => exact key _ _ (h a List.mem_cons_self) h

/-- **C160** every average of a metric set lies between the least and the greatest luminance, in the unit of the scale:
over rays, over solid angles, over position weights, over the task, over the background -/
theorem C160_between (s : MS) (hs : 0 ≤ s.o.scale) (hne : s.rays ≠ []) (hom : ∀ r ∈ s.rays, 0 < r.om) (lo hi : ℝ)
    (hl : ∀ r ∈ s.rays, Between lo hi r.lum) :
    Between (lo * s.o.scale) (hi * s.o.scale) s.avgraylum ∧
    Between (lo * s.o.scale) (hi * s.o.scale) s.maxlum ∧
    Between (lo * s.o.scale) (hi * s.o.scale) s.pwavglum ∧
    (s.area = omSum s.rays → Between (lo * s.o.scale) (hi * s.o.scale) s.avglum) ∧
    ((∃ r ∈ s.rays, s.m.degrees r.v < s.o.tradius) → Between (lo * s.o.scale) (hi * s.o.scale) s.tasklum) ∧
    (s.background ≠ [] → Between (lo * s.o.scale) (hi * s.o.scale) s.backlumTrue) := by
  have hlen : 0 < s.rays.length := List.length_pos_iff.2 hne
  refine ⟨?_, ?_, ?_, fun hA => ?_, fun ⟨r, hr, ht⟩ => ?_, fun hb => ?_⟩
  · have h := average_between (w := fun _ => 1) hs (fun r _ => zero_le_one) (sumBy_pos hne fun _ _ => one_pos) hl
    have e1 : sumBy (fun _ => 1) s.rays = s.rays.length := by simp [sumBy]
    have e2 : sumBy (fun r => r.lum * 1) s.rays = (s.rays.map Ray.lum).sum := by simp [sumBy]
    rw [e1, e2] at h
    unfold MS.avgraylum avg
    rw [List.length_map, div_mul_eq_mul_div]
    exact h
  · unfold MS.maxlum
    rw [if_pos hlen]
    obtain ⟨h1, h2⟩ := max_between (l := s.rays.map Ray.lum) (by simpa using hne) (by
      intro x hx
      obtain ⟨r, hr, rfl⟩ := List.mem_map.1 hx
      exact hl r hr)
    exact ⟨mul_le_mul_of_nonneg_right h1 hs, mul_le_mul_of_nonneg_right h2 hs⟩
  · exact average_between hs (fun r hr => (pw_pos s).1 (hom r hr).le) (sumBy_pos hne fun r hr => (pw_pos s).2 (hom r hr)) hl
  · unfold MS.avglum
    rw [hA, omSum_eq]
    exact average_between hs (fun r hr => (hom r hr).le) (sumBy_pos hne hom) hl
  · unfold MS.tasklum
    rw [omSum_eq]
    have hm : r ∈ s.rays.filter fun r => decide (s.m.degrees r.v < s.o.tradius) :=
      List.mem_filter.2 ⟨hr, decide_eq_true ht⟩
    exact average_between hs (fun r hr => (hom r (List.mem_of_mem_filter hr)).le)
      (sumBy_pos (List.ne_nil_of_mem hm) fun r hr => hom r (List.mem_of_mem_filter hr))
      fun r hr => hl r (List.mem_of_mem_filter hr)
  · unfold MS.backlumTrue
    rw [omSum_eq]
    have hsub : ∀ r ∈ s.background, r ∈ s.rays := fun r hr => List.mem_of_mem_filter hr
    exact average_between hs (fun r hr => (hom r (hsub r hr)).le) (sumBy_pos hb fun r hr => hom r (hsub r hr))
      fun r hr => hl r (hsub r hr)

/-- **C160** a scene of one luminance: all these values are that luminance -/
theorem C160_uniform (s : MS) (hs : 0 ≤ s.o.scale) (hne : s.rays ≠ []) (hom : ∀ r ∈ s.rays, 0 < r.om) (c : ℝ)
    (hl : ∀ r ∈ s.rays, r.lum = c) :
    s.avgraylum = c * s.o.scale ∧ s.maxlum = c * s.o.scale ∧ s.pwavglum = c * s.o.scale ∧
    (s.area = omSum s.rays → s.avglum = c * s.o.scale) ∧
    ((∃ r ∈ s.rays, s.m.degrees r.v < s.o.tradius) → s.tasklum = c * s.o.scale) := by
  obtain ⟨h1, h2, h3, h4, h5, -⟩ := C160_between s hs hne hom c c fun r hr => by rw [hl r hr]; exact ⟨le_rfl, le_rfl⟩
  exact ⟨le_antisymm h1.2 h1.1, le_antisymm h2.2 h2.1, le_antisymm h3.2 h3.1,
    fun h => le_antisymm (h4 h).2 (h4 h).1, fun h => le_antisymm (h5 h).2 (h5 h).1⟩

/-! Position weights -/

theorem sumBy_le {f g : Ray → ℝ} {l : List Ray} (h : ∀ r ∈ l, f r ≤ g r) : sumBy f l ≤ sumBy g l := by
  induction l with
  | nil => simp
  | cons a l ih =>
    simp only [sumBy_cons]
    exact add_le_add (h a List.mem_cons_self) (ih fun r hr => h r (List.mem_cons_of_mem _ hr))

theorem sumBy_const_mul (f : Ray → ℝ) (c : ℝ) (l : List Ray) : sumBy (fun r => f r / c) l = sumBy f l / c := by
  induction l with
  | nil => simp
  | cons a l ih => simp only [sumBy_cons, ih, add_div]

/-- **C161** the weight of a ray falls with the square of its position index -/
theorem C161_weight (s : MS) (r r' : Ray) (ho : r.om = r'.om) (h0 : 0 < r.om) :
    (s.pos r < s.pos r' ↔ s.pw r' < s.pw r) ∧ (s.pos r' = 2 * s.pos r → s.pw r = 4 * s.pw r') := by
  have p := pos_pos s r
  have p' := pos_pos s r'
  unfold MS.pw
  rw [← ho]
  refine ⟨⟨fun h => ?_, fun h => ?_⟩, fun h => ?_⟩
  · exact div_lt_div_of_pos_left h0 (by positivity) (pow_lt_pow_left₀ h p.le two_ne_zero)
  · rw [div_lt_div_iff_of_pos_left h0 (by positivity) (by positivity)] at h
    exact lt_of_pow_lt_pow_left₀ 2 p'.le h
  · rw [h]; field_simp; ring

/-- **C161** position weights of the Guth index take away at most all but 1/256 of the solid angle and never add; the same
for the sources -/
theorem C161_bounds (s : MS) (hg : s.o.guth = true) (hom : ∀ r ∈ s.rays, 0 ≤ r.om) :
    omSum s.rays / 256 ≤ s.pwArea ∧ s.pwArea ≤ omSum s.rays ∧
    sumBy (fun r => (r.lum * s.o.scale) ^ 2 * r.om) s.sources / 256 ≤ s.pwsl2 ∧
    s.pwsl2 ≤ sumBy (fun r => (r.lum * s.o.scale) ^ 2 * r.om) s.sources := by
  have hp : ∀ r, 1 ≤ s.pos r ^ 2 ∧ s.pos r ^ 2 ≤ 256 := fun r => by
    unfold MS.pos
    rw [hg]
    obtain ⟨⟨h1, h2⟩, -⟩ := C73_range s.m r.v
    constructor <;> nlinarith
  have hd : ∀ (r : Ray) (x : ℝ), 0 ≤ x → x / 256 ≤ x / s.pos r ^ 2 ∧ x / s.pos r ^ 2 ≤ x := fun r x hx =>
    ⟨div_le_div_of_nonneg_left hx (by linarith [hp r]) (hp r).2, div_le_self hx (hp r).1⟩
  have hsrc : ∀ r ∈ s.sources, 0 ≤ (r.lum * s.o.scale) ^ 2 * r.om := fun r hr =>
    mul_nonneg (sq_nonneg _) (hom r (List.mem_of_mem_filter hr))
  have e : s.pwsl2 = sumBy (fun r => (r.lum * s.o.scale) ^ 2 * r.om / s.pos r ^ 2) s.sources := by
    unfold MS.pwsl2
    congr 1
    funext r
    ring
  refine ⟨?_, ?_, ?_, ?_⟩
  · rw [omSum_eq, ← sumBy_const_mul]; exact sumBy_le fun r hr => (hd r _ (hom r hr)).1
  · rw [omSum_eq]; exact sumBy_le fun r hr => (hd r _ (hom r hr)).2
  · rw [e, ← sumBy_const_mul]; exact sumBy_le fun r hr => (hd r _ (hsrc r hr)).1
  · rw [e]; exact sumBy_le fun r hr => (hd r _ (hsrc r hr)).2

/-- **C161** a source on the line of sight counts in full, and for one source at position index `p` the glare potential
is that of the same source on the line of sight divided by `p` squared -/
theorem C161_one (s : MS) (r : Ray) (h : s.sources = [r]) : s.pwsl2 * s.pos r ^ 2 = (r.lum * s.o.scale) ^ 2 * r.om := by
  have p := pos_pos s r
  unfold MS.pwsl2
  rw [h, sumBy_cons, sumBy_nil]
  field_simp
  ring

/-! Sources -/

/-- **C161** with a relative threshold (100 or less) the sources are the rays brighter than that multiple of the average
over the task -/
theorem C161_relative (s : MS) (ht : s.o.thr ≤ 100) (r : Ray) :
    r ∈ s.sources ↔ r ∈ s.rays ∧ s.o.thr * s.tasklum < r.lum * s.o.scale := by
  unfold MS.sources MS.src MS.threshold
  rw [List.mem_filter, if_neg (not_lt.2 ht), decide_eq_true_eq, gt_iff_lt, mul_comm s.tasklum]

/-- **C161** with an absolute threshold they are the rays brighter than it -/
theorem C161_absolute (s : MS) (ht : 100 < s.o.thr) (r : Ray) :
    r ∈ s.sources ↔ r ∈ s.rays ∧ s.o.thr < r.lum * s.o.scale := by
  unfold MS.sources MS.src MS.threshold
  rw [List.mem_filter, if_pos ht, decide_eq_true_eq, gt_iff_lt]

/-- **C161** a scene of one luminance has no sources for relative thresholds from 1, so the glare probability is that of
its illuminance alone and the rating is zero -/
theorem C161_uniform (s : MS) (hs : 0 ≤ s.o.scale) (hne : s.rays ≠ []) (hom : ∀ r ∈ s.rays, 0 < r.om) (c : ℝ) (hc : 0 ≤ c)
    (hl : ∀ r ∈ s.rays, r.lum = c) (ht1 : 1 ≤ s.o.thr) (ht : s.o.thr ≤ 100)
    (htask : ∃ r ∈ s.rays, s.m.degrees r.v < s.o.tradius) :
    s.sources = [] ∧ s.backlum = s.illum / π ∧ s.ugr = 0 ∧
    ((s.o.lowlight = false ∨ 500 ≤ s.illum) → s.dgp = min (0.0000587 * s.illum + 0.16) 1) := by
  have hsrc : s.sources = [] := by
    rw [List.eq_nil_iff_forall_not_mem]
    intro r hr
    obtain ⟨h1, h2⟩ := (C161_relative s ht r).1 hr
    rw [(C160_uniform s hs hne hom c hl).2.2.2.2 htask, hl r h1] at h2
    nlinarith [mul_nonneg hc hs]
  have hp : s.pwsl2 = 0 := by unfold MS.pwsl2; rw [hsrc]; rfl
  refine ⟨hsrc, ?_, ?_, fun hll => ?_⟩
  · unfold MS.backlum MS.srcillum
    rw [hsrc]
    simp
  · unfold MS.ugr
    rw [hp]
    simp
  · unfold MS.dgp MS.dgpT1 MS.dgpT2 MS.logGc
    rw [hp, (C68_lowlight s).2.2.2 hll]
    norm_num

/-! Units -/

theorem sources_scaled (s : MS) (k : ℝ) (hk : 0 < k) (ht : s.o.thr ≤ 100) :
    (s.scaled k).tasklum = k * s.tasklum ∧ (s.scaled k).sources = scaleLum k s.sources := by
  have e1 : (s.scaled k).tasklum = k * s.tasklum := by
    unfold MS.tasklum MS.scaled
    simp only
    have hf : (scaleLum k s.rays).filter (fun r => decide (s.m.degrees r.v < s.o.tradius)) =
        scaleLum k (s.rays.filter fun r => decide (s.m.degrees r.v < s.o.tradius)) := by
      unfold scaleLum; rw [List.filter_map]; rfl
    have ho : ∀ l : List Ray, omSum (scaleLum k l) = omSum l := fun l => by
      unfold omSum scaleLum; rw [List.map_map]; rfl
    rw [hf, ho, sumBy_scale _ (fun r => r.lum * r.om) k k (fun r => by ring)]
    ring
  refine ⟨e1, ?_⟩
  have hsrc : ∀ r : Ray, (s.scaled k).src ⟨r.v, r.om, k * r.lum⟩ = s.src r := by
    intro r
    unfold MS.src MS.threshold
    have ho : (s.scaled k).o = s.o := rfl
    rw [ho, if_neg (not_lt.2 ht), if_neg (not_lt.2 ht), e1]
    simp only [decide_eq_decide, gt_iff_lt]
    rw [mul_assoc, mul_assoc]
    exact mul_lt_mul_iff_right₀ hk
  unfold MS.sources
  show (scaleLum k s.rays).filter _ = _
  unfold scaleLum
  rw [List.filter_map]
  congr 1
  exact List.filter_congr fun r _ => hsrc r

/-- **C161** with a relative threshold the choice of sources does not depend on the unit of luminance; `k` times as much
light raises the glare rating by `8 log10 k` -/
theorem C161_units (s : MS) (k : ℝ) (hk : 0 < k) (ht : s.o.thr ≤ 100) :
    (s.scaled k).sources = scaleLum k s.sources ∧ (s.scaled k).pwsl2 = k ^ 2 * s.pwsl2 ∧
    (s.scaled k).backlum = k * s.backlum ∧
    (0 < s.pwsl2 → 0 < s.backlum → (s.scaled k).ugr = max 0 (8 * logb 10 (0.25 * s.pwsl2 / s.backlum) + 8 * logb 10 k)) := by
  obtain ⟨-, e2⟩ := sources_scaled s k hk ht
  have e3 : (s.scaled k).pwsl2 = k ^ 2 * s.pwsl2 := by
    unfold MS.pwsl2
    rw [e2]
    exact sumBy_scale _ (fun r => r.lum ^ 2 * r.om * s.o.scale ^ 2 / s.pos r ^ 2) (k ^ 2) k (fun r => by
      show (k * r.lum) ^ 2 * r.om * s.o.scale ^ 2 / s.pos r ^ 2 = _
      ring) _
  have e4 : (s.scaled k).backlum = k * s.backlum := by
    unfold MS.backlum MS.illum MS.srcillum
    rw [e2]
    have h : ∀ l, sumBy (fun r => (s.scaled k).ct r * r.lum * r.om) (scaleLum k l) = k * sumBy (fun r => s.ct r * r.lum * r.om) l :=
      fun l => sumBy_scale _ (fun r => s.ct r * r.lum * r.om) k k (fun r => by
        show s.ct r * (k * r.lum) * r.om = _
        ring) l
    have hr : (s.scaled k).rays = scaleLum k s.rays := rfl
    have ho : (s.scaled k).o = s.o := rfl
    rw [hr, ho, h, h]
    ring
  refine ⟨e2, e3, e4, fun h1 h2 => ?_⟩
  unfold MS.ugr
  rw [e3, e4, ← mul_add, ← logb_mul (by positivity) hk.ne']
  congr 3
  field_simp

/-- **C161** what can be read off the glare probability of one source: with `E` the illuminance, the excess over
`0.16 + 5.87e-5 E` is `0.0918` for every factor of ten in `1 + L² ω / (p² E^1.87)` -/
theorem C161_dgp (s : MS) (hl : s.o.lowlight = false) (r : Ray) (h : s.sources = [r]) (h0 : 0 ≤ r.om) (h1 : s.dgp < 1) :
    (10 : ℝ) ^ ((s.dgp - 0.16 - 0.0000587 * s.illum) / 0.0918) =
      1 + (r.lum * s.o.scale) ^ 2 * r.om / (s.pos r ^ 2 * s.illum ^ (1.87 : ℝ)) ∨ s.illum < 0 := by
  rcases lt_or_ge s.illum 0 with hE | hE
  · exact Or.inr hE
  left
  have p := pos_pos s r
  have hone := C161_one s r h
  have hpw : s.pwsl2 = (r.lum * s.o.scale) ^ 2 * r.om / s.pos r ^ 2 := by
    rw [eq_div_iff (by positivity)]; exact hone
  unfold MS.dgp at h1 ⊢
  rw [(C68_lowlight s).2.2.2 (Or.inl hl), one_mul] at h1 ⊢
  have h1 : s.dgpT1 + s.dgpT2 + 0.16 < 1 := by
    by_contra hc
    rw [min_eq_right (not_lt.1 hc)] at h1
    exact lt_irrefl _ h1
  rw [min_eq_left h1.le]
  have e : (s.dgpT1 + s.dgpT2 + 0.16 - 0.16 - 0.0000587 * s.illum) / 0.0918 = s.logGc := by
    unfold MS.dgpT1 MS.dgpT2
    norm_num
  have hpos : 0 ≤ s.pwsl2 / s.illum ^ (1.87 : ℝ) := by
    rw [hpw]; positivity
  rw [e]
  unfold MS.logGc
  rw [rpow_logb (by norm_num) (by norm_num) (by linarith), hpw, div_div]

/-- two rays 20 degrees apart, threshold five times the task average: the hypotheses hold -/
example : ∃ s : MS, s.rays ≠ [] ∧ (∀ r ∈ s.rays, 0 < r.om) ∧ (∀ r ∈ s.rays, Between 1 3 r.lum) ∧ s.o.thr ≤ 100 ∧ s.o.guth = true :=
  ⟨⟨View.new ⟨0, 1, 0⟩ 180, [⟨⟨0, 1, 0⟩, 1, 1⟩, ⟨⟨0, 1, 0⟩, 2, 3⟩], 3, ⟨179, true, false, 5, 30, false⟩⟩, by simp,
    by simp, by norm_num [Between], by norm_num, rfl⟩

end Verif.Metric
