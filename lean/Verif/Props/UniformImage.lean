import Verif.Props.Quadrature
import Verif.Props.Command
import Verif.Props.ViewArea

/-! C159: the metrics of an image as its resolution grows. -/

namespace Verif.Cmd
open Verif.Geo Verif.Map Verif.Py Verif.Metric Verif.Peak Verif.Gss Real Filter Topology

/-- the rays of an image that shows the luminance `L` of every direction -/
noncomputable def imageRays (v : View) (L : V3 → ℝ) (n : ℕ) : List Ray :=
  ((List.finRange (n * n)).map
    (vol v n fun i j (_ : Fin 1) => L (v.pixel2ray n (pixelCentre i j)))).map asRay

theorem sum_grid {n : ℕ} (f : ℕ → ℕ → ℝ) :
    ((List.finRange (n * n)).map fun q : Fin (n * n) => f ((q : ℕ) / n) ((q : ℕ) % n)).sum =
      ∑ i ∈ Finset.range n, ∑ j ∈ Finset.range n, f i j := by
  have h1 : ((List.finRange (n * n)).map fun q : Fin (n * n) => f ((q : ℕ) / n) ((q : ℕ) % n)).sum =
      ∑ q : Fin (n * n), f ((q : ℕ) / n) ((q : ℕ) % n) := by
    rw [← List.sum_ofFn, List.ofFn_eq_map]
  have h2 : ∑ q : Fin (n * n), f ((q : ℕ) / n) ((q : ℕ) % n) = ∑ p : Fin n × Fin n, f p.1 p.2 :=
    Fintype.sum_equiv finProdFinEquiv.symm _ _ fun q => rfl
  rw [h1, h2, Fintype.sum_prod_type, Finset.sum_range]
  refine Finset.sum_congr rfl fun i _ => ?_
  rw [Finset.sum_range]

theorem pix_unit {d : V3} (hd : d ≠ V3.zero) {va : ℝ} (h0 : 0 < va) (h1 : va ≤ 180) {n i j : ℕ} (hi : i < n) (hj : j < n) :
    ((View.new d va).pixel2ray n (pixelCentre i j)).normSq = 1 :=
  (C52_pixel_round_trip d hd va h0 h1 n i j hi hj).2

theorem new_two {d : V3} {va : ℝ} (h1 : va ≤ 180) : (View.new d va).two = false := by
  show decide (va = 360) = false
  simp only [decide_eq_false_iff_not]
  intro h
  linarith

theorem imageRays_norm {d : V3} (hd : d ≠ V3.zero) {va : ℝ} (h0 : 0 < va) (h1 : va ≤ 180) (L : V3 → ℝ) (n : ℕ) :
    (imageRays (View.new d va) L n).map normR = imageRays (View.new d va) L n := by
  unfold imageRays
  rw [List.map_map, List.map_map, List.map_map]
  refine List.map_congr_left fun q _ => ?_
  have hq : (q : ℕ) / n < n := Nat.div_lt_of_lt_mul q.2
  have hn : 0 < n := Nat.pos_of_ne_zero fun h => by subst h; exact absurd q.2 (by simp)
  have := Geo.norm_of_unit (pix_unit (d := d) hd h0 h1 hq (Nat.mod_lt (q : ℕ) hn))
  show normR (asRay _) = asRay _
  unfold normR asRay vol
  simp only
  rw [this]

theorem viewRays_image {d : V3} (hd : d ≠ V3.zero) {va : ℝ} (h0 : 0 < va) (h1 : va ≤ 180) {L : V3 → ℝ} {n : ℕ}
    (hp : Plain (View.new d va) (imageRays (View.new d va) L n)) :
    viewRays (View.new d va) (imageRays (View.new d va) L n) =
      (imageRays (View.new d va) L n).filter (vis (View.new d va)) := by
  rw [viewRays_plain _ _ hp, imageRays_norm hd h0 h1]

theorem sumBy_filter (f : Ray → ℝ) (p : Ray → Bool) (l : List Ray) :
    sumBy f (l.filter p) = (l.map fun r => if p r then f r else 0).sum := by
  unfold sumBy
  induction l with
  | nil => rfl
  | cons a l ih => by_cases h : p a <;> simp [h, ih]

/-- sums over the rays kept -/
theorem sumBy_image {d : V3} (hd : d ≠ V3.zero) {va : ℝ} (h0 : 0 < va) (h1 : va ≤ 180) {L : V3 → ℝ} {n : ℕ}
    (hp : Plain (View.new d va) (imageRays (View.new d va) L n)) (g : V3 → ℝ → ℝ) :
    sumBy (fun r => g r.v r.lum * r.om) (viewRays (View.new d va) (imageRays (View.new d va) L n)) =
      viewSum (View.new d va) (fun p => g p (L p)) n := by
  rw [viewRays_image hd h0 h1 hp, sumBy_filter]
  unfold imageRays
  rw [List.map_map, List.map_map, viewSum, ← sum_grid]
  congr 1
  refine List.map_congr_left fun q _ => ?_
  simp only [Function.comp]
  unfold vis asRay vol
  have ht := new_two (d := d) h1
  by_cases hin : (View.new d va).inView 0 ((View.new d va).pixel2ray n (pixelCentre ((q : ℕ) / n) ((q : ℕ) % n))) <;>
    simp [ht, hin]

theorem viewRays_om {d : V3} (hd : d ≠ V3.zero) {va : ℝ} (h0 : 0 < va) (h1 : va ≤ 180) {L : V3 → ℝ} {n : ℕ}
    (hp : Plain (View.new d va) (imageRays (View.new d va) L n)) {r : Ray}
    (hr : r ∈ viewRays (View.new d va) (imageRays (View.new d va) L n)) :
    ∃ i j, i < n ∧ j < n ∧ r = ⟨(View.new d va).pixel2ray n (pixelCentre i j), (View.new d va).pixel2omega n (pixelCentre i j),
      L ((View.new d va).pixel2ray n (pixelCentre i j))⟩ ∧ (View.new d va).inView 0 r.v := by
  rw [viewRays_image hd h0 h1 hp, List.mem_filter] at hr
  obtain ⟨hr, hv⟩ := hr
  unfold imageRays at hr
  rw [List.map_map, List.mem_map] at hr
  obtain ⟨q, -, rfl⟩ := hr
  have hq : (q : ℕ) / n < n := Nat.div_lt_of_lt_mul q.2
  refine ⟨(q : ℕ) / n, (q : ℕ) % n, hq, Nat.mod_lt _ (Nat.pos_of_ne_zero fun h => by subst h; exact absurd q.2 (by simp)), rfl, ?_⟩
  unfold vis at hv
  simpa only [new_two h1, Bool.false_or, decide_eq_true_eq] using hv

/-- the change of a sum by the correction at the edge is at most the excess -/
theorem adjust_diff (m : View) (k : ℕ) (l : List Ray) (hom : ∀ r ∈ l, 0 ≤ r.om) (g : V3 → ℝ → ℝ) {M : ℝ}
    (hM0 : 0 ≤ M) (hM : ∀ r ∈ l, |g r.v r.lum| ≤ M) :
    |sumBy (fun r => g r.v r.lum * r.om) (applyAdjust m k l) - sumBy (fun r => g r.v r.lum * r.om) l| ≤ M * |excess m l| := by
  have e : ∀ (c : ℝ) (l : List Ray), (∀ r ∈ l, 0 ≤ r.om) → (∀ r ∈ l, |g r.v r.lum| ≤ M) →
      |sumBy (fun r => g r.v r.lum * r.om) (l.map fun r => ⟨r.v, if onEdge m k r then r.om * c else r.om, r.lum⟩) -
        sumBy (fun r => g r.v r.lum * r.om) l| ≤ M * (|c - 1| * edgeTotal m k l) := by
    intro c l
    induction l with
    | nil => intro _ _; simp [sumBy, edgeTotal, omSum]
    | cons a l ih =>
      intro h1 h2
      have ih := ih (fun r hr => h1 r (List.mem_cons_of_mem _ hr)) (fun r hr => h2 r (List.mem_cons_of_mem _ hr))
      have a1 := h1 a List.mem_cons_self
      have a2 := h2 a List.mem_cons_self
      unfold sumBy edgeTotal omSum at *
      simp only [List.map_cons, List.sum_cons]
      by_cases h : onEdge m k a
      · rw [List.filter_cons_of_pos h, List.map_cons, List.sum_cons, if_pos h]
        have t : |g a.v a.lum * (a.om * c) - g a.v a.lum * a.om| ≤ M * (|c - 1| * a.om) := by
          rw [show g a.v a.lum * (a.om * c) - g a.v a.lum * a.om = g a.v a.lum * ((c - 1) * a.om) by ring, abs_mul, abs_mul,
            abs_of_nonneg a1]
          exact mul_le_mul_of_nonneg_right a2 (by positivity)
        have := abs_add_le (g a.v a.lum * (a.om * c) - g a.v a.lum * a.om)
          ((List.map (fun r => g r.v r.lum * r.om) (l.map fun r => (⟨r.v, if onEdge m k r then r.om * c else r.om, r.lum⟩ : Ray))).sum -
            (List.map (fun r => g r.v r.lum * r.om) l).sum)
        calc _ = |(g a.v a.lum * (a.om * c) - g a.v a.lum * a.om) +
            ((List.map (fun r => g r.v r.lum * r.om) (l.map fun r => (⟨r.v, if onEdge m k r then r.om * c else r.om, r.lum⟩ : Ray))).sum -
            (List.map (fun r => g r.v r.lum * r.om) l).sum)| := by congr 1; ring
          _ ≤ _ := this
          _ ≤ M * (|c - 1| * a.om) + M * (|c - 1| * (List.map Ray.om (List.filter (onEdge m k) l)).sum) := add_le_add t ih
          _ = _ := by ring
      · rw [List.filter_cons_of_neg h, if_neg h]
        refine le_trans (le_of_eq ?_) ih
        congr 1; ring
  refine (e (adjust m k l) l hom hM).trans (mul_le_mul_of_nonneg_left ?_ hM0)
  unfold adjust
  split_ifs with h
  · rw [show 1 - excess m l / edgeTotal m k l - 1 = -(excess m l / edgeTotal m k l) by ring, abs_neg, abs_div,
      abs_of_pos h, div_mul_cancel₀ _ h.ne']
  · simp

/-- the square of the pitch bounds the solid angles -/
theorem om_le {d : V3} (hd : Clear d) {va : ℝ} (h0 : 0 < va) (h1 : va ≤ 180) {n : ℕ} (hn : 4 ≤ n) {L : V3 → ℝ}
    (hp : Plain (View.new d va) (imageRays (View.new d va) L n)) {r : Ray}
    (hr : r ∈ viewRays (View.new d va) (imageRays (View.new d va) L n)) :
    0 ≤ r.om ∧ r.om ≤ pitch va n ^ 2 ∧ r.v.normSq = 1 ∧ r.lum = L r.v ∧
      (View.new d va).radians r.v < chordFactor va * va * π / 360 := by
  obtain ⟨i, j, hi, hj, e, hin⟩ := viewRays_om hd.1 h0 h1 hp hr
  have hin' := hin
  obtain ⟨_, _, e1, e2, e3⟩ := new_sf (d := d) (va := va) (by linarith)
  obtain ⟨x0, x1⟩ := centre_div hi
  obtain ⟨y0, y1⟩ := centre_div hj
  unfold View.inView at hin
  rw [e1, e3, sub_zero] at hin
  have c := C53_circle_partial d hd va h0 h1 (((i : ℝ) + 1 / 2) / n, ((j : ℝ) + 1 / 2) / n) x0 x1 y0 y1
  have hb := C149_bound d hd.1 va h0 h1 n (by omega) (Or.inl hn) ((i : ℝ) + 1 / 2) ((j : ℝ) + 1 / 2) (c.1 (by
    rw [e] at hin'; exact hin'))
  have hp0 : 0 < pitch va n := by
    have := (cf_bounds h0 h1).2.2.2
    have hN : (0 : ℝ) < n := by exact_mod_cast (by omega : 0 < n)
    have := pi_pos
    unfold pitch
    positivity
  have hs := (sin_lt (half_pos hp0)).le
  have hp4 : pitch va n / 2 ≤ π := by
    have hc := (cf_bounds h0 h1).2.1
    have hN : (4 : ℝ) ≤ n := by exact_mod_cast hn
    have hpi := pi_pos
    unfold pitch
    rw [div_div, div_le_iff₀ (by positivity), div_le_iff₀ (by norm_num)]
    have : chordFactor va * va ≤ 180 := by nlinarith [(cf_bounds h0 h1).2.2.2]
    nlinarith [mul_le_mul_of_nonneg_right this hpi.le, mul_le_mul_of_nonneg_right hN hpi.le]
  have hs0 : 0 ≤ sin (pitch va n / 2) := sin_nonneg_of_nonneg_of_le_pi (half_pos hp0).le hp4
  refine ⟨?_, ?_, ?_, ?_, hin⟩
  · rw [e]; exact sqrt_nonneg _
  · rw [e]
    exact hb.trans (pow_le_pow_left₀ (by linarith) (by linarith) 2)
  · rw [e]; exact pix_unit hd.1 h0 h1 hi hj
  · rw [e]

theorem pitch_tendsto (va : ℝ) : Tendsto (fun n : ℕ => pitch va n) atTop (𝓝 0) := by
  unfold pitch
  exact tendsto_const_div_atTop_nhds_zero_nat _

/-- no pixel of a fine image of a narrow view is at the edge of the nominal view -/
theorem no_edge {d : V3} (hd : Clear d) {va : ℝ} (h0 : 0 < va) (h1 : va < 180) : ∀ᶠ n : ℕ in atTop, ∀ L : V3 → ℝ,
    Plain (View.new d va) (imageRays (View.new d va) L n) →
    ∀ r ∈ viewRays (View.new d va) (imageRays (View.new d va) L n), onEdge (View.new d va) 0 r = false := by
  have hc := (cf_bounds h0 h1.le).2.2.1 h1
  have hpi := pi_pos
  have hgap : 0 < va * π / 360 - chordFactor va * va * π / 360 := by
    have : chordFactor va * (va * π / 360) < 1 * (va * π / 360) := mul_lt_mul_of_pos_right hc (by positivity)
    linarith
  filter_upwards [eventually_ge_atTop 4, (pitch_tendsto va).eventually (gt_mem_nhds hgap)] with n hn hp L hpl r hr
  obtain ⟨o1, o2, -, -, o5⟩ := om_le hd h0 h1.le hn hpl hr
  obtain ⟨_, _, e1, e2, e3⟩ := new_sf (d := d) (va := va) (by linarith)
  unfold onEdge
  rw [decide_eq_false_iff_not, not_lt, pow_zero, mul_one, e1]
  have hp0 : 0 ≤ pitch va n := by
    have := (cf_bounds h0 h1.le).2.2.2
    unfold pitch
    positivity
  have : √r.om ≤ pitch va n := by
    rw [← sqrt_sq hp0]; exact sqrt_le_sqrt o2
  linarith

theorem setOmega_narrow {m : View} {c : Bool} {l : List Ray} {fuel : ℕ} {W : List Ray × ℝ}
    (h : setOmega m c l fuel = some W) (hl : ∀ r ∈ l, onEdge m 0 r = false) : W.1 = l := by
  unfold setOmega at h
  split_ifs at h with hc
  · obtain ⟨k, hk, rfl⟩ := Option.map_eq_some_iff.1 h
    have he : edgeTotal m 0 l = 0 := by
      unfold edgeTotal
      rw [List.filter_eq_nil_iff.2 fun r hr => by rw [hl r hr]; simp]
      rfl
    have ha : adjust m 0 l = 1 := by unfold adjust; rw [he, if_neg (lt_irrefl _)]
    cases fuel with
    | zero => simp [widen] at hk
    | succ f =>
      unfold widen at hk
      rw [ha, if_neg (by norm_num)] at hk
      cases hk
      unfold applyAdjust
      conv_rhs => rw [← List.map_id l]
      refine List.map_congr_left fun r hr => ?_
      rw [hl r hr]
      rfl
  · cases h; rfl

theorem omSum_image {d : V3} (hd : d ≠ V3.zero) {va : ℝ} (h0 : 0 < va) (h1 : va ≤ 180) {L : V3 → ℝ} {n : ℕ}
    (hp : Plain (View.new d va) (imageRays (View.new d va) L n)) :
    omSum (viewRays (View.new d va) (imageRays (View.new d va) L n)) = viewSum (View.new d va) (fun _ => 1) n := by
  have := sumBy_image hd h0 h1 hp fun _ _ => 1
  rw [← this]
  unfold omSum sumBy
  simp only [one_mul]

theorem area_new {d : V3} {va : ℝ} (h1 : va ≤ 180) : (View.new d va).area = 2 * π * (1 - cos (va * π / 360)) := by
  show 2 * π * (1 - cos (vangle va * π * vaspect va / 360)) = _
  have : va ≠ 360 := by intro h; linarith
  unfold vangle vaspect
  rw [if_neg this, if_neg this, mul_one]

/-- the image of the luminances `L` at growing resolution, and the metric sets built from it -/
structure Growing (v : View) (o : Opts) (L : V3 → ℝ) (s : ℕ → MS) : Prop where
  plain : ∀ n, Plain v (imageRays v L n)
  built : ∀ n, ∃ fuel, build v o (imageRays v L n) fuel = some (s n)

/-- every sum over the rays of the metric set tends to the integral over the directions in view -/
theorem sums_tendsto {d : V3} (hd : Clear d) {va : ℝ} (h0 : 0 < va) (h1 : va ≤ 180) {o : Opts} {L : V3 → ℝ} {s : ℕ → MS}
    (hs : Growing (View.new d va) o L s) (g : V3 → ℝ → ℝ) (hg : Smooth fun p => g p (L p)) :
    Tendsto (fun n => sumBy (fun r => g r.v r.lum * r.om) (s n).rays) atTop
      (𝓝 (capIntegral (chordFactor va * va * π / 360) fun p => g ((View.new d va).v2w p) (L ((View.new d va).v2w p)))) := by
  have key := C158_limit d hd va h0 h1 _ hg
  rcases h1.lt_or_eq with h | h
  · refine key.congr' ?_
    filter_upwards [no_edge hd h0 h] with n hn
    obtain ⟨fuel, hb⟩ := hs.built n
    unfold build at hb
    obtain ⟨W, hW, e⟩ := Option.map_eq_some_iff.1 hb
    rw [← e]
    simp only
    rw [setOmega_narrow hW (hn L (hs.plain n)), sumBy_image hd.1 h0 h1 (hs.plain n)]
  · obtain ⟨M, hM0, hM⟩ := smooth_bound hg
    have harea := C158_area d hd va h0 h1
    have hexc : Tendsto (fun n => M * |viewSum (View.new d va) (fun _ => 1) n - (View.new d va).area|) atTop (𝓝 0) := by
      rw [area_new h1, h]
      rw [h, cf_180, one_mul] at harea
      have := ((harea.sub_const (2 * π * (1 - cos (180 * π / 360)))).abs).const_mul M
      rwa [sub_self, abs_zero, mul_zero] at this
    have hdiff : Tendsto (fun n => sumBy (fun r => g r.v r.lum * r.om) (s n).rays - viewSum (View.new d va) (fun p => g p (L p)) n)
        atTop (𝓝 0) := by
      refine squeeze_zero_norm' ?_ hexc
      filter_upwards [eventually_ge_atTop 4] with n hn
      obtain ⟨fuel, hb⟩ := hs.built n
      unfold build at hb
      obtain ⟨W, hW, e⟩ := Option.map_eq_some_iff.1 hb
      have ho := fun r hr => om_le hd h0 h1 hn (hs.plain n) (r := r) hr
      rw [← e, ← omSum_image hd.1 h0 h1 (hs.plain n), ← sumBy_image hd.1 h0 h1 (hs.plain n) g, norm_eq_abs]
      unfold setOmega at hW
      split_ifs at hW with hc
      · obtain ⟨k, hk, rfl⟩ := Option.map_eq_some_iff.1 hW
        exact adjust_diff _ k _ (fun r hr => (ho r hr).1) g hM0 fun r hr => by
          rw [(ho r hr).2.2.2.1]; exact hM _ (ho r hr).2.2.1
      · cases hW
        simp only [sub_self, abs_zero]
        positivity
    have := hdiff.add key
    simpa using this

theorem built_parts {v : View} {o : Opts} {L : V3 → ℝ} {s : ℕ → MS} (hs : Growing v o L s) (n : ℕ) :
    (s n).m = v ∧ (s n).o = o := by
  obtain ⟨fuel, hb⟩ := hs.built n
  unfold build at hb
  obtain ⟨W, -, e⟩ := Option.map_eq_some_iff.1 hb
  rw [← e]
  exact ⟨rfl, rfl⟩

theorem clip1_cos (t : ℝ) : clip1 (cos t) = cos t := by
  unfold clip1
  rw [max_eq_left (neg_one_le_cos t), min_eq_left (cos_le_one t)]

theorem ct_v2w {d : V3} (hd : Clear d) (va t f : ℝ) :
    Geo.ctheta (View.new d va).dxyz ((View.new d va).v2w (sphDir t f)) = cos t := by
  unfold Geo.ctheta
  have a := (C50_isometry d hd.1 va ⟨0, 0, 1⟩ (sphDir t f)).2.2.2
  rw [(C50_look_partial d hd va).2.1] at a
  have : (⟨0, 0, 1⟩ : V3).dot (sphDir t f) = cos t := by unfold V3.dot sphDir; simp
  rw [a, this, clip1_cos]

/-- **C159** the illuminance of an image tends to the integral of luminance times cosine over the directions in view -/
theorem C159_illum (d : V3) (hd : Clear d) (va : ℝ) (h0 : 0 < va) (h1 : va ≤ 180) (o : Opts) (L : V3 → ℝ) (hL : Smooth L)
    (s : ℕ → MS) (hs : Growing (View.new d va) o L s) :
    Tendsto (fun n => (s n).illum) atTop (𝓝 ((∫ t in (0)..(chordFactor va * va * π / 360), ∫ f in (-π)..π,
      cos t * L ((View.new d va).v2w (sphDir t f)) * sin t) * o.scale)) := by
  have key := (sums_tendsto hd h0 h1 hs (fun p l => Geo.ctheta (View.new d va).dxyz p * l) (by
    have : Smooth fun p => Geo.ctheta (View.new d va).dxyz p := by
      unfold Smooth Geo.ctheta clip1 V3.dot
      fun_prop
    exact Continuous.mul this hL)).mul_const o.scale
  unfold capIntegral at key
  simp only [ct_v2w hd] at key
  refine key.congr fun n => ?_
  obtain ⟨e1, e2⟩ := built_parts hs n
  unfold MS.illum MS.ct
  rw [e1, e2]

/-- the area a metric set divides by -/
theorem area_tendsto {d : V3} (hd : Clear d) {va : ℝ} (h0 : 0 < va) (h1 : va ≤ 180) {o : Opts} {L : V3 → ℝ}
    (ho : o.omAsArea = false) {s : ℕ → MS} (hs : Growing (View.new d va) o L s) :
    ∀ᶠ n in atTop, (s n).area = (View.new d va).area := by
  have hc := (cf_bounds h0 h1).2.2.2
  have hpi := pi_pos
  have hA := C158_area d hd va h0 h1
  have hcos : cos (chordFactor va * va * π / 360) < 1 := by
    rw [← cos_zero]
    refine cos_lt_cos_of_nonneg_of_le_pi le_rfl ?_ (by positivity)
    have : chordFactor va * va ≤ 180 := by nlinarith [(cf_bounds h0 h1).2.1]
    nlinarith
  have hlim : 0 < 2 * π * (1 - cos (chordFactor va * va * π / 360)) := by
    have : 0 < 1 - cos (chordFactor va * va * π / 360) := by linarith
    positivity
  have hsm : Tendsto (fun n : ℕ => 100 * pitch va n ^ 2) atTop (𝓝 0) := by
    have := ((pitch_tendsto va).pow 2).const_mul 100
    simpa using this
  filter_upwards [eventually_ge_atTop 4, hsm.eventually_lt hA hlim] with n hn hlt
  obtain ⟨fuel, hb⟩ := hs.built n
  unfold build at hb
  obtain ⟨W, hW, e⟩ := Option.map_eq_some_iff.1 hb
  rw [← e]
  unfold setOmega at hW
  have hlen : 100 < (viewRays (View.new d va) (imageRays (View.new d va) L n)).length := by
    by_contra hle
    push Not at hle
    have hsum : omSum (viewRays (View.new d va) (imageRays (View.new d va) L n)) ≤
        (viewRays (View.new d va) (imageRays (View.new d va) L n)).length • pitch va n ^ 2 := by
      unfold omSum
      have := List.sum_le_card_nsmul ((viewRays (View.new d va) (imageRays (View.new d va) L n)).map Ray.om) (pitch va n ^ 2)
        (by
          intro x hx
          obtain ⟨r, hr, rfl⟩ := List.mem_map.1 hx
          exact (om_le hd h0 h1 hn (hs.plain n) hr).2.1)
      rwa [List.length_map] at this
    rw [omSum_image hd.1 h0 h1 (hs.plain n), nsmul_eq_mul] at hsum
    have : ((viewRays (View.new d va) (imageRays (View.new d va) L n)).length : ℝ) * pitch va n ^ 2 ≤ 100 * pitch va n ^ 2 :=
      mul_le_mul_of_nonneg_right (by exact_mod_cast hle) (sq_nonneg _)
    linarith
  rw [if_pos (by rw [ho]; simpa using hlen)] at hW
  obtain ⟨k, -, rfl⟩ := Option.map_eq_some_iff.1 hW
  rfl

/-- **C159** the average luminance tends to the integral of the luminance over the directions in view, divided by the
solid angle of the nominal cone -/
theorem C159_average (d : V3) (hd : Clear d) (va : ℝ) (h0 : 0 < va) (h1 : va ≤ 180) (o : Opts) (ho : o.omAsArea = false)
    (L : V3 → ℝ) (hL : Smooth L) (s : ℕ → MS) (hs : Growing (View.new d va) o L s) :
    Tendsto (fun n => (s n).avglum) atTop (𝓝 ((∫ t in (0)..(chordFactor va * va * π / 360), ∫ f in (-π)..π,
      L ((View.new d va).v2w (sphDir t f)) * sin t) * o.scale / (2 * π * (1 - cos (va * π / 360))))) := by
  have key := ((sums_tendsto hd h0 h1 hs (fun _ l => l) hL).mul_const o.scale).div_const (View.new d va).area
  rw [area_new h1] at key
  unfold capIntegral at key
  refine key.congr' ?_
  filter_upwards [area_tendsto hd h0 h1 ho hs] with n hn
  obtain ⟨e1, e2⟩ := built_parts hs n
  unfold MS.avglum
  rw [e2, hn, area_new h1]

/-- the rays of an image of one luminance hold no bright stray -/
theorem plain_uniform (v : View) (c : ℝ) (n : ℕ) : Plain v (imageRays v (fun _ => c) n) := by
  right
  unfold strays
  rw [List.filter_eq_nil_iff]
  intro i hi
  simp only [decide_eq_true_eq]
  rintro ⟨h1, -, -, h4⟩
  have hall : ∀ r ∈ imageRays v (fun _ => c) n, r.lum = c := by
    intro r hr
    unfold imageRays at hr
    rw [List.map_map, List.mem_map] at hr
    obtain ⟨q, -, rfl⟩ := hr
    rfl
  have hi' : i < (imageRays v (fun _ => c) n).length := List.mem_range.1 hi
  have e1 : (raw (imageRays v (fun _ => c) n) i).lum = c := hall _ (raw_mem hi')
  have e2 : avgLum (imageRays v (fun _ => c) n) = c := by
    unfold avgLum avg
    have : (imageRays v (fun _ => c) n).map Ray.lum = List.replicate (imageRays v (fun _ => c) n).length c := by
      rw [List.eq_replicate_iff]
      refine ⟨by simp, fun b hb => ?_⟩
      obtain ⟨r, hr, rfl⟩ := List.mem_map.1 hb
      exact hall r hr
    have hpos : (0 : ℝ) < (imageRays v (fun _ => c) n).length := by exact_mod_cast (by omega : 0 < _)
    rw [this, List.sum_replicate, List.length_replicate, nsmul_eq_mul]
    field_simp
  rw [e1, e2] at h4
  rw [e2] at h1
  rw [div_self h1.ne'] at h4
  norm_num at h4

theorem growing_uniform (d : V3) {va : ℝ} (h0 : 0 < va) (h1 : va ≤ 180) (o : Opts) (c : ℝ) :
    ∃ s, Growing (View.new d va) o (fun _ => c) s := by
  have h : ∀ n, ∃ s fuel, build (View.new d va) o (imageRays (View.new d va) (fun _ => c) n) fuel = some s := by
    intro n
    obtain ⟨fuel, s, hb⟩ := build_ends (d := d) h0 (Or.inl h1) o (imageRays (View.new d va) (fun _ => c) n) (by
      intro r hr
      unfold imageRays at hr
      rw [List.map_map, List.mem_map] at hr
      obtain ⟨q, -, rfl⟩ := hr
      exact sqrt_nonneg _)
    exact ⟨s, fuel, hb⟩
  choose s hs using h
  exact ⟨s, plain_uniform _ c, hs⟩

/-- **C159** an image of one luminance: the limits -/
theorem C159_uniform (d : V3) (hd : Clear d) (va : ℝ) (h0 : 0 < va) (h1 : va ≤ 180) (o : Opts) (ho : o.omAsArea = false)
    (c : ℝ) (s : ℕ → MS) (hs : Growing (View.new d va) o (fun _ => c) s) :
    Tendsto (fun n => (s n).illum) atTop (𝓝 (π * sin (chordFactor va * va * π / 360) ^ 2 * c * o.scale)) ∧
    Tendsto (fun n => (s n).avglum) atTop
      (𝓝 (c * o.scale * ((1 - cos (chordFactor va * va * π / 360)) / (1 - cos (va * π / 360))))) := by
  have hpi := pi_pos
  constructor
  · have := C159_illum d hd va h0 h1 o (fun _ => c) continuous_const s hs
    convert this using 3
    have e2 : ∀ t : ℝ, ∫ f in (-π)..π, cos t * c * sin t = 2 * π * c * (sin t * cos t) := fun t => by
      rw [intervalIntegral.integral_const, smul_eq_mul]; ring
    simp only [e2, intervalIntegral.integral_const_mul, integral_sin_mul_cos₁, sin_zero]
    ring
  · have := C159_average d hd va h0 h1 o ho (fun _ => c) continuous_const s hs
    convert this using 2
    have e2 : ∀ t : ℝ, ∫ f in (-π)..π, c * sin t = 2 * π * c * sin t := fun t => by
      rw [intervalIntegral.integral_const, smul_eq_mul]; ring
    simp only [e2, intervalIntegral.integral_const_mul, integral_sin, cos_zero]
    field_simp

/-- **C159**, the full claim: an image of one luminance has that average, and the illuminance of a cone of that luminance
with the angle of the view, when the resolution is high -/
def C159_statement : Prop :=
  ∀ (d : V3) (va : ℝ) (o : Opts) (c : ℝ) (s : ℕ → MS), Clear d → 0 < va → va ≤ 180 → o.omAsArea = false →
    Growing (View.new d va) o (fun _ => c) s →
    Tendsto (fun n => (s n).illum) atTop (𝓝 (π * sin (va * π / 360) ^ 2 * c * o.scale)) ∧
    Tendsto (fun n => (s n).avglum) atTop (𝓝 (c * o.scale))

/-- **C159** holds for views of 180 degrees. Missing for the full claim: narrower views (`C159_refuted`). -/
theorem C159_partial (d : V3) (hd : Clear d) (o : Opts) (ho : o.omAsArea = false) (c : ℝ) (s : ℕ → MS)
    (hs : Growing (View.new d 180) o (fun _ => c) s) :
    Tendsto (fun n => (s n).illum) atTop (𝓝 (π * c * o.scale)) ∧
    Tendsto (fun n => (s n).avglum) atTop (𝓝 (c * o.scale)) := by
  have := C159_uniform d hd 180 (by norm_num) le_rfl o ho c s hs
  rw [cf_180, one_mul, show (180 : ℝ) * π / 360 = π / 2 by ring, sin_pi_div_two, cos_pi_div_two] at this
  norm_num at this
  exact this

/-- **C159** in every narrower view the average luminance and the illuminance of an image of one luminance are too low -/
theorem C159_low (va : ℝ) (h0 : 0 < va) (h1 : va < 180) :
    (1 - cos (chordFactor va * va * π / 360)) / (1 - cos (va * π / 360)) < 1 ∧
    sin (chordFactor va * va * π / 360) ^ 2 < sin (va * π / 360) ^ 2 := by
  have hpi := pi_pos
  obtain ⟨-, -, hc, hc0⟩ := cf_bounds h0 h1.le
  have hc := hc h1
  have a0 : 0 < chordFactor va * va * π / 360 := by positivity
  have a1 : chordFactor va * va * π / 360 < va * π / 360 := by
    have : chordFactor va * (va * π / 360) < 1 * (va * π / 360) := mul_lt_mul_of_pos_right hc (by positivity)
    linarith
  have a2 : va * π / 360 ≤ π / 2 := by nlinarith
  have hcos := cos_lt_cos_of_nonneg_of_le_pi_div_two a0.le a2 a1
  have hcos1 : cos (va * π / 360) < 1 := hcos.trans_le (cos_le_one _)
  refine ⟨?_, ?_⟩
  · rw [div_lt_one (by linarith)]; linarith
  · have := sin_lt_sin_of_lt_of_le_pi_div_two (by linarith) a2 a1
    exact pow_lt_pow_left₀ this (sin_nonneg_of_nonneg_of_le_pi a0.le (by linarith)) two_ne_zero

/-- **C159** is false: a view of 90 degrees -/
theorem C159_refuted : ¬ C159_statement := by
  intro h
  obtain ⟨s, hs⟩ := growing_uniform ⟨0, 1, 0⟩ (va := 90) (by norm_num) (by norm_num) ⟨1, true, false, 2000, 30, false⟩ 1
  have a := (h _ _ _ _ s dflt_clear (by norm_num) (by norm_num) rfl hs).2
  have b := (C159_uniform _ dflt_clear 90 (by norm_num) (by norm_num) _ rfl 1 s hs).2
  have e := tendsto_nhds_unique a b
  have l := (C159_low 90 (by norm_num) (by norm_num)).1
  simp only [mul_one, one_mul] at e
  linarith

/-- there is such a sequence of images for every view -/
example : ∃ s, Growing (View.new ⟨0, 1, 0⟩ 120) ⟨179, true, false, 2000, 30, false⟩ (fun _ => 5) s :=
  growing_uniform _ (by norm_num) (by norm_num) _ _

/-- **C159** for the values `imgmetric` returns -/
theorem C159_command (fl : Str → Option ℝ) (S : ∀ n, Sorter n) (a : MetricArgs) (d : V3) (hd : Clear d) (va : ℝ)
    (h0 : 0 < va) (h1 : va ≤ 180) (c : ℝ) (im : ℕ → Image) (hv : ∀ n, viewOf (im n) = .ok (View.new d va))
    (hu : ∀ n, Unusable fl (im n)) (hr : ∀ n, (im n).res = n) (hb : ∀ n i j, (im n).bright i j = c) (x y : ℕ → ℝ)
    (h : ∀ n, ∃ fuel, imgMetric fl S fuel ["illum", "avglum"] none none a (im n) = .ok (some [x n, y n])) :
    Tendsto x atTop (𝓝 (π * sin (chordFactor va * va * π / 360) ^ 2 * c * a.scale)) ∧
    Tendsto y atTop (𝓝 (c * a.scale * ((1 - cos (chordFactor va * va * π / 360)) / (1 - cos (va * π / 360))))) := by
  have hm : ∀ m ∈ ["illum", "avglum"], m ∈ msAll := by
    intro m hm
    simp only [List.mem_cons, List.not_mem_nil, or_false] at hm
    rcases hm with rfl | rfl <;> decide +kernel
  have hex : ∀ n, ∃ s, (∃ fuel, build (View.new d va) a.opts (imageRays (View.new d va) (fun _ => c) n) fuel = some s) ∧
      x n = s.illum ∧ y n = s.avglum := by
    intro n
    obtain ⟨fuel, hf⟩ := h n
    rw [(C64_partial _ (hv n)).1 (hu n) hm] at hf
    have himg : ((List.finRange _).map (vol (View.new d va) (im n).res fun i j (_ : Fin 1) => (im n).bright i j)).map asRay =
        imageRays (View.new d va) (fun _ => c) n := by
      simp only [hb]
      unfold imageRays
      rw [hr n]
    rcases grey_ok (View.new d va) a hm fuel
      ((List.finRange _).map (vol (View.new d va) (im n).res fun i j (_ : Fin 1) => (im n).bright i j)) with
      ⟨q, -⟩ | ⟨s, vals, q1, q2, -, q3⟩
    · rw [q] at hf; cases hf
    · rw [himg] at q1
      rw [q2] at hf
      cases hf
      obtain ⟨u, hu1, hu2⟩ := q3 0 "illum" rfl
      obtain ⟨w, hw1, hw2⟩ := q3 1 "avglum" rfl
      refine ⟨s, ⟨fuel, q1⟩, ?_, ?_⟩
      · simp only [List.getElem?_cons_zero, Option.some.injEq] at hu2
        have e : msAttr s "illum" = .ok s.illum := rfl
        rw [e] at hu1
        cases hu1
        exact hu2
      · simp only [List.getElem?_cons_succ, List.getElem?_cons_zero, Option.some.injEq] at hw2
        have e : msAttr s "avglum" = .ok s.avglum := rfl
        rw [e] at hw1
        cases hw1
        exact hw2
  choose s hs1 hs2 hs3 using hex
  have := C159_uniform d hd va h0 h1 a.opts rfl c s ⟨plain_uniform _ c, hs1⟩
  rw [funext hs2, funext hs3]
  exact this

end Verif.Cmd

namespace Verif.Gss
open Verif.Geo Verif.Map Real Filter Topology

open Classical in
/-- **C158** the illuminance of the eye model tends to the integral of luminance times cosine over the directions in view -/
theorem C158_eye (d : V3) (hd : Clear d) (va : ℝ) (h0 : 0 < va) (h1 : va ≤ 180) (L : V3 → ℝ) (hL : Smooth L) (s : ℕ → St)
    (g : ∀ n, GeoOf (s n) (View.new d va) n) :
    Tendsto (fun n => evEye (ι := Fin n × Fin n) (fun p => (s n).ctheta p.1 p.2) (fun p => L ((s n).vecs p.1 p.2))
      (fun p => (s n).omega p.1 p.2) (fun p => decide ((s n).mask p.1 p.2))) atTop
      (𝓝 (∫ t in (0)..(chordFactor va * va * π / 360), ∫ f in (-π)..π,
        cos t * L ((View.new d va).v2w (sphDir t f)) * sin t)) := by
  have key := C158_limit d hd va h0 h1 (fun p => max 0 (Geo.ctheta (View.new d va).dxyz p) * L p) (by
    have : Smooth fun p => max 0 (Geo.ctheta (View.new d va).dxyz p) := by
      unfold Smooth Geo.ctheta clip1 V3.dot
      fun_prop
    exact Continuous.mul this hL)
  have e : capIntegral (chordFactor va * va * π / 360) (fun p => max 0 (Geo.ctheta (View.new d va).dxyz ((View.new d va).v2w p))
      * L ((View.new d va).v2w p)) = ∫ t in (0)..(chordFactor va * va * π / 360), ∫ f in (-π)..π,
        cos t * L ((View.new d va).v2w (sphDir t f)) * sin t := by
    unfold capIntegral
    have hpi := pi_pos
    have hc := (cf_bounds h0 h1).2.2.2
    have hc1 := (cf_bounds h0 h1).2.1
    refine intervalIntegral.integral_congr fun t ht => ?_
    rw [Set.uIcc_of_le (by positivity)] at ht
    have : chordFactor va * va ≤ 180 := by nlinarith
    have hcos : 0 ≤ cos t := cos_nonneg_of_neg_pi_div_two_le_of_le (by linarith [ht.1]) (by nlinarith [ht.2])
    simp only [Cmd.ct_v2w hd, max_eq_right hcos]
  rw [e] at key
  refine key.congr fun n => ?_
  unfold viewSum evEye
  rw [Fintype.sum_prod_type, Finset.sum_range]
  refine Finset.sum_congr rfl fun i _ => ?_
  rw [Finset.sum_range]
  refine Finset.sum_congr rfl fun j _ => ?_
  rw [(g n).ctheta, (g n).vecs, (g n).omega, (g n).mask]
  unfold cthetaOf omegaOf maskOf raysOf
  by_cases h : (View.new d va).inView 0 ((View.new d va).pixel2ray n (pixelCentre i j))
  · simp [h]
  · simp [h]

/-- a uniform hemisphere: pi times the luminance -/
theorem C158_eye_uniform (d : V3) (hd : Clear d) (c : ℝ) (s : ℕ → St) (g : ∀ n, GeoOf (s n) (View.new d 180) n) :
    Tendsto (fun n => evEye (ι := Fin n × Fin n) (fun p => (s n).ctheta p.1 p.2) (fun _ => c)
      (fun p => (s n).omega p.1 p.2) (fun p => @decide ((s n).mask p.1 p.2) (Classical.propDecidable _))) atTop (𝓝 (π * c)) := by
  have := C158_eye d hd 180 (by norm_num) le_rfl (fun _ => c) continuous_const s g
  convert this using 2
  rw [cf_180, one_mul, show (180 : ℝ) * π / 360 = π / 2 by ring]
  have e2 : ∀ t : ℝ, ∫ f in (-π)..π, cos t * c * sin t = 2 * π * c * (sin t * cos t) := fun t => by
    rw [intervalIntegral.integral_const, smul_eq_mul]; ring
  simp only [e2, intervalIntegral.integral_const_mul, integral_sin_mul_cos₁, sin_zero, sin_pi_div_two]
  ring

end Verif.Gss
