import Verif.Model.Command
import Verif.Props.Peak
import Verif.Props.Metric
import Verif.Props.Stray
import Verif.Props.Pool
import Verif.Props.GssState

/-! C64, C81, C107: `imgmetric` and the `metric` command. -/

namespace Verif.Cmd
open Verif.Geo Verif.Map Verif.Py Verif.Metric Verif.Peak Real

/-! Specification vocabulary -/

/-- the words of a header entry are all numbers, and these -/
def Numbers (fl : Str → Option ℝ) (s : Str) (l : List ℝ) : Prop := (tokens s).map fl = l.map some

/-- the image has no LuminanceRGB entry that could be used: not three numbers (an absent entry is the empty text) -/
def Unusable (fl : Str → Option ℝ) (im : Image) : Prop := ∃ s l, im.item = .ok s ∧ Numbers fl s l ∧ l.length ≠ 3

/-- the entry holds these three numbers -/
def Usable (fl : Str → Option ℝ) (im : Image) (w : Fin 3 → ℝ) : Prop :=
  ∃ s, im.item = .ok s ∧ Numbers fl s [w 0, w 1, w 2]

theorem floats_ok {fl : Str → Option ℝ} {ss : List Str} {l : List ℝ} (h : ss.map fl = l.map some) :
    floats fl ss = .ok l := by
  induction ss generalizing l with
  | nil => cases l <;> simp_all [floats]
  | cons s ss ih =>
    cases l with
    | nil => simp at h
    | cons a l =>
      simp only [List.map_cons, List.cons.injEq] at h
      unfold floats
      rw [h.1, ih h.2]; rfl

theorem floats_bad {fl : Str → Option ℝ} {ss : List Str} (h : ∃ s ∈ ss, fl s = none) :
    floats fl ss = .error .ValueError := by
  induction ss with
  | nil => simp at h
  | cons s ss ih =>
    unfold floats
    cases hs : fl s with
    | none => rfl
    | some a =>
      simp only
      rw [ih (by
        obtain ⟨t, ht, e⟩ := h
        rcases List.mem_cons.mp ht with rfl | ht
        · rw [hs] at e; simp at e
        · exact ⟨t, ht, e⟩)]
      rfl

theorem triple_ne {l : List ℝ} (h : l.length ≠ 3) : triple l = none := by
  unfold triple
  split
  · simp at h
  · rfl

theorem weights_unusable {fl : Str → Option ℝ} {im : Image} (h : Unusable fl im) (b : Bool) :
    weights fl im b none = .ok none := by
  obtain ⟨s, l, h1, h2, h3⟩ := h
  unfold weights
  simp only
  rw [h1]
  show (floats fl (tokens s)).map _ = _
  rw [floats_ok h2]
  simp only [Except.map, triple_ne h3]

open Classical in
theorem weights_usable {fl : Str → Option ℝ} {im : Image} {w : Fin 3 → ℝ} (h : Usable fl im w) (b : Bool) :
    weights fl im b none = .ok (if b = false ∧ nearDefault w then none else some w) := by
  obtain ⟨s, h1, h2⟩ := h
  have e : ![w 0, w 1, w 2] = w := by funext j; fin_cases j <;> rfl
  unfold weights
  simp only
  rw [h1]
  show (floats fl (tokens s)).map _ = _
  rw [floats_ok h2]
  simp only [Except.map, triple, e]
  cases b <;> simp

theorem needsColor_iff (ms : List String) : needsColor ms = true ↔ ∃ m ∈ ms, m ∉ msAll := by
  unfold needsColor
  have := (C71_check msAll ms).2.1
  by_cases h : ∃ m ∈ ms, m ∉ msAll
  · rw [this.mpr h]; simp [h]
  · have h' : ∀ m ∈ ms, m ∈ msAll := by push Not at h; exact h
    rw [(C71_check msAll ms).2.2 h' true]; simp only [Bool.false_eq_true, h, iff_self]

theorem needsColor_false (ms : List String) : needsColor ms = false ↔ ∀ m ∈ ms, m ∈ msAll := by
  rw [← Bool.not_eq_true, needsColor_iff]; push Not; rfl

/-- number of values printed for a list of names -/
def width (ms : List String) : ℕ := ms.length + 2 * ms.count "irradiance"

theorem width_parts (ms : List String) (parts : List (List ℝ)) (h : parts.length = ms.length)
    (hp : ∀ (i : ℕ) (n : String), ms[i]? = some n → ∃ l, parts[i]? = some l ∧ l.length = if n = "irradiance" then 3 else 1) :
    parts.flatten.length = width ms := by
  induction ms generalizing parts with
  | nil =>
    have : parts = [] := List.length_eq_zero_iff.mp h
    subst this; rfl
  | cons n ms ih =>
    cases parts with
    | nil => simp at h
    | cons p parts =>
      obtain ⟨l, h1, h2⟩ := hp 0 n rfl
      have e : p = l := by simpa using h1
      subst e
      have := ih parts (by simpa using h) fun i m hi => hp (i + 1) m (by simpa using hi)
      rw [List.flatten_cons, List.length_append, this, h2]
      unfold width
      by_cases hn : n = "irradiance"
      · subst hn; simp; ring
      · rw [List.count_cons_of_ne (by simpa using hn)]; simp [hn]; ring

theorem irradiance_not_ms : "irradiance" ∉ msAll := by decide +kernel

theorem msAll_colAll {m : String} (h : m ∈ msAll) : m ∈ colAll := by unfold colAll; exact List.mem_append_left _ h

/-- grey metrics: never an exception, one value per name -/
theorem grey_ok (v : View) (a : MetricArgs) {ms : List String} (h : ∀ m ∈ ms, m ∈ msAll) (fuel : ℕ) (l : List (Px 1)) :
    (greyMetrics v a ms fuel l = .ok none ∧ build v a.opts (l.map asRay) fuel = none) ∨
    ∃ s vals, build v a.opts (l.map asRay) fuel = some s ∧ greyMetrics v a ms fuel l = .ok (some vals) ∧
      vals.length = ms.length ∧ ∀ (i : ℕ) (n : String), ms[i]? = some n → ∃ x, msAttr s n = .ok x ∧ vals[i]? = some x := by
  unfold greyMetrics
  rw [(C71_check msAll ms).2.2 h true]
  simp only
  cases hb : build v a.opts (l.map asRay) fuel with
  | none => exact Or.inl ⟨rfl, rfl⟩
  | some s =>
    obtain ⟨vals, h1, h2, h3⟩ := (C71_call s ms ms).1 h
    rw [← C71_call_default s ms h] at h1
    exact Or.inr ⟨s, vals, rfl, by simp only [h1]; rfl, h2, h3⟩

/-- colour metrics with weights: never an exception, one value per name, three for `irradiance` -/
theorem color_ok (v : View) (a : MetricArgs) {ms : List String} (h : ∀ m ∈ ms, m ∈ colAll) (fuel : ℕ) (w : Fin 3 → ℝ)
    (l : List (Px 3)) :
    (colorMetrics v a ms fuel (some w) l = .ok none ∧ buildColor v a.opts w (l.map asCRay) fuel = none) ∨
    ∃ c parts, buildColor v a.opts w (l.map asCRay) fuel = some c ∧
      colorMetrics v a ms fuel (some w) l = .ok (some (List.flatten parts)) ∧ parts.length = ms.length ∧
      (∀ (i : ℕ) (n : String), ms[i]? = some n → ∃ x, parts[i]? = some x ∧ colAttr c n = .ok x) ∧
      (List.flatten parts).length = width ms := by
  unfold colorMetrics
  simp only
  rw [(C71_check colAll ms).2.2 h true]
  simp only
  cases hb : buildColor v a.opts w (l.map asCRay) fuel with
  | none => exact Or.inl ⟨rfl, rfl⟩
  | some c =>
    obtain ⟨parts, h1, h2, h3⟩ := C80_call c ms ms h
    have e : colCall c ms none = colCall c ms (some ms) := by
      unfold colCall call
      simp only
      rw [(C71_check colAll ms).2.2 h true]; rfl
    rw [← e] at h1
    refine Or.inr ⟨c, parts, rfl, by simp only [h1]; rfl, h2, fun i n hi => ?_, width_parts ms parts h2 fun i n hi => ?_⟩
    · obtain ⟨x, q1, q2, -⟩ := h3 i n hi; exact ⟨x, q1, q2⟩
    · obtain ⟨x, q1, -, q3⟩ := h3 i n hi; exact ⟨x, q1, q3⟩

variable {fl : Str → Option ℝ} {S : ∀ n, Sorter n} {fuel : ℕ} {ms : List String} {a : MetricArgs} {im : Image}

theorem img_color {lr : Option (Fin 3 → ℝ)} {pk : Option PeakArgs} {v : View} {w : Option (Fin 3 → ℝ)} {l : List (Px 3)}
    (hv : viewOf im = .ok v) (hw : weights fl im true lr = .ok w) (hc : ∃ m ∈ ms, m ∉ msAll)
    (hp : afterPeak (S _) pk a.scale defaultRgb (vol v im.res im.rgb) = .ok l) :
    imgMetric fl S fuel ms lr pk a im = colorMetrics v a ms fuel w l := by
  have h1 : needsColor ms = true := (needsColor_iff ms).mpr hc
  unfold imgMetric
  rw [hv]
  simp only [h1, hw, if_true, hp]

theorem img_grey {lr : Option (Fin 3 → ℝ)} {pk : Option PeakArgs} {v : View} {w : Option (Fin 3 → ℝ)} {l : List (Px 1)}
    (hv : viewOf im = .ok v) (hw : weights fl im false lr = .ok w) (hc : ∀ m ∈ ms, m ∈ msAll)
    (hp : afterPeak (S _) pk a.scale (fun _ : Fin 1 => 1) (vol v im.res fun i j _ => greyOf im w i j) = .ok l) :
    imgMetric fl S fuel ms lr pk a im = greyMetrics v a ms fuel l := by
  have h1 : needsColor ms = false := (needsColor_false ms).mpr hc
  unfold imgMetric
  rw [hv]
  simp only [h1, hw, hp]
  rfl

/-! C64 -/

/-- **C64** in full: without a usable entry colour metrics come out as with the default weights -/
def C64_statement : Prop :=
  ∀ (fl : Str → Option ℝ) (S : ∀ n, Sorter n) (fuel : ℕ) (ms : List String) (a : MetricArgs) (im : Image) (v : View),
    viewOf im = .ok v → Unusable fl im → (∀ m ∈ ms, m ∈ colAll) →
    imgMetric fl S fuel ms none none a im = imgMetric fl S fuel ms (some defaultRgb) none a im

/-- **C64** what happens instead: whenever a colour metric is requested and the entry is not usable, the outcome is a
TypeError, with and without peak normalisation, whatever the image -/
theorem C64_type_error (v : View) (hv : viewOf im = .ok v) (h : Unusable fl im) (hc : ∃ m ∈ ms, m ∉ msAll)
    (pk : Option PeakArgs)
    (hp : ∀ p, pk = some p → SortOk (S (im.res * im.res)) ∧ Good (p.par a.scale defaultRgb) (vol v im.res im.rgb)) :
    imgMetric fl S fuel ms none pk a im = .error .TypeError := by
  obtain ⟨l, hl⟩ : ∃ l, afterPeak (S _) pk a.scale defaultRgb (vol v im.res im.rgb) = .ok l := by
    cases pk with
    | none => exact ⟨_, rfl⟩
    | some p =>
      obtain ⟨out, h1, -⟩ := C59_energy (hp p rfl).1 (hp p rfl).2 false
      exact ⟨out, h1⟩
  rw [img_color hv (weights_unusable h true) hc hl]; rfl

/-- **C64** the cases in which `imgmetric` returns: luminance metrics without a usable entry (the brightness reported by
`pvalue` is used), and colour metrics with a usable entry or explicit weights; one value per name and three for
`irradiance`. With the entry the result is that of passing its numbers. Missing: colour metrics without an entry. -/
theorem C64_partial (v : View) (hv : viewOf im = .ok v) :
    (Unusable fl im → (∀ m ∈ ms, m ∈ msAll) →
      imgMetric fl S fuel ms none none a im =
        greyMetrics v a ms fuel ((List.finRange _).map (vol v im.res fun i j _ => im.bright i j))) ∧
    (∀ w, Usable fl im w → (∃ m ∈ ms, m ∉ msAll) → ∀ pk,
      imgMetric fl S fuel ms none pk a im = imgMetric fl S fuel ms (some w) pk a im) ∧
    (∀ w, (∃ m ∈ ms, m ∉ msAll) → (∀ m ∈ ms, m ∈ colAll) →
      ∃ r, imgMetric fl S fuel ms (some w) none a im = .ok r ∧ ∀ vals, r = some vals → vals.length = width ms) := by
  refine ⟨fun h hm => ?_, fun w hw hc pk => ?_, fun w hc hm => ?_⟩
  · exact img_grey hv (weights_unusable h false) hm rfl
  · have h1 : needsColor ms = true := (needsColor_iff ms).mpr hc
    have h2 : weights fl im true none = weights fl im true (some w) := by
      rw [weights_usable hw]; simp [weights]
    unfold imgMetric
    rw [hv, h1, h2]
  · rw [img_color (w := some w) hv rfl hc rfl]
    rcases color_ok v a hm fuel w ((List.finRange _).map (vol v im.res im.rgb)) with ⟨h1, -⟩ | ⟨c, parts, -, h1, -, -, h2⟩
    · exact ⟨none, h1, by simp⟩
    · exact ⟨_, h1, fun vals e => by rw [← Option.some.inj e]; exact h2⟩

/-- **C64** the remaining exceptions: names that are no metric, and an entry that is not made of numbers, which is not
caught although a wrong number of numbers is -/
theorem C64_errors (v : View) (hv : viewOf im = .ok v) :
    (∀ w, (∃ m ∈ ms, m ∉ colAll) → imgMetric fl S fuel ms (some w) none a im = .error .AttributeError) ∧
    (∀ s, im.item = .ok s → (∃ t ∈ tokens s, fl t = none) → ∀ pk,
      imgMetric fl S fuel ms none pk a im = .error .ValueError) := by
  refine ⟨fun w hw => ?_, fun s hs ht pk => ?_⟩
  · rw [img_color (w := some w) hv rfl (by
      obtain ⟨m, h1, h2⟩ := hw
      exact ⟨m, h1, fun h => h2 (msAll_colAll h)⟩) rfl]
    unfold colorMetrics
    simp only
    rw [(C71_check colAll ms).2.1.mpr hw]
  · have hw : ∀ b, weights fl im b none = .error .ValueError := fun b => by
      unfold weights
      simp only
      rw [hs]
      show (floats fl (tokens s)).map _ = _
      rw [floats_bad ht]; rfl
    unfold imgMetric
    rw [hv]
    simp only [hw]

/-- **C64** in these cases the call ends: there are values, for every image with a view of up to 180 degrees -/
theorem C64_ends {d : V3} {va : ℝ} (h0 : 0 < va) (h1 : va ≤ 180) (hv : viewOf im = .ok (View.new d va)) :
    (Unusable fl im → (∀ m ∈ ms, m ∈ msAll) →
      ∃ fuel vals, imgMetric fl S fuel ms none none a im = .ok (some vals) ∧ vals.length = ms.length) ∧
    (∀ w, (∃ m ∈ ms, m ∉ msAll) → (∀ m ∈ ms, m ∈ colAll) →
      ∃ fuel vals, imgMetric fl S fuel ms (some w) none a im = .ok (some vals) ∧ vals.length = width ms) := by
  have hom : ∀ p, 0 ≤ (View.new d va).pixel2omega im.res p := fun p => by
    unfold View.pixel2omega V3.len; positivity
  refine ⟨fun h hm => ?_, fun w hc hm => ?_⟩
  · obtain ⟨fuel, s, hb⟩ := build_ends (d := d) h0 (Or.inl h1) a.opts
      (((List.finRange _).map (vol (View.new d va) im.res fun i j (_ : Fin 1) => im.bright i j)).map asRay) (by
        intro r hr
        obtain ⟨p, hp, rfl⟩ := List.mem_map.mp hr
        obtain ⟨q, -, rfl⟩ := List.mem_map.mp hp
        exact hom _)
    refine ⟨fuel, ?_⟩
    rw [(C64_partial _ hv).1 h hm]
    rcases grey_ok (View.new d va) a hm fuel
      ((List.finRange _).map (vol (View.new d va) im.res fun i j (_ : Fin 1) => im.bright i j)) with ⟨-, q⟩ | ⟨s', vals, -, q, q2, -⟩
    · rw [hb] at q; simp at q
    · exact ⟨vals, q, q2⟩
  · obtain ⟨fuel, s, hb⟩ := build_ends (d := d) h0 (Or.inl h1) a.opts
      ((((List.finRange _).map (vol (View.new d va) im.res im.rgb)).map asCRay).map (CRay.toRay w)) (by
        intro r hr
        obtain ⟨p, hp, rfl⟩ := List.mem_map.mp hr
        obtain ⟨q, hq, rfl⟩ := List.mem_map.mp hp
        obtain ⟨t, -, rfl⟩ := List.mem_map.mp hq
        exact hom _)
    refine ⟨fuel, ?_⟩
    rw [img_color (w := some w) hv rfl hc rfl]
    rcases color_ok (View.new d va) a hm fuel w ((List.finRange _).map (vol (View.new d va) im.res im.rgb)) with
      ⟨-, q⟩ | ⟨c, parts, -, q, -, -, q2⟩
    · unfold buildColor at q; rw [hb] at q; simp at q
    · exact ⟨_, q, q2⟩

/-- a 2 × 2 image without view and without LuminanceRGB -/
def bare : Image := ⟨.ok none, .ok [], 2, fun i j => i + j, fun i j _ => i + j⟩

theorem bare_unusable (fl : Str → Option ℝ) : Unusable fl bare := ⟨[], [], rfl, rfl, by simp⟩

theorem bare_view : viewOf bare = .ok (dfltView 180) := rfl

theorem C64_refuted : ¬ C64_statement := by
  intro h
  have hc : ∃ m ∈ ["irradiance"], m ∉ msAll := ⟨_, by simp, irradiance_not_ms⟩
  have hm : ∀ m ∈ ["irradiance"], m ∈ colAll := by simp [colAll]
  have h1 := h (fun _ => none) (fun _ _ l => l) 1 ["irradiance"] ⟨179, 2000, false⟩ bare _ bare_view (bare_unusable _) hm
  rw [C64_type_error _ bare_view (bare_unusable _) hc none (by simp)] at h1
  obtain ⟨r, h2, -⟩ := (C64_partial (fl := fun _ => none) (S := fun _ _ l => l) (fuel := 1) (a := ⟨179, 2000, false⟩)
    _ bare_view).2.2 defaultRgb hc hm
  rw [h2] at h1
  simp at h1

/-! C107 -/

/-- **C107** in full -/
def C107_statement : Prop :=
  ∀ (fl : Str → Option ℝ) (S : ∀ n, Sorter n) (fuel : ℕ) (ms : List String) (pk : Option PeakArgs) (a : MetricArgs)
    (im : Image) (v : View) (w : Fin 3 → ℝ), viewOf im = .ok v → Usable fl im w →
    (∀ i j, im.bright i j = ∑ c, im.rgb i j c * radianceRgb c) →
    imgMetric fl S fuel ms none pk a im = imgMetric fl S fuel ms (some w) pk a im

/-- **C107** the entry acts like passing its numbers, unless only luminance metrics are requested and the numbers are
close to those of Radiance; then the brightness of `pvalue` is used. Missing: equality in that case (false). -/
theorem C107_partial {v : View} {w : Fin 3 → ℝ} (hv : viewOf im = .ok v) (hw : Usable fl im w) (pk : Option PeakArgs) :
    (((∃ m ∈ ms, m ∉ msAll) ∨ ¬ nearDefault w) →
      imgMetric fl S fuel ms none pk a im = imgMetric fl S fuel ms (some w) pk a im) ∧
    ((∀ m ∈ ms, m ∈ msAll) → nearDefault w → imgMetric fl S fuel ms none pk a im =
      match afterPeak (S _) pk a.scale (fun _ : Fin 1 => 1) (vol v im.res fun i j _ => im.bright i j) with
      | .error e => .error e
      | .ok l => greyMetrics v a ms fuel l) := by
  constructor
  · intro h
    have h2 : weights fl im (needsColor ms) none = weights fl im (needsColor ms) (some w) := by
      rw [weights_usable hw, if_neg]
      · rfl
      · rintro ⟨h3, h4⟩
        rcases h with h | h
        · rw [(needsColor_iff ms).mpr h] at h3; simp at h3
        · exact h h4
    unfold imgMetric
    rw [hv, h2]
  · intro hm hn
    have h1 : needsColor ms = false := (needsColor_false ms).mpr hm
    have h2 : weights fl im false none = .ok none := by rw [weights_usable hw, if_pos ⟨rfl, hn⟩]
    unfold imgMetric
    rw [hv]
    simp only [h1, h2]
    rfl

/-- the values used differ by at most 0.00101 times the sum of the channels -/
theorem pixel_close {w : Fin 3 → ℝ} (hn : nearDefault w) {c : Fin 3 → ℝ} (hc : ∀ j, 0 ≤ c j) :
    |∑ j, c j * radianceRgb j - ∑ j, c j * w j| ≤ 0.00101 * ∑ j, c j := by
  rw [← Finset.sum_sub_distrib, Finset.mul_sum]
  refine (Finset.abs_sum_le_sum_abs _ _).trans (Finset.sum_le_sum fun j _ => ?_)
  rw [← mul_sub, abs_mul, abs_of_nonneg (hc j), mul_comm]
  refine mul_le_mul_of_nonneg_right ?_ (hc j)
  have h1 := hn j
  unfold isclose at h1
  have h2 : |radianceRgb j| ≤ 0.68 := by
    fin_cases j
    · show |(0.26507413 : ℝ)| ≤ _; norm_num
    · show |(0.67011463 : ℝ)| ≤ _; norm_num
    · show |(0.06481124 : ℝ)| ≤ _; norm_num
  have h3 : |w j| ≤ |radianceRgb j| + |radianceRgb j - w j| := by
    have := abs_sub_abs_le_abs_sub (w j) (radianceRgb j)
    rw [abs_sub_comm] at this
    linarith
  norm_num at h1 h2 ⊢
  linarith

/-- **C107** the average luminance that results from the shortcut differs from the one of the numbers in the header by
at most 0.00101 times the average of the sum of the channels -/
theorem C107_avglum {d : V3} {va : ℝ} (h0 : 0 < va) (h1 : va ≤ 180 ∨ va = 360) (o : Opts) (ho : 0 ≤ o.scale)
    {α : Type} (L : List α) (vec : α → V3) (om : α → ℝ) (rgb : α → Fin 3 → ℝ) (hom : ∀ x ∈ L, 0 ≤ om x)
    (hc : ∀ x j, 0 ≤ rgb x j) {w : Fin 3 → ℝ} (hn : nearDefault w) (fuel : ℕ) (s s' t : MS)
    (hs : build (View.new d va) o (L.map (mkRay vec om fun x => ∑ j, rgb x j * radianceRgb j)) fuel = some s)
    (hs' : build (View.new d va) o (L.map (mkRay vec om fun x => ∑ j, rgb x j * w j)) fuel = some s')
    (ht : build (View.new d va) o (L.map (mkRay vec om fun x => ∑ j, rgb x j)) fuel = some t)
    (p : Plain (View.new d va) (L.map (mkRay vec om fun x => ∑ j, rgb x j * radianceRgb j)))
    (p' : Plain (View.new d va) (L.map (mkRay vec om fun x => ∑ j, rgb x j * w j)))
    (q : Plain (View.new d va) (L.map (mkRay vec om fun x => ∑ j, rgb x j))) :
    |s.avglum - s'.avglum| ≤ 0.00101 * t.avglum := by
  have hnn := build_nonneg h0 h1 o _ (by
    intro r hr
    obtain ⟨x, hx, rfl⟩ := List.mem_map.mp hr
    exact hom x hx) fuel s hs
  rcases build_mk (View.new d va) o L vec om fuel with hno | ⟨L', v', om', A, hb⟩
  · rw [hno _ p] at hs; exact absurd hs (by simp)
  · rw [hb _ p] at hs
    rw [hb _ p'] at hs'
    rw [hb _ q] at ht
    obtain rfl := (Option.some.inj hs).symm
    obtain rfl := (Option.some.inj hs').symm
    obtain rfl := (Option.some.inj ht).symm
    have hA : 0 ≤ A := hnn.2
    have hom' : ∀ x ∈ L', 0 ≤ om' x := fun x hx => (hnn.1 _ (List.mem_map.mpr ⟨x, hx, rfl⟩)).1
    have key : ∀ M : List α, (∀ x ∈ M, 0 ≤ om' x) →
        |(M.map fun x => (∑ j, rgb x j * radianceRgb j) * om' x).sum - (M.map fun x => (∑ j, rgb x j * w j) * om' x).sum|
          ≤ 0.00101 * (M.map fun x => (∑ j, rgb x j) * om' x).sum := by
      intro M hM
      induction M with
      | nil => simp
      | cons x M ih =>
        simp only [List.map_cons, List.sum_cons]
        have i1 := ih fun y hy => hM y (List.mem_cons_of_mem _ hy)
        have i2 := mul_le_mul_of_nonneg_right (pixel_close hn (hc x)) (hM x List.mem_cons_self)
        rw [← abs_of_nonneg (hM x List.mem_cons_self), ← abs_mul, abs_of_nonneg (hM x List.mem_cons_self), sub_mul] at i2
        rw [abs_le] at i1 i2 ⊢
        constructor <;> linarith [i1.1, i1.2, i2.1, i2.2]
    have hk := key L' hom'
    have e : ∀ l : α → ℝ, MS.avglum ⟨View.new d va, L'.map (mkRay v' om' l), A, o⟩
        = (L'.map fun x => l x * om' x).sum * (o.scale / A) := fun l => by
      show (((L'.map (mkRay v' om' l)).map fun r => r.lum * r.om).sum) * o.scale / A = _
      rw [List.map_map, mul_div_assoc]; rfl
    rw [e, e, e, ← sub_mul, abs_mul, abs_of_nonneg (div_nonneg ho hA), ← mul_assoc]
    exact mul_le_mul_of_nonneg_right hk (div_nonneg ho hA)

/-- one red pixel, with an entry close to the numbers of Radiance -/
noncomputable def redPx : Image :=
  ⟨.ok none, .ok "a b c".toList, 1, fun _ _ => ∑ c, (![1, 0, 0] : Fin 3 → ℝ) c * radianceRgb c, fun _ _ => ![1, 0, 0]⟩

/-- a reader of numbers under which the entry is 0.265 0.67 0.065 -/
noncomputable def redFl (s : Str) : Option ℝ :=
  if s = "a".toList then some 0.265 else if s = "b".toList then some 0.670 else some 0.065

theorem red_usable : Usable redFl redPx defaultRgb := by
  refine ⟨_, rfl, ?_⟩
  have : tokens "a b c".toList = ["a".toList, "b".toList, "c".toList] := by decide
  unfold Numbers
  rw [this]
  have h1 : redFl "a".toList = some 0.265 := if_pos rfl
  have h2 : redFl "b".toList = some 0.670 := by unfold redFl; rw [if_neg (by decide), if_pos (by decide)]
  have h3 : redFl "c".toList = some 0.065 := by unfold redFl; rw [if_neg (by decide), if_neg (by decide)]
  simp only [List.map_cons, List.map_nil, h1, h2, h3]
  rfl

theorem red_near : nearDefault defaultRgb := by
  intro j
  unfold isclose
  fin_cases j
  · show |(0.26507413 : ℝ) - 0.265| ≤ _ + _ * |(0.265 : ℝ)|; norm_num [abs_le]
  · show |(0.67011463 : ℝ) - 0.670| ≤ _ + _ * |(0.670 : ℝ)|; norm_num [abs_le]
  · show |(0.06481124 : ℝ) - 0.065| ≤ _ + _ * |(0.065 : ℝ)|; norm_num [abs_le]

/-- a single pixel in the middle of the default view: its value is the maximum -/
theorem one_maxlum (a : MetricArgs) (val : Fin 1 → ℝ) :
    greyMetrics (dfltView 180) a ["maxlum"] 1 ((List.finRange (1 * 1)).map (vol (dfltView 180) 1 fun _ _ => val))
      = .ok (some [val 0 * a.scale]) := by
  have hray : (vol (dfltView 180) 1 (fun _ _ => val) 0).v = ⟨0, 1, 0⟩ := by
    have := Gss.ray_centre clear_example.1 180
    unfold Gss.raysOf at this
    show (dfltView 180).pixel2ray 1 (pixelCentre (0 / 1) (0 % 1)) = _
    unfold dfltView
    rw [show (0 : ℕ) / 1 = 0 from rfl, show (0 : ℕ) % 1 = 0 from rfl, this]
    exact y_dxyz
  have hl : ((List.finRange (1 * 1)).map (vol (dfltView 180) 1 fun _ _ => val)).map asRay
      = [⟨⟨0, 1, 0⟩, (vol (dfltView 180) 1 (fun _ _ => val) 0).o, val 0⟩] := by
    show [asRay (vol (dfltView 180) 1 (fun _ _ => val) 0)] = _
    unfold asRay; rw [hray]; rfl
  generalize (vol (dfltView 180) 1 (fun _ _ => val) 0).o = om at hl
  have hin : yView.inView 0 ⟨0, 1, 0⟩ := (y_inView y_unit).mpr one_pos
  have hview : viewRays yView [⟨⟨0, 1, 0⟩, om, val 0⟩] = [⟨⟨0, 1, 0⟩, om, val 0⟩] := by
    rw [viewRays_plain _ _ (plain_of_inView _ _ (by
      intro r hr
      rw [List.mem_singleton.mp hr, norm_of_unit y_unit]; exact hin))]
    simp [normR, vis, norm_of_unit y_unit, hin]
  have hb : build (dfltView 180) a.opts [⟨⟨0, 1, 0⟩, om, val 0⟩] 1
      = some ⟨yView, [⟨⟨0, 1, 0⟩, om, val 0⟩], omSum [⟨⟨0, 1, 0⟩, om, val 0⟩], a.opts⟩ := by
    show build yView _ _ _ = _
    unfold build
    rw [hview, C69_uncorrected _ _ _ (Or.inr (by simp))]; rfl
  unfold greyMetrics
  rw [(C71_check msAll ["maxlum"]).2.2 (by simp [msAll]) true, hl]
  simp only [hb]
  simp [call, collect, msAttr, MS.maxlum, Except.bind, Except.map, MetricArgs.opts]

theorem C107_refuted : ¬ C107_statement := by
  intro h
  have hm : ∀ m ∈ ["maxlum"], m ∈ msAll := by simp [msAll]
  have h1 := h redFl (fun _ _ l => l) 1 ["maxlum"] none ⟨1, 2000, false⟩ redPx (dfltView 180) defaultRgb rfl red_usable
    (fun _ _ => rfl)
  rw [(C107_partial rfl red_usable none).2 hm red_near, img_grey (v := dfltView 180) (w := some defaultRgb) rfl rfl hm rfl] at h1
  have e1 := one_maxlum ⟨1, 2000, false⟩ fun _ => redPx.bright 0 0
  have e2 := one_maxlum ⟨1, 2000, false⟩ fun _ => greyOf redPx (some defaultRgb) 0 0
  have h2 := e1.symm.trans (h1.trans e2)
  simp only [Except.ok.injEq, Option.some.injEq, List.cons.injEq, and_true, mul_one] at h2
  have h3 : (1 : ℝ) * 0.26507413 + 0 * 0.67011463 + 0 * 0.06481124 = 1 * 0.265 + 0 * 0.670 + 0 * 0.065 := by
    simp only [redPx, greyOf, Fin.sum_univ_three] at h2
    exact h2
  norm_num at h3

/-! C81 -/

/-- the outcome of the pool is that of calling `f` on the images one after the other, the first exception ending it -/
theorem pool_rows (f : Str → Except PyErr (List ℝ)) (w : Pool.Workers) (nproc : Int) (hn : 1 ≤ nproc) (imgs : List Str)
    (o : Except PyErr (List (List ℝ))) (h : Pool.Outcome (poolSetup f) w nproc .ValueError (poolArgs imgs) o) :
    (∀ rs, o = .ok rs → imgs.map f = rs.map .ok) ∧ (∀ e, o = .error e → ∃ i ∈ imgs, f i = .error e) := by
  rw [Pool.C03_outcome_independent_of_mode (poolSetup f) w nproc .ValueError (poolArgs imgs) hn (fun a ha => by
    obtain ⟨i, _, rfl⟩ := List.mem_map.mp ha
    exact ⟨[.name i], rfl⟩) o h]
  have key : ∀ (l : List Str) (acc : List (List ℝ)),
      (∀ rs, Pool.sequential (poolSetup f) acc (poolArgs l) = .ok rs → ∃ t, rs = acc ++ t ∧ l.map f = t.map .ok) ∧
      (∀ e, Pool.sequential (poolSetup f) acc (poolArgs l) = .error e → ∃ i ∈ l, f i = .error e) := by
    intro l
    induction l with
    | nil => exact fun acc => ⟨fun rs hr => ⟨[], by simpa [Pool.sequential, poolArgs] using hr.symm, rfl⟩, fun e he => by simp [Pool.sequential, poolArgs] at he⟩
    | cons x l ih =>
      intro acc
      have hx' : (poolSetup f).func ([.name x] ++ []) = f x := rfl
      have hc : (poolSetup f).callArgs (.tuple [x]) = .ok ([.name x] ++ []) := rfl
      rw [show poolArgs (x :: l) = .tuple [x] :: poolArgs l from rfl]
      unfold Pool.sequential
      rw [hc]
      simp only [hx']
      cases hx : f x with
      | error e => exact ⟨by simp, fun e' he => ⟨x, List.mem_cons_self, by rw [hx]; simpa using he⟩⟩
      | ok r =>
        simp only
        refine ⟨fun rs hr => ?_, fun e' he => ?_⟩
        · obtain ⟨t, h1, h2⟩ := (ih (acc ++ [r])).1 rs hr
          exact ⟨r :: t, by simp [h1], by simp [hx, h2]⟩
        · obtain ⟨i, h1, h2⟩ := (ih (acc ++ [r])).2 e' he
          exact ⟨i, List.mem_cons_of_mem _ h1, h2⟩
  refine ⟨fun rs hr => ?_, (key imgs []).2⟩
  obtain ⟨t, h1, h2⟩ := (key imgs []).1 rs hr
  simpa [h1] using h2

/-- what running the command means: `f` gives for each image what `imgmetric` gives for the names left, the pool runs
under some schedule, and the two columns of scores have one entry per image when they are computed (C98) -/
structure Run (fl : Str → Option ℝ) (S : ∀ n, Sorter n) (lr : Option (Fin 3 → ℝ)) (pk : Option PeakArgs) (a : MetricArgs)
    (file : Str → Image) (imgs : List Str) (ms : List String)
    (out : Except PyErr (List String × List (Str × List ℝ))) where
  f : Str → Except PyErr (List ℝ)
  f_eq : ∀ i, ∃ fuel, imgMetric fl S fuel (plain ms) lr pk a (file i) = (f i).map some
  w : Pool.Workers
  nproc : Int
  hn : 1 ≤ nproc
  rows : Except PyErr (List (List ℝ))
  pool : Pool.Outcome (poolSetup f) w nproc .ValueError (poolArgs imgs) rows
  gss : Except PyErr (List ℝ)
  gss_len : ∀ c, gss = .ok c → c.length = imgs.length
  nb : Except PyErr (List ℝ)
  nb_len : ∀ c, nb = .ok c → c.length = imgs.length
  out_eq : out = metricCmd imgs ms rows gss nb

/-- `imgmetric` returns only when the names are metrics, and then a list of the width of the names -/
theorem img_width {lr : Option (Fin 3 → ℝ)} {pk : Option PeakArgs} {vals : List ℝ}
    (h : imgMetric fl S fuel ms lr pk a im = .ok (some vals)) :
    (∀ m ∈ ms, m ∈ colAll) ∧ vals.length = width ms := by
  unfold imgMetric at h
  cases hv : viewOf im with
  | error e => rw [hv] at h; simp at h
  | ok v =>
    rw [hv] at h
    simp only at h
    cases hw : weights fl im (needsColor ms) lr with
    | error e => rw [hw] at h; simp at h
    | ok w =>
      rw [hw] at h
      simp only at h
      cases hc : needsColor ms with
      | true =>
        simp only [hc, if_true] at h
        split at h
        · simp at h
        · rename_i l hl
          cases w with
          | none => simp [colorMetrics] at h
          | some w =>
            have hm : ∀ m ∈ ms, m ∈ colAll := by
              by_contra hcon
              push Not at hcon
              unfold colorMetrics at h
              simp only at h
              rw [(C71_check colAll ms).2.1.mpr hcon] at h
              simp at h
            refine ⟨hm, ?_⟩
            rcases color_ok v a hm fuel w l with ⟨h1, -⟩ | ⟨c, parts, -, h1, -, -, h2⟩
            · rw [h1] at h; simp at h
            · rw [h1] at h
              simp only [Except.ok.injEq, Option.some.injEq] at h
              rw [← h]; exact h2
      | false =>
        have hm := (needsColor_false ms).mp hc
        refine ⟨fun m h => msAll_colAll (hm m h), ?_⟩
        have hcount : ms.count "irradiance" = 0 := List.count_eq_zero.mpr fun h => irradiance_not_ms (hm _ h)
        simp only [hc, Bool.false_eq_true, if_false] at h
        split at h
        · simp at h
        · rename_i l hl
          rcases grey_ok v a hm fuel l with ⟨h1, -⟩ | ⟨s, vals', -, h1, h2, -⟩
          · rw [h1] at h; simp at h
          · rw [h1] at h
            simp only [Except.ok.injEq, Option.some.injEq] at h
            rw [← h, h2]; unfold width; omega

theorem addCol_spec (rows : List (List ℝ)) (c : List ℝ) (h : c.length = rows.length) :
    ∃ rs, addCol (some rows) c = some rs ∧ rs.length = rows.length ∧
      ∀ (i : ℕ) (r : List ℝ), rows[i]? = some r → ∃ x, c[i]? = some x ∧ rs[i]? = some (r ++ [x]) := by
  refine ⟨_, rfl, by simp [h], fun i r hi => ?_⟩
  have hlt : i < rows.length := (List.getElem?_eq_some_iff.mp hi).1
  have hc : i < c.length := by omega
  refine ⟨c[i], by simp [hc], ?_⟩
  rw [List.getElem?_zipWith, hi, List.getElem?_eq_getElem hc]

/-- what has been collected after one stage: rows in the order of the images, row `i` being `val i` -/
structure Rows (n : ℕ) (val : ℕ → List ℝ) (r : Option (List (List ℝ))) : Prop where
  none : r = none → ∀ i, val i = []
  some : ∀ rs, r = some rs → rs.length = n ∧ ∀ i < n, rs[i]? = some (val i)

/-- the column read for image `i` -/
noncomputable def colOf (c : Except PyErr (List ℝ)) (i : ℕ) : List ℝ :=
  match c with
  | .ok l => [l.getD i 0]
  | .error _ => []

theorem Rows.add {n : ℕ} {val : ℕ → List ℝ} {r : Option (List (List ℝ))} (h : Rows n val r) (c : List ℝ)
    (hc : c.length = n) : Rows n (fun i => val i ++ [c.getD i 0]) (addCol r c) := by
  cases r with
  | none =>
    refine ⟨by simp [addCol], fun rs hr => ?_⟩
    have e : c.map (fun x => [x]) = rs := by simpa [addCol] using hr
    subst e
    refine ⟨by simpa using hc, fun i hi => ?_⟩
    have hi' : i < c.length := by omega
    simp [h.none rfl i, hi']
  | some rows =>
    obtain ⟨h1, h2⟩ := h.some rows rfl
    obtain ⟨rs, e, q1, q2⟩ := addCol_spec rows c (by omega)
    rw [e]
    refine ⟨by simp, fun rs' hr => ?_⟩
    obtain rfl := Option.some.inj hr
    refine ⟨by omega, fun i hi => ?_⟩
    obtain ⟨y, hy, e2⟩ := q2 i _ (h2 i hi)
    rw [e2, List.getD_eq_getElem?_getD, hy]; rfl

theorem Rows.stage {n : ℕ} {val : ℕ → List ℝ} {r r' : Option (List (List ℝ))} (h : Rows n val r) {b : Bool}
    {col : Except PyErr (List ℝ)} (hc : ∀ c, col = .ok c → c.length = n) (hs : stage b col r = .ok r') :
    Rows n (fun i => val i ++ if b then colOf col i else []) r' := by
  unfold Cmd.stage at hs
  cases b with
  | false =>
    obtain rfl := Except.ok.inj hs
    simpa using h
  | true =>
    cases hgs : col with
    | error e => rw [hgs] at hs; simp [Except.map] at hs
    | ok c =>
      rw [hgs] at hs
      obtain rfl := Except.ok.inj hs
      exact h.add c (hc c hgs)

/-- **C81** the table of every successful run, cell by cell: the columns are `image`, the names left after taking out
one `gss` and one `gssnb`, and these two if they were requested; there is one row per image, in the order of the images;
it holds what `imgmetric` returned for this image and these names, then the entry of this image in each list of scores -/
theorem C81_cells {lr : Option (Fin 3 → ℝ)} {pk : Option PeakArgs} {file : Str → Image} {imgs : List Str}
    {hdr : List String} {tab : List (Str × List ℝ)} (r : Run fl S lr pk a file imgs ms (.ok (hdr, tab))) :
    hdr = "image" :: ((ms.erase "gss").erase "gssnb" ++ (if "gss" ∈ ms then ["gss"] else [])
      ++ if "gssnb" ∈ ms then ["gssnb"] else []) ∧
    tab.map Prod.fst = imgs ∧
    ∀ (i : ℕ) (row : Str × List ℝ), tab[i]? = some row → ∃ vals,
      ((ms.erase "gss").erase "gssnb" = [] ∧ vals = [] ∨ ∃ fuel,
        imgMetric fl S fuel ((ms.erase "gss").erase "gssnb") lr pk a (file row.1) = .ok (some vals)) ∧
      ∃ g n : List ℝ, row.2 = vals ++ g ++ n ∧
        ("gss" ∈ ms → ∃ l x, r.gss = .ok l ∧ l[i]? = some x ∧ g = [x]) ∧ ("gss" ∉ ms → g = []) ∧
        ("gssnb" ∈ ms → ∃ l x, r.nb = .ok l ∧ l[i]? = some x ∧ n = [x]) ∧ ("gssnb" ∉ ms → n = []) := by
  have hgs : wantsGss ms = decide ("gss" ∈ ms) ∧ (popName "gss" ms).2 = ms.erase "gss" := by
    unfold wantsGss popName
    by_cases h : "gss" ∈ ms
    · simp [h]
    · simp [h, List.erase_of_not_mem h]
  have hnb0 : "gssnb" ∈ ms.erase "gss" ↔ "gssnb" ∈ ms := List.mem_erase_of_ne (by decide)
  have hnb : wantsNb ms = decide ("gssnb" ∈ ms) ∧ plain ms = (ms.erase "gss").erase "gssnb" := by
    unfold wantsNb plain
    rw [hgs.2]
    unfold popName
    by_cases h : "gssnb" ∈ ms
    · simp [hnb0.mpr h, h]
    · have h' : "gssnb" ∉ ms.erase "gss" := fun x => h (hnb0.mp x)
      simp [h', h, List.erase_of_not_mem h']
  rw [← hnb.2]
  obtain ⟨f, f_eq, w, nproc, hn, rows, pool, gss, gss_len, nb, nb_len, out_eq⟩ := r
  simp only
  obtain ⟨p1, -⟩ := pool_rows f w nproc hn imgs rows pool
  -- row `i` before the scores are added
  obtain ⟨pre, hpre⟩ : ∃ pre : ℕ → List ℝ, ∀ i, pre i = if plain ms = [] then [] else
      match imgs[i]? with
      | none => []
      | some nm => match f nm with
        | .ok vals => vals
        | .error _ => [] := ⟨_, fun _ => rfl⟩
  unfold metricCmd at out_eq
  cases e0 : stage0 ms rows with
  | error e => rw [e0] at out_eq; simp [Except.bind] at out_eq
  | ok r0 =>
  have hrows : plain ms ≠ [] → ∃ rs, rows = .ok rs ∧ r0 = some rs := fun hp => by
    unfold stage0 at e0
    rw [if_pos (List.length_pos_iff.mpr hp)] at e0
    cases hr : rows with
    | error e => rw [hr] at e0; simp [Except.map] at e0
    | ok rs => rw [hr] at e0; exact ⟨rs, rfl, (Except.ok.inj e0).symm⟩
  have R0 : Rows imgs.length pre r0 := by
    by_cases hp : plain ms = []
    · unfold stage0 at e0
      rw [if_neg (by simp [hp])] at e0
      obtain rfl := Except.ok.inj e0
      exact ⟨fun _ i => by rw [hpre, if_pos hp], by simp⟩
    · obtain ⟨rs, hr, rfl⟩ := hrows hp
      have hmap := p1 rs hr
      have hlen : rs.length = imgs.length := by simpa using (congrArg List.length hmap).symm
      refine ⟨by simp, fun rs' h' => ?_⟩
      obtain rfl := Option.some.inj h'
      refine ⟨hlen, fun i hi => ?_⟩
      have h2 := congrArg (fun l => l[i]?) hmap
      have hx : rs[i]? = some (rs[i]'(by omega)) := List.getElem?_eq_getElem (by omega)
      simp only [List.getElem?_map, hx, Option.map_some] at h2
      obtain ⟨nm, h3, h4⟩ := Option.map_eq_some_iff.mp h2
      rw [hx, hpre, if_neg hp, h3]
      simp only [h4]
  rw [e0] at out_eq
  simp only [Except.bind] at out_eq
  cases e1 : stage (wantsGss ms) gss r0 with
  | error e => rw [e1] at out_eq; simp at out_eq
  | ok r1 =>
  have R1 := R0.stage gss_len e1
  rw [e1] at out_eq
  simp only at out_eq
  cases e2 : stage (wantsNb ms) nb r1 with
  | error e => rw [e2] at out_eq; simp at out_eq
  | ok r2 =>
  have R2 := R1.stage nb_len e2
  rw [e2] at out_eq
  simp only [printed] at out_eq
  have hcol : ∀ (b : Bool) (col : Except PyErr (List ℝ)) (x y : Option (List (List ℝ))), stage b col x = .ok y →
      (∀ c, col = .ok c → c.length = imgs.length) → b = true → ∀ i < imgs.length,
      ∃ l z, col = .ok l ∧ l[i]? = some z ∧ colOf col i = [z] := by
    intro b col x y hs hl hb i hi
    subst hb
    unfold stage at hs
    cases hcl : col with
    | error e => rw [hcl] at hs; simp [Except.map] at hs
    | ok c =>
      have hi' : i < c.length := by rw [hl c hcl]; exact hi
      exact ⟨c, c[i], rfl, by simp [hi'], by simp [colOf, hi']⟩
  cases r2 with
  | none => simp at out_eq
  | some rs =>
    simp only [Except.ok.injEq, Prod.mk.injEq] at out_eq
    obtain ⟨rfl, rfl⟩ := out_eq
    obtain ⟨q1, q2⟩ := R2.some rs rfl
    refine ⟨?_, by rw [List.map_fst_zip (by omega)], ?_⟩
    · unfold header
      rw [hgs.1, hnb.1]
      simp only [decide_eq_true_eq]
    · intro i row hi
      rw [List.getElem?_zip_eq_some] at hi
      obtain ⟨z1, z2⟩ := hi
      have hlt : i < imgs.length := (List.getElem?_eq_some_iff.mp z1).1
      have hrow := q2 i hlt
      rw [z2] at hrow
      refine ⟨pre i, ?_, _, _, Option.some.inj hrow, ?_, ?_, ?_, ?_⟩
      · by_cases hp : plain ms = []
        · exact Or.inl ⟨hp, by rw [hpre, if_pos hp]⟩
        · right
          obtain ⟨rs', hr, -⟩ := hrows hp
          have h2 := congrArg (fun l => l[i]?) (p1 rs' hr)
          simp only [List.getElem?_map, z1, Option.map_some] at h2
          obtain ⟨vals, h3, h4⟩ := Option.map_eq_some_iff.mp h2.symm
          obtain ⟨fuel, e⟩ := f_eq row.1
          refine ⟨fuel, ?_⟩
          rw [hpre, if_neg hp, z1]
          simp only [← h4]
          rw [e, ← h4]; rfl
      · intro hg
        have hb : wantsGss ms = true := by rw [hgs.1]; simpa using hg
        obtain ⟨l, z, c1, c2, c3⟩ := hcol _ _ _ _ e1 gss_len hb i hlt
        exact ⟨l, z, c1, c2, by rw [if_pos hb, c3]⟩
      · intro hg
        rw [if_neg (by rw [hgs.1]; simpa using hg)]
      · intro hg
        have hb : wantsNb ms = true := by rw [hnb.1]; simpa using hg
        obtain ⟨l, z, c1, c2, c3⟩ := hcol _ _ _ _ e2 nb_len hb i hlt
        exact ⟨l, z, c1, c2, by rw [if_pos hb, c3]⟩
      · intro hg
        rw [if_neg (by rw [hnb.1]; simpa using hg)]

/-- **C81** the columns are `image` and the requested names; there is one row per image, in order; a row has one value
per column and two more for every `irradiance` requested. Missing: rows as wide as the header with `irradiance`. -/
theorem C81_partial {lr : Option (Fin 3 → ℝ)} {pk : Option PeakArgs} {file : Str → Image} {imgs : List Str}
    {hdr : List String} {tab : List (Str × List ℝ)} (r : Run fl S lr pk a file imgs ms (.ok (hdr, tab))) :
    hdr.Perm ("image" :: ms) ∧ tab.map Prod.fst = imgs ∧
    (∀ row ∈ tab, row.2.length + 1 = hdr.length + 2 * ms.count "irradiance") := by
  obtain ⟨h1, h2, h3⟩ := C81_cells r
  have e1 : ((ms.erase "gss").erase "gssnb").count "irradiance" = ms.count "irradiance" := by
    rw [List.count_erase_of_ne (by decide), List.count_erase_of_ne (by decide)]
  have hperm : ((ms.erase "gss").erase "gssnb" ++ (if "gss" ∈ ms then ["gss"] else [])
      ++ if "gssnb" ∈ ms then ["gssnb"] else []).Perm ms := by
    have k1 : (ms.erase "gss" ++ if "gss" ∈ ms then ["gss"] else []).Perm ms := by
      split_ifs with h
      · exact List.perm_append_comm.trans (List.perm_cons_erase h).symm
      · simp [List.erase_of_not_mem h]
    have k2 : ((ms.erase "gss").erase "gssnb" ++ if "gssnb" ∈ ms then ["gssnb"] else []).Perm (ms.erase "gss") := by
      split_ifs with h
      · exact List.perm_append_comm.trans (List.perm_cons_erase ((List.mem_erase_of_ne (by decide)).mpr h)).symm
      · rw [List.append_nil, List.erase_of_not_mem fun x => h ((List.mem_erase_of_ne (by decide)).mp x)]
    refine List.Perm.trans ?_ k1
    refine List.Perm.trans ?_ (k2.append_right _)
    rw [List.append_assoc, List.append_assoc]
    exact List.Perm.append_left _ List.perm_append_comm
  refine ⟨by rw [h1]; exact hperm.cons _, h2, fun row hrow => ?_⟩
  obtain ⟨i, hi⟩ := List.mem_iff_getElem?.mp hrow
  obtain ⟨vals, hv, g, n, e, g1, g2, n1, n2⟩ := h3 i row hi
  have hw : vals.length = width ((ms.erase "gss").erase "gssnb") := by
    rcases hv with ⟨a1, rfl⟩ | ⟨fuel, hf⟩
    · rw [a1]; rfl
    · exact (img_width hf).2
  have hg : g.length = (if "gss" ∈ ms then ["gss"] else []).length := by
    by_cases h : "gss" ∈ ms
    · obtain ⟨_, _, _, _, rfl⟩ := g1 h; simp [h]
    · rw [g2 h]; simp [h]
  have hn : n.length = (if "gssnb" ∈ ms then ["gssnb"] else []).length := by
    by_cases h : "gssnb" ∈ ms
    · obtain ⟨_, _, _, _, rfl⟩ := n1 h; simp [h]
    · rw [n2 h]; simp [h]
  rw [e, h1]
  simp only [List.length_append, List.length_cons, hw, hg, hn, width, e1]
  ring

/-- **C81** a run that prints a table for at least one image was given at least one name, each `gss` and `gssnb` at most
once, and otherwise names of metrics -/
theorem C81_names {lr : Option (Fin 3 → ℝ)} {pk : Option PeakArgs} {file : Str → Image} {imgs : List Str}
    {hdr : List String} {tab : List (Str × List ℝ)} (r : Run fl S lr pk a file imgs ms (.ok (hdr, tab))) (hi : imgs ≠ []) :
    ms ≠ [] ∧ ms.count "gss" ≤ 1 ∧ ms.count "gssnb" ≤ 1 ∧ ∀ m ∈ ms, m ∈ colAll ∨ m = "gss" ∨ m = "gssnb" := by
  have hne : ms ≠ [] := by
    rintro rfl
    have := r.out_eq
    simp [metricCmd, stage0, stage, plain, popName, wantsGss, wantsNb, Except.bind, printed] at this
  obtain ⟨h1, h2, h4⟩ := C81_cells r
  have hperm := (C81_partial r).1
  rw [h1, List.perm_cons] at hperm
  generalize hl : (ms.erase "gss").erase "gssnb" = names at h4 hperm
  have hpl : ∀ m ∈ names, m ∈ colAll := by
    have hpos : 0 < tab.length := by
      rw [← List.length_map (f := Prod.fst), h2]; exact List.length_pos_iff.mpr hi
    obtain ⟨vals, ⟨e, -⟩ | ⟨fuel, e⟩, -⟩ := h4 0 tab[0] (by simp [hpos])
    · simp [e]
    · exact (img_width e).1
  have g : "gss" ∉ names ∧ "gssnb" ∉ names := by
    have h1 : "gss" ∉ colAll ∧ "gssnb" ∉ colAll := by decide +kernel
    exact ⟨fun h => h1.1 (hpl _ h), fun h => h1.2 (hpl _ h)⟩
  refine ⟨hne, ?_, ?_, fun m hm => ?_⟩
  · rw [← hperm.count_eq, List.count_append, List.count_append, List.count_eq_zero.mpr g.1]
    split_ifs <;> decide
  · rw [← hperm.count_eq, List.count_append, List.count_append, List.count_eq_zero.mpr g.2]
    split_ifs <;> decide
  · rw [← hperm.mem_iff] at hm
    simp only [List.mem_append] at hm
    rcases hm with (h | h) | h
    · exact Or.inl (hpl m h)
    · right; left; split_ifs at h <;> simpa using h
    · right; right; split_ifs at h <;> simpa using h

/-- **C81** in full -/
def C81_statement : Prop :=
  ∀ (fl : Str → Option ℝ) (S : ∀ n, Sorter n) (lr : Option (Fin 3 → ℝ)) (pk : Option PeakArgs) (a : MetricArgs)
    (file : Str → Image) (imgs : List Str) (ms : List String) (hdr : List String) (tab : List (Str × List ℝ)),
    Nonempty (Run fl S lr pk a file imgs ms (.ok (hdr, tab))) →
    tab.map Prod.fst = imgs ∧ ∀ row ∈ tab, row.2.length + 1 = hdr.length

/-- colour metrics of the small image exist -/
theorem bare_color : ∃ vals, imgMetric (fun _ => none) (fun _ _ l => l) 1 ["irradiance"] (some defaultRgb) none
    ⟨179, 2000, false⟩ bare = .ok (some vals) := by
  have hc : ∃ m ∈ ["irradiance"], m ∉ msAll := ⟨_, by simp, irradiance_not_ms⟩
  have hm : ∀ m ∈ ["irradiance"], m ∈ colAll := by simp [colAll]
  rw [img_color (w := some defaultRgb) bare_view rfl hc rfl]
  rcases color_ok (dfltView 180) ⟨179, 2000, false⟩ hm 1 defaultRgb
    ((List.finRange _).map (vol (dfltView 180) bare.res bare.rgb)) with ⟨-, h2⟩ | ⟨c, parts, -, h1, -⟩
  · exfalso
    unfold buildColor build at h2
    rw [C69_uncorrected _ _ _ (Or.inr ?_)] at h2
    · simp at h2
    · unfold viewRays
      rw [List.length_map]
      refine le_trans ?_ (show 4 ≤ 100 by norm_num)
      unfold kept
      split_ifs
      · simp [bare]
      · refine (List.length_filter_le _ _).trans ?_
        simp [bare]
  · exact ⟨_, h1⟩

noncomputable def bareRun (vals : List ℝ)
    (h : imgMetric (fun _ => none) (fun _ _ l => l) 1 ["irradiance"] (some defaultRgb) none ⟨179, 2000, false⟩ bare
      = .ok (some vals)) :
    Run (fun _ => none) (fun _ _ l => l) (some defaultRgb) none ⟨179, 2000, false⟩ (fun _ => bare) [[]] ["irradiance"]
      (.ok (["image", "irradiance"], [([], vals)])) where
  f _ := .ok vals
  f_eq _ := ⟨1, h⟩
  w := .obj false
  nproc := 1
  hn := le_rfl
  rows := .ok [vals]
  pool := rfl
  gss := .error .ValueError
  gss_len := by simp
  nb := .error .ValueError
  nb_len := by simp
  out_eq := rfl

theorem C81_refuted : ¬ C81_statement := by
  intro h
  obtain ⟨vals, hv⟩ := bare_color
  have h1 := (h _ _ _ _ _ _ _ _ _ _ ⟨bareRun vals hv⟩).2 _ List.mem_cons_self
  have h2 := (img_width hv).2
  simp only at h1
  rw [h2] at h1
  simp [width] at h1

/-- **C81** nothing is printed in the table when no metric is requested -/
theorem C81_empty {lr : Option (Fin 3 → ℝ)} {pk : Option PeakArgs} {file : Str → Image} {imgs : List Str}
    {out : Except PyErr (List String × List (Str × List ℝ))} (r : Run fl S lr pk a file imgs [] out) :
    out = .error .TypeError := by
  rw [r.out_eq]
  simp [metricCmd, stage0, stage, plain, popName, wantsGss, wantsNb, Except.bind, printed]

/-- **C81** without `irradiance` the table is rectangular -/
theorem C81_rectangular {lr : Option (Fin 3 → ℝ)} {pk : Option PeakArgs} {file : Str → Image} {imgs : List Str}
    {hdr : List String} {tab : List (Str × List ℝ)} (r : Run fl S lr pk a file imgs ms (.ok (hdr, tab)))
    (h : "irradiance" ∉ ms) : ∀ row ∈ tab, row.2.length + 1 = hdr.length := fun row hr => by
  rw [(C81_partial r).2.2 row hr, List.count_eq_zero.mpr h, mul_zero, add_zero]

example : ∃ out, Nonempty (Run (fun _ => none) (fun _ _ l => l) (some defaultRgb) none ⟨179, 2000, false⟩ (fun _ => bare)
    [[]] ["irradiance"] (.ok out)) := by
  obtain ⟨vals, hv⟩ := bare_color
  exact ⟨_, ⟨bareRun vals hv⟩⟩

/-- the hypotheses of `C107_avglum` are met by the image of one red pixel -/
example (f : ℝ) : Plain yView ([()].map (mkRay (fun _ => ⟨0, 1, 0⟩) (fun _ => 1) fun _ => f)) ∧
    ∃ s, build yView (MetricArgs.opts ⟨179, 2000, false⟩) ([()].map (mkRay (fun _ => ⟨0, 1, 0⟩) (fun _ => 1) fun _ => f)) 1
      = some s := by
  have hp : Plain yView ([()].map (mkRay (fun _ => ⟨0, 1, 0⟩) (fun _ => 1) fun _ => f)) := by
    apply plain_of_inView
    intro r hr
    obtain ⟨_, -, rfl⟩ := List.mem_map.mp hr
    show yView.inView 0 (Geo.norm ⟨0, 1, 0⟩)
    rw [norm_of_unit y_unit]; exact (y_inView y_unit).mpr one_pos
  refine ⟨hp, ?_⟩
  unfold build
  rw [viewRays_plain _ _ hp, C69_uncorrected _ _ _ (Or.inr ((List.length_filter_le _ _).trans (by simp)))]
  exact ⟨_, rfl⟩

/-! C108: which rays, values and options the metrics are computed from -/

/-- the rows belong to the pixels: row `i * res + j` holds the direction, the solid angle and the value of pixel `(i, j)`,
and every row is one of these -/
theorem C108_rows {k : ℕ} (v : View) (res : ℕ) (val : ℕ → ℕ → Fin k → ℝ) :
    (∀ (i j : ℕ) (_ : i < res) (_ : j < res), ∃ q : Fin (res * res), q.val = i * res + j ∧
      (vol v res val q).v = v.pixel2ray res ((i : ℝ) + 1 / 2, (j : ℝ) + 1 / 2) ∧
      (vol v res val q).o = v.pixel2omega res ((i : ℝ) + 1 / 2, (j : ℝ) + 1 / 2) ∧ (vol v res val q).c = val i j) ∧
    ∀ q : Fin (res * res), ∃ i j, i < res ∧ j < res ∧ q.val = i * res + j := by
  constructor
  · intro i j hi hj
    have hlt : i * res + j < res * res := by
      calc i * res + j < i * res + res := by omega
        _ = (i + 1) * res := by ring
        _ ≤ res * res := Nat.mul_le_mul_right _ hi
    have h1 : (i * res + j) / res = i := by
      rw [mul_comm, Nat.mul_add_div (by omega), Nat.div_eq_of_lt hj, add_zero]
    have h2 : (i * res + j) % res = j := by
      rw [mul_comm, Nat.mul_add_mod, Nat.mod_eq_of_lt hj]
    refine ⟨⟨_, hlt⟩, rfl, ?_, ?_, ?_⟩
    · simp only [vol, h1, h2, pixelCentre]
    · simp only [vol, h1, h2, pixelCentre]
    · simp only [vol, h1, h2]
  · intro q
    have hq := q.isLt
    have hr : 0 < res := by
      rcases Nat.eq_zero_or_pos res with h | h
      · subst h; exact absurd hq (by simp)
      · exact h
    exact ⟨q / res, q % res, Nat.div_lt_of_lt_mul hq, Nat.mod_lt _ hr, by
      have := Nat.div_add_mod (q : ℕ) res
      have e := mul_comm ((q : ℕ) / res) res
      omega⟩

/-- **C108** each value returned for luminance metrics is the attribute of that name of the metric set of all pixels,
with the position index of Guth, corrected solid angles, a task of 30 degrees and the options of the caller -/
theorem C108_values {lr : Option (Fin 3 → ℝ)} {v : View} {w : Option (Fin 3 → ℝ)} {vals : List ℝ}
    (hv : viewOf im = .ok v) (hw : weights fl im false lr = .ok w) (hm : ∀ m ∈ ms, m ∈ msAll)
    (h : imgMetric fl S fuel ms lr none a im = .ok (some vals)) :
    ∃ s, build v { scale := a.scale, guth := true, omAsArea := false, thr := a.threshold, tradius := 30, lowlight := a.lowlight }
        ((List.finRange (im.res * im.res)).map fun q : Fin (im.res * im.res) =>
          ⟨v.pixel2ray im.res (pixelCentre (q / im.res) (q % im.res)),
            v.pixel2omega im.res (pixelCentre (q / im.res) (q % im.res)), greyOf im w (q / im.res) (q % im.res)⟩) fuel = some s ∧
      vals.length = ms.length ∧ ∀ (i : ℕ) (n : String), ms[i]? = some n → ∃ x, msAttr s n = .ok x ∧ vals[i]? = some x := by
  rw [img_grey hv hw hm rfl] at h
  rcases grey_ok v a hm fuel ((List.finRange _).map (vol v im.res fun i j (_ : Fin 1) => greyOf im w i j)) with
    ⟨h1, -⟩ | ⟨s, vals', h1, h2, h3, h4⟩
  · rw [h1] at h; simp at h
  · rw [h2] at h
    obtain rfl := Option.some.inj (Except.ok.inj h)
    refine ⟨s, ?_, h3, h4⟩
    rw [← h1, List.map_map]
    rfl

/-- **C108** the same for colour metrics: three values for `irradiance` -/
theorem C108_color {lr : Option (Fin 3 → ℝ)} {v : View} {w : Fin 3 → ℝ} {vals : List ℝ}
    (hv : viewOf im = .ok v) (hw : weights fl im true lr = .ok (some w)) (hc : ∃ m ∈ ms, m ∉ msAll)
    (h : imgMetric fl S fuel ms lr none a im = .ok (some vals)) :
    ∃ c parts, buildColor v
        { scale := a.scale, guth := true, omAsArea := false, thr := a.threshold, tradius := 30, lowlight := a.lowlight } w
        ((List.finRange (im.res * im.res)).map fun q : Fin (im.res * im.res) =>
          ⟨v.pixel2ray im.res (pixelCentre (q / im.res) (q % im.res)),
            v.pixel2omega im.res (pixelCentre (q / im.res) (q % im.res)), im.rgb (q / im.res) (q % im.res)⟩) fuel = some c ∧
      vals = List.flatten parts ∧ parts.length = ms.length ∧
      ∀ (i : ℕ) (n : String), ms[i]? = some n → ∃ x, parts[i]? = some x ∧ colAttr c n = .ok x := by
  have hm := (img_width h).1
  rw [img_color hv hw hc rfl] at h
  rcases color_ok v a hm fuel w ((List.finRange _).map (vol v im.res im.rgb)) with ⟨h1, -⟩ | ⟨c, parts, h1, h2, h3, h4, -⟩
  · rw [h1] at h; simp at h
  · rw [h2] at h
    obtain rfl := Option.some.inj (Except.ok.inj h)
    refine ⟨c, parts, ?_, rfl, h3, h4⟩
    rw [← h1, List.map_map]
    rfl

/-- **C108** peak normalisation changes nothing when no pixel is above the threshold of the caller -/
theorem C108_peak_off {lr : Option (Fin 3 → ℝ)} {v : View} {w : Option (Fin 3 → ℝ)} (p : PeakArgs)
    (hv : viewOf im = .ok v) (hS : ∀ n, SortOk (S n)) :
    (weights fl im false lr = .ok w → (∀ m ∈ ms, m ∈ msAll) →
      (∀ i j, i < im.res → j < im.res → greyOf im w i j ≤ p.peakt / a.scale) →
      imgMetric fl S fuel ms lr (some p) a im = imgMetric fl S fuel ms lr none a im) ∧
    (weights fl im true lr = .ok w → (∃ m ∈ ms, m ∉ msAll) →
      (∀ i j, i < im.res → j < im.res →
        im.rgb i j 0 * 0.265 + im.rgb i j 1 * 0.670 + im.rgb i j 2 * 0.065 ≤ p.peakt / a.scale) →
      imgMetric fl S fuel ms lr (some p) a im = imgMetric fl S fuel ms lr none a im) := by
  have key : ∀ {k n : ℕ} (T : Sorter n), SortOk T → ∀ (q : Par k) (x : Fin n → Px k),
      (∀ i, Peak.lum q.w (x i) ≤ q.peakt / q.scale) → normalizePeak T q false x = .ok ((List.finRange n).map x) := by
    intro k n T hT q x hx
    have h0 : T (fun i => Peak.lum q.w (x i)) (above (fun i => Peak.lum q.w (x i)) (q.peakt / q.scale) (List.finRange n)) = [] := by
      have : above (fun i => Peak.lum q.w (x i)) (q.peakt / q.scale) (List.finRange n) = [] := by
        unfold above
        rw [List.filter_eq_nil_iff]
        intro i _
        simpa using hx i
      rw [this]
      exact List.perm_nil.mp (hT _ _).1
    unfold normalizePeak findPeak
    rw [h0]
  have hq : ∀ q : Fin (im.res * im.res), (q : ℕ) / im.res < im.res ∧ (q : ℕ) % im.res < im.res := fun q => by
    have hlt := q.isLt
    have hr : 0 < im.res := by
      by_contra h
      have e : im.res * im.res = 0 := by have : im.res = 0 := by omega
                                         simp [this]
      omega
    exact ⟨Nat.div_lt_of_lt_mul hlt, Nat.mod_lt _ hr⟩
  refine ⟨fun hw hm hb => ?_, fun hw hc hb => ?_⟩
  · rw [img_grey (pk := none) hv hw hm rfl]
    refine img_grey hv hw hm (key _ (hS _) _ _ fun q => ?_)
    unfold Peak.lum
    rw [Fin.sum_univ_one]
    show greyOf im w _ _ * 1 ≤ _
    rw [mul_one]
    exact hb _ _ (hq q).1 (hq q).2
  · rw [img_color (pk := none) hv hw hc rfl]
    refine img_color hv hw hc (key _ (hS _) _ _ fun q => ?_)
    unfold Peak.lum
    rw [Fin.sum_univ_three]
    exact hb _ _ (hq q).1 (hq q).2

/-- the hypotheses of `C64_ends` and `C108_values` are met by the small image -/
example (fl : Str → Option ℝ) (S : ∀ n, Sorter n) : ∃ fuel vals,
    imgMetric fl S fuel ["illum", "dgp"] none none ⟨179, 2000, false⟩ bare = .ok (some vals) ∧ vals.length = 2 :=
  (C64_ends (d := ⟨0, 1, 0⟩) (va := 180) (by norm_num) le_rfl bare_view).1 (bare_unusable fl) (by decide +kernel)

end Verif.Cmd
