import Verif.Props.Metric

/-! C65, C66 and C69 for constructed metric sets: ray selection and the solid angle correction. -/

namespace Verif.Metric
open Verif.Geo Verif.Map Verif.Pos Real

/-! selection of the rays in view -/

theorem map_raw (l : List Ray) : (List.range l.length).map (raw l) = l := by
  apply List.ext_getElem?
  intro i
  rw [List.getElem?_map]
  by_cases h : i < l.length
  · simp [h, raw, List.getD]
  · simp [h]

/-- a ray with its direction normalised -/
noncomputable def normR (r : Ray) : Ray := ⟨Geo.norm r.v, r.om, r.lum⟩

open Classical in
/-- the rays of the primary view, or all rays of a 360 degree view -/
noncomputable def vis (m : View) (r : Ray) : Bool := m.two || decide (m.inView 0 r.v)

/-- no bright ray just outside the view edge (always so when all rays are in view, `plain_of_inView`) -/
def Plain (m : View) (rays : List Ray) : Prop := m.two = true ∨ strays m rays = []

theorem raw_mem {l : List Ray} {i : ℕ} (h : i < l.length) : raw l i ∈ l := by
  unfold raw; simp [List.getD, h]

/-- the constructor is documented for "all rays in view": then nothing is treated as a stray -/
theorem plain_of_inView (m : View) (rays : List Ray) (h : ∀ r ∈ rays, m.inView 0 (Geo.norm r.v)) : Plain m rays := by
  right
  unfold strays
  rw [List.filter_eq_nil_iff]
  intro i hi
  simp only [decide_eq_true_eq]
  rintro ⟨-, h2, -, -⟩
  exact h2 (h _ (raw_mem (by simpa using hi)))

open Classical in
theorem viewRays_plain (m : View) (rays : List Ray) (h : Plain m rays) :
    viewRays m rays = (rays.map normR).filter (vis m) := by
  have hr : rays.map normR = (List.range rays.length).map fun i => normR (raw rays i) := by
    conv_lhs => rw [← map_raw rays]
    rw [List.map_map]; rfl
  rw [hr, List.filter_map]
  unfold viewRays kept
  cases ht : m.two with
  | true =>
    have : (List.range rays.length).filter (vis m ∘ fun i => normR (raw rays i)) = List.range rays.length := by
      rw [List.filter_eq_self]; intro i _; simp [vis, ht]
    rw [this]
    simp only [if_true]; rfl
  | false =>
    have hs : strays m rays = [] := h.resolve_left (by simp [ht])
    have hsel : select m rays = sel0 m rays := by unfold select; rw [hs]; rfl
    simp only [Bool.false_eq_true, if_false, hsel]
    have : (fun i => decide ((sel0 m rays).mask i)) = (vis m ∘ fun i => normR (raw rays i)) := by
      funext i
      simp only [vis, ht, sel0, normR, nv, Function.comp, Bool.false_or]
      congr
    rw [this]
    rfl

/-! the setter of `omega` does not look at luminances -/

/-- array entries described by functions -/
def mkRay {α : Type} (v : α → V3) (om lum : α → ℝ) (x : α) : Ray := ⟨v x, om x, lum x⟩

theorem omSum_mk {α : Type} (L : List α) (v : α → V3) (om lum : α → ℝ) :
    omSum (L.map (mkRay v om lum)) = (L.map om).sum := by
  unfold omSum; rw [List.map_map]; rfl

theorem edgeTotal_mk {α : Type} (m : View) (k : ℕ) (L : List α) (v : α → V3) (om lum lum' : α → ℝ) :
    edgeTotal m k (L.map (mkRay v om lum)) = edgeTotal m k (L.map (mkRay v om lum')) := by
  unfold edgeTotal
  rw [List.filter_map, List.filter_map, omSum_mk, omSum_mk]; rfl

theorem adjust_mk {α : Type} (m : View) (k : ℕ) (L : List α) (v : α → V3) (om lum lum' : α → ℝ) :
    adjust m k (L.map (mkRay v om lum)) = adjust m k (L.map (mkRay v om lum')) := by
  unfold adjust excess
  rw [edgeTotal_mk m k L v om lum lum', omSum_mk, omSum_mk]

theorem widen_mk {α : Type} (m : View) (L : List α) (v : α → V3) (om lum lum' : α → ℝ) (fuel k : ℕ) :
    widen m (L.map (mkRay v om lum)) fuel k = widen m (L.map (mkRay v om lum')) fuel k := by
  induction fuel generalizing k with
  | zero => rfl
  | succ f ih =>
    unfold widen
    rw [adjust_mk m k L v om lum lum', ih]

theorem applyAdjust_mk {α : Type} (m : View) (k : ℕ) (L : List α) (v : α → V3) (om lum : α → ℝ) :
    applyAdjust m k (L.map (mkRay v om lum)) = L.map (mkRay v (fun x =>
      if onEdge m k ⟨v x, om x, 0⟩ then om x * adjust m k (L.map (mkRay v om fun _ => 0)) else om x) lum) := by
  unfold applyAdjust
  rw [List.map_map]
  apply List.map_congr_left
  intro x _
  simp only [Function.comp, mkRay]
  rw [show adjust m k (L.map (mkRay v om lum)) = adjust m k (L.map (mkRay v om fun _ => 0)) from
    adjust_mk m k L v om _ _]
  rfl

/-- the corrected solid angles, the view area and whether the loop ends do not depend on the luminances -/
theorem setOmega_mk {α : Type} (m : View) (c : Bool) (L : List α) (v : α → V3) (om : α → ℝ) (fuel : ℕ) :
    (∀ lum, setOmega m c (L.map (mkRay v om lum)) fuel = none) ∨
    ∃ (om' : α → ℝ) (A : ℝ), ∀ lum,
      setOmega m c (L.map (mkRay v om lum)) fuel = some (L.map (mkRay v om' lum), A) := by
  unfold setOmega
  simp only [List.length_map]
  split_ifs with h
  · cases hw : widen m (L.map (mkRay v om fun _ => 0)) fuel 0 with
    | none =>
      left; intro lum
      rw [widen_mk m L v om lum (fun _ => 0), hw]; rfl
    | some k =>
      right
      refine ⟨fun x => if onEdge m k ⟨v x, om x, 0⟩ then om x * adjust m k (L.map (mkRay v om fun _ => 0)) else om x,
        m.area, fun lum => ?_⟩
      rw [widen_mk m L v om lum (fun _ => 0), hw, Option.map_some, applyAdjust_mk]
  · right
    exact ⟨om, (L.map om).sum, fun lum => by rw [omSum_mk]⟩

/-- construction from a fixed list of directions and solid angles with varying luminances -/
theorem build_mk {α : Type} (m : View) (o : Opts) (L : List α) (v : α → V3) (om : α → ℝ) (fuel : ℕ) :
    (∀ lum, Plain m (L.map (mkRay v om lum)) → build m o (L.map (mkRay v om lum)) fuel = none) ∨
    ∃ (L' : List α) (v' : α → V3) (om' : α → ℝ) (A : ℝ), ∀ lum, Plain m (L.map (mkRay v om lum)) →
      build m o (L.map (mkRay v om lum)) fuel = some ⟨m, L'.map (mkRay v' om' lum), A, o⟩ := by
  have hv : ∀ lum, Plain m (L.map (mkRay v om lum)) → viewRays m (L.map (mkRay v om lum))
      = (L.filter fun x => vis m ⟨Geo.norm (v x), om x, 0⟩).map (mkRay (fun x => Geo.norm (v x)) om lum) := by
    intro lum hp
    rw [viewRays_plain m _ hp, List.map_map, List.filter_map]
    rfl
  rcases setOmega_mk m (!o.omAsArea) (L.filter fun x => vis m ⟨Geo.norm (v x), om x, 0⟩)
    (fun x => Geo.norm (v x)) om fuel with h | ⟨om', A, h⟩
  · left; intro lum hp
    unfold build; rw [hv lum hp, h]; rfl
  · right
    refine ⟨L.filter fun x => vis m ⟨Geo.norm (v x), om x, 0⟩, fun x => Geo.norm (v x), om', A, fun lum hp => ?_⟩
    unfold build
    rw [hv lum hp, h]; rfl

/-! C65 -/

theorem sum_linear {α : Type} (L : List α) (f l1 l2 : α → ℝ) (c : ℝ) :
    (L.map fun x => f x * (c * l1 x + l2 x)).sum = c * (L.map fun x => f x * l1 x).sum
      + (L.map fun x => f x * l2 x).sum := by
  induction L with
  | nil => simp
  | cons x L ih => simp only [List.map_cons, List.sum_cons, ih]; ring

/-- The additivity part of C65 for every ray set. -/
def C65_statement : Prop :=
  ∀ (m : View) (o : Opts) (L : List (V3 × ℝ)) (l1 l2 : ℕ → ℝ) (fuel : ℕ) (s s1 s2 : MS),
    build m o (L.zipIdx.map (mkRay (fun x => x.1.1) (fun x => x.1.2) fun x => l1 x.2 + l2 x.2)) fuel = some s →
    build m o (L.zipIdx.map (mkRay (fun x => x.1.1) (fun x => x.1.2) fun x => l1 x.2)) fuel = some s1 →
    build m o (L.zipIdx.map (mkRay (fun x => x.1.1) (fun x => x.1.2) fun x => l2 x.2)) fuel = some s2 →
    s.illum = s1.illum + s2.illum ∧ s.avglum = s1.avglum + s2.avglum

/-- **C65** `illum` and `avglum` of a constructed metric set are linear in the luminances, for every view and ray
set without stray rays. Missing for every ray set: bright rays just outside the edge, whose treatment depends on
their luminance relative to the average (`C65_refuted`). -/
theorem C65_linear_partial {α : Type} (m : View) (o : Opts) (L : List α) (v : α → V3) (om l1 l2 : α → ℝ) (c : ℝ)
    (fuel : ℕ) (s s1 s2 : MS)
    (h : build m o (L.map (mkRay v om fun x => c * l1 x + l2 x)) fuel = some s)
    (h1 : build m o (L.map (mkRay v om l1)) fuel = some s1)
    (h2 : build m o (L.map (mkRay v om l2)) fuel = some s2)
    (p : Plain m (L.map (mkRay v om fun x => c * l1 x + l2 x)))
    (p1 : Plain m (L.map (mkRay v om l1))) (p2 : Plain m (L.map (mkRay v om l2))) :
    s.illum = c * s1.illum + s2.illum ∧ s.avglum = c * s1.avglum + s2.avglum := by
  rcases build_mk m o L v om fuel with hn | ⟨L', v', om', A, hb⟩
  · rw [hn _ p] at h; exact absurd h (by simp)
  · rw [hb _ p] at h
    rw [hb _ p1] at h1
    rw [hb _ p2] at h2
    simp only [Option.some.injEq] at h h1 h2
    subst h h1 h2
    constructor
    · unfold MS.illum sumBy
      simp only [List.map_map]
      have e : ∀ lum : α → ℝ, ((fun r : Ray => Geo.ctheta m.dxyz r.v * r.lum * r.om) ∘ mkRay v' om' lum)
          = fun x => (Geo.ctheta m.dxyz (v' x) * om' x) * lum x := by
        intro lum; funext x; simp only [Function.comp, mkRay]; ring
      show (List.map ((fun r : Ray => Geo.ctheta m.dxyz r.v * r.lum * r.om) ∘ mkRay v' om' _) L').sum * _
        = c * ((List.map ((fun r : Ray => Geo.ctheta m.dxyz r.v * r.lum * r.om) ∘ mkRay v' om' l1) L').sum * _)
          + (List.map ((fun r : Ray => Geo.ctheta m.dxyz r.v * r.lum * r.om) ∘ mkRay v' om' l2) L').sum * _
      rw [e, e, e, sum_linear]; ring
    · unfold MS.avglum sumBy
      simp only [List.map_map]
      have e : ∀ lum : α → ℝ, ((fun r : Ray => r.lum * r.om) ∘ mkRay v' om' lum) = fun x => om' x * lum x := by
        intro lum; funext x; simp only [Function.comp, mkRay]; ring
      rw [e, e, e, sum_linear]; ring

/-- **C65** `illum` and `avglum` are proportional to `scale`, for every ray set -/
theorem C65_scale (m : View) (o : Opts) (rays : List Ray) (fuel : ℕ) (k : ℝ) (s s' : MS)
    (h : build m o rays fuel = some s) (h' : build m { o with scale := k * o.scale } rays fuel = some s') :
    s'.illum = k * s.illum ∧ s'.avglum = k * s.avglum := by
  unfold build at h h'
  simp only [Option.map_eq_some_iff] at h h'
  obtain ⟨r, hr, rfl⟩ := h
  obtain ⟨r', hr', rfl⟩ := h'
  rw [hr] at hr'
  cases hr'
  constructor
  · unfold MS.illum; show sumBy _ _ * (k * o.scale) = k * (sumBy _ _ * o.scale)
    have : (MS.ct ⟨m, r.1, r.2, { o with scale := k * o.scale }⟩) = MS.ct ⟨m, r.1, r.2, o⟩ := rfl
    rw [this]; ring
  · unfold MS.avglum; simp only; ring

/-- **C65** nonnegative luminances in front of the viewer give nonnegative `illum`; `avglum` needs no direction -/
theorem C65_nonneg (s : MS) (hs : 0 ≤ s.o.scale) (h : ∀ r ∈ s.rays, 0 ≤ r.lum ∧ 0 ≤ r.om) (hA : 0 ≤ s.area) :
    0 ≤ s.avglum ∧ ((∀ r ∈ s.rays, 0 ≤ s.ct r) → 0 ≤ s.illum) := by
  constructor
  · unfold MS.avglum
    have : 0 ≤ sumBy (fun r => r.lum * r.om) s.rays := sumBy_nonneg fun r hr => mul_nonneg (h r hr).1 (h r hr).2
    positivity
  · intro hc
    unfold MS.illum
    have : 0 ≤ sumBy (fun r => s.ct r * r.lum * r.om) s.rays := by
      apply sumBy_nonneg
      intro r hr
      have := hc r hr
      obtain ⟨a, b⟩ := h r hr
      positivity
    positivity

/-! scaling the luminances, with strays -/

theorem raw_scale (c : ℝ) (rays : List Ray) (i : ℕ) :
    raw (scaleLum c rays) i = ⟨(raw rays i).v, (raw rays i).om, c * (raw rays i).lum⟩ := by
  unfold raw scaleLum
  by_cases h : i < rays.length <;> simp [List.getD, h]

theorem nv_scale (c : ℝ) (rays : List Ray) : nv (scaleLum c rays) = nv rays := by
  funext i; unfold nv; rw [raw_scale]

theorem avgLum_scale (c : ℝ) (rays : List Ray) : avgLum (scaleLum c rays) = c * avgLum rays := by
  unfold avgLum avg
  have : ((scaleLum c rays).map Ray.lum).sum = c * (rays.map Ray.lum).sum := by
    have := sumBy_scale Ray.lum Ray.lum c c (fun r => rfl) rays
    exact this
  rw [this]
  simp [scaleLum]; ring

theorem isStray_scale (m : View) {c : ℝ} (hc : 0 < c) (rays : List Ray) (i : ℕ) :
    IsStray m (scaleLum c rays) i ↔ IsStray m rays i := by
  unfold IsStray
  rw [avgLum_scale, nv_scale, raw_scale, mul_div_mul_left _ _ hc.ne']
  have : c * avgLum rays > 0 ↔ avgLum rays > 0 := mul_pos_iff_of_pos_left hc
  rw [this]

theorem strays_scale (m : View) {c : ℝ} (hc : 0 < c) (rays : List Ray) :
    strays m (scaleLum c rays) = strays m rays := by
  unfold strays
  rw [show (scaleLum c rays).length = rays.length by simp [scaleLum]]
  apply List.filter_congr
  intro i _
  exact decide_eq_decide.mpr (isStray_scale m hc rays i)

theorem select_scale (m : View) {c : ℝ} (hc : 0 < c) (rays : List Ray) :
    select m (scaleLum c rays) = select m rays := by
  unfold select
  rw [strays_scale m hc]
  have h0 : sel0 m (scaleLum c rays) = sel0 m rays := by
    unfold sel0; rw [nv_scale]; simp only [raw_scale]
  have h1 : strayStep m (scaleLum c rays) = strayStep m rays := by
    funext st s
    unfold strayStep Overlaps clipOm clipV
    rw [strays_scale m hc, nv_scale, raw_scale]
  rw [h0, h1]

theorem viewRays_scale (m : View) {c : ℝ} (hc : 0 < c) (rays : List Ray) :
    viewRays m (scaleLum c rays) = scaleLum c (viewRays m rays) := by
  unfold viewRays kept
  rw [select_scale m hc, nv_scale]
  simp only [raw_scale, show (scaleLum c rays).length = rays.length by simp [scaleLum]]
  unfold scaleLum
  rw [List.map_map]
  apply List.map_congr_left
  intro i _
  simp only [Function.comp]
  split_ifs <;> rfl

theorem setOmega_scale (m : View) (b : Bool) (c : ℝ) (l : List Ray) (fuel : ℕ) :
    setOmega m b (scaleLum c l) fuel = (setOmega m b l fuel).map fun r => (scaleLum c r.1, r.2) := by
  have hl : l = l.map (mkRay Ray.v Ray.om Ray.lum) := by
    conv_lhs => rw [← List.map_id l]
    rfl
  have hs : ∀ (om : Ray → ℝ), scaleLum c (l.map (mkRay Ray.v om Ray.lum))
      = l.map (mkRay Ray.v om fun r => c * r.lum) := by
    intro om; unfold scaleLum; rw [List.map_map]; rfl
  have e1 : scaleLum c l = l.map (mkRay Ray.v Ray.om fun r => c * r.lum) := by rw [← hs, ← hl]
  rcases setOmega_mk m b l Ray.v Ray.om fuel with h | ⟨om', A, h⟩
  · have h1 := h Ray.lum
    rw [← hl] at h1
    rw [e1, h, h1]; rfl
  · have h1 := h Ray.lum
    rw [← hl] at h1
    rw [e1, h, h1, Option.map_some, hs]

/-- scaling the luminances of the input by a positive factor scales those of the constructed set and nothing else -/
theorem build_scale (m : View) (o : Opts) (rays : List Ray) (fuel : ℕ) {c : ℝ} (hc : 0 < c) :
    build m o (scaleLum c rays) fuel = (build m o rays fuel).map fun s => s.scaled c := by
  unfold build
  rw [viewRays_scale m hc, setOmega_scale, Option.map_map, Option.map_map]
  rfl

/-- **C65** `illum` and `avglum` are homogeneous in the luminances for every ray set, strays included -/
theorem C65_homogeneous (m : View) (o : Opts) (rays : List Ray) (fuel : ℕ) (c : ℝ) (hc : 0 < c) (s : MS)
    (h : build m o rays fuel = some s) :
    ∃ s', build m o (scaleLum c rays) fuel = some s' ∧ s'.illum = c * s.illum ∧ s'.avglum = c * s.avglum := by
  refine ⟨s.scaled c, by rw [build_scale m o rays fuel hc, h]; rfl, ?_, ?_⟩
  · unfold MS.illum
    show sumBy (fun r => s.ct r * r.lum * r.om) (scaleLum c s.rays) * s.o.scale = _
    rw [sumBy_scale _ (fun r => s.ct r * r.lum * r.om) c c (fun r => by show s.ct r * (c * r.lum) * r.om = _; ring)]
    ring
  · unfold MS.avglum
    show sumBy (fun r => r.lum * r.om) (scaleLum c s.rays) * s.o.scale / s.area = _
    rw [sumBy_scale _ (fun r => r.lum * r.om) c c (fun r => by ring)]; ring

/-- **C66** contrast of a constructed set does not change when the input luminances are scaled, strays included -/
theorem C66_built_scale (m : View) (o : Opts) (rays : List Ray) (fuel : ℕ) (c : ℝ) (hc : 0 < c) (s : MS)
    (h : build m o rays fuel = some s) :
    ∃ s', build m o (scaleLum c rays) fuel = some s' ∧ s'.gcr = s.gcr ∧ s'.pwgcr = s.pwgcr :=
  ⟨s.scaled c, by rw [build_scale m o rays fuel hc, h]; rfl, C66_scale_invariant s c hc⟩

/-! order of the rays -/

theorem edgeTotal_perm (m : View) (k : ℕ) {a b : List Ray} (h : a.Perm b) : edgeTotal m k a = edgeTotal m k b :=
  sumBy_perm Ray.om (h.filter _)

theorem adjust_perm (m : View) (k : ℕ) {a b : List Ray} (h : a.Perm b) : adjust m k a = adjust m k b := by
  unfold adjust excess
  rw [edgeTotal_perm m k h, omSum_eq, omSum_eq, sumBy_perm Ray.om h]

theorem widen_perm (m : View) {a b : List Ray} (h : a.Perm b) (fuel k : ℕ) : widen m a fuel k = widen m b fuel k := by
  induction fuel generalizing k with
  | zero => rfl
  | succ f ih => unfold widen; rw [adjust_perm m k h, ih]

theorem setOmega_perm (m : View) (c : Bool) {a b : List Ray} (h : a.Perm b) (fuel : ℕ) {r : List Ray × ℝ}
    (ha : setOmega m c a fuel = some r) : ∃ r', setOmega m c b fuel = some r' ∧ r.1.Perm r'.1 ∧ r.2 = r'.2 := by
  unfold setOmega at *
  rw [h.length_eq] at ha
  split_ifs at * with hc
  · rw [widen_perm m h] at ha
    simp only [Option.map_eq_some_iff] at ha
    obtain ⟨k, hk, rfl⟩ := ha
    refine ⟨(applyAdjust m k b, m.area), by rw [hk]; rfl, ?_, rfl⟩
    unfold applyAdjust
    rw [adjust_perm m k h]
    exact h.map _
  · simp only [Option.some.injEq] at ha
    subst ha
    exact ⟨_, rfl, h, by rw [omSum_eq, omSum_eq]; exact sumBy_perm _ h⟩

theorem foldl_max_spec (a : ℝ) (l : List ℝ) : (l.foldl max a = a ∨ l.foldl max a ∈ l) ∧ a ≤ l.foldl max a ∧
    ∀ x ∈ l, x ≤ l.foldl max a := by
  induction l generalizing a with
  | nil => simp
  | cons b l ih =>
    obtain ⟨h1, h2, h3⟩ := ih (max a b)
    simp only [List.foldl_cons]
    refine ⟨?_, (le_max_left _ _).trans h2, ?_⟩
    · rcases h1 with h1 | h1
      · rw [h1]
        rcases max_choice a b with h | h
        · left; exact h
        · right; rw [h]; exact List.mem_cons_self
      · right; exact List.mem_cons_of_mem _ h1
    · intro x hx
      rcases List.mem_cons.mp hx with rfl | hx
      · exact (le_max_right _ _).trans h2
      · exact h3 x hx

theorem max_perm {a b : List ℝ} (h : a.Perm b) : a.foldl max a.headI = b.foldl max b.headI := by
  cases a with
  | nil => rw [List.nil_perm] at h; rw [h]
  | cons x a =>
    cases b with
    | nil => exact absurd h.symm (by simp)
    | cons y b =>
      simp only [List.headI]
      obtain ⟨h1, -, h3⟩ := foldl_max_spec x (x :: a)
      obtain ⟨g1, -, g3⟩ := foldl_max_spec y (y :: b)
      have m1 : (x :: a).foldl max x ∈ x :: a := by
        rcases h1 with h1 | h1
        · rw [h1]; exact List.mem_cons_self
        · exact h1
      have m2 : (y :: b).foldl max y ∈ y :: b := by
        rcases g1 with g1 | g1
        · rw [g1]; exact List.mem_cons_self
        · exact g1
      exact le_antisymm (g3 _ (h.mem_iff.mp m1)) (h3 _ (h.mem_iff.mpr m2))

/-- two metric sets holding the same rays in different order have the same value of every metric -/
theorem attr_perm (s s' : MS) (hm : s'.m = s.m) (ho : s'.o = s.o) (hA : s'.area = s.area) (hr : s.rays.Perm s'.rays)
    (n : String) : msAttr s' n = msAttr s n := by
  have hct : s'.ct = s.ct := by funext r; unfold MS.ct; rw [hm]
  have hp : s'.pos = s.pos := by funext r; unfold MS.pos; rw [hm, ho]
  have hpw : s'.pw = s.pw := by funext r; unfold MS.pw; rw [hp]
  have ha : s'.pwArea = s.pwArea := by unfold MS.pwArea; rw [hpw, sumBy_perm _ hr]
  have e1 : s'.illum = s.illum := by unfold MS.illum; rw [hct, ho, sumBy_perm _ hr]
  have e2 : s'.avglum = s.avglum := by unfold MS.avglum; rw [hA, ho, sumBy_perm _ hr]
  have e3 : s'.pwavglum = s.pwavglum := by unfold MS.pwavglum; rw [ha, ho, hpw, sumBy_perm _ hr]
  have e4 : s'.avgraylum = s.avgraylum := by
    unfold MS.avgraylum avg
    rw [ho, (hr.map Ray.lum).sum_eq, (hr.map Ray.lum).length_eq]
  have e5 : s'.gcr = s.gcr := by unfold MS.gcr; rw [e2, hA, ho, sumBy_perm _ hr]
  have e6 : s'.pwgcr = s.pwgcr := by unfold MS.pwgcr; rw [e3, ha, ho, hpw, sumBy_perm _ hr]
  have e7 : s'.density = s.density := by unfold MS.density; rw [hA, hr.length_eq]
  have e8 : s'.tasklum = s.tasklum := by
    unfold MS.tasklum
    rw [hm, ho, sumBy_perm _ (hr.filter _), omSum_eq, omSum_eq, sumBy_perm _ (hr.filter _)]
  have e9 : s'.threshold = s.threshold := by unfold MS.threshold; rw [ho, e8]
  have es : s'.src = s.src := by funext r; unfold MS.src; rw [e9, ho]
  have h1 : s.sources.Perm s'.sources := by unfold MS.sources; rw [es]; exact hr.filter _
  have h2 : s.background.Perm s'.background := by unfold MS.background; rw [es]; exact hr.filter _
  have e10 : s'.pwsl2 = s.pwsl2 := by unfold MS.pwsl2; rw [ho, hp, sumBy_perm _ h1]
  have e11 : s'.srcillum = s.srcillum := by unfold MS.srcillum; rw [hct, ho, sumBy_perm _ h1]
  have e12 : s'.srcarea = s.srcarea := by unfold MS.srcarea; rw [omSum_eq, omSum_eq, sumBy_perm _ h1]
  have e13 : s'.maxlum = s.maxlum := by
    unfold MS.maxlum; rw [ho, hr.length_eq, max_perm (hr.map Ray.lum)]
  have e14 : s'.backlum = s.backlum := by unfold MS.backlum; rw [e1, e11]
  have e15 : s'.backlumTrue = s.backlumTrue := by
    unfold MS.backlumTrue; rw [ho, omSum_eq, omSum_eq, sumBy_perm _ h2, sumBy_perm _ h2]
  have e16 : s'.logGc = s.logGc := by unfold MS.logGc; rw [e10, e1]
  have e17 : s'.dgpT1 = s.dgpT1 := by unfold MS.dgpT1; rw [e1]
  have e18 : s'.dgpT2 = s.dgpT2 := by unfold MS.dgpT2; rw [e16]
  have e19 : s'.dgp = s.dgp := by unfold MS.dgp MS.ll; rw [e17, e18, e1, ho]
  have e20 : s'.ugr = s.ugr := by unfold MS.ugr; rw [e10, e14]
  have e21 : s'.ugp = s.ugp := by unfold MS.ugp; rw [e20]
  have e22 : s'.loggcr = s.loggcr := by unfold MS.loggcr; rw [e5]
  have e23 : s'.logpwgcr = s.logpwgcr := by unfold MS.logpwgcr; rw [e6]
  unfold msAttr baseAttr MS.maxlumBase
  rw [e1, e2, e3, e4, e5, e6, e7, e8, e9, e10, e11, e12, e13, e14, e15, e16, e17, e18, e19, e20, e21, e22, e23, hA,
    hr.length_eq]

/-- **C65** no metric depends on the order in which the rays are given, for every view and ray set without stray
rays (with two or more strays the solid angle of all of them is that of the last one, `C72_refuted`) -/
theorem C65_order_partial (m : View) (o : Opts) (rays rays' : List Ray) (h : rays.Perm rays') (fuel : ℕ) (s : MS)
    (hb : build m o rays fuel = some s) (p : Plain m rays) (p' : Plain m rays') :
    ∃ s', build m o rays' fuel = some s' ∧ ∀ n, msAttr s' n = msAttr s n := by
  have hv : (viewRays m rays).Perm (viewRays m rays') := by
    rw [viewRays_plain m _ p, viewRays_plain m _ p']
    exact (h.map _).filter _
  unfold build at *
  simp only [Option.map_eq_some_iff] at hb
  obtain ⟨r, hr, rfl⟩ := hb
  obtain ⟨r', hr', hp, hA⟩ := setOmega_perm m _ hv fuel hr
  refine ⟨_, by rw [hr']; rfl, ?_⟩
  exact attr_perm _ _ rfl rfl hA.symm hp

/-! C69 -/

theorem omSum_nonneg {l : List Ray} (h : ∀ r ∈ l, 0 ≤ r.om) : 0 ≤ omSum l := sumBy_nonneg h

/-- eventually every ray of positive solid angle counts as an edge ray -/
theorem eventually_edge (m : View) (l : List Ray) : ∃ K, ∀ k ≥ K, ∀ r ∈ l, 0 < r.om → onEdge m k r = true := by
  induction l with
  | nil => exact ⟨0, by simp⟩
  | cons r l ih =>
    obtain ⟨K, hK⟩ := ih
    by_cases h : 0 < r.om
    · have hs : 0 < √r.om := sqrt_pos.mpr h
      obtain ⟨n, hn⟩ := pow_unbounded_of_one_lt ((m.va * π / 360 + 1) / √r.om) (show (1 : ℝ) < 1.1 by norm_num)
      refine ⟨max K n, fun k hk q hq hpos => ?_⟩
      rcases List.mem_cons.mp hq with rfl | hq
      · unfold onEdge
        rw [decide_eq_true_eq]
        have h1 : (1.1 : ℝ) ^ n ≤ 1.1 ^ k := pow_le_pow_right₀ (by norm_num) ((le_max_right _ _).trans hk)
        have h2 : (m.va * π / 360 + 1) < √q.om * 1.1 ^ k := by
          rw [div_lt_iff₀ hs] at hn
          nlinarith
        have h3 : 0 ≤ m.radians q.v := arccos_nonneg _
        linarith
      · exact hK k ((le_max_left _ _).trans hk) q hq hpos
    · refine ⟨K, fun k hk q hq hpos => ?_⟩
      rcases List.mem_cons.mp hq with rfl | hq
      · exact absurd hpos h
      · exact hK k hk q hq hpos

theorem edge_all {m : View} {k : ℕ} {l : List Ray} (h0 : ∀ r ∈ l, 0 ≤ r.om)
    (h : ∀ r ∈ l, 0 < r.om → onEdge m k r = true) : edgeTotal m k l = omSum l := by
  unfold edgeTotal
  rw [omSum_eq, omSum_eq]
  have hs := sumBy_split Ray.om (onEdge m k) l
  have hz : sumBy Ray.om (l.filter fun r => !onEdge m k r) = 0 := by
    rw [sumBy_congr (g := fun _ => 0)]
    · unfold sumBy; simp
    · intro r hr
      obtain ⟨h1, h2⟩ := List.mem_filter.mp hr
      by_contra hne
      have := h r h1 (lt_of_le_of_ne (h0 r h1) (Ne.symm hne))
      rw [this] at h2; simp at h2
  linarith

theorem adjust_all {m : View} {k : ℕ} {l : List Ray} (h0 : ∀ r ∈ l, 0 ≤ r.om) (hA : 0 ≤ m.area)
    (h : ∀ r ∈ l, 0 < r.om → onEdge m k r = true) : 0 ≤ adjust m k l := by
  unfold adjust excess
  rw [edge_all h0 h]
  split_ifs with hp
  · rw [sub_div, div_self hp.ne']
    have : 0 ≤ m.area / omSum l := by positivity
    linarith
  · norm_num

theorem widen_stops {m : View} {l : List Ray} {K : ℕ} (hK : 0 ≤ adjust m K l) :
    ∀ (n k : ℕ), k + n = K → ∃ k', widen m l (n + 1) k = some k' ∧ k ≤ k' ∧ k' ≤ K := by
  intro n
  induction n with
  | zero =>
    intro k hk
    refine ⟨k, ?_, le_rfl, by omega⟩
    unfold widen
    rw [if_neg]
    rw [show k = K by omega]; exact not_lt.mpr hK
  | succ n ih =>
    intro k hk
    unfold widen
    split_ifs with h
    · obtain ⟨k', h1, h2, h3⟩ := ih (k + 1) (by omega)
      exact ⟨k', h1, by omega, h3⟩
    · exact ⟨k, rfl, le_rfl, by omega⟩

/-- **C69** the adjustment loop terminates, for every set of nonnegative solid angles and every view -/
theorem C69_terminates (m : View) (hA : 0 ≤ m.area) (l : List Ray) (h0 : ∀ r ∈ l, 0 ≤ r.om) (c : Bool) :
    ∃ fuel r, setOmega m c l fuel = some r := by
  obtain ⟨K, hK⟩ := eventually_edge m l
  obtain ⟨k', h1, -, -⟩ := widen_stops (adjust_all h0 hA (hK K le_rfl)) K 0 (by omega)
  refine ⟨K + 1, ?_⟩
  unfold setOmega
  split_ifs
  · exact ⟨_, by rw [h1]; rfl⟩
  · exact ⟨_, rfl⟩

/-- more passes never change an answer -/
theorem widen_fuel {m : View} {l : List Ray} {f k k' : ℕ} (h : widen m l f k = some k') : widen m l (f + 1) k = some k' := by
  induction f generalizing k with
  | zero => simp [widen] at h
  | succ f ih =>
    unfold widen at h ⊢
    split_ifs at h ⊢ with hc
    · exact ih h
    · exact h

theorem widen_adjust {m : View} {l : List Ray} {f k k' : ℕ} (h : widen m l f k = some k') : 0 ≤ adjust m k' l := by
  induction f generalizing k with
  | zero => simp [widen] at h
  | succ f ih =>
    unfold widen at h
    split_ifs at h with hc
    · exact ih h
    · simp only [Option.some.injEq] at h
      subst h; exact not_lt.mp hc

theorem omSum_apply (m : View) (k : ℕ) (l : List Ray) :
    omSum (applyAdjust m k l) = omSum l + (adjust m k l - 1) * edgeTotal m k l := by
  have gen : ∀ (q : List Ray) (a : ℝ),
      omSum (q.map fun r => (⟨r.v, if onEdge m k r then r.om * a else r.om, r.lum⟩ : Ray))
        = omSum q + (a - 1) * edgeTotal m k q := by
    intro q a
    unfold edgeTotal
    induction q with
    | nil => simp [omSum]
    | cons r q ih =>
      cases h : onEdge m k r <;> simp [omSum, h] at ih ⊢ <;> rw [ih] <;> ring
  exact gen l _

/-- **C69** what the correction does, for every set of nonnegative solid angles: only rays within
`sqrt(omega) * 1.1^k` of the nominal edge change, all by the same nonnegative factor, and when any of the solid
angle lies in such rays the corrected solid angles sum to the view area. Missing for the full claim: when no ray
is near the edge nothing is corrected (`C69_refuted`). -/
theorem C69_corrected_partial (m : View) (l : List Ray) (h0 : ∀ r ∈ l, 0 ≤ r.om) (hl : l.length > 100) (fuel : ℕ)
    (l' : List Ray) (A : ℝ) (h : setOmega m true l fuel = some (l', A)) :
    ∃ (k : ℕ) (a : ℝ), 0 ≤ a ∧ A = m.area ∧
      l' = l.map (fun r => if m.radians r.v > m.va * π / 360 - √r.om * 1.1 ^ k then ⟨r.v, r.om * a, r.lum⟩ else r) ∧
      (∀ r ∈ l', 0 ≤ r.om) ∧
      ((∃ r ∈ l, 0 < r.om ∧ m.radians r.v > m.va * π / 360 - √r.om * 1.1 ^ k) → omSum l' = m.area) := by
  unfold setOmega at h
  rw [if_pos (by simpa using hl)] at h
  simp only [Option.map_eq_some_iff, Prod.mk.injEq] at h
  obtain ⟨k, hk, rfl, rfl⟩ := h
  have ha := widen_adjust hk
  refine ⟨k, adjust m k l, ha, rfl, ?_, ?_, ?_⟩
  · unfold applyAdjust
    apply List.map_congr_left
    intro r _
    unfold onEdge
    simp only [decide_eq_true_eq]
    split_ifs <;> rfl
  · intro r hr
    unfold applyAdjust at hr
    obtain ⟨q, hq, rfl⟩ := List.mem_map.mp hr
    have := h0 q hq
    simp only
    split_ifs
    · positivity
    · exact this
  · rintro ⟨r, hr, hp, he⟩
    have hmem : r ∈ l.filter (onEdge m k) := List.mem_filter.mpr ⟨hr, by unfold onEdge; simpa using he⟩
    have het : 0 < edgeTotal m k l := by
      have hle : r.om ≤ ((l.filter (onEdge m k)).map Ray.om).sum :=
        List.single_le_sum (by
          intro x hx
          obtain ⟨q, hq, rfl⟩ := List.mem_map.mp hx
          exact h0 q (List.mem_filter.mp hq).1) _ (List.mem_map_of_mem hmem)
      exact hp.trans_le hle
    rw [omSum_apply]
    unfold adjust excess
    rw [if_pos het]
    field_simp
    ring

/-- **C69** without correction the solid angles are kept and the view area is their sum -/
theorem C69_uncorrected (m : View) (l : List Ray) (c : Bool) (hc : c = false ∨ l.length ≤ 100) (fuel : ℕ) :
    setOmega m c l fuel = some (l, omSum l) := by
  unfold setOmega
  rw [if_neg]
  rcases hc with h | h
  · simp [h]
  · simp only [Bool.and_eq_true, decide_eq_true_eq, not_and]; omega

/-- The summation part of C69 for every ray set. -/
def C69_statement : Prop :=
  ∀ (d : V3), d ≠ V3.zero → ∀ (va : ℝ), 0 < va → va ≤ 180 → ∀ (o : Opts) (rays : List Ray) (fuel : ℕ) (s : MS),
    o.omAsArea = false → (∀ r ∈ rays, 0 < r.om) → rays.length > 100 → build (View.new d va) o rays fuel = some s →
    omSum s.rays = s.area

/-- 101 equal rays along the view direction, each of 1/1000 sr -/
noncomputable def narrow (lum : ℝ) : List Ray := List.replicate 101 ⟨⟨0, 1, 0⟩, 1 / 1000, lum⟩

noncomputable def narrowOpts : Opts := ⟨179, true, false, 2000, 30, false⟩

theorem narrow_build (lum : ℝ) :
    build (View.new ⟨0, 1, 0⟩ 180) narrowOpts (narrow lum) 1
      = some ⟨View.new ⟨0, 1, 0⟩ 180, narrow lum, 2 * π, narrowOpts⟩ := by
  have hd : (⟨0, 1, 0⟩ : V3) ≠ V3.zero := by simp [V3.zero]
  have hu : (⟨0, 1, 0⟩ : V3).normSq = 1 := by norm_num [V3.normSq]
  have hdx : (View.new ⟨0, 1, 0⟩ 180).dxyz = ⟨0, 1, 0⟩ := by
    show norm1 _ = _
    rw [norm1_norm hd, norm_of_unit hu]
  have hrad : (View.new ⟨0, 1, 0⟩ 180).radians ⟨0, 1, 0⟩ = 0 := by
    unfold View.radians Geo.radians
    rw [hdx, ctheta_unit hu hu]
    norm_num [V3.dot]
  have hva : (View.new ⟨0, 1, 0⟩ 180).va = 180 := by show vangle 180 = 180; unfold vangle; norm_num
  have harea : (View.new ⟨0, 1, 0⟩ 180).area = 2 * π := by
    show 2 * π * (1 - cos (vangle 180 * π * vaspect 180 / 360)) = 2 * π
    unfold vangle vaspect
    rw [if_neg (by norm_num), if_neg (by norm_num), show (180 : ℝ) * π * 1 / 360 = π / 2 by ring, cos_pi_div_two]
    ring
  have hin : (View.new ⟨0, 1, 0⟩ 180).inView 0 ⟨0, 1, 0⟩ := by
    unfold View.inView
    rw [hrad]
    have := va_cf_pos (va := 180) (by norm_num) (by norm_num)
    have hcf : (View.new ⟨0, 1, 0⟩ 180).cf = chordFactor 180 := by
      show chordFactor (vangle 180) = _; unfold vangle; norm_num
    rw [hcf, hva]
    have hpi := pi_pos
    have h2 := this.2
    have h1 := cf_180
    rw [h1]
    simp
    positivity
  have hplain : Plain (View.new ⟨0, 1, 0⟩ 180) (narrow lum) := by
    apply plain_of_inView
    intro r hr
    rw [(List.mem_replicate.mp hr).2]
    simp only
    rw [norm_of_unit hu]; exact hin
  have hview : viewRays (View.new ⟨0, 1, 0⟩ 180) (narrow lum) = narrow lum := by
    rw [viewRays_plain _ _ hplain]
    unfold narrow
    rw [List.map_replicate]
    have : normR ⟨⟨0, 1, 0⟩, 1 / 1000, lum⟩ = ⟨⟨0, 1, 0⟩, 1 / 1000, lum⟩ := by
      unfold normR; simp only; rw [norm_of_unit hu]
    rw [this, List.filter_replicate, if_pos]
    unfold vis; simp [hin]
  have hedge : ∀ r ∈ narrow lum, onEdge (View.new ⟨0, 1, 0⟩ 180) 0 r = false := by
    intro r hr
    rw [(List.mem_replicate.mp hr).2]
    unfold onEdge
    rw [decide_eq_false_iff_not]
    simp only
    rw [hrad, hva]
    have h1 : √(1 / 1000 : ℝ) ≤ 1 := sqrt_le_one.mpr (by norm_num)
    have h2 := pi_gt_three
    norm_num at *
    linarith
  have hfil : (narrow lum).filter (onEdge (View.new ⟨0, 1, 0⟩ 180) 0) = [] := by
    rw [List.filter_eq_nil_iff]; intro r hr; simp [hedge r hr]
  have hadj : adjust (View.new ⟨0, 1, 0⟩ 180) 0 (narrow lum) = 1 := by
    unfold adjust edgeTotal; rw [hfil]; simp [omSum]
  unfold build
  rw [hview]
  unfold setOmega
  rw [if_pos (by simp [narrowOpts, narrow])]
  unfold widen
  rw [hadj, if_neg (by norm_num)]
  simp only [Option.map_some, Option.some.injEq, MS.mk.injEq, true_and, and_true]
  refine ⟨?_, harea⟩
  unfold applyAdjust
  rw [hadj]
  conv_rhs => rw [← List.map_id (narrow lum)]
  apply List.map_congr_left
  intro r hr
  simp [hedge r hr]

theorem narrow_sum (lum : ℝ) : omSum (narrow lum) = 101 / 1000 := by
  unfold omSum narrow; rw [List.map_replicate, List.sum_replicate]; norm_num

/-- **C69** as a whole is false: solid angles far from the edge are not corrected to the view area -/
theorem C69_refuted : ¬ C69_statement := by
  intro h
  have := h ⟨0, 1, 0⟩ (by simp [V3.zero]) 180 (by norm_num) le_rfl narrowOpts (narrow 1) 1 _ rfl
    (by intro r hr; rw [(List.mem_replicate.mp hr).2]; norm_num) (by simp [narrow]) (narrow_build 1)
  simp only [narrow_sum] at this
  linarith [pi_gt_three]

/-- The uniformity part of C66 for every constructed metric set. -/
def C66_statement : Prop :=
  ∀ (m : View) (o : Opts) (rays : List Ray) (fuel : ℕ) (s : MS) (c : ℝ), (∀ r ∈ rays, 0 < r.om) →
    (∀ r ∈ rays, r.lum = c) → build m o rays fuel = some s → s.gcr = 1

/-- **C66** as a whole is false: the same rays with uniform luminance have `gcr` 62 -/
theorem C66_refuted : ¬ C66_statement := by
  intro h
  have := h _ narrowOpts (narrow 1) 1 _ 1 (by intro r hr; rw [(List.mem_replicate.mp hr).2]; norm_num)
    (by intro r hr; rw [(List.mem_replicate.mp hr).2]) (narrow_build 1)
  unfold MS.gcr MS.avglum at this
  simp only at this
  have hu : ∀ r ∈ narrow 1, r.lum = 1 := by intro r hr; rw [(List.mem_replicate.mp hr).2]
  obtain ⟨a, b⟩ := uniform_sums Ray.om 1 (narrow 1) hu
  have hs : sumBy Ray.om (narrow 1) = 101 / 1000 := narrow_sum 1
  rw [a, b, hs] at this
  have hpi := pi_gt_three
  rw [if_pos (by unfold narrowOpts; simp only; positivity)] at this
  unfold narrowOpts at this
  simp only at this
  rw [ratio_eq (by positivity) (by norm_num) (by norm_num)] at this
  norm_num at this
  linarith

/-- **C66** for constructed sets: the contrast is at least 1, and exactly 1 for uniform luminance, whenever solid
angles are taken as the view area, or at most 100 rays are in view, or the correction reaches some ray. Missing:
corrected sets with no ray near the edge (`C66_refuted`). -/
theorem C66_built_partial (m : View) (o : Opts) (rays : List Ray) (fuel : ℕ) (s : MS)
    (h : build m o rays fuel = some s) (h0 : ∀ r ∈ viewRays m rays, 0 ≤ r.om)
    (hc : o.omAsArea = true ∨ (viewRays m rays).length ≤ 100 ∨
      ∃ r ∈ viewRays m rays, 0 < r.om ∧ m.radians r.v > m.va * π / 360 - √r.om) :
    1 ≤ s.gcr ∧ 0 ≤ s.loggcr ∧ ((∃ c, ∀ r ∈ s.rays, r.lum = c) → s.gcr = 1) := by
  have key : s.area = omSum s.rays ∧ ∀ r ∈ s.rays, 0 ≤ r.om := by
    unfold build at h
    simp only [Option.map_eq_some_iff] at h
    obtain ⟨⟨l', A⟩, hr, rfl⟩ := h
    simp only
    by_cases hu : (!o.omAsArea) = false ∨ (viewRays m rays).length ≤ 100
    · rw [C69_uncorrected m _ _ hu] at hr
      simp only [Option.some.injEq, Prod.mk.injEq] at hr
      rw [← hr.1, ← hr.2]
      exact ⟨rfl, h0⟩
    · push Not at hu
      have hoa : o.omAsArea = false := by simpa using hu.1
      obtain ⟨r, hmem, hp, he⟩ := (hc.resolve_left (by simp [hoa])).resolve_left (by omega)
      rw [hoa] at hr
      obtain ⟨k, a, -, rfl, -, hn, hs⟩ := C69_corrected_partial m _ h0 hu.2 fuel l' A hr
      refine ⟨(hs ⟨r, hmem, hp, ?_⟩).symm, hn⟩
      have : (1 : ℝ) ≤ 1.1 ^ k := one_le_pow₀ (by norm_num)
      nlinarith [sqrt_nonneg r.om]
  obtain ⟨a, b⟩ := C66_gcr_ge_one s key.1 key.2
  exact ⟨a, b, fun ⟨c, hcu⟩ => (C66_uniform s c hcu).1 key.1⟩

end Verif.Metric
