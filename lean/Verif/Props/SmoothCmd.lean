import Verif.Model.SmoothCmd
import Verif.Props.Smooth
import Mathlib.Probability.Distributions.Gaussian.Real
/-! # The `smooth` command: C134-C139 -/
namespace Verif.SmoothCmd
open Verif.Py Verif.Smooth MeasureTheory

/-! ## C134: densities -/

theorem gauss_eq (h x xi : ℝ) (hh : 0 < h) :
    gauss h (x - xi) = ProbabilityTheory.gaussianPDFReal xi (h ^ 2).toNNReal x := by
  unfold gauss ProbabilityTheory.gaussianPDFReal
  have hp := Real.pi_pos
  rw [Real.coe_toNNReal _ (by positivity)]
  rw [show 2 * Real.pi * h ^ 2 = h ^ 2 * (2 * Real.pi) by ring, Real.sqrt_mul (sq_nonneg h), Real.sqrt_sq hh.le, div_eq_inv_mul]
  congr 2
  field_simp

theorem gauss_pos (h d : ℝ) (hh : 0 < h) : 0 < gauss h d := by
  unfold gauss
  have := Real.pi_pos
  positivity

theorem gauss_integral (h xi : ℝ) (hh : 0 < h) : Integrable (fun x => gauss h (x - xi)) ∧ ∫ x, gauss h (x - xi) = 1 := by
  have e : (fun x => gauss h (x - xi)) = ProbabilityTheory.gaussianPDFReal xi (h ^ 2).toNNReal := by
    funext x; exact gauss_eq h x xi hh
  rw [e]
  refine ⟨ProbabilityTheory.integrable_gaussianPDFReal _ _, ProbabilityTheory.integral_gaussianPDFReal_eq_one _ ?_⟩
  intro h0
  rw [Real.toNNReal_eq_zero] at h0
  nlinarith [h0, hh]

theorem sum_integral (h : ℝ) (hh : 0 < h) (l : List ℝ) :
    Integrable (fun x => (l.map fun xi => gauss h (x - xi)).sum) ∧ ∫ x, (l.map fun xi => gauss h (x - xi)).sum = l.length := by
  induction l with
  | nil => simp
  | cons a l ih =>
    simp only [List.map_cons, List.sum_cons, List.length_cons]
    obtain ⟨h1, h2⟩ := gauss_integral h a hh
    refine ⟨h1.add ih.1, ?_⟩
    rw [integral_add h1 ih.1, h2, ih.2]
    push_cast
    ring

theorem gauss_continuous (h xi : ℝ) : Continuous fun x => gauss h (x - xi) := by
  unfold gauss
  fun_prop

theorem sum_continuous (h : ℝ) (l : List ℝ) : Continuous fun x => (l.map fun xi => gauss h (x - xi)).sum := by
  induction l with
  | nil => simpa using continuous_const
  | cons a l ih =>
    simp only [List.map_cons, List.sum_cons]
    exact (gauss_continuous h a).add ih

theorem cov_nonneg (l : List ℝ) : 0 ≤ cov l := by
  unfold cov
  have hs : 0 ≤ (l.map fun x => (x - mean l) ^ 2).sum := by
    apply List.sum_nonneg
    intro x hx
    obtain ⟨y, -, rfl⟩ := List.mem_map.1 hx
    positivity
  cases l with
  | nil => simp
  | cons a l =>
    apply div_nonneg hs
    simp

theorem sum_zero (l : List ℝ) (f : ℝ → ℝ) (hf : ∀ x, 0 ≤ f x) (h : (l.map f).sum = 0) : ∀ x ∈ l, f x = 0 := by
  induction l with
  | nil => simp
  | cons a l ih =>
    rw [List.map_cons, List.sum_cons] at h
    have h1 : 0 ≤ (l.map f).sum := by
      apply List.sum_nonneg
      intro x hx
      obtain ⟨y, -, rfl⟩ := List.mem_map.1 hx
      exact hf y
    have h2 := hf a
    intro x hx
    rcases List.mem_cons.1 hx with rfl | hx
    · linarith
    · exact ih (by linarith) x hx

/-- no spread means all values are the same -/
theorem cov_eq_zero_iff (l : List ℝ) (hl : 2 ≤ l.length) : cov l = 0 ↔ ∀ x ∈ l, ∀ y ∈ l, x = y := by
  unfold cov
  have hn : (l.length : ℝ) - 1 ≠ 0 := by
    have : (2 : ℝ) ≤ l.length := by exact_mod_cast hl
    linarith
  rw [div_eq_zero_iff, or_iff_left hn]
  constructor
  · intro h
    have h0 : ∀ x ∈ l, x = mean l := by
      intro x hx
      have := sum_zero l (fun x => (x - mean l) ^ 2) (fun x => by positivity) h x hx
      have := pow_eq_zero_iff (two_ne_zero) |>.1 this
      linarith
    intro x hx y hy
    rw [h0 x hx, h0 y hy]
  · intro h
    cases l with
    | nil => simp
    | cons a l =>
      have hall : ∀ x ∈ a :: l, x = a := fun x hx => h x hx a (by simp)
      have hm : mean (a :: l) = a := by
        unfold mean
        have : (a :: l) = List.replicate (l.length + 1) a := List.eq_replicate_iff.2 ⟨by simp, hall⟩
        rw [this, List.sum_replicate]
        simp only [nsmul_eq_mul, List.length_replicate]
        field_simp
      rw [hm]
      apply List.sum_eq_zero
      intro x hx
      obtain ⟨y, hy, rfl⟩ := List.mem_map.1 hx
      rw [hall y hy]
      ring

/-- the width is positive unless the data are all the same -/
theorem width_pos (sigma : Option ℝ) (hs : ∀ v ∈ sigma, 0 < v) (sf : ℝ) (hf : 0 < sf) (dx : List ℝ) (hc : cov dx ≠ 0) :
    ∃ w, widthOf sigma sf dx = .ok w ∧ 0 < w := by
  cases sigma with
  | some v => exact ⟨_, rfl, mul_pos (hs v rfl) hf⟩
  | none =>
    have hne : dx ≠ [] := by
      rintro rfl
      exact hc (by simp [cov])
    have hl : (0 : ℝ) < dx.length := by exact_mod_cast List.length_pos_of_ne_nil hne
    refine ⟨_, by unfold widthOf; rw [if_neg hne], mul_pos (Real.sqrt_pos.2 (mul_pos ?_ (Real.rpow_pos_of_pos hl _))) hf⟩
    exact lt_of_le_of_ne (cov_nonneg dx) (Ne.symm hc)

theorem width_ne (sigma : Option ℝ) (hs : ∀ v ∈ sigma, v ≠ 0) (sf : ℝ) (hf : sf ≠ 0) (dx : List ℝ) (hc : cov dx ≠ 0) :
    ∃ w, widthOf sigma sf dx = .ok w ∧ w ≠ 0 := by
  cases sigma with
  | some v => exact ⟨_, rfl, mul_ne_zero (hs v rfl) hf⟩
  | none =>
    have hne : dx ≠ [] := by
      rintro rfl
      exact hc (by simp [cov])
    have hl : (0 : ℝ) < dx.length := by exact_mod_cast List.length_pos_of_ne_nil hne
    refine ⟨_, by unfold widthOf; rw [if_neg hne], mul_ne_zero (Real.sqrt_pos.2 (mul_pos ?_ (Real.rpow_pos_of_pos hl _))).ne' hf⟩
    exact lt_of_le_of_ne (cov_nonneg dx) (Ne.symm hc)

/-- **C134** Without columns for y, `smooth` prints values of one probability density, whatever the output points. -/
theorem C134_density (sigma : Option ℝ) (hs : ∀ v ∈ sigma, v ≠ 0) (sf : ℝ) (hf : sf ≠ 0) (s : Samples) :
    ∃ p : ℝ → ℝ, Continuous p ∧ (∀ x, 0 ≤ p x) ∧ Integrable p ∧ ∫ x, p x = 1 ∧
      ∀ xout out, smoothData xout 0 sigma sf s = .ok out → ∀ r ∈ out, r.2 = [p r.1] := by
  by_cases hd : (s.map Prod.fst).length ≤ 1 ∨ cov (s.map Prod.fst) = 0
  · refine ⟨fun x => gauss 1 (x - 0), gauss_continuous _ _, fun x => (gauss_pos _ _ one_pos).le, (gauss_integral 1 0 one_pos).1,
      (gauss_integral 1 0 one_pos).2, ?_⟩
    intro xout out h
    exfalso
    unfold smoothData at h
    cases h1 : outPoints xout (s.map Prod.fst) with
    | error e => rw [h1] at h; cases h
    | ok xs =>
      cases h2 : widthOf sigma sf (s.map Prod.fst) with
      | error e => rw [h1, h2] at h; cases h
      | ok w =>
        rw [h1, h2] at h
        simp only [Except.bind, true_or, if_true] at h
        unfold density at h
        rw [if_pos (by tauto)] at h
        cases h
  · rw [not_or] at hd
    obtain ⟨w, hw, hwp⟩ := width_ne sigma hs sf hf _ hd.2
    have hh : 0 < Real.sqrt (cov (s.map Prod.fst) * w ^ 2) :=
      Real.sqrt_pos.2 (mul_pos (lt_of_le_of_ne (cov_nonneg _) (Ne.symm hd.2)) (by positivity))
    have hn : (0 : ℝ) < (s.map Prod.fst).length := by
      have := hd.1
      exact_mod_cast (by omega : 0 < (s.map Prod.fst).length)
    obtain ⟨h1, h2⟩ := sum_integral _ hh (s.map Prod.fst)
    refine ⟨kde (s.map Prod.fst) w, ?_, ?_, ?_, ?_, ?_⟩
    · unfold kde
      exact (sum_continuous _ _).div_const _
    · intro x
      unfold kde
      apply div_nonneg _ hn.le
      apply List.sum_nonneg
      intro y hy
      obtain ⟨z, -, rfl⟩ := List.mem_map.1 hy
      exact (gauss_pos _ _ hh).le
    · unfold kde
      exact h1.div_const _
    · unfold kde
      rw [integral_div, h2, div_self hn.ne']
    · intro xout out h r hr
      unfold smoothData at h
      rw [hw] at h
      cases h3 : outPoints xout (s.map Prod.fst) with
      | error e => rw [h3] at h; cases h
      | ok xs =>
        rw [h3] at h
        simp only [Except.bind, true_or, if_true] at h
        unfold density at h
        rw [if_neg (by rw [not_or, not_or]; exact ⟨hd.1, hd.2, hwp⟩)] at h
        simp only [Except.map] at h
        injection h with h
        rw [← h, List.zip_map_right] at hr
        obtain ⟨⟨a, b⟩, hab, rfl⟩ := List.mem_map.1 hr
        have hz : b = a := by
          obtain ⟨i, hi, he⟩ := List.getElem_of_mem hab
          rw [List.getElem_zip] at he
          exact (Prod.mk.inj he).2.symm.trans (Prod.mk.inj he).1
        subst hz
        rfl

/-- **C134** It refuses exactly data without spread. -/
theorem C134_raises (sigma : Option ℝ) (hs : ∀ v ∈ sigma, v ≠ 0) (sf : ℝ) (hf : sf ≠ 0) (xs : List ℝ) (hx : xs.length ≠ 1)
    (s : Samples) : (∃ e, smoothData xs 0 sigma sf s = .error e) ↔ ∀ p ∈ s, ∀ q ∈ s, p.1 = q.1 := by
  have hxs : outPoints xs (s.map Prod.fst) = .ok xs := by
    unfold outPoints
    match xs, hx with
    | [], _ => rfl
    | _ :: _ :: _, _ => rfl
  have hall : (∀ p ∈ s, ∀ q ∈ s, p.1 = q.1) ↔ (s.map Prod.fst).length ≤ 1 ∨ cov (s.map Prod.fst) = 0 := by
    by_cases hl : 2 ≤ (s.map Prod.fst).length
    · rw [cov_eq_zero_iff _ hl, or_iff_right (by omega)]
      simp only [List.mem_map]
      constructor
      · rintro h x ⟨p, hp, rfl⟩ y ⟨q, hq, rfl⟩
        exact h p hp q hq
      · intro h p hp q hq
        exact h _ ⟨p, hp, rfl⟩ _ ⟨q, hq, rfl⟩
    · refine iff_of_true ?_ (Or.inl (by omega))
      rw [List.length_map] at hl
      match s, hl with
      | [], _ => simp
      | [p], _ => simp
      | _ :: _ :: _, h => simp at h
  rw [hall]
  unfold smoothData
  rw [hxs]
  by_cases hd : (s.map Prod.fst).length ≤ 1 ∨ cov (s.map Prod.fst) = 0
  · refine iff_of_true ?_ hd
    cases h2 : widthOf sigma sf (s.map Prod.fst) with
    | error e => exact ⟨e, rfl⟩
    | ok w =>
      refine ⟨.ValueError, ?_⟩
      simp only [Except.bind, true_or, if_true]
      unfold density
      rw [if_pos (by tauto)]
      rfl
  · refine iff_of_false ?_ hd
    rw [not_or] at hd
    obtain ⟨w, hw, hwp⟩ := width_ne sigma hs sf hf _ hd.2
    rintro ⟨e, he⟩
    rw [hw] at he
    simp only [Except.bind, true_or, if_true] at he
    unfold density at he
    rw [if_neg (by rw [not_or, not_or]; exact ⟨hd.1, hd.2, hwp⟩)] at he
    cases he

/-! ## C135, C136: units and origin of x -/

/-- x in other units and from another origin -/
def aff (c d : ℝ) (s : Samples) : Samples := s.map fun p => (c * p.1 + d, p.2)

/-- the same output points: a number of points stays that number -/
def affOut (c d : ℝ) (xout : List ℝ) : List ℝ := if xout.length = 1 then xout else xout.map fun x => c * x + d

theorem aff_fst (c d : ℝ) (s : Samples) : (aff c d s).map Prod.fst = (s.map Prod.fst).map fun x => c * x + d := by
  simp [aff, Function.comp_def]

theorem mean_aff (c d : ℝ) (l : List ℝ) (hl : l ≠ []) : mean (l.map fun x => c * x + d) = c * mean l + d := by
  have hs : ∀ l : List ℝ, (l.map fun x => c * x + d).sum = c * l.sum + d * l.length := by
    intro l
    induction l with
    | nil => simp
    | cons a l ih => simp only [List.map_cons, List.sum_cons, ih, List.length_cons]; push_cast; ring
  have hn : (l.length : ℝ) ≠ 0 := by exact_mod_cast (List.length_pos_of_ne_nil hl).ne'
  unfold mean
  rw [hs, List.length_map]
  field_simp

theorem cov_aff (c d : ℝ) (l : List ℝ) : cov (l.map fun x => c * x + d) = c ^ 2 * cov l := by
  cases hl : l with
  | nil => simp [cov]
  | cons a l' =>
    rw [← hl]
    have hne : l ≠ [] := by rw [hl]; simp
    unfold cov
    rw [mean_aff c d l hne, List.map_map, List.length_map]
    have hs : ∀ m : ℝ, ∀ l : List ℝ, (l.map ((fun x => (x - (c * m + d)) ^ 2) ∘ fun x => c * x + d)).sum =
        c ^ 2 * (l.map fun x => (x - m) ^ 2).sum := by
      intro m l
      induction l with
      | nil => simp
      | cons a l ih => simp only [List.map_cons, List.sum_cons, ih, Function.comp]; ring
    rw [hs]
    ring

theorem gauss_scale (c h d : ℝ) (hc : 0 < c) : gauss (c * h) (c * d) = gauss h d / c := by
  unfold gauss
  rw [mul_div_mul_left _ _ hc.ne', div_div]
  congr 1
  ring

theorem kde_aff (c d : ℝ) (hc : 0 < c) (l : List ℝ) (f x : ℝ) :
    kde (l.map fun x => c * x + d) f (c * x + d) = kde l f x / c := by
  unfold kde
  rw [cov_aff, mul_assoc, Real.sqrt_mul (sq_nonneg c), Real.sqrt_sq hc.le, List.map_map, List.length_map]
  have hs : ∀ l : List ℝ, ∀ h : ℝ, (l.map ((fun xi => gauss (c * h) (c * x + d - xi)) ∘ fun x => c * x + d)).sum =
      (l.map fun xi => gauss h (x - xi)).sum / c := by
    intro l h
    induction l with
    | nil => simp
    | cons a l ih =>
      simp only [List.map_cons, List.sum_cons, ih, Function.comp]
      rw [show c * x + d - (c * a + d) = c * (x - a) by ring, gauss_scale c _ _ hc]
      ring
  rw [hs]
  ring

theorem foldr_aff (g : ℝ → ℝ → ℝ) (c d : ℝ) (hg : ∀ x y, g (c * x + d) (c * y + d) = c * g x y + d) (l : List ℝ) (e : ℝ) :
    (l.map fun x => c * x + d).foldr g (c * e + d) = c * l.foldr g e + d := by
  induction l with
  | nil => rfl
  | cons a l ih => rw [List.map_cons, List.foldr_cons, ih, hg, List.foldr_cons]

theorem least_aff (c d : ℝ) (hc : 0 < c) (l : List ℝ) (hl : l ≠ []) :
    least (l.map fun x => c * x + d) = c * least l + d ∧ largest (l.map fun x => c * x + d) = c * largest l + d := by
  have hmono : Monotone fun x : ℝ => c * x + d := fun x y h => by
    have := mul_le_mul_of_nonneg_left h hc.le
    simp only
    linarith
  have hhead : (l.map fun x => c * x + d).headD 0 = c * l.headD 0 + d := by
    cases l with
    | nil => exact absurd rfl hl
    | cons a l => rfl
  unfold least largest
  rw [hhead]
  exact ⟨foldr_aff _ c d (fun x y => (hmono.map_min).symm) l _, foldr_aff _ c d (fun x y => (hmono.map_max).symm) l _⟩

theorem outPoints_aff (c d : ℝ) (hc : 0 < c) (xout dx : List ℝ) :
    outPoints (affOut c d xout) (dx.map fun x => c * x + d) = (outPoints xout dx).map (List.map fun x => c * x + d) := by
  match xout with
  | [] => rfl
  | [n] =>
    have e : affOut c d [n] = [n] := rfl
    rw [e]
    unfold outPoints
    by_cases hd : dx = []
    · subst hd; rfl
    · simp only [List.map_eq_nil_iff, hd, if_false]
      split_ifs
      · rfl
      · obtain ⟨h1, h2⟩ := least_aff c d hc dx hd
        rw [h1, h2]
        simp only [Except.map, linspace, List.map_map]
        congr 2
        funext i
        simp only [Function.comp]
        ring
  | a :: b :: l =>
    have e : affOut c d (a :: b :: l) = (a :: b :: l).map fun x => c * x + d := by
      unfold affOut
      rw [if_neg (by simp)]
    rw [e]
    rfl

theorem widthOf_aff (c d : ℝ) (hc : 0 < c) (sigma : Option ℝ) (sf : ℝ) (dx : List ℝ) :
    widthOf (sigma.map (c * ·)) sf (dx.map fun x => c * x + d) = (widthOf sigma sf dx).map (c * ·) := by
  cases sigma with
  | some v =>
    simp only [widthOf, Option.map_some, Except.map]
    congr 1
    ring
  | none =>
    unfold widthOf
    simp only [Option.map_none, List.map_eq_nil_iff]
    split_ifs
    · rfl
    · rw [cov_aff, List.length_map, mul_assoc, Real.sqrt_mul (sq_nonneg c), Real.sqrt_sq hc.le]
      simp only [Except.map]
      congr 1
      ring

theorem pdf_aff (c d : ℝ) (hc : 0 < c) (x0 sp x : ℝ) : pdf (c * x0 + d) (c * sp) (c * x + d) = pdf x0 sp x / c := by
  unfold pdf
  have : 0 < c * sp ↔ 0 < sp := by rw [mul_pos_iff_of_pos_left hc]
  simp only [this]
  split_ifs
  · rw [show c * x + d - (c * x0 + d) = c * (x - x0) by ring, gauss_scale c _ _ hc]
  · simp

theorem weights_aff (c d : ℝ) (hc : 0 < c) (x0 sp : ℝ) (s : Samples) :
    weights pdf (c * x0 + d) (c * sp) (aff c d s) = (weights pdf x0 sp s).map (· / c) := by
  unfold weights aff
  simp only [List.map_map]
  refine List.map_congr_left fun p _ => ?_
  exact pdf_aff c d hc x0 sp p.1

theorem sum_div (l : List ℝ) (c : ℝ) : (l.map (· / c)).sum = l.sum / c := by
  induction l with
  | nil => simp
  | cons a l ih => rw [List.map_cons, List.sum_cons, ih, List.sum_cons]; ring

theorem colAvg_aff (c d : ℝ) (hc : 0 < c) (x0 sp : ℝ) (s : Samples) (f : ℕ) :
    colAvg (weights pdf (c * x0 + d) (c * sp) (aff c d s)) (aff c d s) f = colAvg (weights pdf x0 sp s) s f := by
  rw [weights_aff c d hc]
  unfold colAvg
  rw [sum_div]
  have : ∀ ws : List ℝ, ∀ s : Samples, (List.zipWith (fun w (p : ℝ × List ℝ) => w * p.2.getD f 0) (ws.map (· / c)) (aff c d s)).sum =
      (List.zipWith (fun w (p : ℝ × List ℝ) => w * p.2.getD f 0) ws s).sum / c := by
    intro ws s
    induction ws generalizing s with
    | nil => simp
    | cons w ws ih =>
      cases s with
      | nil => simp [aff]
      | cons p s =>
        have := ih s
        unfold aff at this ⊢
        simp only [List.map_cons, List.zipWith_cons_cons, List.sum_cons, this]
        ring
  rw [this, div_div_div_cancel_right₀ hc.ne']

theorem search_aff (c d : ℝ) (hc : 0 < c) (x0 : ℝ) (s : Samples) : searchLeft (c * x0 + d) (aff c d s) = searchLeft x0 s := by
  unfold searchLeft aff
  rw [List.countP_map]
  congr 1
  funext p
  simp only [Function.comp, add_lt_add_iff_right, mul_lt_mul_iff_right₀ hc]

theorem lerp_aff (c d : ℝ) (hc : 0 < c) (x0 : ℝ) (a b : ℝ × List ℝ) :
    lerp (c * x0 + d) (c * a.1 + d, a.2) (c * b.1 + d, b.2) = lerp x0 a b := by
  unfold lerp
  simp only
  conv_rhs => rw [← mul_div_mul_left _ _ hc.ne']
  congr 1 <;> ring

theorem fallback_aff (c d : ℝ) (hc : 0 < c) (M : ℕ) (x0 : ℝ) (s : Samples) :
    fallback M (c * x0 + d) (aff c d s) = fallback M x0 s := by
  unfold fallback
  have hl : (aff c d s).length = s.length := by simp [aff]
  rw [search_aff c d hc, hl]
  by_cases h1 : searchLeft x0 s = s.length
  · rw [if_pos h1, if_pos h1]
    unfold aff
    rw [List.getLast?_map]
    cases s.getLast? <;> rfl
  · have hlt := lt_of_le_of_ne (search_le x0 s) h1
    rw [if_neg h1, if_neg h1]
    by_cases h2 : searchLeft x0 s = 0
    · rw [if_pos h2, if_pos h2]
      cases s with
      | nil => exact absurd hlt (by simp)
      | cons p s => rfl
    · rw [if_neg h2, if_neg h2]
      have hg : ∀ i < s.length, (aff c d s).getD i (0, []) = (c * (s.getD i (0, [])).1 + d, (s.getD i (0, [])).2) := by
        intro i hi
        rw [List.getD_eq_getElem _ _ hi, List.getD_eq_getElem _ _ (by rw [hl]; exact hi)]
        simp [aff]
      rw [hg _ hlt, hg _ (by omega), lerp_aff c d hc]

theorem sortX_aff (c d : ℝ) (hc : 0 < c) (s : Samples) : sortX (aff c d s) = aff c d (sortX s) := by
  unfold sortX aff
  have hle : ∀ a b : ℝ × List ℝ, c * a.1 + d ≤ c * b.1 + d ↔ a.1 ≤ b.1 := by
    intro a b
    rw [add_le_add_iff_right, mul_le_mul_iff_right₀ hc]
  have hp : (s.map fun p : ℝ × List ℝ => (c * p.1 + d, p.2)).Pairwise (fun a b => a.1 ≤ b.1) ↔ s.Pairwise (fun a b => a.1 ≤ b.1) := by
    rw [List.pairwise_map]
    simp only [hle]
  by_cases h : s.Pairwise (fun a b => a.1 ≤ b.1)
  · rw [if_pos (hp.2 h), if_pos h]
  · rw [if_neg (fun hh => h (hp.1 hh)), if_neg h, List.map_mergeSort]
    intro a _ b _
    simp only [hle]

theorem smoothAt_aff (c d : ℝ) (hc : 0 < c) (M : ℕ) (sp : ℝ) (x0 : ℝ) (s : Samples) :
    smoothAt pdf M (c * sp) true (c * x0 + d) (aff c d s) = smoothAt pdf M sp true x0 s := by
  unfold smoothAt
  have hs : (weights pdf (c * x0 + d) (c * sp) (aff c d s)).sum > 0 ↔ (weights pdf x0 sp s).sum > 0 := by
    rw [weights_aff c d hc, sum_div]
    exact div_pos_iff_of_pos_right hc
  by_cases h : (weights pdf x0 sp s).sum > 0
  · rw [if_pos h, if_pos (hs.2 h)]
    congr 1
    exact List.map_congr_left fun f _ => colAvg_aff c d hc x0 sp s f
  · rw [if_neg h, if_neg (fun hh => h (hs.1 hh)), if_pos rfl, if_pos rfl, fallback_aff c d hc]

theorem mapM_congr {α β : Type} (f g : α → Except PyErr β) (l : List α) (h : ∀ a ∈ l, f a = g a) : l.mapM f = l.mapM g := by
  induction l with
  | nil => rfl
  | cons a l ih => rw [List.mapM_cons, List.mapM_cons, h a (by simp), ih fun b hb => h b (by simp [hb])]

theorem filtered_aff (c d : ℝ) (hc : 0 < c) (M : ℕ) (sp : ℝ) (xs : List ℝ) (s : Samples) :
    filtered M (c * sp) (xs.map fun x => c * x + d) (aff c d s) = filtered M sp xs s := by
  unfold filtered
  simp only [List.map_eq_nil_iff]
  by_cases hx : xs = []
  · rw [if_pos hx, if_pos hx]
  · rw [if_neg hx, if_neg hx]
    unfold smooth
    simp only
    rw [sortX_aff c d hc, List.mapM_map]
    apply mapM_congr
    intro x _
    simp only [Function.comp, resampAt]
    exact smoothAt_aff c d hc M sp x _

/-- The general law for the columns of y: x in other units, from another origin, with the width in those units. -/
theorem filter_aff (c d : ℝ) (hc : 0 < c) (xout : List ℝ) (M : ℕ) (hM : M ≠ 0) (sigma : Option ℝ) (sf : ℝ) (s : Samples)
    (hs : s ≠ []) :
    smoothData (affOut c d xout) M (sigma.map (c * ·)) sf (aff c d s) =
      (smoothData xout M sigma sf s).map (List.map fun r => (c * r.1 + d, r.2)) := by
  have hs' : aff c d s ≠ [] := by simp [aff, hs]
  unfold smoothData
  rw [aff_fst, outPoints_aff c d hc, widthOf_aff c d hc]
  cases outPoints xout (s.map Prod.fst) with
  | error e => rfl
  | ok xs =>
    cases widthOf sigma sf (s.map Prod.fst) with
    | error e => rfl
    | ok w =>
      simp only [Except.map, Except.bind, hM, hs, hs', or_self, if_false]
      rw [filtered_aff c d hc]
      cases filtered M w xs s with
      | error e => rfl
      | ok ys =>
        simp only
        rw [List.zip_map_left]
        rfl

theorem density_pts (c d : ℝ) (hc : 0 < c) (dx : List ℝ) (f : ℝ) (xs : List ℝ) :
    density (dx.map fun x => c * x + d) f (xs.map fun x => c * x + d) = (density dx f xs).map (List.map (List.map (· / c))) := by
  unfold density
  have h0 : c ^ 2 ≠ 0 := by positivity
  simp only [List.length_map, cov_aff, mul_eq_zero, h0, false_or]
  split_ifs with h
  · rfl
  · simp only [Except.map, List.map_map]
    congr 1
    refine List.map_congr_left fun x _ => ?_
    simp only [Function.comp, List.map_cons, List.map_nil, kde_aff c d hc]

/-- The law for densities: x in other units and from another origin, but with the same `sigma`. -/
theorem density_aff (c d : ℝ) (hc : 0 < c) (xout : List ℝ) (sigma sf : ℝ) (s : Samples) :
    smoothData (affOut c d xout) 0 (some sigma) sf (aff c d s) =
      (smoothData xout 0 (some sigma) sf s).map (List.map fun r => (c * r.1 + d, r.2.map (· / c))) := by
  unfold smoothData
  rw [aff_fst, outPoints_aff c d hc]
  cases outPoints xout (s.map Prod.fst) with
  | error e => rfl
  | ok xs =>
    have hd := density_pts c d hc (s.map Prod.fst) (sigma * sf) xs
    simp only [Except.map, Except.bind, widthOf, true_or, if_true]
    rw [hd]
    cases density (s.map Prod.fst) (sigma * sf) xs with
    | error e => rfl
    | ok ys =>
      simp only [Except.map]
      rw [List.zip_map]
      rfl

/-- **C135**, the full claim: with the default width, measuring x in other units changes the smoothed values not at all and a
density by that unit. -/
def C135_statement : Prop :=
  ∀ (c : ℝ), 0 < c → ∀ (xout : List ℝ) (M : ℕ) (sf : ℝ) (s : Samples), 0 < sf →
    smoothData (affOut c 0 xout) M none sf (aff c 0 s) =
      (smoothData xout M none sf s).map (List.map fun r => (c * r.1, if M = 0 then r.2.map (· / c) else r.2))

/-- **C135** for the columns of y. Missing: densities, see `C135_refuted`. -/
theorem C135_partial (c : ℝ) (hc : 0 < c) (xout : List ℝ) (M : ℕ) (hM : M ≠ 0) (sf : ℝ) (s : Samples) (hs : s ≠ []) :
    smoothData (affOut c 0 xout) M none sf (aff c 0 s) =
      (smoothData xout M none sf s).map (List.map fun r => (c * r.1, r.2)) := by
  have := filter_aff c 0 hc xout M hM none sf s hs
  simpa using this

/-- what the width of a density is: the *square* of the standard deviation enters, not Scott's rule -/
theorem C135_width (sf : ℝ) (hf : 0 ≤ sf) (s : Samples) (hs : s ≠ []) (x : ℝ) :
    ∃ w, widthOf none sf (s.map Prod.fst) = .ok w ∧ kde (s.map Prod.fst) w x =
      ((s.map Prod.fst).map fun xi => gauss (cov (s.map Prod.fst) * ((s.map Prod.fst).length : ℝ) ^ (-(0.2 : ℝ)) * sf) (x - xi)).sum /
        (s.map Prod.fst).length := by
  have hne : s.map Prod.fst ≠ [] := by simpa using hs
  refine ⟨_, by unfold widthOf; rw [if_neg hne], ?_⟩
  unfold kde
  have hl : (0 : ℝ) ≤ (s.map Prod.fst).length := by positivity
  have e : Real.sqrt (((s.map Prod.fst).length : ℝ) ^ (-(0.4 : ℝ))) = ((s.map Prod.fst).length : ℝ) ^ (-(0.2 : ℝ)) := by
    rw [Real.sqrt_eq_rpow, ← Real.rpow_mul hl]
    norm_num
  rw [Real.sqrt_mul (cov_nonneg _), Real.sqrt_sq (by positivity), Real.sqrt_mul (cov_nonneg _), e]
  have e2 : ∀ a b : ℝ, 0 ≤ a → Real.sqrt a * (Real.sqrt a * b * sf) = a * b * sf := by
    intro a b ha
    rw [← mul_assoc, ← mul_assoc, Real.mul_self_sqrt ha]
  rw [e2 _ _ (cov_nonneg _)]

/-- The variance in terms of the data: half the mean square of the differences of all ordered pairs. -/
theorem cov_pairs (l : List ℝ) (hl : 2 ≤ l.length) :
    cov l = (l.map fun x => (l.map fun y => (x - y) ^ 2).sum).sum / (2 * l.length * ((l.length : ℝ) - 1)) := by
  have hn : (l.length : ℝ) ≠ 0 := by positivity
  have hn1 : (l.length : ℝ) - 1 ≠ 0 := by
    have : (2 : ℝ) ≤ l.length := by exact_mod_cast hl
    intro h
    linarith
  have h1 : ∀ (m : List ℝ) (a : ℝ), (m.map fun y => (y - a) ^ 2).sum = (m.map fun y => y ^ 2).sum - 2 * a * m.sum + m.length * a ^ 2 := by
    intro m a
    induction m with
    | nil => simp
    | cons b m ih => simp only [List.map_cons, List.sum_cons, List.length_cons, ih]; push_cast; ring
  have h2 : ∀ (m : List ℝ) (a : ℝ), (m.map fun y => (a - y) ^ 2).sum = (m.map fun y => y ^ 2).sum - 2 * a * m.sum + m.length * a ^ 2 := by
    intro m a
    rw [← h1]
    congr 1
    exact List.map_congr_left fun y _ => by ring
  have h3 : ∀ (m : List ℝ) (A B C : ℝ), (m.map fun x => A - 2 * x * B + C * x ^ 2).sum =
      m.length * A - 2 * m.sum * B + C * (m.map fun x => x ^ 2).sum := by
    intro m A B C
    induction m with
    | nil => simp
    | cons b m ih => simp only [List.map_cons, List.sum_cons, List.length_cons, ih]; push_cast; ring
  unfold cov mean
  simp only [h1, h2, h3]
  field_simp
  ring

/-- The default width of the kernel along x is Scott's rule: the standard deviation times n^-0.2 (and `sf`). -/
theorem C135_default (sf : ℝ) (dx : List ℝ) (hl : dx ≠ []) :
    widthOf none sf dx = .ok (Real.sqrt (cov dx) * (dx.length : ℝ) ^ (-(1 / 5 : ℝ)) * sf) := by
  unfold widthOf
  rw [if_neg hl, Real.sqrt_mul (cov_nonneg _), Real.sqrt_eq_rpow ((dx.length : ℝ) ^ _), ← Real.rpow_mul (by positivity)]
  norm_num

/-- a given `sigma` is not a length along x: in other units the same number gives the same density -/
theorem C135_sigma (c : ℝ) (hc : 0 < c) (xout : List ℝ) (sigma sf : ℝ) (s : Samples) :
    smoothData (affOut c 0 xout) 0 (some sigma) sf (aff c 0 s) =
      (smoothData xout 0 (some sigma) sf s).map (List.map fun r => (c * r.1, r.2.map (· / c))) := by
  have := density_aff c 0 hc xout sigma sf s
  simpa using this

theorem zip_map_self {α β : Type} (g : α → β) (xs : List α) : xs.zip (xs.map g) = xs.map fun x => (x, g x) := by
  induction xs with
  | nil => rfl
  | cons a xs ih => simp [ih]

theorem gauss_even (h d : ℝ) : gauss h (-d) = gauss h d := by
  unfold gauss
  rw [show (-d / h) ^ 2 = (d / h) ^ 2 by ring]

theorem gauss_ne (q : ℝ) (hq : 0 < q) (hq2 : 1 / 2 ≤ q ^ 2) : gauss (8 * q) 2 ≠ gauss (2 * q) 1 / 2 := by
  rw [← gauss_scale 2 _ _ two_pos]
  intro h
  unfold gauss at h
  have hp := Real.pi_pos
  have hs : 0 < Real.sqrt (2 * Real.pi) := Real.sqrt_pos.2 (by positivity)
  rw [div_eq_div_iff (by positivity) (by positivity)] at h
  have h1 : Real.exp (-(2 / (8 * q)) ^ 2 / 2) ≤ 1 := by
    rw [Real.exp_le_one_iff]
    have := sq_nonneg (2 / (8 * q))
    linarith
  have h2 : 3 / 4 ≤ Real.exp (-(2 * 1 / (2 * (2 * q))) ^ 2 / 2) := by
    have h3 := Real.add_one_le_exp (-(2 * 1 / (2 * (2 * q))) ^ 2 / 2)
    have h4 : (2 * 1 / (2 * (2 * q))) ^ 2 ≤ 1 / 2 := by
      rw [show (2 * 1 / (2 * (2 * q))) ^ 2 = 1 / (4 * q ^ 2) by field_simp; ring, div_le_div_iff₀ (by positivity) (by norm_num)]
      linarith
    linarith
  have h5 : Real.exp (-(2 / (8 * q)) ^ 2 / 2) * (2 * (2 * q) * Real.sqrt (2 * Real.pi)) ≤ 1 * (2 * (2 * q) * Real.sqrt (2 * Real.pi)) :=
    mul_le_mul_of_nonneg_right h1 (by positivity)
  have h6 : 3 / 4 * (8 * q * Real.sqrt (2 * Real.pi)) ≤ Real.exp (-(2 * 1 / (2 * (2 * q))) ^ 2 / 2) * (8 * q * Real.sqrt (2 * Real.pi)) :=
    mul_le_mul_of_nonneg_right h2 (by positivity)
  have h7 : 0 < q * Real.sqrt (2 * Real.pi) := by positivity
  nlinarith

theorem smoothData_density (xs : List ℝ) (hx : xs.length ≠ 1) (sf : ℝ) (hf : 0 < sf) (s : Samples) (hl : 2 ≤ s.length)
    (hc : cov (s.map Prod.fst) ≠ 0) : ∃ w, widthOf none sf (s.map Prod.fst) = .ok w ∧
      smoothData xs 0 none sf s = .ok (xs.map fun x => (x, [kde (s.map Prod.fst) w x])) := by
  obtain ⟨w, hw, hwp⟩ := width_pos none (by simp) sf hf _ hc
  refine ⟨w, hw, ?_⟩
  have hxs : outPoints xs (s.map Prod.fst) = .ok xs := by
    unfold outPoints
    match xs, hx with
    | [], _ => rfl
    | _ :: _ :: _, _ => rfl
  unfold smoothData
  rw [hxs, hw]
  simp only [Except.bind, true_or, if_true]
  unfold density
  rw [if_neg (by rw [not_or, not_or, List.length_map]; exact ⟨by omega, hc, hwp.ne'⟩)]
  simp only [Except.map]
  congr 1
  exact zip_map_self _ xs

/-- The claim is false for densities. -/
theorem C135_refuted : ¬ C135_statement := by
  intro h
  have h1 := h 2 two_pos [1, 1] 0 1 [(0, []), (2, [])] one_pos
  have hcov : cov ([((0 : ℝ), ([] : List ℝ)), (2, [])].map Prod.fst) = 2 := by
    simp [cov, mean]; norm_num
  have hcov2 : cov ((aff 2 0 [((0 : ℝ), ([] : List ℝ)), (2, [])]).map Prod.fst) = 8 := by
    rw [aff_fst, cov_aff, hcov]; norm_num
  obtain ⟨w, hw, hd⟩ := smoothData_density [1, 1] (by simp) 1 one_pos [(0, []), (2, [])] (by simp) (by rw [hcov]; norm_num)
  obtain ⟨w2, hw2, hd2⟩ := smoothData_density (affOut 2 0 [1, 1]) (by simp [affOut]) 1 one_pos (aff 2 0 [(0, []), (2, [])])
    (by simp [aff]) (by rw [hcov2]; norm_num)
  obtain ⟨w', hw', hk⟩ := C135_width 1 zero_le_one [((0 : ℝ), ([] : List ℝ)), (2, [])] (by simp) 1
  obtain ⟨w2', hw2', hk2⟩ := C135_width 1 zero_le_one (aff 2 0 [((0 : ℝ), ([] : List ℝ)), (2, [])]) (by simp [aff]) 2
  rw [hw] at hw'
  rw [hw2] at hw2'
  injection hw' with hw'
  injection hw2' with hw2'
  subst hw' hw2'
  rw [hd, hd2] at h1
  injection h1 with h1
  simp only [affOut, List.length_cons, List.length_nil, List.map_cons, List.map_nil, if_true, List.cons.injEq, Prod.mk.injEq,
    and_true] at h1
  norm_num at h1
  rw [hcov] at hk
  rw [hcov2] at hk2
  simp only [aff, List.map_cons, List.map_nil, List.length_cons, List.length_nil, List.sum_cons, List.sum_nil] at hk hk2 h1
  rw [hk, hk2] at h1
  norm_num at h1
  rw [gauss_even, gauss_even] at h1
  refine gauss_ne ((2 : ℝ) ^ (-(1 / 5 : ℝ))) (by positivity) ?_ (by linarith)
  rw [← Real.rpow_natCast, ← Real.rpow_mul (by norm_num)]
  have : (2 : ℝ) ^ (-1 : ℝ) ≤ 2 ^ (-(1 / 5 : ℝ) * ((2 : ℕ) : ℝ)) := Real.rpow_le_rpow_of_exponent_le (by norm_num) (by norm_num)
  rw [Real.rpow_neg_one] at this
  linarith

/-- **C136** Moving the origin of x moves the printed x and nothing else, for densities and for columns of y, with a given width and
with the default. -/
theorem C136_shift (d : ℝ) (xout : List ℝ) (M : ℕ) (sigma : Option ℝ) (sf : ℝ) (s : Samples) (hs : s ≠ []) :
    smoothData (affOut 1 d xout) M sigma sf (aff 1 d s) =
      (smoothData xout M sigma sf s).map (List.map fun r => (r.1 + d, r.2)) := by
  by_cases hM : M = 0
  · subst hM
    unfold smoothData
    have hw := widthOf_aff 1 d one_pos sigma sf (s.map Prod.fst)
    have e1 : sigma.map ((1 : ℝ) * ·) = sigma := by cases sigma <;> simp
    have e2 : (widthOf sigma sf (s.map Prod.fst)).map ((1 : ℝ) * ·) = widthOf sigma sf (s.map Prod.fst) := by
      cases widthOf sigma sf (s.map Prod.fst) <;> simp [Except.map]
    rw [e1, e2] at hw
    rw [aff_fst, outPoints_aff 1 d one_pos, hw]
    cases outPoints xout (s.map Prod.fst) with
    | error e => rfl
    | ok xs =>
      cases widthOf sigma sf (s.map Prod.fst) with
      | error e => rfl
      | ok w =>
        have hd := density_pts 1 d one_pos (s.map Prod.fst) w xs
        simp only [Except.map, Except.bind, true_or, if_true] at hd ⊢
        rw [hd]
        cases density (s.map Prod.fst) w xs with
        | error e => rfl
        | ok ys =>
          have e : List.map (List.map fun x : ℝ => x / 1) ys = ys := by simp
          simp only
          rw [e, List.zip_map_left]
          simp only [one_mul]
          rfl
  · have := filter_aff 1 d one_pos xout M hM sigma sf s hs
    have e1 : sigma.map ((1 : ℝ) * ·) = sigma := by cases sigma <;> simp
    rw [e1] at this
    simpa using this

/-! ## C137: the order of the rows -/

/-- **C137**, the full claim: the order of the rows of the file does not matter. -/
def C137_statement : Prop :=
  ∀ (xout : List ℝ) (M : ℕ) (sigma : Option ℝ) (sf : ℝ) (s s' : Samples), s.Perm s' →
    smoothData xout M sigma sf s = smoothData xout M sigma sf s'

theorem mean_perm {l l' : List ℝ} (h : l.Perm l') : mean l = mean l' := by
  unfold mean
  rw [h.sum_eq, h.length_eq]

theorem cov_perm {l l' : List ℝ} (h : l.Perm l') : cov l = cov l' := by
  unfold cov
  rw [mean_perm h, (h.map _).sum_eq, h.length_eq]

theorem foldr_min_eq (l : List ℝ) (a : ℝ) (ha : a ∈ l) (h : ∀ x ∈ l, a ≤ x) : least l = a := by
  unfold least
  have : ∀ l : List ℝ, ∀ e, a ≤ e → (∀ x ∈ l, a ≤ x) → a ≤ l.foldr min e ∧ (a ∈ l → l.foldr min e = a) := by
    intro l
    induction l with
    | nil => intro e he _; exact ⟨he, by simp⟩
    | cons b l ih =>
      intro e he hb
      obtain ⟨h1, h2⟩ := ih e he fun x hx => hb x (by simp [hx])
      rw [List.foldr_cons]
      refine ⟨le_min (hb b (by simp)) h1, ?_⟩
      intro hm
      rcases List.mem_cons.1 hm with rfl | hm
      · exact min_eq_left h1
      · rw [h2 hm]; exact min_eq_right (hb b (by simp))
  refine (this l _ ?_ h).2 ha
  cases l with
  | nil => cases ha
  | cons b l => exact h b (by simp)

theorem foldr_max_eq (l : List ℝ) (a : ℝ) (ha : a ∈ l) (h : ∀ x ∈ l, x ≤ a) : largest l = a := by
  unfold largest
  have : ∀ l : List ℝ, ∀ e, e ≤ a → (∀ x ∈ l, x ≤ a) → l.foldr max e ≤ a ∧ (a ∈ l → l.foldr max e = a) := by
    intro l
    induction l with
    | nil => intro e he _; exact ⟨he, by simp⟩
    | cons b l ih =>
      intro e he hb
      obtain ⟨h1, h2⟩ := ih e he fun x hx => hb x (by simp [hx])
      rw [List.foldr_cons]
      refine ⟨max_le (hb b (by simp)) h1, ?_⟩
      intro hm
      rcases List.mem_cons.1 hm with rfl | hm
      · exact max_eq_left h1
      · rw [h2 hm]; exact max_eq_right (hb b (by simp))
  refine (this l _ ?_ h).2 ha
  cases l with
  | nil => cases ha
  | cons b l => exact h b (by simp)

/-- what `np.min` and `np.max` are -/
theorem least_spec (l : List ℝ) (hl : l ≠ []) :
    (least l ∈ l ∧ ∀ x ∈ l, least l ≤ x) ∧ largest l ∈ l ∧ ∀ x ∈ l, x ≤ largest l := by
  have hmin : ∃ a ∈ l, ∀ x ∈ l, a ≤ x := by
    obtain ⟨a, ha⟩ : ∃ a, a ∈ l.argmin (fun x : ℝ => x) := by
      cases h : l.argmin (fun x : ℝ => x) with
      | none => exact absurd (List.argmin_eq_none.1 h) hl
      | some a => exact ⟨a, rfl⟩
    exact ⟨a, List.argmin_mem ha, fun x hx => List.le_of_mem_argmin hx ha⟩
  have hmax : ∃ a ∈ l, ∀ x ∈ l, x ≤ a := by
    obtain ⟨a, ha⟩ : ∃ a, a ∈ l.argmax (fun x : ℝ => x) := by
      cases h : l.argmax (fun x : ℝ => x) with
      | none => exact absurd (List.argmax_eq_none.1 h) hl
      | some a => exact ⟨a, rfl⟩
    exact ⟨a, List.argmax_mem ha, fun x hx => List.le_of_mem_argmax hx ha⟩
  obtain ⟨a, ha, ha'⟩ := hmin
  obtain ⟨b, hb, hb'⟩ := hmax
  rw [foldr_min_eq l a ha ha', foldr_max_eq l b hb hb']
  exact ⟨⟨ha, ha'⟩, hb, hb'⟩

theorem least_perm {l l' : List ℝ} (h : l.Perm l') (hl : l ≠ []) : least l = least l' ∧ largest l = largest l' := by
  obtain ⟨⟨h1, h2⟩, h3, h4⟩ := least_spec l hl
  exact ⟨(foldr_min_eq l' _ (h.mem_iff.1 h1) fun x hx => h2 x (h.mem_iff.2 hx)).symm,
    (foldr_max_eq l' _ (h.mem_iff.1 h3) fun x hx => h4 x (h.mem_iff.2 hx)).symm⟩

theorem outPoints_perm (xout : List ℝ) {l l' : List ℝ} (h : l.Perm l') : outPoints xout l = outPoints xout l' := by
  unfold outPoints
  have hn : l = [] ↔ l' = [] := by
    constructor
    · rintro rfl; exact List.nil_perm.1 h
    · rintro rfl; exact List.perm_nil.1 h
  match xout with
  | [] => rfl
  | [n] =>
    simp only
    by_cases hl : l = []
    · rw [if_pos hl, if_pos (hn.1 hl)]
    · obtain ⟨h1, h2⟩ := least_perm h hl
      rw [if_neg hl, if_neg (fun hh => hl (hn.2 hh)), h1, h2]
  | _ :: _ :: _ => rfl

theorem widthOf_perm (sigma : Option ℝ) (sf : ℝ) {l l' : List ℝ} (h : l.Perm l') : widthOf sigma sf l = widthOf sigma sf l' := by
  unfold widthOf
  have hn : l = [] ↔ l' = [] := by
    constructor
    · rintro rfl; exact List.nil_perm.1 h
    · rintro rfl; exact List.perm_nil.1 h
  cases sigma with
  | some v => rfl
  | none =>
    simp only
    by_cases hl : l = []
    · rw [if_pos hl, if_pos (hn.1 hl)]
    · rw [if_neg hl, if_neg (fun hh => hl (hn.2 hh)), cov_perm h, h.length_eq]

theorem density_perm (f : ℝ) (xs : List ℝ) {l l' : List ℝ} (h : l.Perm l') : density l f xs = density l' f xs := by
  have hk : ∀ x, kde l f x = kde l' f x := by
    intro x
    unfold kde
    rw [cov_perm h, (h.map _).sum_eq, h.length_eq]
  unfold density
  simp only [h.length_eq, cov_perm h, hk]

/-- with a positive width, the smoothed values are kernel averages -/
theorem filtered_eq (M : ℕ) (sp : ℝ) (hsp : 0 < sp) (xs : List ℝ) (hx : xs ≠ []) (s : Samples) (hs : s ≠ []) :
    filtered M sp xs s = .ok (xs.map fun x => (List.range M).map (kernelMean pdf sp x s)) := by
  unfold filtered
  rw [if_neg hx]
  unfold smooth
  simp only
  have hcall : ∀ x, resampAt pdf M sp none (sortX s) x = .ok ((List.range M).map (kernelMean pdf sp x s)) := by
    intro x
    unfold resampAt
    simp only
    rw [smoothAt_ok]
    · congr 1
      apply List.map_congr_left
      intro f _
      rw [colAvg_kernel, kernelMean_perm pdf sp _ (sortX_perm s)]
    · have hne : sortX s ≠ [] := by
        intro h
        have := sortX_perm s
        rw [h] at this
        exact hs (List.nil_perm.1 this)
      unfold weights
      apply List.sum_pos
      · intro w hw
        obtain ⟨p, _, rfl⟩ := List.mem_map.mp hw
        unfold pdf
        rw [if_pos hsp]
        exact gauss_pos _ _ hsp
      · simpa using hne
  clear hx
  induction xs with
  | nil => rfl
  | cons x xs ih =>
    rw [List.mapM_cons, hcall, ih]
    rfl

/-- **C137** for densities and for positive widths. Missing: widths that are not positive, see `C137_refuted`. -/
theorem C137_partial (xout : List ℝ) (M : ℕ) (sigma : Option ℝ) (sf : ℝ) (s s' : Samples) (h : s.Perm s')
    (hw : M = 0 ∨ ∀ w, widthOf sigma sf (s.map Prod.fst) = .ok w → 0 < w) :
    smoothData xout M sigma sf s = smoothData xout M sigma sf s' := by
  have hp : (s.map Prod.fst).Perm (s'.map Prod.fst) := h.map _
  have hn : s = [] ↔ s' = [] := by
    constructor
    · rintro rfl; exact List.nil_perm.1 h
    · rintro rfl; exact List.perm_nil.1 h
  unfold smoothData
  rw [outPoints_perm xout hp, ← widthOf_perm sigma sf hp]
  cases outPoints xout (s'.map Prod.fst) with
  | error e => rfl
  | ok xs =>
    cases hwx : widthOf sigma sf (s.map Prod.fst) with
    | error e => rfl
    | ok w =>
      simp only [Except.bind]
      by_cases hM : M = 0 ∨ s = []
      · rw [if_pos hM, if_pos (by rw [← hn]; exact hM), density_perm w xs hp]
      · rw [if_neg hM, if_neg (by rw [← hn]; exact hM)]
        rw [not_or] at hM
        have hwp : 0 < w := by
          rcases hw with hw | hw
          · exact absurd hw hM.1
          · exact hw w hwx
        by_cases hx : xs = []
        · unfold filtered
          rw [if_pos hx, if_pos hx]
        · rw [filtered_eq M w hwp xs hx s hM.2, filtered_eq M w hwp xs hx s' (fun hh => hM.2 (hn.2 hh))]
          congr 2
          refine List.map_congr_left fun x _ => ?_
          refine List.map_congr_left fun f _ => ?_
          exact kernelMean_perm pdf w x h f

/-- The claim is false when all x are the same: the values of whichever row comes first are printed. -/
theorem C137_refuted : ¬ C137_statement := by
  intro h
  have key : ∀ a b : ℝ, smoothData [0, 0] 1 none 1 [(0, [a]), (0, [b])] = .ok [(0, [a]), (0, [a])] := by
    intro a b
    have hc : cov [(0 : ℝ), 0] = 0 := by simp [cov, mean]
    have hp : ∀ x0 x : ℝ, pdf x0 0 x = 0 := by
      intro x0 x
      unfold pdf
      rw [if_neg (lt_irrefl _)]
    have hso : sortX [((0 : ℝ), [a]), (0, [b])] = [(0, [a]), (0, [b])] := by
      unfold sortX
      rw [if_pos (by simp)]
    have hat : resampAt pdf 1 0 none (sortX [((0 : ℝ), [a]), (0, [b])]) 0 = .ok [a] := by
      rw [hso]
      simp [resampAt, smoothAt, weights, hp, fallback, searchLeft]
    unfold smoothData outPoints widthOf
    simp only [List.map_cons, List.map_nil, Except.bind, hc]
    rw [if_neg (by simp)]
    simp only [zero_mul, Real.sqrt_zero]
    rw [if_neg (by simp)]
    unfold filtered smooth
    rw [if_neg (by simp)]
    simp only [List.mapM_cons, List.mapM_nil, hat]
    rfl
  have h1 := h [0, 0] 1 none 1 [(0, [1]), (0, [2])] [(0, [2]), (0, [1])] (List.Perm.swap _ _ _)
  rw [key, key] at h1
  injection h1 with h1
  simp at h1

/-- three different x: the width is positive -/
example : ∃ w, widthOf none 1 [1, 2, 4] = .ok w ∧ 0 < w :=
  width_pos none (by simp) 1 one_pos _ (by simp [cov, mean]; norm_num)

/-! ## C138: which columns are used -/

/-- **C138**, the full claim: x and y are the columns of the file with the given numbers (negative numbers count from the right),
and a column the file does not have is refused. -/
def C138_statement : Prop :=
  ∀ (x : ℤ) (xout : List ℝ) (y : List ℤ) (sigma : Option ℝ) (sf : ℝ) (rows : List (List ℝ)) (w : ℕ), rows ≠ [] → 0 < w →
    (∀ r ∈ rows, r.length = w) →
    ((∃ c ∈ x :: y, ¬ (-(w : ℤ) ≤ c ∧ c < w)) → smoothCmd x xout y sigma sf rows = .error .IndexError) ∧
    ((∀ c ∈ x :: y, -(w : ℤ) ≤ c ∧ c < w) → ∀ s : Samples, s.length = rows.length →
      (∀ k (hk : k < s.length) (hk' : k < rows.length),
        rows[k][(x % w).toNat]? = some s[k].1 ∧ s[k].2.length = y.length ∧
          ∀ j (hj : j < y.length) (hj' : j < s[k].2.length), rows[k][(y[j] % w).toNat]? = some s[k].2[j]) →
      smoothCmd x xout y sigma sf rows = smoothData xout y.length sigma sf s)

theorem colIdx_ok (w : ℕ) (hw : 0 < w) (c : ℤ) (h : -(w : ℤ) ≤ c ∧ c < w) : colIdx w c = .ok (c % w).toNat ∧ (c % w).toNat < w := by
  have hlt : c % (w : ℤ) < w := Int.emod_lt_of_pos _ (by omega)
  have hnn : 0 ≤ c % (w : ℤ) := Int.emod_nonneg _ (by omega)
  refine ⟨?_, by omega⟩
  unfold colIdx
  rw [if_pos h]
  congr 1
  split_ifs with hc
  · congr 1
    rw [← Int.add_emod_left, Int.emod_eq_of_lt (by omega) (by omega)]
  · congr 1
    rw [Int.emod_eq_of_lt (by omega) (by omega)]

theorem cols_ok (w : ℕ) (hw : 0 < w) (y : List ℤ) (h : ∀ c ∈ y, -(w : ℤ) ≤ c ∧ c < w) :
    y.mapM (colIdx w) = .ok (y.map fun c : ℤ => (c % (w : ℤ)).toNat) := by
  induction y with
  | nil => rfl
  | cons c y ih =>
    rw [List.mapM_cons, (colIdx_ok w hw c (h c (by simp))).1, ih fun d hd => h d (by simp [hd])]
    rfl

theorem cols_error (w : ℕ) (y : List ℤ) (h : ∃ c ∈ y, ¬ (-(w : ℤ) ≤ c ∧ c < w)) : y.mapM (colIdx w) = .error .IndexError := by
  induction y with
  | nil => obtain ⟨c, hc, _⟩ := h; cases hc
  | cons d y ih =>
    rw [List.mapM_cons]
    unfold colIdx
    by_cases hd : -(w : ℤ) ≤ d ∧ d < w
    · rw [if_pos hd]
      have : ∃ c ∈ y, ¬ (-(w : ℤ) ≤ c ∧ c < w) := by
        obtain ⟨c, hc, hn⟩ := h
        rcases List.mem_cons.1 hc with rfl | hc
        · exact absurd hd hn
        · exact ⟨c, hc, hn⟩
      have := ih this
      unfold colIdx at this
      rw [this]
      rfl
    · rw [if_neg hd]
      rfl

/-- **C138** for files of at least two rows, or of one column. Missing: files of one row, see `C138_refuted`. -/
theorem C138_partial (x : ℤ) (xout : List ℝ) (y : List ℤ) (sigma : Option ℝ) (sf : ℝ) (rows : List (List ℝ)) (w : ℕ)
    (hr : 2 ≤ rows.length) (hw : 0 < w) (hall : ∀ r ∈ rows, r.length = w) :
    ((∃ c ∈ x :: y, ¬ (-(w : ℤ) ≤ c ∧ c < w)) → smoothCmd x xout y sigma sf rows = .error .IndexError) ∧
    ((∀ c ∈ x :: y, -(w : ℤ) ≤ c ∧ c < w) → ∀ s : Samples, s.length = rows.length →
      (∀ k (hk : k < s.length) (hk' : k < rows.length),
        rows[k][(x % w).toNat]? = some s[k].1 ∧ s[k].2.length = y.length ∧
          ∀ j (hj : j < y.length) (hj' : j < s[k].2.length), rows[k][(y[j] % w).toNat]? = some s[k].2[j]) →
      smoothCmd x xout y sigma sf rows = smoothData xout y.length sigma sf s) := by
  have hload : load rows = .ok ⟨w, rows⟩ := by
    match rows, hr with
    | a :: b :: rs, _ =>
      have ha := hall a (by simp)
      simp only [load]
      rw [ha, if_pos]
      rw [List.all_eq_true]
      intro q hq
      simpa using hall q (by simp only [List.mem_cons] at hq ⊢; tauto)
  unfold smoothCmd
  rw [hload]
  simp only [Except.bind]
  constructor
  · rintro ⟨c, hc, hn⟩
    unfold choose
    rcases List.mem_cons.1 hc with rfl | hc
    · unfold colIdx
      simp only
      rw [if_neg hn]
      rfl
    · rw [cols_error w y ⟨c, hc, hn⟩]
      unfold colIdx
      simp only
      split_ifs <;> rfl
  · intro hin s hl hs
    have hch : choose x y ⟨w, rows⟩ = .ok s := by
      unfold choose
      simp only
      rw [(colIdx_ok w hw x (hin x (by simp))).1, cols_ok w hw y fun c hc => hin c (by simp [hc])]
      simp only [Except.bind, Except.map]
      congr 1
      apply List.ext_getElem (by simpa using hl.symm)
      intro k hk hk'
      rw [List.length_map] at hk
      obtain ⟨h1, h2, h3⟩ := hs k hk' hk
      rw [List.getElem_map]
      apply Prod.ext
      · simp [List.getD_eq_getElem?_getD, h1]
      · apply List.ext_getElem (by simpa using h2.symm)
        intro j hj hj'
        have hj0 : j < y.length := by simpa using hj
        simp [List.getD_eq_getElem?_getD, h3 j hj0 hj']
    rw [hch]

/-- The claim is false for a file of one row: `np.loadtxt` drops the axis of length 1, so the row is read as a column. -/
theorem C138_refuted : ¬ C138_statement := by
  intro h
  have h1 := (h 1 [0, 0] [] none 1 [[1, 2]] 2 (by simp) two_pos (by simp)).2 (by simp) [(2, [])] (by simp) (by
    intro k hk hk'
    have : k = 0 := by simpa using hk
    subst this
    refine ⟨by simp, rfl, ?_⟩
    intro j hj
    simp at hj)
  have e1 : smoothCmd 1 [0, 0] [] none 1 [[1, 2]] = .error .IndexError := by
    simp [smoothCmd, load, choose, colIdx, Except.bind]
  have e2 : smoothData [0, 0] 0 none 1 [((2 : ℝ), [])] = .error .ValueError := by
    simp [smoothData, outPoints, widthOf, density, Except.bind, Except.map]
  rw [e1] at h1
  simp only [List.length_nil] at h1
  rw [e2] at h1
  simp at h1

/-- a file of one row is read as one column -/
theorem C138_row (x : ℤ) (xout : List ℝ) (y : List ℤ) (sigma : Option ℝ) (sf : ℝ) (r : List ℝ) (h : r.length ≠ 1) :
    smoothCmd x xout y sigma sf [r] = (choose x y ⟨1, r.map fun v => [v]⟩).bind (smoothData xout y.length sigma sf) := by
  unfold smoothCmd
  have : load [r] = .ok ⟨1, r.map fun v => [v]⟩ := by
    unfold load
    match r, h with
    | [], _ => rfl
    | _ :: _ :: _, _ => rfl
  rw [this]
  rfl

/-- a file with a single number is refused, and so is a file whose rows differ in length -/
theorem C138_refused (x : ℤ) (xout : List ℝ) (y : List ℤ) (sigma : Option ℝ) (sf : ℝ) :
    (∀ v, smoothCmd x xout y sigma sf [[v]] = .error .IndexError) ∧
    ∀ rows, (∃ a ∈ rows, ∃ b ∈ rows, a.length ≠ b.length) → smoothCmd x xout y sigma sf rows = .error .ValueError := by
  refine ⟨fun v => rfl, ?_⟩
  rintro rows ⟨a, ha, b, hb, hab⟩
  match rows with
  | [] => cases ha
  | [r] =>
    rw [List.mem_singleton] at ha hb
    exact absurd (by rw [ha, hb]) hab
  | r :: r' :: rs =>
    have : load (r :: r' :: rs) = .error .ValueError := by
      simp only [load]
      rw [if_neg]
      intro hall
      rw [List.all_eq_true] at hall
      have hl : ∀ q ∈ r :: r' :: rs, q.length = r.length := by
        intro q hq
        rcases List.mem_cons.1 hq with rfl | hq
        · rfl
        · simpa using hall q hq
      exact hab ((hl a ha).trans (hl b hb).symm)
    unfold smoothCmd
    rw [this]
    rfl

/-- an empty file is refused -/
theorem C138_empty (x : ℤ) (xout : List ℝ) (y : List ℤ) (sigma : Option ℝ) (sf : ℝ) : ∃ e, smoothCmd x xout y sigma sf [] = .error e := by
  unfold smoothCmd load choose
  simp only [Except.bind]
  cases colIdx 1 x with
  | error e => exact ⟨e, rfl⟩
  | ok i =>
    cases y.mapM (colIdx 1) with
    | error e => exact ⟨e, rfl⟩
    | ok js =>
      simp only [Except.map, List.map_nil]
      unfold smoothData
      simp only [List.map_nil]
      cases outPoints xout [] with
      | error e => exact ⟨e, rfl⟩
      | ok xs =>
        cases widthOf sigma sf [] with
        | error e => exact ⟨e, rfl⟩
        | ok w =>
          refine ⟨.ValueError, ?_⟩
          simp only [Except.bind, or_true, if_true]
          unfold density
          simp [Except.map]

/-! ## C139: the output points -/

theorem mapM_length {α β : Type} (f : α → Except PyErr β) (l : List α) (ys : List β) (h : l.mapM f = .ok ys) : ys.length = l.length := by
  induction l generalizing ys with
  | nil => cases h; rfl
  | cons a l ih =>
    rw [List.mapM_cons] at h
    cases ha : f a with
    | error e => rw [ha] at h; cases h
    | ok b =>
      cases hl : l.mapM f with
      | error e => rw [ha, hl] at h; cases h
      | ok bs =>
        rw [ha, hl] at h
        cases h
        simp [ih bs hl]

/-- the printed x are the output points -/
theorem printed_fst (xout : List ℝ) (M : ℕ) (sigma : Option ℝ) (sf : ℝ) (s : Samples) (out : List (ℝ × List ℝ))
    (h : smoothData xout M sigma sf s = .ok out) : outPoints xout (s.map Prod.fst) = .ok (out.map Prod.fst) := by
  unfold smoothData at h
  cases h1 : outPoints xout (s.map Prod.fst) with
  | error e => rw [h1] at h; cases h
  | ok xs =>
    cases h2 : widthOf sigma sf (s.map Prod.fst) with
    | error e => rw [h1, h2] at h; cases h
    | ok w =>
      rw [h1, h2] at h
      simp only [Except.bind] at h
      have key : ∀ ys : List (List ℝ), ys.length = xs.length → (xs.zip ys).map Prod.fst = xs := by
        intro ys hy
        rw [List.map_fst_zip (by omega)]
      split_ifs at h with hM
      · unfold density at h
        split_ifs at h
        · cases h
        · simp only [Except.map] at h
          injection h with h
          rw [← h, key _ (by simp)]
      · cases hf : filtered M w xs s with
        | error e => rw [hf] at h; cases h
        | ok ys =>
          rw [hf] at h
          simp only [Except.map] at h
          injection h with h
          rw [← h, key]
          unfold filtered at hf
          split_ifs at hf
          exact mapM_length _ _ _ hf

/-- **C139** Asked for a number of points (at least two), the command prints that many rows: the first at the smallest x, the last at
the largest, and the others evenly spaced between. A number with decimals is cut. -/
theorem C139_points (v : ℝ) (hv : 2 ≤ v) (M : ℕ) (sigma : Option ℝ) (sf : ℝ) (s : Samples) (out : List (ℝ × List ℝ))
    (h : smoothData [v] M sigma sf s = .ok out) : out.length = ⌊v⌋₊ ∧ ∃ p ∈ s, ∃ q ∈ s, (∀ t ∈ s, p.1 ≤ t.1 ∧ t.1 ≤ q.1) ∧
      (out.map Prod.fst).head? = some p.1 ∧ (out.map Prod.fst).getLast? = some q.1 ∧
      ∀ i (hi : i + 1 < out.length), out[i + 1].1 - out[i].1 = (q.1 - p.1) / (out.length - 1) := by
  have hp := printed_fst _ _ _ _ _ _ h
  unfold outPoints at hp
  simp only at hp
  have hn : 2 ≤ ⌊v⌋₊ := Nat.le_floor (by exact_mod_cast hv)
  have ht : Map.trunc v = (⌊v⌋₊ : ℤ) := by
    unfold Map.trunc
    rw [if_pos (by linarith), Int.natCast_floor_eq_floor (by linarith)]
  rw [ht] at hp
  by_cases hs : s.map Prod.fst = []
  · rw [if_pos hs] at hp; cases hp
  rw [if_neg hs, if_neg (by omega), Int.toNat_natCast] at hp
  injection hp with hp
  obtain ⟨⟨h1, h2⟩, h3, h4⟩ := least_spec _ hs
  obtain ⟨p, hps, hpe⟩ := List.mem_map.1 h1
  obtain ⟨q, hqs, hqe⟩ := List.mem_map.1 h3
  have hlen : out.length = ⌊v⌋₊ := by
    have := congrArg List.length hp
    simpa [linspace] using this.symm
  refine ⟨hlen, p, hps, q, hqs, ?_, ?_, ?_, ?_⟩
  · intro t ht
    rw [hpe, hqe]
    exact ⟨h2 _ (List.mem_map_of_mem ht), h4 _ (List.mem_map_of_mem ht)⟩
  · rw [← hp, linspace]
    obtain ⟨m, hm⟩ : ∃ m, ⌊v⌋₊ = m + 1 := ⟨_, (Nat.succ_pred_eq_of_pos (by omega)).symm⟩
    rw [hm, List.range_succ_eq_map]
    simp [hpe]
  · rw [← hp, linspace]
    obtain ⟨m, hm⟩ : ∃ m, ⌊v⌋₊ = m + 2 := ⟨⌊v⌋₊ - 2, by omega⟩
    rw [hm, List.range_succ, List.map_append, List.map_singleton, List.getLast?_append]
    simp only [List.getLast?_singleton, Option.some_or]
    congr 1
    rw [hqe]
    have : ((m + 1 : ℕ) : ℝ) / (((m + 2 : ℕ) : ℝ) - 1) = 1 := by
      rw [div_eq_one_iff_eq]
      · push_cast; ring
      · push_cast
        have : (0 : ℝ) ≤ m := by positivity
        linarith
    rw [this]
    ring
  · intro i hi
    have he : ∀ j (hj : j < out.length), out[j].1 = p.1 + (q.1 - p.1) * (j / ((out.length : ℝ) - 1)) := by
      intro j hj
      have h5 : (out.map Prod.fst)[j]? = some out[j].1 := by simp [hj]
      rw [← hp, linspace] at h5
      simp [hlen ▸ hj] at h5
      rw [← h5, hpe, hqe, hlen]
    rw [he _ hi, he i (by omega)]
    push_cast
    ring

/-- **C139** A list of several points is used as it is. -/
theorem C139_given (xout : List ℝ) (hx : 2 ≤ xout.length) (M : ℕ) (sigma : Option ℝ) (sf : ℝ) (s : Samples)
    (out : List (ℝ × List ℝ)) (h : smoothData xout M sigma sf s = .ok out) : out.map Prod.fst = xout := by
  have hp := printed_fst _ _ _ _ _ _ h
  match xout, hx with
  | _ :: _ :: _, _ =>
    unfold outPoints at hp
    simp only at hp
    injection hp with hp
    exact hp.symm

/-- such runs exist: any samples of a column with a positive width -/
theorem C139_runs (v : ℝ) (hv : 2 ≤ v) (M : ℕ) (hM : M ≠ 0) (sigma sf : ℝ) (hs : 0 < sigma * sf) (s : Samples) (hne : s ≠ []) :
    ∃ out, smoothData [v] M (some sigma) sf s = .ok out := by
  have hn : 2 ≤ ⌊v⌋₊ := Nat.le_floor (by exact_mod_cast hv)
  have ht : Map.trunc v = (⌊v⌋₊ : ℤ) := by
    unfold Map.trunc
    rw [if_pos (by linarith), Int.natCast_floor_eq_floor (by linarith)]
  unfold smoothData outPoints widthOf
  simp only
  rw [ht, if_neg (by simpa using hne), if_neg (by omega), Int.toNat_natCast]
  simp only [Except.bind]
  rw [if_neg (by tauto), filtered_eq M _ hs _ _ s hne]
  · exact ⟨_, rfl⟩
  · intro h0
    have := congrArg List.length h0
    simp only [linspace, List.length_map, List.length_range, List.length_nil] at this
    omega

/-! ## C140: the values -/

/-- **C140** With a positive width every printed value is the average of its column, each row weighted by the normal density of its
distance from the output point. -/
theorem C140_values (xout : List ℝ) (M : ℕ) (hM : M ≠ 0) (sigma : Option ℝ) (sf w : ℝ) (s : Samples) (hs : s ≠ [])
    (hw : widthOf sigma sf (s.map Prod.fst) = .ok w) (hwp : 0 < w) (xs : List ℝ) (hx : outPoints xout (s.map Prod.fst) = .ok xs)
    (hne : xs ≠ []) :
    smoothData xout M sigma sf s = .ok (xs.map fun x => (x, (List.range M).map fun f =>
      (s.map fun p => gauss w (p.1 - x) * p.2.getD f 0).sum / (s.map fun p => gauss w (p.1 - x)).sum)) := by
  unfold smoothData
  rw [hx, hw]
  simp only [Except.bind]
  rw [if_neg (by tauto), filtered_eq M w hwp xs hne s hs]
  simp only [Except.map]
  rw [zip_map_self]
  congr 1
  refine List.map_congr_left fun x _ => ?_
  congr 1
  refine List.map_congr_left fun f _ => ?_
  unfold kernelMean pdf
  simp only [hwp, if_true]

theorem avg_between (s : Samples) (g y : ℝ × List ℝ → ℝ) (hg : ∀ p, 0 < g p) (a b : ℝ) (hs : s ≠ [])
    (h : ∀ p ∈ s, a ≤ y p ∧ y p ≤ b) :
    a ≤ (s.map fun p => g p * y p).sum / (s.map g).sum ∧ (s.map fun p => g p * y p).sum / (s.map g).sum ≤ b := by
  have hpos : 0 < (s.map g).sum := by
    apply List.sum_pos
    · intro x hx
      obtain ⟨p, -, rfl⟩ := List.mem_map.1 hx
      exact hg p
    · simpa using hs
  rw [div_le_iff₀ hpos, le_div_iff₀ hpos]
  clear hpos hs
  induction s with
  | nil => simp
  | cons p s ih =>
    simp only [List.map_cons, List.sum_cons]
    have := ih fun q hq => h q (by simp [hq])
    have h1 := mul_le_mul_of_nonneg_left (h p (by simp)).1 (hg p).le
    have h2 := mul_le_mul_of_nonneg_left (h p (by simp)).2 (hg p).le
    constructor <;> nlinarith [this.1, this.2]

/-- **C140** They stay between the smallest and the largest value of the column. -/
theorem C140_bounds (xout : List ℝ) (M : ℕ) (hM : M ≠ 0) (sigma : Option ℝ) (sf w : ℝ) (s : Samples) (hs : s ≠ [])
    (hw : widthOf sigma sf (s.map Prod.fst) = .ok w) (hwp : 0 < w) (out : List (ℝ × List ℝ))
    (h : smoothData xout M sigma sf s = .ok out) (f : ℕ) (hf : f < M) (lo hi : ℝ)
    (hb : ∀ p ∈ s, lo ≤ p.2.getD f 0 ∧ p.2.getD f 0 ≤ hi) : ∀ r ∈ out, ∃ v, r.2[f]? = some v ∧ lo ≤ v ∧ v ≤ hi := by
  have hx := printed_fst _ _ _ _ _ _ h
  intro r hr
  have hne : out.map Prod.fst ≠ [] := by
    intro h0
    rw [List.map_eq_nil_iff] at h0
    rw [h0] at hr
    cases hr
  rw [C140_values xout M hM sigma sf w s hs hw hwp _ hx hne] at h
  injection h with h
  rw [← h] at hr
  obtain ⟨x, -, rfl⟩ := List.mem_map.1 hr
  exact ⟨(s.map fun p => gauss w (p.1 - x) * p.2.getD f 0).sum / (s.map fun p => gauss w (p.1 - x)).sum,
    by simp only [List.getElem?_map, List.getElem?_range hf, Option.map_some],
    avg_between s (fun p => gauss w (p.1 - x)) (fun p => p.2.getD f 0) (fun p => gauss_pos _ _ hwp) lo hi hs hb⟩

/-- a table with spread has a density, for every output point -/
example : ¬ ∃ e, smoothData [0, 1, 5] 0 none 1 [(1, []), (2, []), (4, [])] = .error e := by
  rw [C134_raises none (by simp) 1 one_ne_zero [0, 1, 5] (by simp)]
  intro h
  have := h (1, []) (by simp) (2, []) (by simp)
  norm_num at this

/-- the last column against the first -/
example : smoothCmd 0 [0, 1] [-1] (some 1) 1 [[1, 7, 3], [2, 8, 4]] = smoothData [0, 1] 1 (some 1) 1 [(1, [3]), (2, [4])] := by
  refine (C138_partial 0 [0, 1] [-1] (some 1) 1 [[1, 7, 3], [2, 8, 4]] 3 (by simp) (by norm_num) (by simp)).2 (by simp) _ rfl ?_
  intro k hk hk'
  match k, hk with
  | 0, _ => exact ⟨by simp, rfl, fun j hj _ => by match j, hj with | 0, _ => simp⟩
  | 1, _ => exact ⟨by simp, rfl, fun j hj _ => by match j, hj with | 0, _ => simp⟩

/-- **C139** asked for no points (a number that is cut to zero) the density prints nothing, and smoothing refuses; a negative
number is refused by both -/
theorem C139_none (v : ℝ) (M : ℕ) (sigma sf : ℝ) (s : Samples) (h2 : 1 < s.length) (hc : cov (s.map Prod.fst) ≠ 0)
    (hw : sigma * sf ≠ 0) : (|v| < 1 → smoothData [v] 0 (some sigma) sf s = .ok []) ∧
      (|v| < 1 → M ≠ 0 → smoothData [v] M (some sigma) sf s = .error .ValueError) ∧
      (v ≤ -1 → smoothData [v] M (some sigma) sf s = .error .ValueError) := by
  have hne : s.map Prod.fst ≠ [] := by
    intro h
    have := congrArg List.length h
    simp at this
    rw [this] at h2
    simp at h2
  have ht : |v| < 1 → Map.trunc v = 0 := by
    intro hv
    obtain ⟨a, b⟩ := abs_lt.1 hv
    unfold Map.trunc
    split_ifs with h0
    · exact Int.floor_eq_zero_iff.2 ⟨h0, b⟩
    · exact Int.ceil_eq_zero_iff.2 ⟨a, by linarith⟩
  have ho : |v| < 1 → outPoints [v] (s.map Prod.fst) = .ok [] := by
    intro hv
    unfold outPoints
    simp only
    rw [if_neg hne, ht hv, if_neg (by omega)]
    simp [linspace]
  have hs : s ≠ [] := by rintro rfl; simp at h2
  refine ⟨?_, ?_, ?_⟩
  · intro hv
    unfold smoothData
    rw [ho hv]
    simp only [Except.bind, widthOf, density]
    rw [if_pos (Or.inl trivial), if_neg]
    · rfl
    · rw [List.length_map]
      rintro (h | h | h)
      · omega
      · exact hc h
      · exact hw h
  · intro hv hM
    unfold smoothData
    rw [ho hv]
    simp only [Except.bind, widthOf]
    rw [if_neg (by simp [hM, hs])]
    rfl
  · intro hv
    have : Map.trunc v < 0 := by
      unfold Map.trunc
      rw [if_neg (by linarith)]
      have : ⌈v⌉ ≤ -1 := Int.ceil_le.2 (by exact_mod_cast hv)
      omega
    unfold smoothData outPoints
    simp only
    rw [if_neg hne, if_pos this]
    rfl

/-- two different values -/
example : smoothData [0.5] 0 (some 1) 1 [(0, []), (1, [])] = .ok [] := by
  refine (C139_none 0.5 1 1 1 _ (by simp) ?_ (by norm_num)).1 (by norm_num [abs_lt])
  norm_num [cov, mean]

end Verif.SmoothCmd
