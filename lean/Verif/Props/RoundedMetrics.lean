import Verif.Model.RoundedMetrics
import Verif.Lemmas.Binary64
import Verif.Props.Rounded
import Verif.Props.Metric
import Mathlib.Analysis.Complex.Exponential

/-! C165 Metrics in rounded arithmetic. -/

namespace Verif.Fp
open Verif.Geo Verif.Map Verif.Metric Real

/-- The error of a rounded sum, whatever the order of the additions. -/
theorem sum_near {A : Arith} (h : A.Ok) {k : ℕ} {xs : List ℝ} {s : ℝ} (hs : SumTree A k xs s) :
    |s - xs.sum| ≤ ((1 + A.u) ^ k - 1) * (xs.map abs).sum := by
  have u0 := h.u0
  have nn : ∀ l : List ℝ, 0 ≤ (l.map abs).sum := fun l => List.sum_nonneg (by
    intro x hx
    obtain ⟨y, -, rfl⟩ := List.mem_map.mp hx
    exact abs_nonneg y)
  have le : ∀ l : List ℝ, |l.sum| ≤ (l.map abs).sum := fun l => by
    induction l with
    | nil => simp
    | cons x l ih =>
      simp only [List.sum_cons, List.map_cons]
      exact (abs_add_le _ _).trans (by linarith)
  induction hs with
  | nil => simp
  | one x => simp
  | @add k l xs ys a b _ _ iha ihb =>
    have ea : (1 + A.u) ^ k ≤ (1 + A.u) ^ max k l := pow_le_pow_right₀ (by linarith) (le_max_left _ _)
    have eb : (1 + A.u) ^ l ≤ (1 + A.u) ^ max k l := pow_le_pow_right₀ (by linarith) (le_max_right _ _)
    set E := (1 + A.u) ^ max k l with hE
    have iha' : |a - xs.sum| ≤ (E - 1) * (xs.map abs).sum :=
      iha.trans (mul_le_mul_of_nonneg_right (by linarith) (nn xs))
    have ihb' : |b - ys.sum| ≤ (E - 1) * (ys.map abs).sum :=
      ihb.trans (mul_le_mul_of_nonneg_right (by linarith) (nn ys))
    have hab := h.add a b
    have e1 : |a + b - (xs.sum + ys.sum)| ≤ (E - 1) * ((xs.map abs).sum + (ys.map abs).sum) := by
      have : a + b - (xs.sum + ys.sum) = (a - xs.sum) + (b - ys.sum) := by ring
      rw [this]
      refine (abs_add_le _ _).trans ?_
      linarith
    have e2 : |a + b| ≤ E * ((xs.map abs).sum + (ys.map abs).sum) := by
      have h1 := abs_sub_abs_le_abs_sub (a + b) (xs.sum + ys.sum)
      have h2 := (abs_add_le xs.sum ys.sum).trans (add_le_add (le xs) (le ys))
      linarith
    have e3 := mul_le_mul_of_nonneg_left e2 u0
    have e4 : A.add a b - (xs ++ ys).sum = (A.add a b - (a + b)) + (a + b - (xs.sum + ys.sum)) := by
      rw [List.sum_append]; ring
    rw [e4, List.map_append, List.sum_append, pow_succ, ← hE]
    refine (abs_add_le _ _).trans ?_
    calc |A.add a b - (a + b)| + |a + b - (xs.sum + ys.sum)|
        ≤ A.u * (E * ((xs.map abs).sum + (ys.map abs).sum)) + (E - 1) * ((xs.map abs).sum + (ys.map abs).sum) :=
          add_le_add (hab.trans e3) e1
      _ = _ := by ring
  | @perm k xs ys a hp _ ih =>
    rw [← hp.sum_eq, ← (hp.map abs).sum_eq]
    exact ih

/-- the growth of the error with the number of additions -/
theorem growth {A : Arith} (h : A.Ok) {k : ℕ} (hk : (k : ℝ) ≤ 1e12) : (1 + A.u) ^ k - 1 ≤ 2.3e-16 * k := by
  have u0 := h.u0
  have u1 : A.u ≤ 2.2205e-16 := h.u1.trans (by norm_num)
  have k0 : (0 : ℝ) ≤ k := by positivity
  have e1 : (1 + A.u) ^ k ≤ exp (k * A.u) := by
    rw [exp_nat_mul]
    refine pow_le_pow_left₀ (by linarith) ?_ k
    have := add_one_le_exp A.u
    linarith
  have x0 : 0 ≤ k * A.u := mul_nonneg k0 u0
  have x1 : k * A.u ≤ 2.2205e-16 * k := by
    have := mul_le_mul_of_nonneg_left u1 k0
    linarith
  have x2 : k * A.u ≤ 1e-3 := by norm_num at x1 ⊢; linarith
  have e2 := (abs_le.mp (abs_exp_sub_one_sub_id_le (x := k * A.u) (by rw [abs_of_nonneg x0]; linarith))).2
  have e3 : (k * A.u) ^ 2 ≤ 1e-3 * (k * A.u) := by
    rw [sq]; exact mul_le_mul_of_nonneg_right x2 x0
  norm_num at x1 e3 ⊢
  linarith

/-- rounded terms and a rounded sum -/
theorem terms_near {A : Arith} (h : A.Ok) {k : ℕ} (hk : (k : ℝ) ≤ 1e12) {rays : List Ray} {f F B : Ray → ℝ} {a t : ℝ}
    (ha0 : 0 ≤ a) (ha1 : a ≤ 1e-3)
    (hf : ∀ r ∈ rays, |f r - F r| ≤ a * B r) (hF : ∀ r ∈ rays, |F r| ≤ B r) (ht : SumTree A k (rays.map f) t) :
    |t - sumBy F rays| ≤ (2.31e-16 * k + a) * sumBy B rays := by
  have h1 := sum_near h ht
  have g0 : 0 ≤ (1 + A.u) ^ k - 1 := by
    have := one_le_pow₀ (show 1 ≤ 1 + A.u by linarith [h.u0]) (n := k)
    linarith
  have g := growth h hk
  have k0 : (0 : ℝ) ≤ k := by positivity
  have p : |sumBy f rays - sumBy F rays| ≤ a * sumBy B rays ∧ ((rays.map f).map abs).sum ≤ (1 + a) * sumBy B rays ∧
      0 ≤ sumBy B rays := by
    clear h1 ht
    induction rays with
    | nil => simp [sumBy]
    | cons r rays ih =>
      obtain ⟨i1, i2, i3⟩ := ih (fun x hx => hf x (List.mem_cons_of_mem _ hx)) (fun x hx => hF x (List.mem_cons_of_mem _ hx))
      have a1 := hf r List.mem_cons_self
      have a2 := hF r List.mem_cons_self
      simp only [sumBy, List.map_cons, List.sum_cons] at i1 i2 i3 ⊢
      refine ⟨?_, ?_, ?_⟩
      · have : f r + (rays.map f).sum - (F r + (rays.map F).sum) = (f r - F r) + ((rays.map f).sum - (rays.map F).sum) := by
          ring
        rw [this]
        refine (abs_add_le _ _).trans ?_
        linarith
      · have := abs_sub_abs_le_abs_sub (f r) (F r)
        linarith
      · have := abs_nonneg (F r)
        linarith
  obtain ⟨p1, p2, p3⟩ := p
  have q : ((1 + A.u) ^ k - 1) * ((rays.map f).map abs).sum ≤ 2.3e-16 * k * (1.001 * sumBy B rays) := by
    refine mul_le_mul g (p2.trans ?_) ?_ (by positivity)
    · exact mul_le_mul_of_nonneg_right (by norm_num at ha1 ⊢; linarith) p3
    · exact List.sum_nonneg (by
        intro x hx
        obtain ⟨y, -, rfl⟩ := List.mem_map.mp hx
        exact abs_nonneg y)
  have e : t - sumBy F rays = (t - (rays.map f).sum) + (sumBy f rays - sumBy F rays) := by unfold sumBy; ring
  rw [e]
  refine (abs_add_le _ _).trans ?_
  have kb : 0 ≤ k * sumBy B rays := mul_nonneg k0 p3
  have q' : 2.3e-16 * k * (1.001 * sumBy B rays) ≤ 2.31e-16 * k * sumBy B rays := by
    norm_num; linarith
  linarith

theorem clip1_lip (x y : ℝ) : |clip1 x - clip1 y| ≤ |x - y| := by
  unfold clip1
  exact (abs_min_sub_min_le_max _ _ _ _).trans (max_le ((abs_max_sub_max_le_max _ _ _ _).trans (max_le le_rfl (by simp)))
    (by simp))

theorem clip1_abs (x : ℝ) : |clip1 x| ≤ 1 := by
  unfold clip1
  rw [abs_le]
  exact ⟨le_min (le_max_right _ _) (by norm_num), min_le_right _ _⟩

/-- directions of length at most one, up to rounding -/
def NearUnit (v : V3) : Prop := v.normSq ≤ 1.0001

/-- the cosine of a ray -/
theorem ctF_near {A : Arith} (h : A.Ok) (s : MS) (r : Ray) (hd : NearUnit s.m.dxyz) (hv : NearUnit r.v) :
    |ctF A s r - s.ct r| ≤ 9.5e-16 := by
  unfold ctF MS.ct Geo.ctheta
  refine (clip1_lip _ _).trans ((h.dot3 _ _).trans ?_)
  have u1 : A.u ≤ 2.2205e-16 := h.u1.trans (by norm_num)
  have u0 := h.u0
  have key : |s.m.dxyz.x * r.v.x| + |s.m.dxyz.y * r.v.y| + |s.m.dxyz.z * r.v.z| ≤ 1.0001 := by
    unfold NearUnit V3.normSq at hd hv
    have t : ∀ a b : ℝ, |a * b| ≤ (a ^ 2 + b ^ 2) / 2 := fun a b => by
      rw [abs_le]; constructor <;> nlinarith [sq_nonneg (a + b), sq_nonneg (a - b)]
    have := t s.m.dxyz.x r.v.x
    have := t s.m.dxyz.y r.v.y
    have := t s.m.dxyz.z r.v.z
    linarith
  have n : 0 ≤ |s.m.dxyz.x * r.v.x| + |s.m.dxyz.y * r.v.y| + |s.m.dxyz.z * r.v.z| := by positivity
  have := mul_le_mul (show 4 * A.u ≤ 8.882e-16 by norm_num at u1 ⊢; linarith) key n (by norm_num)
  refine this.trans (by norm_num)

/-- what the theorems below ask of a metric set: lengths, signs -/
structure Sound (s : MS) : Prop where
  d : NearUnit s.m.dxyz
  v : ∀ r ∈ s.rays, NearUnit r.v
  lum : ∀ r ∈ s.rays, 0 ≤ r.lum
  om : ∀ r ∈ s.rays, 0 ≤ r.om
  scale : 0 ≤ s.o.scale

/-- `scale * sum(lum * omega)` -/
noncomputable def total (s : MS) : ℝ := sumBy (fun r => r.lum * r.om) s.rays * s.o.scale

theorem scaled_near {A : Arith} (h : A.Ok) {t T e b c : ℝ} (hc : 0 ≤ c) (ht : |t - T| ≤ e * b) (hT : |T| ≤ b) (he0 : 0 ≤ e)
    (he : e ≤ 1) : |A.mul t c - T * c| ≤ (e + 5e-16) * (b * c) := by
  obtain ⟨g, hg, eg⟩ := mulR h t c
  have hb : 0 ≤ b := (abs_nonneg _).trans hT
  have e1 : A.mul t c - T * c = (t - T) * c + ((t - T) + T) * (g - 1) * c := by rw [eg]; ring
  have h1 : |(t - T) + T| ≤ 2 * b := by
    refine (abs_add_le _ _).trans ?_
    have := mul_le_mul_of_nonneg_right he hb
    linarith
  have h2 := abs_mul_le h1 hg
  rw [e1]
  refine (abs_add_le _ _).trans ?_
  rw [abs_mul _ c, abs_mul _ c, abs_of_nonneg hc]
  have h3 := mul_le_mul_of_nonneg_right ht hc
  have h4 := mul_le_mul_of_nonneg_right h2 hc
  have bc : 0 ≤ b * c := mul_nonneg hb hc
  norm_num at h4 ⊢
  linarith

theorem mul2_near {A : Arith} (h : A.Ok) {c c' l o d : ℝ} (hl : 0 ≤ l) (ho : 0 ≤ o) (hc : |c' - c| ≤ d) (h1 : |c| ≤ 1)
    (hd : d ≤ 1e-15) : |A.mul (A.mul c' l) o - c * l * o| ≤ 1.5e-15 * (l * o) := by
  obtain ⟨g1, hg1, e1⟩ := mulR h c' l
  obtain ⟨g2, hg2, e2⟩ := mulR h (A.mul c' l) o
  have hlo : 0 ≤ l * o := mul_nonneg hl ho
  have e : A.mul (A.mul c' l) o - c * l * o = ((c' - c) + ((c' - c) + c) * (g1 * g2 - 1)) * (l * o) := by
    rw [e2, e1]; ring
  have hgg := near_mul hg1 hg2 (by norm_num)
  have h2 : |(c' - c) + c| ≤ 1.001 := by
    refine (abs_add_le _ _).trans ?_
    norm_num at hd ⊢
    linarith
  have h3 := abs_mul_le h2 hgg
  rw [e, abs_mul, abs_of_nonneg hlo]
  refine mul_le_mul_of_nonneg_right ((abs_add_le _ _).trans ?_) hlo
  norm_num at h3 hd ⊢
  linarith

theorem illum_le {s : MS} (hs : Sound s) {rays : List Ray} (hr : ∀ r ∈ rays, r ∈ s.rays) :
    |sumBy (fun r => s.ct r * r.lum * r.om) rays| ≤ sumBy (fun r => r.lum * r.om) rays := by
  have hF : ∀ r ∈ rays, |s.ct r * r.lum * r.om| ≤ r.lum * r.om := fun r hr' => by
    have hl := hs.lum r (hr r hr')
    have ho := hs.om r (hr r hr')
    have hc : |s.ct r| ≤ 1 := clip1_abs _
    rw [mul_assoc, abs_mul, abs_of_nonneg (mul_nonneg hl ho)]
    exact mul_le_of_le_one_left (mul_nonneg hl ho) hc
  clear hr
  unfold sumBy
  induction rays with
  | nil => simp
  | cons r l ih =>
    simp only [List.map_cons, List.sum_cons]
    have := hF r List.mem_cons_self
    have := ih (fun q hq => hF q (List.mem_cons_of_mem _ hq))
    refine (abs_add_le _ _).trans (by linarith)

/-- illuminance of some of the rays -/
theorem illum_near {A : Arith} (h : A.Ok) {s : MS} (hs : Sound s) {rays : List Ray} (hr : ∀ r ∈ rays, r ∈ s.rays) {k : ℕ}
    (hk : (k : ℝ) ≤ 1e12) {x : ℝ} (hx : IllumF A k s rays x) :
    |x - sumBy (fun r => s.ct r * r.lum * r.om) rays * s.o.scale| ≤
      (2.31e-16 * k + 2e-15) * (sumBy (fun r => r.lum * r.om) rays * s.o.scale) := by
  obtain ⟨t, ht, rfl⟩ := hx
  have k0 : (0 : ℝ) ≤ k := by positivity
  have hF : ∀ r ∈ rays, |s.ct r * r.lum * r.om| ≤ r.lum * r.om := fun r hr' => by
    have hl := hs.lum r (hr r hr')
    have ho := hs.om r (hr r hr')
    have hc : |s.ct r| ≤ 1 := clip1_abs _
    rw [mul_assoc, abs_mul, abs_of_nonneg (mul_nonneg hl ho)]
    exact mul_le_of_le_one_left (mul_nonneg hl ho) hc
  have h1 := terms_near h hk (F := fun r => s.ct r * r.lum * r.om) (B := fun r => r.lum * r.om) (a := 1.5e-15) (by norm_num)
    (by norm_num) (fun r hr' => mul2_near h (hs.lum r (hr r hr')) (hs.om r (hr r hr'))
      (ctF_near h s r hs.d (hs.v r (hr r hr'))) (clip1_abs _) (by norm_num)) hF ht
  have h2 := illum_le hs hr
  have h3 := scaled_near h hs.scale h1 h2 (by positivity) (by linarith)
  refine h3.trans (mul_le_mul_of_nonneg_right (by norm_num; linarith) (mul_nonneg ((abs_nonneg _).trans h2) hs.scale))

/-- **C165** the illuminance, for every order of the additions -/
theorem C165_illum {A : Arith} (h : A.Ok) {s : MS} (hs : Sound s) {k : ℕ} (hk : (k : ℝ) ≤ 1e12) {x : ℝ}
    (hx : IllumF A k s s.rays x) : |x - s.illum| ≤ (2.31e-16 * k + 2e-15) * total s :=
  illum_near h hs (fun _ hr => hr) hk hx

/-- the same metric computed with two orders of the additions -/
theorem C165_order {A : Arith} (h : A.Ok) {s : MS} (hs : Sound s) {k l : ℕ} (hk : (k : ℝ) ≤ 1e12) (hl : (l : ℝ) ≤ 1e12)
    {x y : ℝ} (hx : IllumF A k s s.rays x) (hy : IllumF A l s s.rays y) :
    |x - y| ≤ (2.31e-16 * (k + l) + 4e-15) * total s := by
  have h1 := C165_illum h hs hk hx
  have h2 := C165_illum h hs hl hy
  rw [abs_sub_comm] at h2
  have e : x - y = (x - s.illum) + (s.illum - y) := by ring
  rw [e]
  refine (abs_add_le _ _).trans ?_
  linarith

/-- `x` is `X` up to a relative error -/
def Rel (e x X : ℝ) : Prop := ∃ g, |g - 1| ≤ e ∧ x = X * g

theorem Rel.refl (x : ℝ) : Rel 0 x x := ⟨1, by simp, by simp⟩

theorem Rel.of {e x X : ℝ} (he : 0 ≤ e) (hX : 0 ≤ X) (h : |x - X| ≤ e * X) : Rel e x X :=
  rel he (by rw [abs_of_nonneg hX]; exact h)

theorem Rel.mono {e f x X : ℝ} (h : Rel e x X) (hf : e ≤ f) : Rel f x X := by
  obtain ⟨g, a, b⟩ := h
  exact ⟨g, a.trans hf, b⟩

theorem Rel.abs {e x X : ℝ} (h : Rel e x X) (hX : 0 ≤ X) : |x - X| ≤ e * X := by
  obtain ⟨g, a, rfl⟩ := h
  rw [show X * g - X = (g - 1) * X by ring, abs_mul, abs_of_nonneg hX]
  exact mul_le_mul_of_nonneg_right a hX

theorem Rel.pos {e x X : ℝ} (h : Rel e x X) (he : e ≤ 9e-4) : 0 < x ↔ 0 < X := by
  obtain ⟨g, a, rfl⟩ := h
  have : 0 < g := by have := (abs_le.mp a).1; linarith
  exact mul_pos_iff_of_pos_right this

theorem Rel.mulA {A : Arith} (h : A.Ok) {e f x X y Y : ℝ} (hx : Rel e x X) (hy : Rel f y Y) (he : e ≤ 4e-4) (hf : f ≤ 4e-4) :
    Rel (1.003 * (e + f) + 2.4e-16) (A.mul x y) (X * Y) := by
  obtain ⟨g, a, rfl⟩ := hx
  obtain ⟨g', b, rfl⟩ := hy
  obtain ⟨r, hr, er⟩ := mulR h (X * g) (Y * g')
  have e0 : 0 ≤ e := (abs_nonneg _).trans a
  have f0 : 0 ≤ f := (abs_nonneg _).trans b
  have c := near_mul a b (by linarith)
  have d := near_mul c hr (by linarith)
  refine ⟨g * g' * r, d.trans (by linarith), ?_⟩
  rw [er]; ring

theorem Rel.divA {A : Arith} (h : A.Ok) {e f x X y Y : ℝ} (hx : Rel e x X) (hy : Rel f y Y) (hY : Y ≠ 0) (he : e ≤ 4e-4)
    (hf : f ≤ 4e-4) : Rel (1.013 * (e + f) + 2.4e-16) (A.div x y) (X / Y) := by
  obtain ⟨g, a, rfl⟩ := hx
  obtain ⟨g', b, rfl⟩ := hy
  have g0 : g' ≠ 0 := by have := (abs_le.mp b).1; intro hg; rw [hg] at this; linarith
  obtain ⟨r, hr, er⟩ := divR h (X * g) (mul_ne_zero hY g0)
  have e0 : 0 ≤ e := (abs_nonneg _).trans a
  have f0 : 0 ≤ f := (abs_nonneg _).trans b
  have c := near_mul a (near_inv b (by linarith)) (by linarith)
  have d := near_mul c hr (by linarith)
  refine ⟨g * (1 / g') * r, d.trans (by linarith), ?_⟩
  rw [er]
  field_simp

theorem sumBy_nonneg {f : Ray → ℝ} {rays : List Ray} (h : ∀ r ∈ rays, 0 ≤ f r) : 0 ≤ sumBy f rays := by
  unfold sumBy
  refine List.sum_nonneg ?_
  intro x hx
  obtain ⟨r, hr, rfl⟩ := List.mem_map.mp hx
  exact h r hr

/-- a rounded sum of products that are rounded up to a relative error -/
theorem sum_rel {A : Arith} (h : A.Ok) {k : ℕ} (hk : (k : ℝ) ≤ 1e12) {rays : List Ray} {f F : Ray → ℝ} {a t : ℝ}
    (ha0 : 0 ≤ a) (ha1 : a ≤ 1e-3) (hf : ∀ r ∈ rays, |f r - F r| ≤ a * F r) (hF : ∀ r ∈ rays, 0 ≤ F r)
    (ht : SumTree A k (rays.map f) t) : Rel (2.31e-16 * k + a) t (sumBy F rays) :=
  Rel.of (by positivity) (sumBy_nonneg hF)
    (terms_near h hk ha0 ha1 hf (fun r hr => by rw [abs_of_nonneg (hF r hr)]) ht)

theorem area_rel {A : Arith} (h : A.Ok) {s : MS} (hs : Sound s) {k : ℕ} (hk : (k : ℝ) ≤ 1e12) {a : ℝ} (ha : AreaF A k s a) :
    Rel (2.31e-16 * k) a (omSum s.rays) := by
  have := sum_rel h hk (f := Ray.om) (F := Ray.om) (a := 0) le_rfl (by norm_num) (fun r _ => by simp) hs.om ha
  rw [add_zero] at this
  exact this

/-- **C165** the average luminance, when the view area is the sum of the solid angles -/
theorem C165_avglum {A : Arith} (h : A.Ok) {s : MS} (hs : Sound s) (hA : s.area = omSum s.rays) (hA0 : 0 < s.area) {k m n : ℕ}
    (hn : (n : ℝ) ≤ 1e11) (hk : k ≤ n) (hm : m ≤ n) {a x : ℝ} (ha : AreaF A m s a) (hx : AvgF A k s a x) :
    Rel (4.7e-16 * n + 1e-15) x s.avglum := by
  obtain ⟨t, ht, rfl⟩ := hx
  have k0 : (0 : ℝ) ≤ k := by positivity
  have m0 : (0 : ℝ) ≤ m := by positivity
  have hk' : (k : ℝ) ≤ n := by exact_mod_cast hk
  have hm' : (m : ℝ) ≤ n := by exact_mod_cast hm
  have h1 := sum_rel h (by linarith) (F := fun r => r.lum * r.om) (a := 2.3e-16) (by norm_num) (by norm_num) (fun r hr => by
    obtain ⟨g, hg, eg⟩ := mulR h r.lum r.om
    have p := mul_nonneg (hs.lum r hr) (hs.om r hr)
    exact Rel.abs ⟨g, hg, eg⟩ p) (fun r hr => mul_nonneg (hs.lum r hr) (hs.om r hr)) ht
  have h2 := h1.mulA h (Rel.refl s.o.scale) (by linarith) (by norm_num)
  have h3 := area_rel h hs (by linarith) ha
  have h4 := h2.divA h h3 (by rw [← hA]; exact hA0.ne') (by linarith) (by linarith)
  rw [← hA] at h4
  exact h4.mono (by linarith)

/-- the average of the squared luminance -/
theorem avg2_rel {A : Arith} (h : A.Ok) {s : MS} (hs : Sound s) (hA : s.area = omSum s.rays) (hA0 : 0 < s.area) {k m n : ℕ}
    (hn : (n : ℝ) ≤ 1e11) (hk : k ≤ n) (hm : m ≤ n) {a x : ℝ} (ha : AreaF A m s a) (hx : Avg2F A k s a x) :
    Rel (4.7e-16 * n + 2e-15) x (sumBy (fun r => r.lum * r.lum * r.om) s.rays * s.o.scale ^ 2 / s.area) := by
  obtain ⟨t, ht, rfl⟩ := hx
  have k0 : (0 : ℝ) ≤ k := by positivity
  have m0 : (0 : ℝ) ≤ m := by positivity
  have hk' : (k : ℝ) ≤ n := by exact_mod_cast hk
  have hm' : (m : ℝ) ≤ n := by exact_mod_cast hm
  have pos : ∀ r ∈ s.rays, 0 ≤ r.lum * r.lum * r.om := fun r hr =>
    mul_nonneg (mul_nonneg (hs.lum r hr) (hs.lum r hr)) (hs.om r hr)
  have h1 := sum_rel h (by linarith) (F := fun r => r.lum * r.lum * r.om) (a := 5e-16) (by norm_num) (by norm_num)
    (fun r hr => by
      have q := ((Rel.refl r.lum).mulA h (Rel.refl r.lum) (by norm_num) (by norm_num)).mulA h (Rel.refl r.om) (by norm_num)
        (by norm_num)
      exact (q.mono (by norm_num)).abs (pos r hr)) pos ht
  have hsc := (Rel.refl s.o.scale).mulA h (Rel.refl s.o.scale) (by norm_num) (by norm_num)
  rw [← sq] at hsc
  have h2 := h1.mulA h hsc (by linarith) (by norm_num)
  have h3 := area_rel h hs (by linarith) ha
  have h4 := h2.divA h h3 (by rw [← hA]; exact hA0.ne') (by linarith) (by linarith)
  rw [← hA] at h4
  exact h4.mono (by linarith)

/-- **C165** the contrast ratio, when the view area is the sum of the solid angles -/
theorem C165_gcr {A : Arith} (h : A.Ok) {s : MS} (hs : Sound s) (hA : s.area = omSum s.rays) (hA0 : 0 < s.area) {k m n : ℕ}
    (hn : (n : ℝ) ≤ 1e11) (hk : k ≤ n) (hm : m ≤ n) {a x : ℝ} (ha : AreaF A m s a) (hx : GcrF A k s a x) :
    Rel (1.5e-15 * n + 5e-15) x s.gcr := by
  obtain ⟨l, av, a2, hl, hav, ha2, rfl⟩ := hx
  have n0 : (0 : ℝ) ≤ n := by positivity
  have h1 := C165_avglum h hs hA hA0 hn (hl.trans hk) hm ha hav
  have h2 := avg2_rel h hs hA hA0 hn hk hm ha ha2
  have hp := h1.pos (by linarith)
  unfold MS.gcr
  by_cases hc : 0 < s.avglum
  · rw [if_pos hc, if_pos (hp.mpr hc)]
    have h3 := h1.mulA h h1 (by linarith) (by linarith)
    have h4 := h2.divA h h3 (mul_pos hc hc).ne' (by linarith) (by linarith)
    rw [← sq] at h4
    exact h4.mono (by linarith)
  · rw [if_neg hc, if_neg (fun q => hc (hp.mp q))]
    exact (Rel.refl 1).mono (by positivity)

/-- **C165** a computed contrast ratio is below one by rounding only -/
theorem C165_gcr_ge {A : Arith} (h : A.Ok) {s : MS} (hs : Sound s) (hA : s.area = omSum s.rays) (hA0 : 0 < s.area)
    {k m n : ℕ} (hn : (n : ℝ) ≤ 1e11) (hk : k ≤ n) (hm : m ≤ n) {a x : ℝ} (ha : AreaF A m s a) (hx : GcrF A k s a x) :
    1 - (1.5e-15 * n + 5e-15) ≤ x := by
  obtain ⟨g, hg, rfl⟩ := C165_gcr h hs hA hA0 hn hk hm ha hx
  have h1 := (C66_gcr_ge_one s hA hs.om).1
  have n0 : (0 : ℝ) ≤ n := by positivity
  have h2 := (abs_le.mp hg).1
  nlinarith

/-- **C165** the background luminance: the error is a part of all the light, not of the background. Missing for the full
claim: that it is not negative (`C165_refuted`). -/
theorem C165_backlum_partial {A : Arith} (h : A.Ok) {s : MS} (hs : Sound s) {k : ℕ} (hk : (k : ℝ) ≤ 1e12) {x : ℝ}
    (hx : BackF A k s x) : |x - s.backlum| ≤ (1.6e-16 * k + 3e-15) * total s := by
  obtain ⟨l, e, es, hl, he, hes, rfl⟩ := hx
  have k0 : (0 : ℝ) ≤ k := by positivity
  have l0 : (0 : ℝ) ≤ l := by positivity
  have hl' : (l : ℝ) ≤ k := by exact_mod_cast hl
  have sub : ∀ r ∈ s.sources, r ∈ s.rays := fun r hr => (List.mem_filter.mp hr).1
  have h1 := C165_illum h hs hk he
  have h2 := illum_near h hs sub (by linarith) hes
  set T := total s with hT
  set Ts := sumBy (fun r => r.lum * r.om) s.sources * s.o.scale with hTs
  have hTs0 : 0 ≤ Ts := mul_nonneg (sumBy_nonneg fun r hr => mul_nonneg (hs.lum r (sub r hr)) (hs.om r (sub r hr))) hs.scale
  have hle : Ts ≤ T := by
    rw [hT, hTs]
    unfold total
    refine mul_le_mul_of_nonneg_right ?_ hs.scale
    unfold sumBy MS.sources
    exact List.Sublist.sum_le_sum ((List.filter_sublist).map _) (by
      intro x hx
      obtain ⟨r, hr, rfl⟩ := List.mem_map.mp hx
      exact mul_nonneg (hs.lum r hr) (hs.om r hr))
  have bE : |s.illum| ≤ T := by
    unfold MS.illum
    rw [hT, abs_mul, abs_of_nonneg hs.scale]
    exact mul_le_mul_of_nonneg_right (illum_le hs (fun _ hr => hr)) hs.scale
  have bS : |s.srcillum| ≤ Ts := by
    unfold MS.srcillum
    rw [hTs, abs_mul, abs_of_nonneg hs.scale]
    exact mul_le_mul_of_nonneg_right (illum_le hs sub) hs.scale
  have h2' : |es - s.srcillum| ≤ (2.31e-16 * k + 2e-15) * T := by
    refine h2.trans (mul_le_mul ?_ hle hTs0 (by positivity))
    linarith
  obtain ⟨g1, hg1, e1⟩ := subR h e es
  have hpi : |A.pi / π - 1| ≤ 2.3e-16 := by
    have h3 : |A.pi - π| ≤ 2.3e-16 * π := h.pi.trans (mul_le_mul_of_nonneg_right h.small pi_pos.le)
    have : A.pi / π - 1 = (A.pi - π) / π := by field_simp
    rw [this, abs_div, abs_of_pos pi_pos, div_le_iff₀ pi_pos]
    exact h3
  have hpi0 : A.pi ≠ 0 := by
    intro h0
    rw [h0] at hpi
    norm_num at hpi
  obtain ⟨g2, hg2, e2⟩ := divR h (A.sub e es) hpi0
  have hG := near_mul (near_mul hg1 (near_inv hpi (by norm_num)) (by norm_num)) hg2 (by norm_num)
  set G := g1 * (1 / (A.pi / π)) * g2 with hGd
  have e3 : A.div (A.sub e es) A.pi - s.backlum =
      ((e - s.illum) - (es - s.srcillum)) / π + ((e - s.illum) - (es - s.srcillum) + (s.illum - s.srcillum)) / π * (G - 1) := by
    unfold MS.backlum
    rw [e2, e1, hGd]
    have := pi_ne_zero
    field_simp
    ring
  have d1 : |(e - s.illum) - (es - s.srcillum)| ≤ 2 * ((2.31e-16 * k + 2e-15) * T) := by
    refine (abs_sub _ _).trans ?_
    linarith
  have d2 : |s.illum - s.srcillum| ≤ 2 * T := by
    refine (abs_sub _ _).trans ?_
    linarith
  have T0 : 0 ≤ T := hTs0.trans hle
  have kT : 0 ≤ k * T := mul_nonneg k0 T0
  have kT' : k * T ≤ 1e12 * T := mul_le_mul_of_nonneg_right hk T0
  have d3 : |(e - s.illum) - (es - s.srcillum) + (s.illum - s.srcillum)| ≤ 2.01 * T := by
    refine (abs_add_le _ _).trans ?_
    linarith
  have pinv : ∀ z : ℝ, |z / π| ≤ |z| / 3.1415 := fun z => by
    rw [abs_div, abs_of_pos pi_pos]
    exact div_le_div_of_nonneg_left (abs_nonneg _) (by norm_num) pi_gt_d4.le
  rw [e3]
  refine (abs_add_le _ _).trans ?_
  have f1 := pinv ((e - s.illum) - (es - s.srcillum))
  have f2 := abs_mul_le (pinv ((e - s.illum) - (es - s.srcillum) + (s.illum - s.srcillum))) hG
  have f3 : |(e - s.illum) - (es - s.srcillum)| / 3.1415 ≤ 2 * ((2.31e-16 * k + 2e-15) * T) / 3.1415 :=
    div_le_div_of_nonneg_right d1 (by norm_num)
  have f4 : |(e - s.illum) - (es - s.srcillum) + (s.illum - s.srcillum)| / 3.1415 ≤ 2.01 * T / 3.1415 :=
    div_le_div_of_nonneg_right d3 (by norm_num)
  have f5 := mul_le_mul_of_nonneg_right f4 (show (0 : ℝ) ≤ 1.001 * (1.001 * (2.3e-16 + 1.01 * 2.3e-16) + 2.3e-16) by norm_num)
  refine (add_le_add (f1.trans f3) (f2.trans f5)).trans ?_
  norm_num
  linarith

/-- What a user may expect: the background is not darker than black. -/
def C165_statement (A : Arith) : Prop :=
  ∀ (s : MS) (k : ℕ) (x : ℝ), Sound s → (∀ r ∈ s.rays, 0 ≤ s.ct r) → BackF A k s x → 0 ≤ x

/-- a ray of the witness -/
noncomputable def wray (om lum : ℝ) : Ray := ⟨⟨0, 0, 1⟩, om, lum⟩

/-- one large and three small sources beside a black ray, in the direction of view -/
noncomputable def wset : MS where
  m := ⟨⟨0, 0, 1⟩, 180, 1, false, (1, 1), (0, 0), 2 * π, 1, 1⟩
  rays := [wray 1 0, wray (1 / 16) 16, wray (2⁻¹ ^ 58) 16, wray (2⁻¹ ^ 58) 16, wray (2⁻¹ ^ 58) 16]
  area := 2 * π
  o := ⟨179, true, true, 2000, 30, false⟩

theorem wset_sound : Sound wset where
  d := by unfold NearUnit V3.normSq wset; norm_num
  v r hr := by
    simp only [wset, List.mem_cons, List.not_mem_nil, or_false] at hr
    rcases hr with rfl | rfl | rfl | rfl | rfl <;> (unfold NearUnit V3.normSq wray; norm_num)
  lum r hr := by
    simp only [wset, List.mem_cons, List.not_mem_nil, or_false] at hr
    rcases hr with rfl | rfl | rfl | rfl | rfl <;> (unfold wray; norm_num)
  om r hr := by
    simp only [wset, List.mem_cons, List.not_mem_nil, or_false] at hr
    rcases hr with rfl | rfl | rfl | rfl | rfl <;> (unfold wray; norm_num)
  scale := by unfold wset; norm_num

theorem rnd_one : rnd 1 = 1 := by have := rnd_whole (k := 1) (by norm_num); push_cast at this; exact this

theorem wct (om lum : ℝ) : ctF binary64 wset (wray om lum) = 1 := by
  unfold ctF wset wray binary64 clip1
  simp only
  norm_num [rnd_zero, rnd_one]

theorem wterm {lum om x y : ℝ} (h1 : rnd lum = x) (h2 : rnd (x * om) = y) :
    binary64.mul (binary64.mul (ctF binary64 wset (wray om lum)) (wray om lum).lum) (wray om lum).om = y := by
  rw [wct]
  unfold binary64 wray
  simp only
  rw [one_mul, h1, h2]

/-- **C165** in binary64 the background can come out darker than black, for some orders of the additions: the sources are
added up to more than all the rays -/
theorem C165_refuted : ¬ C165_statement binary64 := by
  intro hc
  have r16 : rnd 16 = 16 := by have := rnd_whole (k := 16) (by norm_num); push_cast at this; exact this
  have r1 : rnd (16 * (1 / 16)) = 1 := by norm_num [rnd_one]
  have rs : rnd (16 * 2⁻¹ ^ 58) = 2⁻¹ ^ 54 := by
    have := rnd_float (k := 1) (-54) (by norm_num)
    norm_num at this ⊢
    exact this
  have r0 : rnd (0 * 1) = 0 := by rw [zero_mul, rnd_zero]
  have t0 := wterm (om := 1) rnd_zero r0
  have t1 := wterm (om := 1 / 16) r16 r1
  have ts := wterm (om := 2⁻¹ ^ 58) r16 rs
  set f : Ray → ℝ := fun r => binary64.mul (binary64.mul (ctF binary64 wset r) r.lum) r.om with hf
  have hsrc : wset.sources = [wray (1 / 16) 16, wray (2⁻¹ ^ 58) 16, wray (2⁻¹ ^ 58) 16, wray (2⁻¹ ^ 58) 16] := by
    have e0 : wset.src (wray 1 0) = false := by
      unfold MS.src MS.threshold wset wray; norm_num
    have e1 : ∀ om, wset.src (wray om 16) = true := fun om => by
      unfold MS.src MS.threshold wset wray; norm_num
    unfold MS.sources
    show List.filter wset.src [wray 1 0, wray (1 / 16) 16, wray (2⁻¹ ^ 58) 16, wray (2⁻¹ ^ 58) 16, wray (2⁻¹ ^ 58) 16] = _
    simp only [List.filter_cons, e0, e1, Bool.false_eq_true, if_false, if_true, List.filter_nil]
  have hall : wset.rays.map f = [0, 1, 2⁻¹ ^ 54, 2⁻¹ ^ 54, 2⁻¹ ^ 54] := by
    show [f _, f _, f _, f _, f _] = _
    rw [hf]
    simp only
    rw [t0, t1, ts]
  have hsr : wset.sources.map f = [1, 2⁻¹ ^ 54, 2⁻¹ ^ 54, 2⁻¹ ^ 54] := by
    rw [hsrc]
    show [f _, f _, f _, f _] = _
    rw [hf]
    simp only
    rw [t1, ts]
  have a1 : binary64.add 0 1 = 1 := by unfold binary64; simp only; rw [zero_add, rnd_one]
  have a2 : binary64.add 1 (2⁻¹ ^ 54) = 1 := by
    unfold binary64
    simp only
    rw [rnd_eq 0 (2 ^ 52) (by norm_num [abs_of_pos]) (by norm_num [abs_of_pos]) (by norm_num [abs_lt])]
    norm_num
  have a3 : binary64.add (2⁻¹ ^ 54) (2⁻¹ ^ 54) = 2⁻¹ ^ 53 := by
    unfold binary64
    simp only
    have := rnd_float (k := 1) (-53) (by norm_num)
    norm_num at this ⊢
    exact this
  have a4 : binary64.add (2⁻¹ ^ 53) (2⁻¹ ^ 54) = 3 * 2⁻¹ ^ 54 := by
    unfold binary64
    simp only
    have := rnd_float (k := 3) (-54) (by norm_num)
    norm_num at this ⊢
    exact this
  have a5 : binary64.add 1 (3 * 2⁻¹ ^ 54) = 1 + 2⁻¹ ^ 52 := by
    unfold binary64
    simp only
    rw [rnd_eq 0 (2 ^ 52 + 1) (by norm_num [abs_of_pos]) (by norm_num [abs_of_pos]) (by norm_num [abs_lt])]
    norm_num
  have m1 : binary64.mul 1 179 = 179 := by
    unfold binary64
    simp only
    have := rnd_whole (k := 179) (by norm_num)
    norm_num at this ⊢
    exact this
  have m2 : binary64.mul (1 + 2⁻¹ ^ 52) 179 = 179 + 2⁻¹ ^ 45 := by
    unfold binary64
    simp only
    rw [rnd_eq 7 (179 * 2 ^ 45 + 1) (by norm_num [abs_of_pos]) (by norm_num [abs_of_pos]) (by norm_num [abs_lt])]
    norm_num
  have s1 : binary64.sub 179 (179 + 2⁻¹ ^ 45) = -2⁻¹ ^ 45 := by
    unfold binary64
    simp only
    have := rnd_float (k := -1) (-45) (by norm_num)
    norm_num at this ⊢
    exact this
  have st : ∀ x y : ℝ, SumTree binary64 0 [x] x := fun x _ => SumTree.one x
  have hE : IllumF binary64 4 wset wset.rays 179 := by
    refine ⟨1, ?_, m1.symm⟩
    rw [hall]
    have b1 := SumTree.add (SumTree.one (A := binary64) 0) (SumTree.one 1)
    rw [a1] at b1
    have b2 := SumTree.add b1 (SumTree.one (2⁻¹ ^ 54))
    rw [a2] at b2
    have b3 := SumTree.add b2 (SumTree.one (2⁻¹ ^ 54))
    rw [a2] at b3
    have b4 := SumTree.add b3 (SumTree.one (2⁻¹ ^ 54))
    rw [a2] at b4
    exact b4
  have hS : IllumF binary64 3 wset wset.sources (179 + 2⁻¹ ^ 45) := by
    refine ⟨1 + 2⁻¹ ^ 52, ?_, m2.symm⟩
    rw [hsr]
    have b1 := SumTree.add (SumTree.one (A := binary64) (2⁻¹ ^ 54)) (SumTree.one (2⁻¹ ^ 54))
    rw [a3] at b1
    have b2 := SumTree.add b1 (SumTree.one (2⁻¹ ^ 54))
    rw [a4] at b2
    have b3 := SumTree.add (SumTree.one (A := binary64) 1) b2
    rw [a5] at b3
    exact b3
  have h0 := hc wset 4 _ wset_sound (fun r hr => by
    simp only [wset, List.mem_cons, List.not_mem_nil, or_false] at hr
    rcases hr with rfl | rfl | rfl | rfl | rfl <;>
      (unfold MS.ct Geo.ctheta clip1 V3.dot wset wray; norm_num)) ⟨3, 179, 179 + 2⁻¹ ^ 45, by norm_num, hE, hS, rfl⟩
  rw [s1] at h0
  have hpi : 0 < binary64.pi := by
    have := (abs_le.mp (binary64_ok.pi)).1
    have h1 := binary64_ok.small
    have := pi_pos
    nlinarith
  obtain ⟨g, hg, eg⟩ := divR binary64_ok (-2⁻¹ ^ 45) hpi.ne'
  rw [eg] at h0
  have g0 : 0 < g := by have := (abs_le.mp hg).1; linarith
  have : (-2⁻¹ ^ 45 : ℝ) / binary64.pi * g < 0 := by
    refine mul_neg_of_neg_of_pos (div_neg_of_neg_of_pos (by norm_num) hpi) g0
  linarith

/-- the conditions can be met: the set of two rays of different luminance, with the sum of its solid angles -/
example : let s : MS := ⟨wset.m, [wray 1 2, wray 2 3], 3, wset.o⟩
    binary64.Ok ∧ Sound s ∧ s.area = omSum s.rays ∧ 0 < s.area ∧ AreaF binary64 1 s (binary64.add 1 2) := by
  refine ⟨binary64_ok, ?_, ?_, by norm_num, ?_⟩
  · constructor
    · exact wset_sound.d
    · intro r hr
      simp only [List.mem_cons, List.not_mem_nil, or_false] at hr
      rcases hr with rfl | rfl <;> (unfold NearUnit V3.normSq wray; norm_num)
    · intro r hr
      simp only [List.mem_cons, List.not_mem_nil, or_false] at hr
      rcases hr with rfl | rfl <;> (unfold wray; norm_num)
    · intro r hr
      simp only [List.mem_cons, List.not_mem_nil, or_false] at hr
      rcases hr with rfl | rfl <;> (unfold wray; norm_num)
    · exact wset_sound.scale
  · unfold omSum wray; norm_num
  · exact SumTree.add (SumTree.one 1) (SumTree.one 2)

end Verif.Fp
