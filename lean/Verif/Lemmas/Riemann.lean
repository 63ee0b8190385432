import Mathlib.MeasureTheory.Integral.DominatedConvergence
import Mathlib.MeasureTheory.Integral.Bochner.Set
import Mathlib.MeasureTheory.Measure.Lebesgue.Basic
import Mathlib.MeasureTheory.Constructions.BorelSpace.Order

/-! Sums over the cells of a square grid tend to integrals. -/

namespace Verif.Riemann
open MeasureTheory Filter Topology Set

/-- the centre of cell `i` of `n` on a side of length `K` around the origin -/
noncomputable def ctr (K : ℝ) (n i : ℕ) : ℝ := K * (((i : ℝ) + 1 / 2) / n - 1 / 2)

/-- the cell -/
def cell (K : ℝ) (n i : ℕ) : Set ℝ := Ico (K * ((i : ℝ) / n - 1 / 2)) (K * (((i : ℝ) + 1) / n - 1 / 2))

/-- the number of the cell of a point -/
noncomputable def idx (K : ℝ) (n : ℕ) (x : ℝ) : ℕ := ⌊(x / K + 1 / 2) * n⌋₊

theorem mem_cell {K : ℝ} (hK : 0 < K) {n : ℕ} (hn : 0 < n) {x : ℝ} (h0 : -(K / 2) ≤ x) (i : ℕ) :
    x ∈ cell K n i ↔ idx K n x = i := by
  have hN : (0 : ℝ) < n := by exact_mod_cast hn
  have h1 : 0 ≤ (x / K + 1 / 2) * n := by
    have : -(1 / 2) ≤ x / K := by rw [le_div_iff₀ hK]; linarith
    exact mul_nonneg (by linarith) hN.le
  unfold idx cell
  rw [Nat.floor_eq_iff h1, mem_Ico]
  have e : ∀ t : ℝ, K * (t / n - 1 / 2) ≤ x ↔ t ≤ (x / K + 1 / 2) * n := by
    intro t
    have a : K * (t / n - 1 / 2) = (t / n) * K - K / 2 := by ring
    have b : (x / K + 1 / 2) * n = ((x + K / 2) / K) * n := by field_simp
    rw [a, b, sub_le_iff_le_add, ← le_div_iff₀ hK, div_le_iff₀ hN]
  refine and_congr (e i) ?_
  have := (e ((i : ℝ) + 1)).not
  rwa [not_le, not_le] at this

theorem idx_lt {K : ℝ} (hK : 0 < K) {n : ℕ} (hn : 0 < n) {x : ℝ} (h0 : -(K / 2) ≤ x) (h1 : x < K / 2) :
    idx K n x < n := by
  have hN : (0 : ℝ) < n := by exact_mod_cast hn
  have a : -(1 / 2) ≤ x / K := by rw [le_div_iff₀ hK]; linarith
  have b : x / K < 1 / 2 := by rw [div_lt_iff₀ hK]; linarith
  unfold idx
  rw [Nat.floor_lt (mul_nonneg (by linarith) hN.le)]
  nlinarith

theorem ctr_near {K : ℝ} (hK : 0 < K) {n : ℕ} (hn : 0 < n) {x : ℝ} (h0 : -(K / 2) ≤ x) :
    |ctr K n (idx K n x) - x| ≤ K / 2 / n := by
  have hN : (0 : ℝ) < n := by exact_mod_cast hn
  have := (mem_cell hK hn h0 (idx K n x)).2 rfl
  unfold cell at this
  obtain ⟨a, b⟩ := this
  have e1 : ctr K n (idx K n x) = K * ((idx K n x : ℝ) / n - 1 / 2) + K / 2 / n := by unfold ctr; field_simp; ring
  have e2 : ctr K n (idx K n x) = K * (((idx K n x : ℝ) + 1) / n - 1 / 2) - K / 2 / n := by unfold ctr; field_simp; ring
  rw [abs_le]
  constructor <;> linarith

theorem ctr_tendsto {K : ℝ} (hK : 0 < K) {x : ℝ} (h0 : -(K / 2) ≤ x) :
    Tendsto (fun n => ctr K n (idx K n x)) atTop (𝓝 x) := by
  rw [tendsto_iff_dist_tendsto_zero]
  refine squeeze_zero' (Eventually.of_forall fun _ => dist_nonneg) ?_ (tendsto_const_div_atTop_nhds_zero_nat (K / 2))
  filter_upwards [eventually_gt_atTop 0] with n hn
  rw [Real.dist_eq]
  exact ctr_near hK hn h0

/-- the square -/
def sq (K : ℝ) : Set (ℝ × ℝ) := Ico (-(K / 2)) (K / 2) ×ˢ Ico (-(K / 2)) (K / 2)

theorem sq_measurable (K : ℝ) : MeasurableSet (sq K) := measurableSet_Ico.prod measurableSet_Ico

/-- the function that is constant on every cell -/
noncomputable def step (K : ℝ) (n : ℕ) (f : ℝ × ℝ → ℝ) (p : ℝ × ℝ) : ℝ :=
  ∑ i ∈ Finset.range n, ∑ j ∈ Finset.range n,
    (cell K n i ×ˢ cell K n j).indicator (fun _ => f (ctr K n i, ctr K n j)) p

theorem step_eq {K : ℝ} (hK : 0 < K) {n : ℕ} (hn : 0 < n) (f : ℝ × ℝ → ℝ) {p : ℝ × ℝ} (hp : p ∈ sq K) :
    step K n f p = f (ctr K n (idx K n p.1), ctr K n (idx K n p.2)) := by
  obtain ⟨⟨a1, a2⟩, ⟨b1, b2⟩⟩ := hp
  have key : ∀ i j, (cell K n i ×ˢ cell K n j).indicator (fun _ => f (ctr K n i, ctr K n j)) p =
      if i = idx K n p.1 then if j = idx K n p.2 then f (ctr K n i, ctr K n j) else 0 else 0 := by
    intro i j
    unfold indicator
    simp only [mem_prod, mem_cell hK hn a1, mem_cell hK hn b1]
    by_cases h1 : idx K n p.1 = i <;> by_cases h2 : idx K n p.2 = j <;>
      simp [h1, h2, eq_comm]
    · intro h; exact absurd h.symm h2
    · intro h; exact absurd h.symm h1
    · intro h; exact absurd h.symm h1
  unfold step
  simp only [key]
  rw [Finset.sum_eq_single (idx K n p.1)]
  · simp only [if_true]
    rw [Finset.sum_eq_single (idx K n p.2)]
    · simp
    · intro j _ hj; simp [hj]
    · intro h; exact absurd (Finset.mem_range.2 (idx_lt hK hn b1 b2)) h
  · intro i _ hi; simp [hi]
  · intro h; exact absurd (Finset.mem_range.2 (idx_lt hK hn a1 a2)) h

theorem cell_sub {K : ℝ} (hK : 0 < K) {n i : ℕ} (hi : i < n) : cell K n i ⊆ Ico (-(K / 2)) (K / 2) := by
  have hN : (0 : ℝ) < n := by exact_mod_cast (by omega : 0 < n)
  have hi' : (i : ℝ) + 1 ≤ n := by exact_mod_cast hi
  intro x hx
  obtain ⟨a, b⟩ := hx
  constructor
  · have : 0 ≤ (i : ℝ) / n := by positivity
    nlinarith
  · have : ((i : ℝ) + 1) / n ≤ 1 := by rw [div_le_one hN]; exact hi'
    nlinarith

theorem sq_finite (K : ℝ) : volume (sq K) < ⊤ := by
  unfold sq
  rw [Measure.volume_eq_prod, Measure.prod_prod, Real.volume_Ico]
  exact ENNReal.mul_lt_top ENNReal.ofReal_lt_top ENNReal.ofReal_lt_top

theorem integral_step {K : ℝ} (hK : 0 < K) {n : ℕ} (hn : 0 < n) (f : ℝ × ℝ → ℝ) :
    ∫ p in sq K, step K n f p = (K / n) ^ 2 * ∑ i ∈ Finset.range n, ∑ j ∈ Finset.range n, f (ctr K n i, ctr K n j) := by
  have hN : (0 : ℝ) < n := by exact_mod_cast hn
  have hm : ∀ i j, MeasurableSet (cell K n i ×ˢ cell K n j) := fun i j => measurableSet_Ico.prod measurableSet_Ico
  have hv : ∀ i j, (volume (cell K n i ×ˢ cell K n j)) = ENNReal.ofReal (K / n) * ENNReal.ofReal (K / n) := by
    intro i j
    rw [Measure.volume_eq_prod, Measure.prod_prod]
    unfold cell
    rw [Real.volume_Ico, Real.volume_Ico]
    congr 2 <;> field_simp <;> ring
  have hvr : ∀ i j, (volume (cell K n i ×ˢ cell K n j)).toReal = (K / n) ^ 2 := by
    intro i j
    rw [hv, ENNReal.toReal_mul, ENNReal.toReal_ofReal (by positivity)]
    ring
  have hfin : IsFiniteMeasure (volume.restrict (sq K)) := ⟨by rw [Measure.restrict_apply_univ]; exact sq_finite K⟩
  have hint : ∀ i j, Integrable ((cell K n i ×ˢ cell K n j).indicator (fun _ => f (ctr K n i, ctr K n j)))
      (volume.restrict (sq K)) :=
    fun i j => (integrable_const _).indicator (hm i j)
  unfold step
  rw [integral_finset_sum _ fun i _ => integrable_finset_sum _ fun j _ => hint i j]
  rw [Finset.mul_sum]
  refine Finset.sum_congr rfl fun i hi => ?_
  rw [integral_finset_sum _ fun j _ => hint i j, Finset.mul_sum]
  refine Finset.sum_congr rfl fun j hj => ?_
  rw [setIntegral_indicator (hm i j), setIntegral_const, inter_eq_right.2 (show cell K n i ×ˢ cell K n j ⊆ sq K from
    prod_mono (cell_sub hK (Finset.mem_range.1 hi)) (cell_sub hK (Finset.mem_range.1 hj))), smul_eq_mul, measureReal_def, hvr]

/-- sums of a bounded family of functions over the centres of the cells tend to the integral of their limit -/
theorem sum_tendsto {K : ℝ} (hK : 0 < K) (f : ℕ → ℝ × ℝ → ℝ) (g : ℝ × ℝ → ℝ) (C : ℝ)
    (hC : ∀ᶠ n in atTop, ∀ i j : ℕ, |f n (ctr K n i, ctr K n j)| ≤ C)
    (hf : ∀ᵐ p : ℝ × ℝ, p ∈ sq K → ∀ q : ℕ → ℝ × ℝ, Tendsto q atTop (𝓝 p) →
      Tendsto (fun n => f n (q n)) atTop (𝓝 (g p))) :
    Tendsto (fun n : ℕ => (K / n) ^ 2 * ∑ i ∈ Finset.range n, ∑ j ∈ Finset.range n, f n (ctr K n i, ctr K n j)) atTop
      (𝓝 (∫ p in sq K, g p)) := by
  have hfin : IsFiniteMeasure (volume.restrict (sq K)) := ⟨by rw [Measure.restrict_apply_univ]; exact sq_finite K⟩
  have h := tendsto_integral_filter_of_dominated_convergence (μ := volume.restrict (sq K)) (l := atTop)
    (F := fun n => step K n (f n)) (f := g) (fun _ => C) ?_ ?_ (integrable_const _) ?_
  · refine h.congr' ?_
    filter_upwards [eventually_gt_atTop 0] with n hn
    exact integral_step hK hn (f n)
  · refine Eventually.of_forall fun n => Measurable.aestronglyMeasurable ?_
    unfold step
    refine Finset.measurable_sum _ fun i _ => Finset.measurable_sum _ fun j _ => ?_
    exact measurable_const.indicator (measurableSet_Ico.prod measurableSet_Ico)
  · filter_upwards [hC, eventually_gt_atTop 0] with n hn h0
    refine (ae_restrict_iff' (sq_measurable K)).2 (Eventually.of_forall fun p hp => ?_)
    rw [step_eq hK h0 _ hp]
    exact hn _ _
  · refine (ae_restrict_iff' (sq_measurable K)).2 ?_
    filter_upwards [hf] with p hp hs
    have hq := hp hs (fun n => (ctr K n (idx K n p.1), ctr K n (idx K n p.2)))
      ((ctr_tendsto hK hs.1.1).prodMk_nhds (ctr_tendsto hK hs.2.1))
    refine hq.congr' ?_
    filter_upwards [eventually_gt_atTop 0] with n h0
    exact (step_eq hK h0 _ hs).symm

end Verif.Riemann
