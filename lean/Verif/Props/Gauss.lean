import Verif.Model.Gauss
import Verif.Props.Resample
import Verif.Props.GssPipe
import Mathlib.Algebra.BigOperators.Intervals
import Mathlib.Order.Interval.Finset.Nat

/-! Properties C182 and C183: blurring keeps the range and the mean. -/

namespace Verif.Gauss
open Verif.Take Verif.Resamp

/-! ### reflection at the ends -/

theorem refl_lt {n : ℕ} (hn : 0 < n) (j : ℤ) : refl n j < n := by
  unfold Resamp.refl
  have h1 := Int.emod_nonneg j (b := 2 * (n : ℤ)) (by omega)
  have h2 := Int.emod_lt_of_pos j (b := 2 * (n : ℤ)) (by omega)
  split <;> omega

theorem refl_period (n : ℕ) (j : ℤ) : refl n (j + 2 * n) = refl n j := by
  unfold Resamp.refl
  rw [Int.add_emod_right]

theorem refl_mirror {n : ℕ} (hn : 0 < n) (j : ℤ) : refl n (-1 - j) = refl n j := by
  have h1 := Int.emod_nonneg j (b := 2 * (n : ℤ)) (by omega)
  have h2 := Int.emod_lt_of_pos j (b := 2 * (n : ℤ)) (by omega)
  have h : (-1 - j) % (2 * (n : ℤ)) = 2 * n - 1 - j % (2 * n) := by
    have e : -1 - j = (2 * n - 1 - j % (2 * n)) + (2 * n) * (-(j / (2 * n)) - 1) := by
      have := Int.emod_add_mul_ediv j (2 * (n : ℤ))
      linarith
    rw [e, Int.add_mul_emod_self_left]
    exact Int.emod_eq_of_lt (by omega) (by omega)
  unfold Resamp.refl
  rw [h]
  split <;> split <;> omega

/-- the sum over a line of the entries `k` places further, reflected at the ends -/
noncomputable def shifted (n : ℕ) (f : ℕ → ℝ) (k : ℤ) : ℝ := ∑ x ∈ Finset.range n, f (refl n ((x : ℤ) + k))

/-- a sum over one whole period does not depend on where it begins -/
theorem period_sum (N : ℕ) (g : ℤ → ℝ) (hg : ∀ j, g (j + N) = g j) (k : ℤ) :
    ∑ x ∈ Finset.range N, g ((x : ℤ) + k) = ∑ x ∈ Finset.range N, g x := by
  have step : ∀ k : ℤ, ∑ x ∈ Finset.range N, g ((x : ℤ) + (k + 1)) = ∑ x ∈ Finset.range N, g ((x : ℤ) + k) := by
    intro k
    have h1 := Finset.sum_range_succ (fun x : ℕ => g ((x : ℤ) + k)) N
    have h2 := Finset.sum_range_succ' (fun x : ℕ => g ((x : ℤ) + k)) N
    have h3 : g ((N : ℤ) + k) = g ((0 : ℕ) + k) := by
      rw [add_comm, hg]; simp
    have h4 : ∑ x ∈ Finset.range N, g (((x + 1 : ℕ) : ℤ) + k) = ∑ x ∈ Finset.range N, g ((x : ℤ) + (k + 1)) := by
      refine Finset.sum_congr rfl fun x _ => ?_
      congr 1; push_cast; ring
    rw [← h4]
    linarith
  induction k using Int.induction_on with
  | zero => simp
  | succ i ih => rw [step, ih]
  | pred i ih =>
    have := step (-(i : ℤ) - 1)
    rw [← this, ← ih]
    refine Finset.sum_congr rfl fun x _ => ?_
    congr 1; ring

/-- what a shift to one side loses, the shift to the other side gains -/
theorem shifted_add {n : ℕ} (hn : 0 < n) (f : ℕ → ℝ) (k : ℤ) :
    shifted n f k + shifted n f (-k) = 2 * ∑ x ∈ Finset.range n, f x := by
  have hper := period_sum (2 * n) (fun j => f (refl n j)) (fun j => by
    push_cast; rw [refl_period])
  have hsplit : ∀ k : ℤ, ∑ x ∈ Finset.range (2 * n), f (refl n ((x : ℤ) + k)) =
      shifted n f k + shifted n f (-k) := by
    intro k
    rw [two_mul, Finset.sum_range_add]
    congr 1
    unfold shifted
    rw [← Finset.sum_range_reflect]
    refine Finset.sum_congr rfl fun x hx => ?_
    have hx := Finset.mem_range.mp hx
    rw [← refl_mirror hn ((x : ℤ) + -k), ← refl_period n (-1 - ((x : ℤ) + -k))]
    congr 2
    push_cast [Nat.sub_sub, Nat.cast_sub (by omega : 1 + x ≤ n)]
    ring
  rw [← hsplit k, hper k]
  have h0 := hsplit 0
  simp only [add_zero, neg_zero] at h0
  rw [h0]
  have : shifted n f 0 = ∑ x ∈ Finset.range n, f x := by
    unfold shifted
    refine Finset.sum_congr rfl fun x hx => ?_
    rw [add_zero, refl_of_lt (Finset.mem_range.mp hx)]
  rw [this]; ring

/-! ### the kernel -/

theorem phi_pos (σ : ℝ) (x : ℤ) : 0 < phi σ x := Real.exp_pos _

theorem phi_neg (σ : ℝ) (x : ℤ) : phi σ (-x) = phi σ x := by unfold phi; push_cast; rw [neg_sq]

theorem phi_sum_pos (σ : ℝ) (r : ℕ) : 0 < ∑ y ∈ Finset.Icc (-(r : ℤ)) r, phi σ y :=
  Finset.sum_pos (fun y _ => phi_pos σ y) ⟨0, by simp⟩

theorem kernel_pos (σ : ℝ) (r : ℕ) (x : ℤ) : 0 < kernel σ r x := div_pos (phi_pos _ _) (phi_sum_pos _ _)

theorem kernel_neg (σ : ℝ) (r : ℕ) (x : ℤ) : kernel σ r (-x) = kernel σ r x := by unfold kernel; rw [phi_neg]

theorem kernel_sum (σ : ℝ) (r : ℕ) : ∑ x ∈ Finset.Icc (-(r : ℤ)) r, kernel σ r x = 1 := by
  unfold kernel
  rw [← Finset.sum_div, div_self (phi_sum_pos σ r).ne']

theorem sum_icc_neg (r : ℕ) (g : ℤ → ℝ) :
    ∑ x ∈ Finset.Icc (-(r : ℤ)) r, g (-x) = ∑ x ∈ Finset.Icc (-(r : ℤ)) r, g x := by
  refine Finset.sum_nbij' (fun x => -x) (fun x => -x) ?_ ?_ ?_ ?_ ?_ <;> simp
  all_goals intros; omega

/-! ### one line -/

/-- blurring a line keeps its sum -/
theorem line_sum {n : ℕ} (hn : 0 < n) (σ t : ℝ) (f : ℕ → ℝ) :
    ∑ p ∈ Finset.range n, blurLine n σ t f p = ∑ p ∈ Finset.range n, f p := by
  unfold blurLine
  by_cases hs : σ ≤ 1e-15
  · simp [hs]
  · simp only [hs, if_false]
    rw [Finset.sum_comm]
    generalize radius t σ = r
    have h1 : ∑ k ∈ Finset.Icc (-(r : ℤ)) r, ∑ p ∈ Finset.range n, kernel σ r (-k) * f (refl n ((p : ℤ) + k)) =
        ∑ k ∈ Finset.Icc (-(r : ℤ)) r, kernel σ r k * shifted n f k := by
      refine Finset.sum_congr rfl fun k _ => ?_
      rw [← Finset.mul_sum, kernel_neg]; rfl
    rw [h1]
    have h2 : ∑ k ∈ Finset.Icc (-(r : ℤ)) r, kernel σ r k * shifted n f (-k) =
        ∑ k ∈ Finset.Icc (-(r : ℤ)) r, kernel σ r k * shifted n f k := by
      rw [← sum_icc_neg r (fun k => kernel σ r k * shifted n f k)]
      exact Finset.sum_congr rfl fun k _ => by rw [kernel_neg]
    have h3 : ∑ k ∈ Finset.Icc (-(r : ℤ)) r, kernel σ r k * shifted n f k +
        ∑ k ∈ Finset.Icc (-(r : ℤ)) r, kernel σ r k * shifted n f (-k) = 2 * ∑ x ∈ Finset.range n, f x := by
      rw [← Finset.sum_add_distrib]
      have : ∀ k ∈ Finset.Icc (-(r : ℤ)) r, kernel σ r k * shifted n f k + kernel σ r k * shifted n f (-k) =
          kernel σ r k * (2 * ∑ x ∈ Finset.range n, f x) := fun k _ => by
        rw [← mul_add, shifted_add hn]
      rw [Finset.sum_congr rfl this, ← Finset.sum_mul, kernel_sum, one_mul]
    linarith

/-- weight of entry `q` in the blurred entry `p` -/
noncomputable def weight (n : ℕ) (σ t : ℝ) (p q : ℕ) : ℝ := blurLine n σ t (fun x => if x = q then 1 else 0) p

theorem weight_nonneg (n : ℕ) (σ t : ℝ) (p q : ℕ) : 0 ≤ weight n σ t p q := by
  unfold weight blurLine
  have : ∀ b : Prop, [Decidable b] → (0 : ℝ) ≤ if b then 1 else 0 := by intro b _; split <;> norm_num
  split
  · exact this _
  · exact Finset.sum_nonneg fun k _ => mul_nonneg (kernel_pos _ _ _).le (this _)

/-- a blurred entry is the sum of the entries with their weights -/
theorem line_weights {n : ℕ} (hn : 0 < n) (σ t : ℝ) (f : ℕ → ℝ) (p : ℕ) (hp : p < n) :
    blurLine n σ t f p = ∑ q ∈ Finset.range n, weight n σ t p q * f q := by
  unfold weight blurLine
  by_cases hs : σ ≤ 1e-15
  · simp [hs, hp]
  · simp only [hs, if_false]
    simp only [Finset.sum_mul]
    rw [Finset.sum_comm]
    refine Finset.sum_congr rfl fun k _ => ?_
    rw [Finset.sum_eq_single (refl n ((p : ℤ) + k))]
    · simp
    · intro q _ hq
      rw [if_neg (fun h => hq h.symm)]; simp
    · intro h
      exact absurd (Finset.mem_range.mpr (refl_lt hn _)) h

theorem weight_row {n : ℕ} (hn : 0 < n) (σ t : ℝ) (p : ℕ) (hp : p < n) : ∑ q ∈ Finset.range n, weight n σ t p q = 1 := by
  have := line_weights hn σ t (fun _ => 1) p hp
  simp only [mul_one] at this
  rw [← this]
  unfold blurLine
  split
  · rfl
  · simp only [mul_one, kernel_neg, kernel_sum]

theorem weight_col {n : ℕ} (hn : 0 < n) (σ t : ℝ) (q : ℕ) (hq : q < n) : ∑ p ∈ Finset.range n, weight n σ t p q = 1 := by
  unfold weight
  rw [line_sum hn]
  simp [hq]

theorem line_bounds {n : ℕ} (hn : 0 < n) (σ t : ℝ) (f : ℕ → ℝ) (lo hi : ℝ) (h : ∀ q < n, lo ≤ f q ∧ f q ≤ hi) (p : ℕ)
    (hp : p < n) : lo ≤ blurLine n σ t f p ∧ blurLine n σ t f p ≤ hi := by
  rw [line_weights hn σ t f p hp]
  constructor
  · calc lo = ∑ q ∈ Finset.range n, weight n σ t p q * lo := by rw [← Finset.sum_mul, weight_row hn σ t p hp, one_mul]
      _ ≤ _ := Finset.sum_le_sum fun q hq =>
        mul_le_mul_of_nonneg_left (h q (Finset.mem_range.mp hq)).1 (weight_nonneg ..)
  · calc _ ≤ ∑ q ∈ Finset.range n, weight n σ t p q * hi := Finset.sum_le_sum fun q hq =>
        mul_le_mul_of_nonneg_left (h q (Finset.mem_range.mp hq)).2 (weight_nonneg ..)
      _ = hi := by rw [← Finset.sum_mul, weight_row hn σ t p hp, one_mul]

/-! ### arrays -/

theorem at_set {shape idx : List ℕ} (h : At shape idx) (i p : ℕ) (hp : p < shape.getD i 0) : At shape (idx.set i p) := by
  induction h generalizing i with
  | nil => simp at hp
  | cons h1 h2 ih =>
    cases i with
    | zero => exact .cons (by simpa using hp) h2
    | succ i => exact .cons h1 (ih i (by simpa using hp))

theorem at_getD {shape idx : List ℕ} (h : At shape idx) (i : ℕ) (hi : i < shape.length) :
    idx.getD i 0 < shape.getD i 0 := by
  induction h generalizing i with
  | nil => simp at hi
  | cons h1 h2 ih =>
    cases i with
    | zero => simpa using h1
    | succ i => simpa using ih i (by simpa using hi)

theorem total_axis (ns : List ℕ) (i : ℕ) (hi : i < ns.length) (hpos : ∀ n ∈ ns, 0 < n) (σ t : ℝ) (f : List ℕ → ℝ) :
    total ns (fun idx => blurLine (ns.getD i 0) σ t (fun p => f (idx.set i p)) (idx.getD i 0)) = total ns f := by
  induction ns generalizing i f with
  | nil => simp at hi
  | cons n ns ih =>
    cases i with
    | zero =>
      have hn := hpos n (by simp)
      simp only [total, List.getD_cons_zero, List.set_cons_zero]
      rw [← total_sum, ← total_sum]
      exact total_congr _ _ _ fun idx _ => line_sum hn σ t (fun p => f (p :: idx))
    | succ i =>
      simp only [total, List.getD_cons_succ, List.set_cons_succ]
      exact Finset.sum_congr rfl fun x _ => ih i (by simpa using hi) (fun m hm => hpos m (by simp [hm])) (fun idx => f (x :: idx))

theorem blurLoop_shape (t : ℝ) (a : Arr ℝ) (i : ℕ) (σs : List ℝ) : (blurLoop t a i σs).shape = a.shape := by
  induction σs generalizing a i with
  | nil => rfl
  | cons σ σs ih => unfold blurLoop; rw [ih]; rfl

theorem blurLoop_total (t : ℝ) (a : Arr ℝ) (i : ℕ) (σs : List ℝ) (h : i + σs.length ≤ a.shape.length)
    (hpos : ∀ n ∈ a.shape, 0 < n) :
    total a.shape (blurLoop t a i σs).entry = total a.shape a.entry := by
  induction σs generalizing a i with
  | nil => rfl
  | cons σ σs ih =>
    rw [List.length_cons] at h
    unfold blurLoop
    have := ih (blurAx t a σ i) (i + 1) (by simp only [blurAx]; omega) hpos
    simp only [blurAx] at this ⊢
    rw [this]
    exact total_axis a.shape i (by omega) hpos σ t a.entry

theorem blurLoop_bounds (t : ℝ) (a : Arr ℝ) (i : ℕ) (σs : List ℝ) (h : i + σs.length ≤ a.shape.length) (lo hi : ℝ)
    (hb : ∀ idx, At a.shape idx → lo ≤ a.entry idx ∧ a.entry idx ≤ hi) :
    ∀ idx, At a.shape idx → lo ≤ (blurLoop t a i σs).entry idx ∧ (blurLoop t a i σs).entry idx ≤ hi := by
  induction σs generalizing a i with
  | nil => exact hb
  | cons σ σs ih =>
    rw [List.length_cons] at h
    unfold blurLoop
    refine ih (blurAx t a σ i) (i + 1) (by simp only [blurAx]; omega) fun idx hidx => ?_
    have hlt := at_getD hidx i (by simp only [blurAx]; omega)
    simp only [blurAx] at hidx hlt ⊢
    exact line_bounds (by omega) σ t _ lo hi (fun q hq => hb _ (at_set hidx i q hq)) _ hlt

/-- one width for all axes, or one per axis -/
def Fits (rank : ℕ) (rs : List ℚ) : Prop := rs.length = 1 ∨ rs.length = rank

theorem sigmas_length {rank : ℕ} {rs : List ℚ} (h : Fits rank rs) : (sigmas rank rs).length = rank := by
  unfold sigmas
  rcases h with h | h
  · rw [if_pos h]; simp
  · split
    · simp
    · simpa using h

/-- the blurred array has the shape and the mean of the array, and stays between its bounds -/
theorem C182_filter (rs : List ℚ) (a : Arr ℝ) (h : Fits a.shape.length rs) (hpos : ∀ n ∈ a.shape, 0 < n) :
    (gaussianFilter rs a).shape = a.shape ∧ mean (gaussianFilter rs a) = mean a ∧
    ∀ lo hi, (∀ idx, At a.shape idx → lo ≤ a.entry idx ∧ a.entry idx ≤ hi) →
      ∀ idx, At a.shape idx → lo ≤ (gaussianFilter rs a).entry idx ∧ (gaussianFilter rs a).entry idx ≤ hi := by
  have hl := sigmas_length h
  refine ⟨blurLoop_shape .., ?_, fun lo hi hb => blurLoop_bounds 4 a 0 _ (by omega) lo hi hb⟩
  unfold mean gaussianFilter
  rw [blurLoop_shape, blurLoop_total 4 a 0 _ (by omega) hpos]

theorem upLoop_any (a : Arr ℝ) (rs : List ℕ) (hl : a.shape.length = rs.length) :
    (upLoop a 0 (rs.map (fun r : ℕ => (r : ℚ)))).shape = List.zipWith (· * ·) a.shape rs := by
  have := upLoop_shape a 0 (rs.map (fun r : ℕ => (r : ℚ))) [] a.shape rfl rfl (by simpa using hl)
  have hmap : (rs.map (fun r : ℕ => (r : ℚ))).map trunc = rs := by
    rw [List.map_map]
    conv_rhs => rw [← List.map_id rs]
    exact List.map_congr_left fun r _ => trunc_nat r
  rw [hmap] at this
  simpa using this

/-- enlarging with smoothing is enlarging without it, followed by nothing or by one blur -/
theorem up_smooth (fl : ℚ → ℚ) (gf : List ℚ → Arr ℝ → Arr ℝ) (a : Arr ℝ) (rs : List ℕ) (hl : a.shape.length = rs.length)
    (hpos : ∀ n ∈ a.shape, 0 < n) (hr : ∀ r ∈ rs, 1 ≤ r) (hfl : ∀ r ∈ rs, UpOk fl r) (rad : Option (List ℚ))
    (hrad : ∀ l, rad = some l → Fits a.shape.length l) :
    ∃ b, resample fl gf a (some (List.zipWith (· * ·) a.shape rs)) false none = .ok b ∧
      ((resample fl gf a (some (List.zipWith (· * ·) a.shape rs)) true rad = .ok b ∧ rad = none ∧ ∀ r ∈ rs, r = 1) ∨
       ∃ l, Fits a.shape.length l ∧ resample fl gf a (some (List.zipWith (· * ·) a.shape rs)) true rad = .ok (gf l b)) := by
  unfold resample
  rw [Option.getD_some, ratios_up fl a.shape rs hl hpos hfl]
  obtain ⟨h1, h2⟩ := prod_up rs hr
  by_cases hgt : (rs.map (fun r : ℕ => (r : ℚ))).prod > 1
  · rw [if_pos hgt, if_pos hgt]
    refine ⟨_, rfl, Or.inr ⟨rad.getD ((rs.map (fun r : ℕ => (r : ℚ))).map (· - 1)), ?_, ?_⟩⟩
    · cases rad with
      | none => right; simp [hl]
      | some l => exact hrad l rfl
    · simp [smoothUp]
  · rw [if_neg hgt, if_neg (not_lt.mpr h1), if_neg hgt, if_neg (not_lt.mpr h1)]
    refine ⟨a, rfl, ?_⟩
    cases rad with
    | none => exact Or.inl ⟨rfl, rfl, h2 (not_lt.mp hgt)⟩
    | some l => exact Or.inr ⟨l, hrad l rfl, rfl⟩

theorem blocks_pos (ns rs : List ℕ) (h : ∀ n ∈ ns, 0 < n) (hr : ∀ r ∈ rs, 1 ≤ r) :
    ∀ n ∈ List.zipWith (· * ·) ns rs, 0 < n := by
  induction ns generalizing rs with
  | nil => simp
  | cons n ns ih =>
    cases rs with
    | nil => simp
    | cons r rs =>
      intro x hx
      rw [List.zipWith_cons_cons] at hx
      rcases List.mem_cons.mp hx with rfl | hx
      · exact Nat.mul_pos (h n (by simp)) (hr r (by simp))
      · exact ih rs (fun m hm => h m (by simp [hm])) (fun m hm => hr m (by simp [hm])) x hx

theorem at_down (ns rs idx : List ℕ) (hl : ns.length = rs.length) (h : At (List.zipWith (· * ·) ns rs) idx)
    (hr : ∀ r ∈ rs, 1 ≤ r) : At ns (List.zipWith (· / ·) idx rs) := by
  induction ns generalizing rs idx with
  | nil => cases h; exact .nil
  | cons n ns ih =>
    cases rs with
    | nil => simp at hl
    | cons r rs =>
      cases h with
      | cons h1 h2 =>
        refine .cons ?_ (ih rs _ (by simpa using hl) h2 (fun m hm => hr m (by simp [hm])))
        have := hr r (by simp)
        exact (Nat.div_lt_iff_lt_mul (by omega)).mpr h1

/-- **C182** enlarging an array by whole factors with Gaussian smoothing (the default), whatever the widths: the result has
the requested shape and the mean of the array, and its entries stay between its bounds. A constant array stays constant
(`lo = hi`). -/
theorem C182_enlarge (fl : ℚ → ℚ) (a : Arr ℝ) (rs : List ℕ) (hl : a.shape.length = rs.length)
    (hpos : ∀ n ∈ a.shape, 0 < n) (hr : ∀ r ∈ rs, 1 ≤ r) (hfl : ∀ r ∈ rs, UpOk fl r) (rad : Option (List ℚ))
    (hrad : ∀ l, rad = some l → Fits a.shape.length l) :
    ∃ b, resample fl gaussianFilter a (some (List.zipWith (· * ·) a.shape rs)) true rad = .ok b ∧
      b.shape = List.zipWith (· * ·) a.shape rs ∧ mean b = mean a ∧
      ∀ lo hi, (∀ idx, At a.shape idx → lo ≤ a.entry idx ∧ a.entry idx ≤ hi) →
        ∀ idx, At b.shape idx → lo ≤ b.entry idx ∧ b.entry idx ≤ hi := by
  obtain ⟨b, hb, hcase⟩ := up_smooth fl gaussianFilter a rs hl hpos hr hfl rad hrad
  obtain ⟨b', hb', hs, he⟩ := C40_up fl gaussianFilter a rs hl hpos hr hfl
  obtain ⟨b'', hb'', hm⟩ := C40_up_mean fl gaussianFilter a rs hl hpos hr hfl
  rw [hb] at hb' hb''
  cases hb'; cases hb''
  have hlen : b.shape.length = a.shape.length := by rw [hs]; simp [hl]
  have hrange : ∀ lo hi, (∀ idx, At a.shape idx → lo ≤ a.entry idx ∧ a.entry idx ≤ hi) →
      ∀ idx, At b.shape idx → lo ≤ b.entry idx ∧ b.entry idx ≤ hi := by
    intro lo hi h idx hidx
    rw [he idx (by rw [at_length hidx, hlen])]
    exact h _ (at_down _ _ _ hl (hs ▸ hidx) hr)
  rcases hcase with ⟨h, _⟩ | ⟨l, hfit, h⟩
  · exact ⟨b, h, hs, hm, hrange⟩
  · have hposb : ∀ n ∈ b.shape, 0 < n := by rw [hs]; exact blocks_pos _ _ hpos hr
    obtain ⟨h1, h2, h3⟩ := C182_filter l b (hlen ▸ hfit) hposb
    exact ⟨_, h, h1.trans hs, h2.trans hm, fun lo hi hlo idx hidx => h3 lo hi (hrange lo hi hlo) idx (h1 ▸ hidx)⟩

theorem ratios_same (fl : ℚ → ℚ) (h1 : fl 1 = 1) (shape : List ℕ) (hpos : ∀ n ∈ shape, 0 < n) :
    (ratios fl shape shape).prod = 1 := by
  unfold ratios
  rw [List.zipWith_self]
  apply List.prod_eq_one
  intro x hx
  obtain ⟨n, hn, rfl⟩ := List.mem_map.mp hx
  have : (n : ℚ) ≠ 0 := by have := hpos n hn; positivity
  rw [div_self this, h1]

/-- **C182** smoothing in place (same shape, a radius): with the Gaussian the mean and the bounds are kept -/
theorem C182_same (fl : ℚ → ℚ) (h1 : fl 1 = 1) (a : Arr ℝ) (hpos : ∀ n ∈ a.shape, 0 < n) (l : List ℚ)
    (hl : Fits a.shape.length l) (ts : Option (List ℕ)) (hts : ts = none ∨ ts = some a.shape) :
    ∃ b, resample fl gaussianFilter a ts true (some l) = .ok b ∧ b.shape = a.shape ∧ mean b = mean a ∧
      ∀ lo hi, (∀ idx, At a.shape idx → lo ≤ a.entry idx ∧ a.entry idx ≤ hi) →
        ∀ idx, At b.shape idx → lo ≤ b.entry idx ∧ b.entry idx ≤ hi := by
  have ht : ts.getD a.shape = a.shape := by rcases hts with rfl | rfl <;> rfl
  unfold resample
  rw [ht, ratios_same fl h1 a.shape hpos, if_neg (lt_irrefl _), if_neg (lt_irrefl _)]
  obtain ⟨e1, e2, e3⟩ := C182_filter l a hl hpos
  exact ⟨_, rfl, e1, e2, fun lo hi h idx hidx => e3 lo hi h idx (e1 ▸ hidx)⟩

/-! ### the box filter -/

theorem box_sum {n : ℕ} (hn : 0 < n) (r : ℕ) (f : ℕ → ℝ) :
    ∑ p ∈ Finset.range n, (∑ t ∈ Finset.range (2 * r + 1),
      f (Resamp.refl n ((p : ℤ) - ((2 * r + 1 : ℕ) : ℤ) / 2 - 0 + t))) / ((2 * r + 1 : ℕ) : ℝ) = ∑ p ∈ Finset.range n, f p := by
  have hhalf : ((2 * r + 1 : ℕ) : ℤ) / 2 = r := by omega
  rw [hhalf, ← Finset.sum_div, Finset.sum_comm]
  have h1 : ∀ t ∈ Finset.range (2 * r + 1), ∑ p ∈ Finset.range n, f (Resamp.refl n ((p : ℤ) - r - 0 + t)) =
      shifted n f ((t : ℤ) - r) := by
    intro t _
    refine Finset.sum_congr rfl fun p _ => ?_
    congr 2; ring
  rw [Finset.sum_congr rfl h1]
  have h2 : ∑ t ∈ Finset.range (2 * r + 1), shifted n f ((t : ℤ) - r) =
      ∑ t ∈ Finset.range (2 * r + 1), shifted n f (-((t : ℤ) - r)) := by
    rw [← Finset.sum_range_reflect]
    refine Finset.sum_congr rfl fun t ht => ?_
    have := Finset.mem_range.mp ht
    congr 1
    push_cast [Nat.cast_sub (by omega : t ≤ 2 * r), show 2 * r + 1 - 1 - t = 2 * r - t by omega]
    ring
  have h3 : ∑ t ∈ Finset.range (2 * r + 1), shifted n f ((t : ℤ) - r) +
      ∑ t ∈ Finset.range (2 * r + 1), shifted n f (-((t : ℤ) - r)) =
      ((2 * r + 1 : ℕ) : ℝ) * (2 * ∑ x ∈ Finset.range n, f x) := by
    rw [← Finset.sum_add_distrib, Finset.sum_congr rfl fun t _ => shifted_add hn f _]
    simp
  rw [div_eq_iff (by positivity)]
  linarith

theorem total_box (ns : List ℕ) (i : ℕ) (hi : i < ns.length) (hpos : ∀ n ∈ ns, 0 < n) (r : ℕ) (f : List ℕ → ℝ) :
    total ns (fun idx => (∑ t ∈ Finset.range (2 * r + 1), f (idx.set i (Resamp.refl (ns.getD i 0)
      ((idx.getD i 0 : ℤ) - ((2 * r + 1 : ℕ) : ℤ) / 2 - 0 + t)))) / ((2 * r + 1 : ℕ) : ℝ)) = total ns f := by
  induction ns generalizing i f with
  | nil => simp at hi
  | cons n ns ih =>
    cases i with
    | zero =>
      have hn := hpos n (by simp)
      simp only [total, List.getD_cons_zero, List.set_cons_zero]
      rw [← total_sum ns n, ← total_sum ns n]
      exact total_congr _ _ _ fun idx _ => box_sum hn r (fun p => f (p :: idx))
    | succ i =>
      simp only [total, List.getD_cons_succ, List.set_cons_succ]
      exact Finset.sum_congr rfl fun x _ => ih i (by simpa using hi) (fun m hm => hpos m (by simp [hm])) (fun idx => f (x :: idx))

theorem boxLoop_shape (a : Arr ℝ) (s n : ℕ) : (boxLoop a s n).shape = a.shape := by
  induction n with
  | zero => rfl
  | succ n ih => unfold boxLoop; rw [uniAx_shape, ih]

theorem boxLoop_total (a : Arr ℝ) (r n : ℕ) (hn : n ≤ a.shape.length) (hpos : ∀ n ∈ a.shape, 0 < n) :
    total a.shape (boxLoop a (2 * r + 1) n).entry = total a.shape a.entry := by
  induction n with
  | zero => rfl
  | succ n ih =>
    rw [← ih (by omega)]
    show total a.shape (uniAx (boxLoop a (2 * r + 1) n) (2 * r + 1) 0 n).entry = _
    by_cases h : 2 * r + 1 ≤ 1
    · unfold uniAx; rw [if_pos h]
    · unfold uniAx
      rw [if_neg h]
      simp only [boxLoop_shape]
      exact total_box a.shape n (by omega) hpos r _

/-- **C182** smoothing in place without the Gaussian keeps the mean when the whole part of the radius is odd -/
theorem C182_box_partial (fl : ℚ → ℚ) (h1 : fl 1 = 1) (gf : List ℚ → Arr ℝ → Arr ℝ) (a : Arr ℝ)
    (hpos : ∀ n ∈ a.shape, 0 < n) (q : ℚ) (r : ℕ) (hq : trunc q = 2 * r + 1) :
    ∃ b, resample fl gf a none false (some [q]) = .ok b ∧ b.shape = a.shape ∧ mean b = mean a := by
  unfold resample
  rw [Option.getD_none, ratios_same fl h1 a.shape hpos, if_neg (lt_irrefl _), if_neg (lt_irrefl _)]
  refine ⟨_, rfl, ?_, ?_⟩
  · simp only [smoothSame, Bool.false_eq_true, if_false]
    exact boxLoop_shape _ _ _
  · simp only [smoothSame, Bool.false_eq_true, if_false, List.headD_cons]
    unfold mean
    rw [boxLoop_shape, hq, boxLoop_total a r _ le_rfl hpos]

/-- The claim: smoothing in place keeps the mean, with either filter. -/
def C182_statement : Prop :=
  ∀ (gauss : Bool) (a : Arr ℝ) (q : ℚ), (∀ n ∈ a.shape, 0 < n) → 0 ≤ q →
    ∃ b, resample id gaussianFilter a none gauss (some [q]) = .ok b ∧ mean b = mean a

/-- With an even size the box is not centred: smoothing (0, 1) with size 2 gives (0, 1/2). -/
theorem C182_refuted : ¬ C182_statement := by
  intro h
  obtain ⟨b, h1, h2⟩ := h false ⟨[2], fun idx => if idx = [1] then 1 else 0⟩ 2 (by simp) (by norm_num)
  unfold resample at h1
  rw [Option.getD_none, ratios_same id rfl _ (by simp), if_neg (lt_irrefl _), if_neg (lt_irrefl _)] at h1
  have ht : trunc (2 : ℚ) = 2 := by have := trunc_nat 2; simpa using this
  simp only [smoothSame, Bool.false_eq_true, if_false, List.headD_cons, ht, Except.ok.injEq, List.length_cons,
    List.length_nil, zero_add, boxLoop, uniAx] at h1
  subst h1
  revert h2
  have e : ¬ (2 : ℕ) ≤ 1 := by decide
  simp only [mean, if_neg e]
  rw [show ∀ f : List ℕ → ℝ, total [2] f = f [0] + f [1] from fun f => by simp [total, Finset.sum_range_succ],
    show ∀ f : List ℕ → ℝ, total [2] f = f [0] + f [1] from fun f => by simp [total, Finset.sum_range_succ]]
  simp only [Finset.sum_range_succ, Finset.sum_range_zero]
  norm_num [Resamp.refl]

end Verif.Gauss
