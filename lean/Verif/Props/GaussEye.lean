import Verif.Props.Gauss
import Verif.Props.GssKernel

/-! C183: `gaussian_filter` meets the contract used by the theorems about `GSS`; what the blurs of the eye do to the total
light of an image and to the place of a point. -/

namespace Verif.Gauss
open Verif.Take Verif.Resamp Verif.Gss

/-! ### the Gaussian of an image -/

theorem sum_ext {n m : ℕ} (v : Fin n × Fin m → ℝ) :
    ∑ i, v i = ∑ p ∈ Finset.range n, ∑ q ∈ Finset.range m, ext v p q := by
  rw [Fintype.sum_prod_type, ← Fin.sum_univ_eq_sum_range (fun p => ∑ q ∈ Finset.range m, ext v p q)]
  refine Finset.sum_congr rfl fun p _ => ?_
  rw [← Fin.sum_univ_eq_sum_range (fun q => ext v p q)]
  refine Finset.sum_congr rfl fun q _ => ?_
  simp [ext, p.2, q.2]

theorem ext_at {n m : ℕ} (f : ℕ → ℕ → ℝ) (p q : ℕ) (hp : p < n) (hq : q < m) :
    ext (fun i : Fin n × Fin m => f i.1 i.2) p q = f p q := by simp [ext, hp, hq]

/-- **C183** the contract of `gaussian_filter` assumed by C77, C102, C162 and others holds for images of any size -/
theorem C183_averaging (n m : ℕ) : Averaging (blur2 n m) := by
  intro s t i
  have hn := i.1.pos
  have hm := i.2.pos
  refine ⟨fun j => weight n s t i.1 j.1 * weight m s t i.2 j.2, fun j => mul_nonneg (weight_nonneg ..) (weight_nonneg ..), ?_, ?_⟩
  · rw [sum_ext]
    have : ∀ p ∈ Finset.range n, ∑ q ∈ Finset.range m,
        ext (fun j : Fin n × Fin m => weight n s t i.1 j.1 * weight m s t i.2 j.2) p q = weight n s t i.1 p := by
      intro p hp
      rw [Finset.sum_congr rfl fun q hq => ext_at (fun p q => weight n s t i.1 p * weight m s t i.2 q) p q
        (Finset.mem_range.mp hp) (Finset.mem_range.mp hq), ← Finset.mul_sum, weight_row hm s t _ i.2.2, mul_one]
    rw [Finset.sum_congr rfl this, weight_row hn s t _ i.1.2]
  · intro v
    unfold blur2
    rw [line_weights hm s t _ _ i.2.2, sum_ext]
    rw [Finset.sum_comm]
    refine Finset.sum_congr rfl fun q hq => ?_
    rw [line_weights hn s t _ _ i.1.2, Finset.mul_sum]
    refine Finset.sum_congr rfl fun p hp => ?_
    have hp := Finset.mem_range.mp hp
    have hq := Finset.mem_range.mp hq
    simp only [ext, hp, hq, and_self, dite_true]
    ring

/-- **C183** blurring moves light, it does not make or lose any -/
theorem C183_total (n m : ℕ) (s t : ℝ) (v : Fin n × Fin m → ℝ) : ∑ i, blur2 n m s t v i = ∑ i, v i := by
  rcases Nat.eq_zero_or_pos n with rfl | hn
  · simp
  rcases Nat.eq_zero_or_pos m with rfl | hm
  · simp
  rw [sum_ext, sum_ext]
  have h1 : ∀ p ∈ Finset.range n, ∑ q ∈ Finset.range m, ext (blur2 n m s t v) p q =
      ∑ q ∈ Finset.range m, blurLine n s t (fun p => ext v p q) p := by
    intro p hp
    have e : ∀ q ∈ Finset.range m, ext (blur2 n m s t v) p q =
        blurLine m s t (fun q => blurLine n s t (fun p => ext v p q) p) q := fun q hq =>
      ext_at (n := n) (m := m) (fun p q => blurLine m s t (fun q => blurLine n s t (fun p => ext v p q) p) q) p q
        (Finset.mem_range.mp hp) (Finset.mem_range.mp hq)
    rw [Finset.sum_congr rfl e, line_sum hm]
  rw [Finset.sum_congr rfl h1, Finset.sum_comm]
  rw [Finset.sum_congr rfl fun q _ => line_sum hn s t (fun p => ext v p q), Finset.sum_comm]

/-- **C183** eye movements (steps 7 and 8) keep the total -/
theorem C183_movement (n m : ℕ) (pp f eg : ℝ) (er : Fin n × Fin m → ℝ) :
    ∑ i, eyeMove1 (blur2 n m) pp er i = ∑ i, er i ∧ ∑ i, eyeMove2 (blur2 n m) pp f er eg i = ∑ i, er i := by
  constructor
  · unfold eyeMove1
    rw [Finset.sum_add_distrib, ← Finset.mul_sum, ← Finset.mul_sum, C183_total, C183_total]
    ring
  · unfold eyeMove2
    rw [C183_total, C183_total]

/-! ### the point spread -/

/-- a line is read `k` places further on by a kernel with odd, symmetric entries: the sum does not change -/
theorem conv_line {n c : ℕ} (hn : 0 < n) (g : Fin (2 * c + 1) → ℝ) (hg : ∀ a, g a.rev = g a) (f : ℕ → ℝ) :
    ∑ a, g a * ∑ p ∈ Finset.range n, f (Resamp.refl n ((p : ℤ) + c - (a : ℕ))) =
      (∑ a, g a) * ∑ p ∈ Finset.range n, f p := by
  have e : ∀ a : Fin (2 * c + 1), ∑ p ∈ Finset.range n, f (Resamp.refl n ((p : ℤ) + c - (a : ℕ))) =
      shifted n f ((c : ℤ) - (a : ℕ)) := fun a => Finset.sum_congr rfl fun p _ => by congr 2; ring
  simp only [e]
  have h1 : ∑ a : Fin (2 * c + 1), g a * shifted n f ((c : ℤ) - (a : ℕ)) =
      ∑ a : Fin (2 * c + 1), g a * shifted n f (-((c : ℤ) - (a : ℕ))) := by
    rw [← Equiv.sum_comp Fin.revPerm]
    refine Finset.sum_congr rfl fun a _ => ?_
    rw [Fin.revPerm_apply, hg]
    congr 2
    have : (a.rev : ℕ) = 2 * c - a := by rw [Fin.val_rev]; omega
    rw [this]
    have := a.2
    omega
  have h2 : ∑ a : Fin (2 * c + 1), g a * shifted n f ((c : ℤ) - (a : ℕ)) +
      ∑ a : Fin (2 * c + 1), g a * shifted n f (-((c : ℤ) - (a : ℕ))) = (∑ a, g a) * (2 * ∑ p ∈ Finset.range n, f p) := by
    rw [← Finset.sum_add_distrib, Finset.sum_mul]
    refine Finset.sum_congr rfl fun a _ => ?_
    rw [← mul_add, shifted_add hn]
  linarith

theorem src_ext {n m w w' : ℕ} (v : Fin n × Fin m → ℝ) (i : Fin n × Fin m) (k : Fin w × Fin w') :
    v (src i k) = ext v (Resamp.refl n ((i.1 : ℕ) + (w / 2 : ℕ) - (k.1 : ℕ)))
      (Resamp.refl m ((i.2 : ℕ) + (w' / 2 : ℕ) - (k.2 : ℕ))) := by
  have h1 := refl_lt i.1.pos ((i.1 : ℕ) + (w / 2 : ℕ) - (k.1 : ℕ))
  have h2 := refl_lt i.2.pos ((i.2 : ℕ) + (w' / 2 : ℕ) - (k.2 : ℕ))
  unfold ext src
  rw [dif_pos ⟨h1, h2⟩]
  congr 2 <;> exact Fin.ext (Nat.mod_eq_of_lt (by assumption))

/-- **C183** convolving with a kernel of odd size, symmetric about its middle row and its middle column, multiplies the total
of the image by the total of the kernel: what leaves the image at an edge is mirrored back -/
theorem C183_convolve {n m c c' : ℕ} (ker : Fin (2 * c + 1) × Fin (2 * c' + 1) → ℝ)
    (h1 : ∀ a b, ker (a.rev, b) = ker (a, b)) (h2 : ∀ a b, ker (a, b.rev) = ker (a, b)) (v : Fin n × Fin m → ℝ) :
    ∑ i, convolve src ker v i = (∑ k, ker k) * ∑ i, v i := by
  rcases Nat.eq_zero_or_pos n with rfl | hn
  · simp
  rcases Nat.eq_zero_or_pos m with rfl | hm
  · simp
  have hc : (2 * c + 1) / 2 = c := by omega
  have hc' : (2 * c' + 1) / 2 = c' := by omega
  unfold convolve
  rw [Finset.sum_comm]
  have e : ∀ k : Fin (2 * c + 1) × Fin (2 * c' + 1), ∑ i : Fin n × Fin m, ker k * v (src i k) =
      ker k * ∑ p ∈ Finset.range n, ∑ q ∈ Finset.range m, ext v (Resamp.refl n ((p : ℤ) + c - (k.1 : ℕ)))
        (Resamp.refl m ((q : ℤ) + c' - (k.2 : ℕ))) := by
    intro k
    rw [← Finset.mul_sum]
    congr 1
    rw [sum_ext]
    refine Finset.sum_congr rfl fun p hp => Finset.sum_congr rfl fun q hq => ?_
    have hp := Finset.mem_range.mp hp
    have hq := Finset.mem_range.mp hq
    have := src_ext v (⟨p, hp⟩, ⟨q, hq⟩) k
    rw [hc, hc'] at this
    simp only [ext, hp, hq, and_self, dite_true]
    rw [this]
    rfl
  rw [Finset.sum_congr rfl fun k _ => e k, Fintype.sum_prod_type]
  have e2 : ∀ a : Fin (2 * c + 1), ∑ b : Fin (2 * c' + 1), ker (a, b) * ∑ p ∈ Finset.range n, ∑ q ∈ Finset.range m,
      ext v (Resamp.refl n ((p : ℤ) + c - (a : ℕ))) (Resamp.refl m ((q : ℤ) + c' - (b : ℕ))) =
      (∑ b, ker (a, b)) * ∑ p ∈ Finset.range n, ∑ q ∈ Finset.range m, ext v (Resamp.refl n ((p : ℤ) + c - (a : ℕ))) q := by
    intro a
    have := conv_line hm (fun b => ker (a, b)) (h2 a)
      (fun q => ∑ p ∈ Finset.range n, ext v (Resamp.refl n ((p : ℤ) + c - (a : ℕ))) q)
    rw [Finset.sum_comm (s := Finset.range n), ← this]
    refine Finset.sum_congr rfl fun b _ => ?_
    rw [Finset.sum_comm]
  rw [Finset.sum_congr rfl fun a _ => e2 a]
  have e3 := conv_line hn (fun a => ∑ b, ker (a, b)) (fun a => Finset.sum_congr rfl fun b _ => h1 a b)
    (fun p => ∑ q ∈ Finset.range m, ext v p q)
  rw [e3, Fintype.sum_prod_type, ← sum_ext]

/-- **C183** the point spread of an odd window takes exactly the share `1 - cap` from the total of an image; the constant
added afterwards spreads the same share of the energy over the view -/
theorem C183_psf_odd_partial {n m : ℕ} {fw : ℝ} (h0 : 0 < fw) (h1 : fw ≤ 90) (c : ℕ) {bcs : List (ℝ × ℝ)} (he : Eye bcs) (er : Fin n × Fin m → ℝ) :
    ∃ ker, Gss.kernel fw (2 * c + 1) bcs = some ker ∧
      ∑ i, convolve src ker er i = capEg fw bcs * ∑ i, er i ∧
      ∀ (omega : Fin n × Fin m → ℝ) (mask : Fin n × Fin m → Bool), (∀ i, mask i = false → er i = 0) →
        (∀ i j, mask i = true → mask j = true → omega i = omega j) → (∃ i, mask i = true ∧ 0 < omega i) →
        ∑ i, convolve src ker er i + ∑ i, (if mask i then psfBase omega mask (capEg fw bcs) er else 0) = ∑ i, er i := by
  obtain ⟨ker, hk, hs, hsum⟩ := C150_odd_partial h0 h1 c he
  have hconv : ∑ i, convolve src ker er i = capEg fw bcs * ∑ i, er i := by
    rw [C183_convolve ker (fun a b => (hs a b).1) (fun a b => (hs a b).2.1), hsum]
  refine ⟨ker, hk, hconv, ?_⟩
  intro omega mask hz hom ⟨i0, hi0, hpos⟩
  rw [hconv]
  have e1 : (∑ i, if mask i then er i * omega i else 0) = omega i0 * ∑ i, er i := by
    rw [Finset.mul_sum]
    refine Finset.sum_congr rfl fun i _ => ?_
    cases hm : mask i with
    | false => simp [hz i hm]
    | true => simp [hom i i0 hm hi0, mul_comm]
  have e2 : (∑ i, if mask i then omega i else 0) = omega i0 * ∑ i, (if mask i then (1 : ℝ) else 0) := by
    rw [Finset.mul_sum]
    refine Finset.sum_congr rfl fun i _ => ?_
    cases hm : mask i with
    | false => simp
    | true => simp [hom i i0 hm hi0]
  have hN : 0 < ∑ i, (if mask i then (1 : ℝ) else 0) :=
    Finset.sum_pos' (fun i _ => by split <;> norm_num) ⟨i0, Finset.mem_univ _, by simp [hi0]⟩
  have e3 : ∑ i, (if mask i then psfBase omega mask (capEg fw bcs) er else 0) =
      psfBase omega mask (capEg fw bcs) er * ∑ i, (if mask i then (1 : ℝ) else 0) := by
    rw [Finset.mul_sum]
    exact Finset.sum_congr rfl fun i _ => by split <;> simp
  rw [e3]
  unfold psfBase
  rw [e1, e2]
  field_simp
  ring

/-! ### a point -/

theorem refl_far {n c p : ℕ} (h1 : c ≤ p) (h2 : p + c < n) (j : ℤ) (hj1 : -(c : ℤ) ≤ j) (hj2 : j < n + c) :
    Resamp.refl n j % n = p ↔ j = p := by
  have hn : 0 < n := by omega
  rw [Nat.mod_eq_of_lt (refl_lt hn j)]
  unfold Resamp.refl
  rcases lt_or_ge j 0 with h | h
  · have e : j % (2 * (n : ℤ)) = j + 2 * n := by
      rw [← Int.add_emod_right, Int.emod_eq_of_lt (by omega) (by omega)]
    rw [e]
    split <;> omega
  · rw [Int.emod_eq_of_lt h (by omega)]
    split <;> omega

/-- an image with light at one pixel only -/
def point {n m : ℕ} (p : Fin n × Fin m) : Fin n × Fin m → ℝ := fun i => if i = p then 1 else 0

/-- the point is further from the edges than half the window -/
def Inside {n m : ℕ} (c : ℕ) (p : Fin n × Fin m) : Prop :=
  c ≤ (p.1 : ℕ) ∧ p.1 + c < n ∧ c ≤ (p.2 : ℕ) ∧ p.2 + c < m

/-- the image of a point: the kernel turned up with its entry `w // 2` at the point -/
theorem C183_point {n m w : ℕ} (ker : Fin w × Fin w → ℝ) (p : Fin n × Fin m) (hp : Inside (w / 2) p) (x : Fin n × Fin m) :
    (∀ k : Fin w × Fin w, (x.1 : ℤ) + (w / 2 : ℕ) - (k.1 : ℕ) = (p.1 : ℕ) → (x.2 : ℤ) + (w / 2 : ℕ) - (k.2 : ℕ) = (p.2 : ℕ) →
      convolve src ker (point p) x = ker k) ∧
    ((∀ k : Fin w × Fin w, ¬ ((x.1 : ℤ) + (w / 2 : ℕ) - (k.1 : ℕ) = (p.1 : ℕ) ∧ (x.2 : ℤ) + (w / 2 : ℕ) - (k.2 : ℕ) = (p.2 : ℕ))) →
      convolve src ker (point p) x = 0) := by
  obtain ⟨a1, a2, a3, a4⟩ := hp
  have key : ∀ k : Fin w × Fin w, src x k = p ↔
      (x.1 : ℤ) + (w / 2 : ℕ) - (k.1 : ℕ) = (p.1 : ℕ) ∧ (x.2 : ℤ) + (w / 2 : ℕ) - (k.2 : ℕ) = (p.2 : ℕ) := by
    intro k
    have k1 := k.1.2
    have k2 := k.2.2
    have x1 := x.1.2
    have x2 := x.2.2
    rw [← refl_far a1 a2 _ (by omega) (by omega), ← refl_far a3 a4 _ (by omega) (by omega)]
    unfold src
    rw [Prod.ext_iff, Fin.ext_iff, Fin.ext_iff]
  unfold convolve point
  constructor
  · intro k h1 h2
    rw [Finset.sum_eq_single k, if_pos ((key k).mpr ⟨h1, h2⟩), mul_one]
    · intro k' _ hne
      rw [if_neg, mul_zero]
      rw [key]
      rintro ⟨g1, g2⟩
      apply hne
      apply Prod.ext <;> apply Fin.ext <;> omega
    · intro h; exact absurd (Finset.mem_univ _) h
  · intro h
    refine Finset.sum_eq_zero fun k _ => ?_
    rw [if_neg (by rw [key]; exact h k), mul_zero]

/-- the image of a point is the same on opposite sides of the point -/
def Centred {w : ℕ} (ker : Fin w × Fin w → ℝ) : Prop :=
  ∀ (n m : ℕ) (p : Fin n × Fin m), Inside (w / 2) p → ∀ x y : Fin n × Fin m, (x.1 + y.1 : ℕ) = 2 * p.1 → (x.2 + y.2 : ℕ) = 2 * p.2 →
    convolve src ker (point p) x = convolve src ker (point p) y

/-- The claim: `apply_psf` blurs a point about its own place. -/
def C183_statement : Prop :=
  ∀ (age pig pd : ℝ), 0 ≤ age → age ≤ 100 → 0 < pig → pig < 1 → 1 ≤ pd → pd ≤ 8 → ∀ (fw va : ℝ), 0 < fw → fw ≤ 90 → 0 < va → va ≤ 180 →
    ∀ (res : ℕ) ker, Gss.kernel fw (window fw (pparcmin res va)) ((bs age pig pd).zip (cs age pig pd)) = some ker → Centred ker

/-- **C183** it does for windows with an odd number of pixels -/
theorem C183_point_odd_partial {fw : ℝ} (h0 : 0 < fw) (h1 : fw ≤ 90) (c : ℕ) {bcs : List (ℝ × ℝ)} (he : Eye bcs) :
    ∃ ker, Gss.kernel fw (2 * c + 1) bcs = some ker ∧ Centred ker := by
  obtain ⟨ker, hk, hs, -⟩ := C150_odd_partial h0 h1 c he
  refine ⟨ker, hk, ?_⟩
  have hc : (2 * c + 1) / 2 = c := by omega
  intro n m p hp x y e1 e2
  obtain ⟨hx1, hx2⟩ := C183_point ker p hp x
  obtain ⟨hy1, hy2⟩ := C183_point ker p hp y
  rw [hc] at hx1 hx2 hy1 hy2
  by_cases h : ∃ k : Fin (2 * c + 1) × Fin (2 * c + 1), (x.1 : ℤ) + c - (k.1 : ℕ) = (p.1 : ℕ) ∧ (x.2 : ℤ) + c - (k.2 : ℕ) = (p.2 : ℕ)
  · obtain ⟨k, g1, g2⟩ := h
    have r1 : (k.1.rev : ℕ) = 2 * c - k.1 := by rw [Fin.val_rev]; omega
    have r2 : (k.2.rev : ℕ) = 2 * c - k.2 := by rw [Fin.val_rev]; omega
    have := k.1.2
    have := k.2.2
    rw [hx1 k g1 g2, hy1 (k.1.rev, k.2.rev) (by simp only [r1]; omega) (by simp only [r2]; omega),
      (hs k.1 k.2.rev).1, (hs k.1 k.2).2.1]
  · rw [hx2 (fun k hk => h ⟨k, hk⟩), hy2]
    rintro k ⟨g1, g2⟩
    apply h
    have r1 : (k.1.rev : ℕ) = 2 * c - k.1 := by rw [Fin.val_rev]; omega
    have r2 : (k.2.rev : ℕ) = 2 * c - k.2 := by rw [Fin.val_rev]; omega
    have := k.1.2
    have := k.2.2
    exact ⟨(k.1.rev, k.2.rev), by simp only [r1]; omega, by simp only [r2]; omega⟩

/-- **C183** with an even number of pixels the blur (before its peak is set) is centred on the corner between the point and
its predecessors: half a pixel too early on both axes -/
theorem C183_point_even_partial {n m c : ℕ} {fw : ℝ} (h0 : 0 < fw) (h1 : fw ≤ 180) (bcs : List (ℝ × ℝ)) (p : Fin n × Fin m)
    (hp : Inside c p) (x y : Fin n × Fin m) (e1 : (x.1 + y.1 + 1 : ℕ) = 2 * p.1) (e2 : (x.2 + y.2 + 1 : ℕ) = 2 * p.2) :
    convolve src (rawKernel fw (2 * c) bcs) (point p) x = convolve src (rawKernel fw (2 * c) bcs) (point p) y := by
  have hc : 2 * c / 2 = c := by omega
  have hs := raw_symmetric h0 h1 (2 * c) bcs
  obtain ⟨hx1, hx2⟩ := C183_point (rawKernel fw (2 * c) bcs) p (by rw [hc]; exact hp) x
  obtain ⟨hy1, hy2⟩ := C183_point (rawKernel fw (2 * c) bcs) p (by rw [hc]; exact hp) y
  rw [hc] at hx1 hx2 hy1 hy2
  by_cases h : ∃ k : Fin (2 * c) × Fin (2 * c), (x.1 : ℤ) + c - (k.1 : ℕ) = (p.1 : ℕ) ∧ (x.2 : ℤ) + c - (k.2 : ℕ) = (p.2 : ℕ)
  · obtain ⟨k, g1, g2⟩ := h
    have r1 : (k.1.rev : ℕ) = 2 * c - 1 - k.1 := by rw [Fin.val_rev]; omega
    have r2 : (k.2.rev : ℕ) = 2 * c - 1 - k.2 := by rw [Fin.val_rev]; omega
    have := k.1.2
    have := k.2.2
    rw [hx1 k g1 g2, hy1 (k.1.rev, k.2.rev) (by simp only [r1]; omega) (by simp only [r2]; omega),
      (hs k.1 k.2.rev).1, (hs k.1 k.2).2.1]
  · rw [hx2 (fun k hk => h ⟨k, hk⟩), hy2]
    rintro k ⟨g1, g2⟩
    apply h
    have r1 : (k.1.rev : ℕ) = 2 * c - 1 - k.1 := by rw [Fin.val_rev]; omega
    have r2 : (k.2.rev : ℕ) = 2 * c - 1 - k.2 := by rw [Fin.val_rev]; omega
    have := k.1.2
    have := k.2.2
    exact ⟨(k.1.rev, k.2.rev), by simp only [r1]; omega, by simp only [r2]; omega⟩

theorem C183_refuted : ¬ C183_statement := by
  intro h
  have he := eye_ok (age := 0) (pig := 1 / 2) (pd := 3.2) le_rfl (by norm_num) (by norm_num) (by norm_num) (by norm_num) (by norm_num)
  have hw : window 10 (pparcmin 36 180) = 2 := by
    unfold window pparcmin
    norm_num
  have hc := h 0 (1 / 2) 3.2 le_rfl (by norm_num) (by norm_num) (by norm_num) (by norm_num) (by norm_num) 10 180 (by norm_num)
    (by norm_num) (by norm_num) le_rfl 36
  rw [hw] at hc
  have hcap : 0 < capEg 10 ((bs 0 (1 / 2) 3.2).zip (cs 0 (1 / 2) 3.2)) := by
    obtain ⟨b, c, l, hl⟩ : ∃ b c l, (bs 0 (1 / 2) 3.2).zip (cs 0 (1 / 2) 3.2) = (b, c) :: l := ⟨_, _, _, rfl⟩
    rw [hl] at he ⊢
    have hb := he.pos (b, c) (by simp)
    refine lt_of_lt_of_le ?_ (capEg_ge b c l fun bc hm => ⟨(he.pos bc hm).1, (he.pos bc hm).2.2⟩)
    exact div_pos (div_pos hb.2.2 hb.1) (by norm_num)
  generalize hbcs : (bs 0 (1 / 2) 3.2).zip (cs 0 (1 / 2) 3.2) = bcs at *
  have hsym := raw_symmetric (by norm_num : (0 : ℝ) < 10) (by norm_num) 2 bcs
  set raw := rawKernel 10 2 bcs with hraw
  have e01 : raw (0, 1) = raw (0, 0) := (hsym 0 0).2.1
  have e10 : raw (1, 0) = raw (0, 0) := (hsym 0 0).1
  have e11 : raw (1, 1) = raw (0, 0) := ((hsym 0 1).1).trans e01
  have hall : ∀ k, raw k = raw (0, 0) := by
    rintro ⟨i, j⟩
    fin_cases i <;> fin_cases j <;> simp_all
  have hpk : peak raw = some (0, 0) := by
    unfold peak
    rw [List.argmax_eq_some_iff]
    refine ⟨by simp, fun a _ => (hall a).le, fun a _ _ => ?_⟩
    have : List.idxOf ((0, 0) : Fin 2 × Fin 2) (List.finRange 2 ×ˢ List.finRange 2) = 0 := by decide
    refine le_trans (le_of_eq ?_) (Nat.zero_le _)
    convert this
  have hk : Gss.kernel 10 2 bcs = some (fixPeak raw (0, 0) (capEg 10 bcs)) := by
    unfold Gss.kernel; rw [← hraw, hpk]; rfl
  have hcen := hc _ hk
  set ker := fixPeak raw (0, 0) (capEg 10 bcs) with hker
  have hsum : ∑ k, ker k = capEg 10 bcs := (C76_kernel _ _ _).1
  have hin : Inside (n := 4) (m := 4) (2 / 2) (2, 2) := by unfold Inside; decide
  -- the image of the pixel (2, 2) of four by four
  have hp : ∀ (x : Fin 4 × Fin 4) (k : Fin 2 × Fin 2), (x.1 : ℕ) = k.1 + 1 → (x.2 : ℕ) = k.2 + 1 →
      convolve src ker (point (2, 2)) x = ker k := by
    intro x k h1 h2
    exact (C183_point ker (2, 2) hin x).1 k (by simp; omega) (by simp; omega)
  have hz : ∀ x : Fin 4 × Fin 4, (x.1 : ℕ) = 3 ∨ (x.2 : ℕ) = 3 → convolve src ker (point (2, 2)) x = 0 := by
    intro x hx
    refine (C183_point ker (2, 2) hin x).2 fun k hk => ?_
    have := k.1.2
    have := k.2.2
    simp at hk
    omega
  have z00 : ker (0, 0) = 0 := by
    rw [← hp (1, 1) (0, 0) rfl rfl, hcen 4 4 (2, 2) hin (1, 1) (3, 3) rfl rfl]; exact hz _ (Or.inl rfl)
  have z01 : ker (0, 1) = 0 := by
    rw [← hp (1, 2) (0, 1) rfl rfl, hcen 4 4 (2, 2) hin (1, 2) (3, 2) rfl rfl]; exact hz _ (Or.inl rfl)
  have r01 : ker (0, 1) = raw (0, 1) := (C76_kernel _ _ _).2 _ (by decide)
  have r10 : ker (1, 0) = raw (1, 0) := (C76_kernel _ _ _).2 _ (by decide)
  have r11 : ker (1, 1) = raw (1, 1) := (C76_kernel _ _ _).2 _ (by decide)
  rw [Fintype.sum_prod_type] at hsum
  simp only [Fin.sum_univ_two] at hsum
  linarith

/-! ### the shape of the Gaussian -/

theorem radius_iff {σ t : ℝ} (h : 0 ≤ t * σ) (k : ℤ) :
    k ∈ Finset.Icc (-(radius t σ : ℤ)) (radius t σ) ↔ |(k : ℝ)| ≤ t * σ + 1 / 2 := by
  have e : |(k : ℝ)| = ((k.natAbs : ℕ) : ℝ) := by rw [Nat.cast_natAbs, Int.cast_abs]
  rw [e, Finset.mem_Icc]
  unfold radius
  rw [← Nat.le_floor_iff (by linarith)]
  omega

/-- a single bright entry, further from the ends than the reach of the kernel -/
theorem line_point {n : ℕ} {σ t : ℝ} (hs : 1e-15 < σ) (ht : 0 ≤ t) {p x : ℕ} (h1 : radius t σ ≤ p) (h2 : p + radius t σ < n)
    (hx : x < n) (v : ℝ) :
    blurLine n σ t (fun q => if q = p then v else 0) x =
      if |(x : ℝ) - p| ≤ t * σ + 1 / 2 then
        v * (Real.exp (-((x : ℝ) - p) ^ 2 / (2 * σ ^ 2)) / ∑ y ∈ Finset.Icc (-(radius t σ : ℤ)) (radius t σ), phi σ y) else 0 := by
  have hn : 0 < n := by omega
  have hs0 : 0 < σ := lt_trans (by norm_num) hs
  have hst : 0 ≤ t * σ := by positivity
  unfold blurLine
  rw [if_neg (not_le.mpr hs)]
  beta_reduce
  have key : ∀ k ∈ Finset.Icc (-(radius t σ : ℤ)) (radius t σ), (Resamp.refl n ((x : ℤ) + k) = p ↔ k = (p : ℤ) - x) := by
    intro k hk
    rw [Finset.mem_Icc] at hk
    have := refl_far h1 h2 ((x : ℤ) + k) (by omega) (by omega)
    rw [Nat.mod_eq_of_lt (refl_lt hn _)] at this
    rw [this]
    omega
  have hcond : |(x : ℝ) - p| ≤ t * σ + 1 / 2 ↔ ((p : ℤ) - x) ∈ Finset.Icc (-(radius t σ : ℤ)) (radius t σ) := by
    rw [radius_iff hst]
    push_cast
    rw [abs_sub_comm]
  by_cases hin : ((p : ℤ) - x) ∈ Finset.Icc (-(radius t σ : ℤ)) (radius t σ)
  · rw [if_pos (hcond.mpr hin), Finset.sum_eq_single ((p : ℤ) - x)]
    · rw [if_pos ((key _ hin).mpr rfl), mul_comm]
      congr 1
      unfold kernel phi
      congr 2
      push_cast
      field_simp
      ring
    · intro k hk hne
      rw [if_neg (fun h => hne ((key k hk).mp h)), mul_zero]
    · intro h; exact absurd hin h
  · rw [if_neg (fun h => hin (hcond.mp h))]
    refine Finset.sum_eq_zero fun k hk => ?_
    rw [if_neg (fun h => hin (by rw [← (key k hk).mp h]; exact hk)), mul_zero]

/-- **C183** the image of a point (further from the edges than the reach of the kernel) is the Gaussian of the requested width,
cut off beyond `truncate` widths, rounded to pixels, on each axis -/
theorem C183_spread {n m : ℕ} {σ t : ℝ} (hs : 1e-15 < σ) (ht : 0 ≤ t) (p : Fin n × Fin m) (hp : Inside (radius t σ) p) :
    ∃ Z : ℝ, 0 < Z ∧ ∀ x : Fin n × Fin m, blur2 n m σ t (point p) x =
      if |((x.1 : ℕ) : ℝ) - (p.1 : ℕ)| ≤ t * σ + 1 / 2 ∧ |((x.2 : ℕ) : ℝ) - (p.2 : ℕ)| ≤ t * σ + 1 / 2 then
        Real.exp (-((((x.1 : ℕ) : ℝ) - (p.1 : ℕ)) ^ 2 + (((x.2 : ℕ) : ℝ) - (p.2 : ℕ)) ^ 2) / (2 * σ ^ 2)) / Z else 0 := by
  obtain ⟨a1, a2, a3, a4⟩ := hp
  set S := ∑ y ∈ Finset.Icc (-(radius t σ : ℤ)) (radius t σ), phi σ y with hS
  have hpos : 0 < S := phi_sum_pos σ _
  refine ⟨S ^ 2, by positivity, fun x => ?_⟩
  unfold blur2
  have e1 : ∀ q, q < m → (fun p' => ext (point p) p' q) = fun p' => if p' = (p.1 : ℕ) then (if q = (p.2 : ℕ) then 1 else 0) else 0 := by
    intro q hq
    funext p'
    have hp1 := p.1.2
    unfold ext point
    by_cases h : p' = (p.1 : ℕ)
    · rw [dif_pos ⟨by omega, hq⟩, if_pos h]
      simp only [Prod.ext_iff, Fin.ext_iff, h, true_and]
    · rw [if_neg h]
      split
      · rw [if_neg]; intro hc; exact h (congrArg (fun z => (z.1 : ℕ)) hc)
      · rfl
  have e2 : ∀ q, q < m → blurLine n σ t (fun p' => ext (point p) p' q) x.1 =
      if q = (p.2 : ℕ) then (if |((x.1 : ℕ) : ℝ) - (p.1 : ℕ)| ≤ t * σ + 1 / 2 then
        Real.exp (-(((x.1 : ℕ) : ℝ) - (p.1 : ℕ)) ^ 2 / (2 * σ ^ 2)) / S else 0) else 0 := by
    intro q hq
    rw [e1 q hq, line_point hs ht a1 a2 x.1.2, ← hS]
    by_cases h : q = (p.2 : ℕ) <;> simp [h]
  have e3 : blurLine m σ t (fun q => blurLine n σ t (fun p' => ext (point p) p' q) x.1) x.2 =
      blurLine m σ t (fun q => if q = (p.2 : ℕ) then (if |((x.1 : ℕ) : ℝ) - (p.1 : ℕ)| ≤ t * σ + 1 / 2 then
        Real.exp (-(((x.1 : ℕ) : ℝ) - (p.1 : ℕ)) ^ 2 / (2 * σ ^ 2)) / S else 0) else 0) x.2 := by
    rw [line_weights x.2.pos σ t _ _ x.2.2, line_weights x.2.pos σ t _ _ x.2.2]
    refine Finset.sum_congr rfl fun q hq => ?_
    rw [e2 q (Finset.mem_range.mp hq)]
  rw [e3, line_point hs ht a3 a4 x.2.2, ← hS]
  by_cases h1 : |((x.1 : ℕ) : ℝ) - (p.1 : ℕ)| ≤ t * σ + 1 / 2 <;> by_cases h2 : |((x.2 : ℕ) : ℝ) - (p.2 : ℕ)| ≤ t * σ + 1 / 2 <;>
    simp only [h1, h2, if_true, if_false, and_true, and_false, false_and, zero_mul]
  rw [neg_add, add_div, Real.exp_add]
  field_simp

/-! ### non-trivial cases -/

/-- a bright line blurred by a Gaussian of one pixel keeps its total -/
example : ∑ i, blur2 2 3 1 4 (fun i => if i.2 = 1 then 5 else 0) i = 10 := by
  rw [C183_total, Fintype.sum_prod_type]
  norm_num [Fin.sum_univ_succ]

/-- enlarging a 1 by 2 array three times with the default Gaussian -/
example : ∃ b, resample id gaussianFilter ⟨[1, 2], fun idx => (idx.getD 1 0 : ℝ)⟩ (some [3, 6]) true (some [2]) = .ok b ∧
    b.shape = [3, 6] ∧ mean b = 1 / 2 := by
  obtain ⟨b, h1, h2, h3, -⟩ := C182_enlarge id ⟨[1, 2], fun idx => (idx.getD 1 0 : ℝ)⟩ [3, 3] rfl (by simp) (by simp)
    (by intro r _; unfold UpOk; simp) (some [2]) (by rintro l hl; cases hl; exact Or.inl rfl)
  refine ⟨b, h1, h2, h3.trans ?_⟩
  unfold mean total
  norm_num [total, Finset.sum_range_succ]

end Verif.Gauss
