import Verif.Model.Rgbe
import Verif.Props.IoMisc
import Mathlib.Tactic.Linarith
import Mathlib.Tactic.Positivity
import Mathlib.Tactic.FieldSimp
import Mathlib.Tactic.FinCases

/-! C207, C208: the values of pictures that are saved and read. -/

namespace Verif.Rgbe
open Verif.IoMisc

/-- contract of the rounding to 4 byte floats -/
structure F32 (f : ℝ → ℝ) : Prop where
  rel : ∀ x, |f x - x| ≤ 2⁻¹ ^ 24 * |x|
  mono : ∀ x y, x ≤ y → f x ≤ f y
  exact : ∀ k e : ℤ, |k| ≤ 2 ^ 24 → f (k * 2 ^ e) = k * 2 ^ e

theorem log_bounds {d : ℝ} (hd : 0 < d) : (2 : ℝ) ^ (expOf d - 1) ≤ d ∧ d < 2 ^ expOf d := by
  unfold expOf
  rw [add_sub_cancel_right]
  exact ⟨Int.zpow_log_le_self (by norm_num) hd, Int.lt_zpow_succ_log_self (by norm_num) d⟩

/-- the exponent fits the byte and is not zero -/
theorem exp_range {d : ℝ} (h0 : 1e-32 < d) (h1 : d < 2 ^ (127 : ℤ)) :
    ((expOf d + 128).toNat : ℤ) = expOf d + 128 ∧ 0 < expOf d + 128 ∧ expOf d + 128 < 256 := by
  have hd : 0 < d := by linarith [show (0 : ℝ) < 1e-32 by norm_num]
  obtain ⟨a, b⟩ := log_bounds hd
  have l : (-107 : ℤ) < expOf d := by
    by_contra hn
    have q1 : (2 : ℝ) ^ expOf d ≤ 2 ^ (-107 : ℤ) := zpow_le_zpow_right₀ (by norm_num) (by omega)
    have q2 : (2 : ℝ) ^ (-107 : ℤ) < 1e-32 := by norm_num
    exact absurd ((b.trans_le q1).trans q2) (not_lt.mpr h0.le)
  have u : expOf d - 1 < 127 := by
    by_contra hn
    have : (2 : ℝ) ^ (127 : ℤ) ≤ 2 ^ (expOf d - 1) := zpow_le_zpow_right₀ (by norm_num) (by omega)
    linarith
  omega

theorem le_top (c : Fin 3 → ℝ) (i : Fin 3) : c i ≤ top c := by
  unfold top
  fin_cases i
  · exact (le_max_left _ _).trans (le_max_left _ _)
  · exact (le_max_right _ _).trans (le_max_left _ _)
  · exact le_max_right _ _

theorem top_const (v : ℝ) : top (fun _ => v) = v := by unfold top; simp

theorem top_lt {c : Fin 3 → ℝ} {b : ℝ} (h : ∀ i, c i < b) : top c < b := max_lt (max_lt (h 0) (h 1)) (h 2)

/-- a stored channel, decoded -/
theorem color_setcolr {s : ℝ} {c : Fin 3 → ℝ} (hb : 1e-32 < top c) (ht : top c < 2 ^ (127 : ℤ)) (i : Fin 3) :
    color (setcolr s c) i = ((⌊c i * (s / 2 ^ expOf (top c))⌋.toNat : ℝ) + 1 / 2) * 2 ^ (expOf (top c) - 8) := by
  obtain ⟨e1, e2, _⟩ := exp_range hb ht
  unfold setcolr
  rw [if_neg (not_le.mpr hb)]
  unfold color
  simp only
  rw [if_neg (by omega), e1]
  congr 2
  ring

/-- the error of one channel is half a step of the brightest and the missing part of the factor -/
theorem channel_error {s : ℝ} (s0 : 255.999 ≤ s) (s1 : s ≤ 256) {c : Fin 3 → ℝ} (hb : 1e-32 < top c)
    (ht : top c < 2 ^ (127 : ℤ)) (i : Fin 3) (hc : 0 ≤ c i) :
    |color (setcolr s c) i - c i| ≤ 0.003911 * top c := by
  rw [color_setcolr hb ht]
  have hd : 0 < top c := by linarith [show (0 : ℝ) < 1e-32 by norm_num]
  obtain ⟨a, b⟩ := log_bounds hd
  set E := expOf (top c) with hE
  have hP : (0 : ℝ) < 2 ^ E := by positivity
  have hP8 : (2 : ℝ) ^ (E - 8) = 2 ^ E / 256 := by rw [zpow_sub₀ (by norm_num)]; norm_num
  have hP1 : (2 : ℝ) ^ (E - 1) = 2 ^ E / 2 := by rw [zpow_sub₀ (by norm_num)]; norm_num
  rw [hP1] at a
  rw [hP8]
  set P := (2 : ℝ) ^ E with hPd
  have hq : 0 ≤ c i * (s / P) := by positivity
  have ef : ((⌊c i * (s / P)⌋.toNat : ℕ) : ℝ) = (⌊c i * (s / P)⌋ : ℝ) := by
    have : 0 ≤ ⌊c i * (s / P)⌋ := Int.floor_nonneg.mpr hq
    exact_mod_cast congrArg (Int.cast (R := ℝ)) (Int.toNat_of_nonneg this)
  rw [ef]
  have f1 := Int.floor_le (c i * (s / P))
  have f2 := Int.lt_floor_add_one (c i * (s / P))
  set F := (⌊c i * (s / P)⌋ : ℝ) with hF
  have e : c i * (s / P) * P = c i * s := by field_simp
  have g1 : F * P ≤ c i * s := by nlinarith
  have g2 : c i * s < (F + 1) * P := by nlinarith
  have hct := le_top c i
  rw [abs_le]
  constructor <;> nlinarith

/-- **C207** every channel of a pixel keeps its value up to 0.4 per cent of the brightest channel -/
theorem C207_channel {f : ℝ → ℝ} (hf : F32 f) {s : ℝ} (s0 : 255.999 ≤ s) (s1 : s ≤ 256) (H : ℕ)
    (ar : Fin 3 → ℕ → ℕ → ℝ) {x y : ℕ} (hy : y < H) (h0 : ∀ c, 0 ≤ ar c x y) (h1 : ∀ c, ar c x y < 2 ^ (126 : ℤ))
    (hb : ∃ c, 2e-32 < ar c x y) (c : Fin 3) :
    |loadC f H (saveC f s H ar) c x y - ar c x y| ≤ 0.004 * top (fun k => ar k x y) := by
  unfold loadC saveC
  rw [show H - 1 - (H - 1 - y) = y by omega]
  set v : Fin 3 → ℝ := fun k => ar k x y with hv
  have r : ∀ k, |f (v k) - v k| ≤ 2⁻¹ ^ 24 * v k := fun k => by
    have := hf.rel (v k); rwa [abs_of_nonneg (h0 k)] at this
  have n : ∀ k, 0 ≤ f (v k) := fun k => by
    have := (abs_le.mp (r k)).1
    have := h0 k
    norm_num at this ⊢
    nlinarith [h0 k, (abs_le.mp (r k)).1, show (2⁻¹ : ℝ) ^ 24 ≤ 1 by norm_num]
  have hT0 : 0 ≤ top v := (h0 0).trans (le_top v 0)
  have up : ∀ k, f (v k) ≤ (1 + 2⁻¹ ^ 24) * top v := fun k => by
    have := (abs_le.mp (r k)).2
    have := le_top v k
    nlinarith [show (0 : ℝ) ≤ 2⁻¹ ^ 24 by positivity]
  have tu : top (fun k => f (v k)) ≤ (1 + 2⁻¹ ^ 24) * top v := max_le (max_le (up 0) (up 1)) (up 2)
  have hb' : 1e-32 < top (fun k => f (v k)) := by
    obtain ⟨k, hk⟩ := hb
    have := (abs_le.mp (r k)).1
    have hle := le_top (fun k => f (v k)) k
    have : (2⁻¹ : ℝ) ^ 24 ≤ 1 / 4 := by norm_num
    have hk' : 2e-32 < v k := hk
    nlinarith
  have ht : top (fun k => f (v k)) < 2 ^ (127 : ℤ) := by
    have : top v < 2 ^ (126 : ℤ) := top_lt h1
    have e : (2 : ℝ) ^ (127 : ℤ) = 2 * 2 ^ (126 : ℤ) := by norm_num
    rw [e]
    have : (2⁻¹ : ℝ) ^ 24 ≤ 1 / 4 := by norm_num
    nlinarith
  have hc := channel_error s0 s1 hb' ht c (n c)
  have hr := hf.rel (color (setcolr s fun k => f (v k)) c)
  set K := color (setcolr s fun k => f (v k)) c with hK
  obtain ⟨q1, q2⟩ := abs_le.mp hc
  have hKabs : |K| ≤ 1.01 * top v := by
    have := up c
    rw [abs_le]
    constructor <;> nlinarith [n c, show (2⁻¹ : ℝ) ^ 24 ≤ 0.001 by norm_num]
  have := abs_sub_le (f K) K (f (v c))
  have := abs_sub_le (f K) (f (v c)) (v c)
  have hvc : v c ≤ top v := le_top v c
  have hrc := r c
  have e1 : (2⁻¹ : ℝ) ^ 24 * |K| ≤ 6.1e-8 * top v := by
    have := mul_le_mul (show (2⁻¹ : ℝ) ^ 24 ≤ 6e-8 by norm_num) hKabs (abs_nonneg _) (by norm_num)
    linarith
  have e2 : (2⁻¹ : ℝ) ^ 24 * v c ≤ 6e-8 * top v :=
    mul_le_mul (show (2⁻¹ : ℝ) ^ 24 ≤ 6e-8 by norm_num) hvc (h0 c) (by norm_num)
  have e3 : 0.003911 * top (fun k => f (v k)) ≤ 0.003912 * top v := by
    have : (1 + (2⁻¹ : ℝ) ^ 24) ≤ 1 + 6e-8 := by norm_num
    nlinarith
  linarith

/-- **C207** black stays black, in grey pictures and in pixels whose channels are all black -/
theorem C207_black {f : ℝ → ℝ} (hf : F32 f) (s : ℝ) (w : Fin 3 → ℝ) (H : ℕ) (ar : ℕ → ℕ → ℝ) {x y : ℕ} (hy : y < H)
    (h : ar x y = 0) : load f w H (save f s H ar) x y = 0 := by
  have f0 : f 0 = 0 := by have := hf.exact 0 0 (by norm_num); simpa using this
  unfold load save
  rw [show H - 1 - (H - 1 - y) = y by omega, h, f0]
  have : setcolr s (fun _ => 0) = ⟨fun _ => 0, 0⟩ := by
    unfold setcolr
    rw [top_const, if_pos (by norm_num)]
  rw [this]
  simp [color, f0]

/-- grey is read as it is stored -/
theorem load_grey {f : ℝ → ℝ} {w : Fin 3 → ℝ} (hw : ∑ i, w i = 1) (s : ℝ) (H : ℕ) (ar : ℕ → ℕ → ℝ) {x y : ℕ}
    (hy : y < H) : load f w H (save f s H ar) x y = loadC f H (saveC f s H fun _ => ar) 0 x y := by
  unfold load save loadC saveC
  rw [show H - 1 - (H - 1 - y) = y by omega]
  have : ∀ i, color (setcolr s fun _ => f (ar x y)) i = color (setcolr s fun _ => f (ar x y)) 0 := fun i => by
    unfold color setcolr
    split_ifs <;> rfl
  simp only [this]
  rw [← Finset.sum_mul, hw, one_mul]

/-- **C207** every pixel of a grey picture keeps its value up to 0.4 per cent -/
theorem C207_grey {f : ℝ → ℝ} (hf : F32 f) {s : ℝ} (s0 : 255.999 ≤ s) (s1 : s ≤ 256) {w : Fin 3 → ℝ}
    (hw : ∑ i, w i = 1) (H : ℕ) (ar : ℕ → ℕ → ℝ) {x y : ℕ} (hy : y < H) (h1 : ar x y < 2 ^ (126 : ℤ))
    (hb : ar x y = 0 ∨ 2e-32 < ar x y) :
    |load f w H (save f s H ar) x y - ar x y| ≤ 0.004 * ar x y := by
  rcases hb with hb | hb
  · rw [C207_black hf s w H ar hy hb, hb]; norm_num
  · rw [load_grey hw s H ar hy]
    have hp : 0 ≤ ar x y := by linarith [show (0 : ℝ) < 2e-32 by norm_num]
    have := C207_channel hf s0 s1 H (fun _ => ar) hy (fun _ => hp) (fun _ => h1) ⟨0, hb⟩ 0
    rwa [top_const] at this

/-- **C207** so every sum of pixels with nonnegative weights (illuminance, average luminance) is kept up to 0.4 per
cent -/
theorem C207_light {f : ℝ → ℝ} (hf : F32 f) {s : ℝ} (s0 : 255.999 ≤ s) (s1 : s ≤ 256) {w : Fin 3 → ℝ}
    (hw : ∑ i, w i = 1) (W H : ℕ) (ar : ℕ → ℕ → ℝ) (h1 : ∀ x < W, ∀ y < H, ar x y < 2 ^ (126 : ℤ))
    (hb : ∀ x < W, ∀ y < H, ar x y = 0 ∨ 2e-32 < ar x y) (ω : ℕ → ℕ → ℝ) (hω : ∀ x y, 0 ≤ ω x y) :
    |∑ x ∈ Finset.range W, ∑ y ∈ Finset.range H, ω x y * load f w H (save f s H ar) x y -
      ∑ x ∈ Finset.range W, ∑ y ∈ Finset.range H, ω x y * ar x y| ≤
      0.004 * ∑ x ∈ Finset.range W, ∑ y ∈ Finset.range H, ω x y * ar x y := by
  rw [← Finset.sum_sub_distrib, Finset.mul_sum]
  refine (Finset.abs_sum_le_sum_abs _ _).trans (Finset.sum_le_sum fun x hx => ?_)
  rw [← Finset.sum_sub_distrib, Finset.mul_sum]
  refine (Finset.abs_sum_le_sum_abs _ _).trans (Finset.sum_le_sum fun y hy => ?_)
  have hx' := Finset.mem_range.mp hx
  have hy' := Finset.mem_range.mp hy
  rw [← mul_sub, abs_mul, abs_of_nonneg (hω x y)]
  have := mul_le_mul_of_nonneg_left (C207_grey hf s0 s1 hw H ar hy' (h1 x hx' y hy') (hb x hx' y hy')) (hω x y)
  linarith

/-- a decoded channel is a float -/
theorem f_color {f : ℝ → ℝ} (hf : F32 f) {p : Px} (hp : ∀ i, p.m i ≤ 255) (i : Fin 3) : f (color p i) = color p i := by
  unfold color
  split_ifs with h
  · have := hf.exact 0 0 (by norm_num); simpa using this
  · have e : ((p.m i : ℝ) + 1 / 2) * 2 ^ ((p.e : ℤ) - 136) = ((2 * p.m i + 1 : ℤ) : ℝ) * 2 ^ ((p.e : ℤ) - 137) := by
      rw [show (p.e : ℤ) - 136 = (p.e : ℤ) - 137 + 1 by ring, zpow_add₀ (by norm_num)]
      push_cast
      ring
    simp only [e]
    apply hf.exact
    have := hp i
    rw [abs_of_nonneg (by positivity)]
    omega

/-- the mantissas are bytes and the largest has its first bit set -/
theorem mantissa {s : ℝ} (s0 : 255.999 ≤ s) (s1 : s ≤ 256) {c : Fin 3 → ℝ} (hb : 1e-32 < top c) (i : Fin 3) :
    ⌊c i * (s / 2 ^ expOf (top c))⌋.toNat ≤ 255 := by
  have hd : 0 < top c := by linarith [show (0 : ℝ) < 1e-32 by norm_num]
  obtain ⟨a, b⟩ := log_bounds hd
  have hP : (0 : ℝ) < 2 ^ expOf (top c) := by positivity
  have : c i * (s / 2 ^ expOf (top c)) < 256 := by
    rw [← mul_div_assoc, div_lt_iff₀ hP]
    have := le_top c i
    nlinarith
  have : ⌊c i * (s / 2 ^ expOf (top c))⌋ < 256 := Int.floor_lt.mpr (by exact_mod_cast this)
  omega

theorem expOf_unique {d : ℝ} {E : ℤ} (h0 : (2 : ℝ) ^ (E - 1) ≤ d) (h1 : d < 2 ^ E) : expOf d = E := by
  have hd : 0 < d := lt_of_lt_of_le (by positivity) h0
  obtain ⟨a, b⟩ := log_bounds hd
  have l : expOf d - 1 < E := (zpow_lt_zpow_iff_right₀ (by norm_num : (1 : ℝ) < 2)).mp (a.trans_lt h1)
  have u : E - 1 < expOf d := (zpow_lt_zpow_iff_right₀ (by norm_num : (1 : ℝ) < 2)).mp (h0.trans_lt b)
  omega

theorem top_mem (c : Fin 3 → ℝ) : ∃ j, top c = c j := by
  unfold top
  rcases max_choice (max (c 0) (c 1)) (c 2) with h | h
  · rcases max_choice (c 0) (c 1) with g | g
    · exact ⟨0, by rw [h, g]⟩
    · exact ⟨1, by rw [h, g]⟩
  · exact ⟨2, h⟩

/-- storing a decoded pixel gives the same four bytes -/
theorem setcolr_again {c : Fin 3 → ℝ} (hb : top c ≤ 1e-32 ∨ 1.1e-32 < top c) (ht : top c < 2 ^ (127 : ℤ)) :
    setcolr 256 (color (setcolr 256 c)) = setcolr 256 c := by
  rcases hb with hb | hb
  · have e : setcolr 256 c = ⟨fun _ => 0, 0⟩ := if_pos hb
    have e2 : color (⟨fun _ => 0, 0⟩ : Px) = fun _ => 0 := if_pos rfl
    rw [e, e2]
    unfold setcolr
    rw [top_const, if_pos (by norm_num)]
  · have hb1 : 1e-32 < top c := by linarith [show (1e-32 : ℝ) < 1.1e-32 by norm_num]
    have hd : 0 < top c := by linarith [show (0 : ℝ) < 1e-32 by norm_num]
    have hcol : color (setcolr 256 c) = fun i =>
        ((⌊c i * (256 / 2 ^ expOf (top c))⌋.toNat : ℝ) + 1 / 2) * 2 ^ (expOf (top c) - 8) :=
      funext fun i => color_setcolr hb1 ht i
    obtain ⟨a, b⟩ := log_bounds hd
    obtain ⟨j, hj⟩ := top_mem c
    have err := channel_error (s := 256) (by norm_num) le_rfl hb1 ht j (by rw [← hj]; exact hd.le)
    have mle := mantissa (s := 256) (by norm_num) le_rfl hb1 j
    set E := expOf (top c) with hE
    have hP : (0 : ℝ) < 2 ^ E := by positivity
    have hP8 : (2 : ℝ) ^ (E - 8) = 2 ^ E / 256 := by rw [zpow_sub₀ (by norm_num)]; norm_num
    have hP1 : (2 : ℝ) ^ (E - 1) = 2 ^ E / 2 := by rw [zpow_sub₀ (by norm_num)]; norm_num
    set M : Fin 3 → ℕ := fun i => ⌊c i * (256 / 2 ^ E)⌋.toNat with hM
    have hMj : 128 ≤ M j := by
      have : (128 : ℝ) ≤ c j * (256 / 2 ^ E) := by
        rw [← hj, ← mul_div_assoc, le_div_iff₀ hP]; rw [hP1] at a; linarith
      have : (128 : ℤ) ≤ ⌊c j * (256 / 2 ^ E)⌋ := Int.le_floor.mpr (by exact_mod_cast this)
      simp only [hM]; omega
    have hMi : ∀ i, M i ≤ M j := fun i => by
      apply Int.toNat_le_toNat
      apply Int.floor_le_floor
      apply mul_le_mul_of_nonneg_right _ (by positivity)
      rw [← hj]; exact le_top c i
    have htop : top (color (setcolr 256 c)) = ((M j : ℝ) + 1 / 2) * 2 ^ (E - 8) := by
      apply le_antisymm
      · obtain ⟨k, hk⟩ := top_mem (color (setcolr 256 c))
        rw [hk, hcol]
        apply mul_le_mul_of_nonneg_right _ (by positivity)
        have : (M k : ℝ) ≤ M j := by exact_mod_cast hMi k
        simp only [hM] at this ⊢
        linarith
      · have := le_top (color (setcolr 256 c)) j
        rwa [hcol] at this ⊢
    have hj1 : (128 : ℝ) ≤ M j := by exact_mod_cast hMj
    have hj2 : (M j : ℝ) ≤ 255 := by exact_mod_cast mle
    have hexp : expOf (top (color (setcolr 256 c))) = E := by
      apply expOf_unique
      · rw [htop, hP1, hP8]; nlinarith
      · rw [htop, hP8]; nlinarith
    have hbig : 1e-32 < top (color (setcolr 256 c)) := by
      have h1 := le_top (color (setcolr 256 c)) j
      have h2 := (abs_le.mp err).1
      rw [← hj] at h2
      have : (1e-32 : ℝ) < 0.996 * 1.1e-32 := by norm_num
      nlinarith
    have lhs : setcolr 256 (color (setcolr 256 c)) =
        ⟨fun i => ⌊color (setcolr 256 c) i * (256 / 2 ^ E)⌋.toNat, (E + 128).toNat⟩ := by
      conv_lhs => unfold setcolr
      rw [if_neg (not_le.mpr ?_)]
      · change (⟨fun i => ⌊color (setcolr 256 c) i * (256 / 2 ^ expOf (top (color (setcolr 256 c))))⌋.toNat,
          (expOf (top (color (setcolr 256 c))) + 128).toNat⟩ : Px) = _
        rw [hexp]
      · exact hbig
    have rhs : setcolr 256 c = ⟨M, (E + 128).toNat⟩ := if_neg (not_le.mpr hb1)
    rw [lhs, rhs]
    congr 1
    funext i
    have : color ⟨M, (E + 128).toNat⟩ i * (256 / 2 ^ E) = (M i : ℝ) + 1 / 2 := by
      rw [← rhs, hcol, hP8]
      simp only [hM]
      field_simp
    rw [this]
    have : ⌊(M i : ℝ) + 1 / 2⌋ = (M i : ℤ) := by
      rw [Int.floor_eq_iff]; push_cast; constructor <;> linarith
    rw [this]
    simp

/-- **C207** saving what was read from a picture gives the same picture, byte for byte: values drift once, not with every
step of a chain of conversions -/
theorem C207_again {f : ℝ → ℝ} (hf : F32 f) (H : ℕ) (ar : Fin 3 → ℕ → ℕ → ℝ) {x r : ℕ} (hr : r < H)
    (hb : top (fun c => f (ar c x (H - 1 - r))) ≤ 1e-32 ∨ 1.1e-32 < top (fun c => f (ar c x (H - 1 - r))))
    (ht : top (fun c => f (ar c x (H - 1 - r))) < 2 ^ (127 : ℤ)) :
    saveC f 256 H (loadC f H (saveC f 256 H ar)) r x = saveC f 256 H ar r x := by
  have hm : ∀ i, (setcolr 256 fun c => f (ar c x (H - 1 - r))).m i ≤ 255 := fun i => by
    unfold setcolr
    split_ifs with h
    · simp
    · exact mantissa (s := 256) (by norm_num) le_rfl (not_le.mp h) i
  unfold saveC loadC
  rw [show H - 1 - (H - 1 - r) = r by omega]
  have e : (fun c => f (f (color (setcolr 256 fun c => f (ar c x (H - 1 - r))) c))) =
      color (setcolr 256 fun c => f (ar c x (H - 1 - r))) := by
    funext c
    rw [f_color hf hm, f_color hf hm]
  rw [e]
  exact setcolr_again hb ht

/-- decoding a stored grey keeps the order -/
theorem grey_mono {u v : ℝ} (h : u ≤ v) (hv : v < 2 ^ (127 : ℤ)) :
    color (setcolr 256 fun _ => u) 0 ≤ color (setcolr 256 fun _ => v) 0 := by
  have nn : ∀ p : Px, 0 ≤ color p 0 := fun p => by
    unfold color
    split_ifs
    · exact le_rfl
    · positivity
  rcases le_or_gt u 1e-32 with hu | hu
  · have : color (setcolr 256 fun _ => u) 0 = 0 := by
      unfold setcolr
      rw [top_const, if_pos hu]
      simp [color]
    rw [this]; exact nn _
  have hv1 : 1e-32 < v := hu.trans_le h
  have hu0 : 0 < u := by linarith [show (0 : ℝ) < 1e-32 by norm_num]
  have hv0 : 0 < v := hu0.trans_le h
  have ku := color_setcolr (s := 256) (c := fun _ => u) (by rwa [top_const]) (by rw [top_const]; linarith) 0
  have kv := color_setcolr (s := 256) (c := fun _ => v) (by rwa [top_const]) (by rwa [top_const]) 0
  have mu := mantissa (s := 256) (by norm_num) le_rfl (c := fun _ => u) (by rwa [top_const]) 0
  rw [top_const] at ku kv mu
  obtain ⟨a1, b1⟩ := log_bounds hu0
  obtain ⟨a2, b2⟩ := log_bounds hv0
  rw [ku, kv]
  set E := expOf u with hE
  set E' := expOf v with hE'
  have hP : (0 : ℝ) < 2 ^ E := by positivity
  have hP' : (0 : ℝ) < 2 ^ E' := by positivity
  have hEE : E ≤ E' := by
    have : E - 1 < E' := (zpow_lt_zpow_iff_right₀ (by norm_num : (1 : ℝ) < 2)).mp ((a1.trans h).trans_lt b2)
    omega
  rcases hEE.eq_or_lt with he | hlt
  · rw [← he]
    apply mul_le_mul_of_nonneg_right _ (by positivity)
    have : ⌊u * (256 / 2 ^ E)⌋.toNat ≤ ⌊v * (256 / 2 ^ E)⌋.toNat := by
      apply Int.toNat_le_toNat
      apply Int.floor_le_floor
      exact mul_le_mul_of_nonneg_right h (by positivity)
    have : (⌊u * (256 / 2 ^ E)⌋.toNat : ℝ) ≤ ⌊v * (256 / 2 ^ E)⌋.toNat := by exact_mod_cast this
    linarith
  · have h1 : (⌊u * (256 / 2 ^ E)⌋.toNat : ℝ) ≤ 255 := by exact_mod_cast mu
    have h2 : (128 : ℝ) ≤ ⌊v * (256 / 2 ^ E')⌋.toNat := by
      have q : (128 : ℝ) ≤ v * (256 / 2 ^ E') := by
        rw [← mul_div_assoc, le_div_iff₀ hP']
        have : (2 : ℝ) ^ (E' - 1) = 2 ^ E' / 2 := by rw [zpow_sub₀ (by norm_num)]; norm_num
        rw [this] at a2; linarith
      have : (128 : ℤ) ≤ ⌊v * (256 / 2 ^ E')⌋ := Int.le_floor.mpr (by exact_mod_cast q)
      have : 128 ≤ ⌊v * (256 / 2 ^ E')⌋.toNat := by omega
      exact_mod_cast this
    have hd : (2 : ℝ) ^ (E - 8) * 2 ≤ 2 ^ (E' - 8) := by
      rw [← zpow_add_one₀ (by norm_num)]
      exact zpow_le_zpow_right₀ (by norm_num) (by omega)
    have hp8 : (0 : ℝ) < 2 ^ (E - 8) := by positivity
    nlinarith

/-- **C207** a pixel that is brighter than another is never darker after saving and reading -/
theorem C207_order {f : ℝ → ℝ} (hf : F32 f) {w : Fin 3 → ℝ} (hw : ∑ i, w i = 1) (H : ℕ) (ar : ℕ → ℕ → ℝ)
    {x y x' y' : ℕ} (hy : y < H) (hy' : y' < H) (h : ar x y ≤ ar x' y') (h1 : f (ar x' y') < 2 ^ (127 : ℤ)) :
    load f w H (save f 256 H ar) x y ≤ load f w H (save f 256 H ar) x' y' := by
  rw [load_grey hw 256 H ar hy, load_grey hw 256 H ar hy']
  unfold loadC saveC
  rw [show H - 1 - (H - 1 - y) = y by omega, show H - 1 - (H - 1 - y') = y' by omega]
  exact hf.mono _ _ (grey_mono (hf.mono _ _ h) h1)

/-- **C207** the luminance of a pixel of a colour picture (`rgb2lum` of the channels) is kept up to 6.2 per cent -/
theorem C207_luminance {f : ℝ → ℝ} (hf : F32 f) {s : ℝ} (s0 : 255.999 ≤ s) (s1 : s ≤ 256) (H : ℕ)
    (ar : Fin 3 → ℕ → ℕ → ℝ) {x y : ℕ} (hy : y < H) (h0 : ∀ c, 0 ≤ ar c x y) (h1 : ∀ c, ar c x y < 2 ^ (126 : ℤ))
    (hb : ∃ c, 2e-32 < ar c x y) :
    |rgb2lum (fun c => loadC f H (saveC f s H ar) c x y) vlambda0 - rgb2lum (fun c => ar c x y) vlambda0| ≤
      0.062 * rgb2lum (fun c => ar c x y) vlambda0 := by
  have k := fun c => abs_le.mp (C207_channel hf s0 s1 H ar hy h0 h1 hb c)
  obtain ⟨j, hj⟩ := top_mem fun c => ar c x y
  have e : ∀ g : Fin 3 → ℝ, rgb2lum g vlambda0 = 179 * (0.265 * g 0 + 0.670 * g 1 + 0.065 * g 2) := fun g => by
    simp [rgb2lum, Fin.sum_univ_three, vlambda0]; ring
  rw [e, e]
  have ht : 0.065 * top (fun c => ar c x y) ≤ 0.265 * ar 0 x y + 0.670 * ar 1 x y + 0.065 * ar 2 x y := by
    have a := h0 0
    have b := h0 1
    have c := h0 2
    rw [hj]
    fin_cases j <;> simp <;> linarith
  have k0 := k 0
  have k1 := k 1
  have k2 := k 2
  rw [abs_le]
  constructor <;> linarith

theorem id_f32 : F32 id := ⟨fun x => by simp, fun _ _ h => h, fun _ _ _ => rfl⟩

/-- what the hypotheses ask of a picture: an ordinary luminance -/
example : F32 id ∧ (255.999 : ℝ) ≤ 256 ∧ (∑ i, (![0.265, 0.670, 0.065] : Fin 3 → ℝ) i = 1) ∧
    (1000 : ℝ) < 2 ^ (126 : ℤ) ∧ (2e-32 : ℝ) < 1000 := by
  refine ⟨id_f32, by norm_num, ?_, by norm_num, by norm_num⟩
  simp [Fin.sum_univ_three]; norm_num

/-- **C208** `rgbe2lum` of the stored bytes is the luminance of the pixel as it is read -/
def C208_statement : Prop :=
  ∀ (f : ℝ → ℝ), F32 f → ∀ (H : ℕ) (ar : Fin 3 → ℕ → ℕ → ℝ) (x y : ℕ), y < H → (∀ c, 0 ≤ ar c x y) →
    (∀ c, f (ar c x y) < 2 ^ (127 : ℤ)) →
    rgbe2lum false (saveC f 256 H ar (H - 1 - y) x).m (saveC f 256 H ar (H - 1 - y) x).e =
      rgb2lum (fun c => loadC f H (saveC f 256 H ar) c x y) vlambda0

/-- **C208** it is for every pixel without a black channel, and for black -/
theorem C208_partial {f : ℝ → ℝ} (hf : F32 f) (H : ℕ) (p : ℕ → ℕ → Px) (x y : ℕ)
    (hm : ∀ i, (p (H - 1 - y) x).m i ≤ 255)
    (h : (p (H - 1 - y) x).e ≠ 0 ∧ (∀ i, (p (H - 1 - y) x).m i ≠ 0) ∨
      (p (H - 1 - y) x).e = 0 ∧ ∀ i, (p (H - 1 - y) x).m i = 0) :
    rgbe2lum false (p (H - 1 - y) x).m (p (H - 1 - y) x).e = rgb2lum (fun c => loadC f H p c x y) vlambda0 := by
  unfold rgbe2lum loadC
  simp only [f_color hf hm]
  congr 1
  funext i
  rcases h with ⟨he, h⟩ | ⟨he, h⟩
  · rw [if_neg (h i)]
    unfold color
    rw [if_neg he]
    simp only [expo, Bool.false_eq_true, if_false]
    rw [scale_eq]
    norm_num
  · rw [if_pos (h i)]
    unfold color
    rw [if_pos he]

/-- **C208** the two differ by half a step of every black channel: a blue pixel is read six per cent brighter -/
theorem C208_refuted : ¬ C208_statement := by
  intro hs
  have h := hs id id_f32 1 (fun c _ _ => if c = 2 then 1 else 0) 0 0 (by norm_num)
    (fun c => by split_ifs <;> norm_num) (fun c => by simp only [id]; split_ifs <;> norm_num)
  have ht : top (fun c : Fin 3 => if c = 2 then (1 : ℝ) else 0) = 1 := by unfold top; simp
  have he : expOf 1 = 1 := expOf_unique (by norm_num) (by norm_num)
  have hp : saveC id 256 1 (fun c _ _ => if c = 2 then (1 : ℝ) else 0) 0 0 = ⟨fun c => if c = 2 then 128 else 0, 129⟩ := by
    unfold saveC setcolr
    simp only [id]
    rw [ht, if_neg (by norm_num), he]
    congr 1
    funext i
    split_ifs <;> norm_num
    rfl
  have e : ∀ g : Fin 3 → ℝ, rgb2lum g vlambda0 = 179 * (0.265 * g 0 + 0.670 * g 1 + 0.065 * g 2) := fun g => by
    simp [rgb2lum, Fin.sum_univ_three, vlambda0]; ring
  have hL : loadC id 1 (saveC id 256 1 (fun c _ _ => if c = 2 then (1 : ℝ) else 0)) = fun c x y =>
      color (saveC id 256 1 (fun c _ _ => if c = 2 then (1 : ℝ) else 0) (1 - 1 - y) x) c := rfl
  rw [hL] at h
  simp only [Nat.sub_self, Nat.sub_zero] at h
  rw [hp] at h
  unfold rgbe2lum at h
  rw [e, e] at h
  simp only [color, expo, if_neg (show ¬ (0 : Fin 3) = 2 by decide), if_neg (show ¬ (1 : Fin 3) = 2 by decide)] at h
  norm_num at h
  rw [if_neg (show ¬ (0 : Fin 3) = 2 by decide), if_neg (show ¬ (1 : Fin 3) = 2 by decide)] at h
  norm_num at h

end Verif.Rgbe
