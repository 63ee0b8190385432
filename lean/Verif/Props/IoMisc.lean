import Mathlib.Tactic.Linarith
import Mathlib.Tactic.Ring
import Mathlib.Tactic.FinCases
import Mathlib.Tactic.NormNum
import Mathlib.Tactic.Positivity
import Mathlib.Tactic.FieldSimp
import Mathlib.Algebra.Order.Field.Power
import Mathlib.Algebra.Order.BigOperators.Group.Finset
import Verif.Model.IoMisc
/-! # C10, C11, C18, C19 -/
namespace Verif.IoMisc
open Verif.Py
open scoped BigOperators

/-- The path of a candidate that is text or bytes. -/
def Spec.path? : Cand → Option Str
  | .str p => some p
  | .bytes p => some p
  | .other => none

/-- C10. Every outcome of `load_txt`, provided `np.loadtxt` itself fails only with ValueError or AttributeError on an
existing file: TypeError exactly for candidates that are not text, FileNotFoundError exactly for paths without a file,
ValueError exactly for files `np.loadtxt` rejects, and its result otherwise. -/
theorem C10_outcomes {α : Type} (isfile : Str → Bool) (loadtxt : Str → Except PyErr α)
    (hl : ∀ p e, loadtxt p = .error e → e = .ValueError ∨ e = .AttributeError) (c : Cand) :
    (loadTxt isfile loadtxt c = .error .TypeError ↔ Spec.path? c = none) ∧
    (loadTxt isfile loadtxt c = .error .FileNotFoundError ↔ ∃ p, Spec.path? c = some p ∧ isfile p = false) ∧
    (loadTxt isfile loadtxt c = .error .ValueError ↔
      ∃ p, Spec.path? c = some p ∧ isfile p = true ∧ ∃ e, loadtxt p = .error e) ∧
    (∀ a, loadTxt isfile loadtxt c = .ok a ↔ ∃ p, Spec.path? c = some p ∧ isfile p = true ∧ loadtxt p = .ok a) := by
  have aux : ∀ p, (loadTxt isfile loadtxt (.str p) = loadTxt isfile loadtxt (.bytes p)) := fun p => rfl
  have main : ∀ p, (loadTxt isfile loadtxt (.str p) = .error .TypeError ↔ False) ∧
      (loadTxt isfile loadtxt (.str p) = .error .FileNotFoundError ↔ isfile p = false) ∧
      (loadTxt isfile loadtxt (.str p) = .error .ValueError ↔ isfile p = true ∧ ∃ e, loadtxt p = .error e) ∧
      (∀ a, loadTxt isfile loadtxt (.str p) = .ok a ↔ isfile p = true ∧ loadtxt p = .ok a) := by
    intro p
    cases hf : isfile p with
    | false => simp [loadTxt, hf]
    | true =>
      cases ho : loadtxt p with
      | ok a => simp [loadTxt, hf, ho]
      | error e => rcases hl p e ho with rfl | rfl <;> simp [loadTxt, hf, ho]
  cases c with
  | str p => simpa [Spec.path?] using main p
  | bytes p => rw [← aux p]; simpa [Spec.path?] using main p
  | other => simp [loadTxt, Spec.path?]

example : loadTxt (α := Nat) (fun p => p == "a".toList) (fun _ => .error .AttributeError) (.str "a".toList)
    = .error .ValueError := by rfl

/-- C11 (negation). `is_hdr` never answers True: text read in text mode never equals a bytes literal. In particular a file
that does start with `#?RADIANCE` is not recognised. -/
theorem C11_is_hdr_never_true (decode : List Nat → Option Str) (content : List Nat) :
    isHdr decode content ≠ .ok true := by
  unfold isHdr
  cases decode content with
  | none => simp
  | some s => simp

/-- **C11**, the full claim: True exactly for files that start with `#?RADIANCE`. -/
def C11_statement : Prop :=
  ∀ (decode : List Nat → Option Str) (content : List Nat) (s : Str), decode content = some s →
    (isHdr decode content = .ok true ↔ "#?RADIANCE".toList <+: s)

theorem C11_refuted : ¬ C11_statement := fun h =>
  C11_is_hdr_never_true (fun _ => some "#?RADIANCE".toList) []
    ((h (fun _ => some "#?RADIANCE".toList) [] _ rfl).mpr (List.prefix_refl _))

/-- C11 (partial: the answer False is right for every decodable file that is not a Radiance picture). Missing: True for
pictures, which the code never answers (`C11_is_hdr_never_true`). -/
theorem C11_not_hdr_partial (decode : List Nat → Option Str) (content : List Nat) (s : Str)
    (hs : decode content = some s) (_hnot : ¬ "#?RADIANCE".toList <+: s) : isHdr decode content = .ok false := by
  simp [isHdr, hs]

/-- C18. `rgb2lum = 179 * rgb2rad` for every number of channels, pixel and weights. -/
theorem C18_lum_is_179_rad {n : Nat} (rgb w : Fin n → ℝ) : rgb2lum rgb w = 179 * rgb2rad rgb w := by
  unfold rgb2lum rgb2rad
  rw [Finset.mul_sum]
  exact Finset.sum_congr rfl fun j _ => by ring

/-- C18. Radiance is additive and homogeneous in the pixel (so is luminance, by `C18_lum_is_179_rad`). -/
theorem C18_linear {n : Nat} (p q w : Fin n → ℝ) (a b : ℝ) :
    rgb2rad (fun j => a * p j + b * q j) w = a * rgb2rad p w + b * rgb2rad q w := by
  unfold rgb2rad
  rw [Finset.mul_sum, Finset.mul_sum, ← Finset.sum_add_distrib]
  exact Finset.sum_congr rfl fun j _ => by ring

/-- C18. Nonnegative, and monotone in the pixel, for nonnegative weights. -/
theorem C18_monotone {n : Nat} (p q w : Fin n → ℝ) (hw : ∀ j, 0 ≤ w j) (hpq : ∀ j, p j ≤ q j) :
    rgb2rad p w ≤ rgb2rad q w :=
  Finset.sum_le_sum fun j _ => mul_le_mul_of_nonneg_right (hpq j) (hw j)

/-- C18. A grey pixel keeps its value when the weights sum to one; the default weights do. -/
theorem C18_grey {n : Nat} (w : Fin n → ℝ) (hw : ∑ j, w j = 1) (g : ℝ) : rgb2rad (fun _ => g) w = g := by
  unfold rgb2rad
  rw [← Finset.mul_sum, hw, mul_one]

theorem C18_default_weights : (∑ j, vlambda0 j = 1) ∧ ∀ j, 0 ≤ vlambda0 j := by
  constructor
  · simp [vlambda0, Fin.sum_univ_three]; norm_num
  · intro j; fin_cases j <;> simp [vlambda0] <;> norm_num

/-- Specification of RGBE: channel value of mantissa `m` with exponent `e`. -/
noncomputable def Spec.channel (m e : Nat) : ℝ := if m = 0 then 0 else ((m : ℝ) + 1 / 2) * (2 : ℝ) ^ ((e : Int) - 136)

theorem scale_eq (e : Nat) : (2 : ℝ) ^ ((e : Int) - 128) / 256 = (2 : ℝ) ^ ((e : Int) - 136) := by
  have : ((e : Int) - 128) = ((e : Int) - 136) + 8 := by ring
  rw [this, zpow_add₀ (by norm_num)]
  norm_num

/-- C19. With a signed (or wide) integer array, and with an unsigned 8 bit array when the exponent byte is at least 128,
`rgbe2lum` is the documented decoding. (partial: for an unsigned 8 bit array with exponent byte below 128 the claim is
false, see `C19_uint8_wraps`.) -/
theorem C19_decodes_partial (uint8 : Bool) (c : Fin 3 → Nat) (e : Nat) (he : e < 256) (h : uint8 = false ∨ 128 ≤ e) :
    rgbe2lum uint8 c e = 179 * (0.265 * Spec.channel (c 0) e + 0.670 * Spec.channel (c 1) e
      + 0.065 * Spec.channel (c 2) e) := by
  have hx : expo uint8 e = (e : Int) - 128 := by
    unfold expo
    rcases h with rfl | h
    · simp
    · cases uint8 <;> simp; omega
  have hch : ∀ m : Nat, (if m = 0 then (0:ℝ) else ((m : ℝ) + 0.5) * ((2 : ℝ) ^ ((e : Int) - 128) / 256)) = Spec.channel m e := by
    intro m; unfold Spec.channel
    rw [scale_eq]; split <;> norm_num
  unfold rgbe2lum
  simp only [hx, hch]
  simp [rgb2lum, Fin.sum_univ_three, vlambda0]
  ring

/-- C19 (negation for unsigned 8 bit arrays). With the dtype of the format and exponent byte 127, a pixel is decoded
2^256 times too bright. -/
theorem C19_uint8_wraps :
    rgbe2lum true (fun _ => 128) 127 = 2 ^ 256 * rgbe2lum false (fun _ => 128) 127 ∧
    rgbe2lum true (fun _ => 128) 127 ≠ 179 * (0.265 * Spec.channel 128 127 + 0.670 * Spec.channel 128 127
      + 0.065 * Spec.channel 128 127) := by
  have h1 : expo true 127 = 255 := by decide
  have h2 : expo false 127 = -1 := by decide
  have e1 : rgbe2lum true (fun _ => 128) 127 = 2 ^ 256 * rgbe2lum false (fun _ => 128) 127 := by
    simp only [rgbe2lum, h1, h2, rgb2lum, Fin.sum_univ_three]
    norm_num
    ring
  have hpos : 0 < rgbe2lum false (fun _ => 128) 127 := by
    simp only [rgbe2lum, h2, rgb2lum, Fin.sum_univ_three, vlambda0, Matrix.cons_val]
    norm_num
  refine ⟨e1, ?_⟩
  rw [← C19_decodes_partial false (fun _ => 128) 127 (by norm_num) (Or.inl rfl), e1]
  intro hh
  have : (2:ℝ)^256 - 1 > 0 := by norm_num
  nlinarith

theorem channel_mono_mantissa (m m' e : Nat) (h : m ≤ m') : Spec.channel m e ≤ Spec.channel m' e := by
  unfold Spec.channel
  have hp : (0:ℝ) < (2 : ℝ) ^ ((e : Int) - 136) := by positivity
  split
  · split
    · exact le_rfl
    · positivity
  · rename_i hm
    have hm' : m' ≠ 0 := by omega
    rw [if_neg hm']
    have : (m : ℝ) ≤ m' := by exact_mod_cast h
    nlinarith

theorem channel_mono_exp (m e e' : Nat) (h : e ≤ e') : Spec.channel m e ≤ Spec.channel m e' := by
  unfold Spec.channel
  split
  · exact le_rfl
  · have : (2 : ℝ) ^ ((e : Int) - 136) ≤ (2 : ℝ) ^ ((e' : Int) - 136) := by
      apply zpow_le_zpow_right₀ (by norm_num); omega
    have hm : (0:ℝ) ≤ (m : ℝ) + 1/2 := by positivity
    exact mul_le_mul_of_nonneg_left this hm

/-- **C19**, the full claim about the value: whatever the type of the array. -/
def C19_statement : Prop :=
  ∀ (uint8 : Bool) (c : Fin 3 → Nat) (e : Nat), (∀ i, c i < 256) → e < 256 →
    rgbe2lum uint8 c e = 179 * (0.265 * Spec.channel (c 0) e + 0.670 * Spec.channel (c 1) e
      + 0.065 * Spec.channel (c 2) e)

theorem C19_refuted : ¬ C19_statement := fun h =>
  C19_uint8_wraps.2 (h true (fun _ => 128) 127 (fun _ => by norm_num) (by norm_num))

/-- C19. The decoded luminance is nonnegative and nondecreasing in every mantissa and in the exponent (same scope as
`C19_decodes_partial`). -/
theorem C19_monotone_partial (c c' : Fin 3 → Nat) (e e' : Nat) (hc : ∀ i, c i ≤ c' i) (hee : e ≤ e') (he : e' < 256) :
    0 ≤ rgbe2lum false c e ∧ rgbe2lum false c e ≤ rgbe2lum false c' e' := by
  have h0 : ∀ m e, 0 ≤ Spec.channel m e := by
    intro m e; unfold Spec.channel; split <;> positivity
  rw [C19_decodes_partial false c e (by omega) (Or.inl rfl), C19_decodes_partial false c' e' he (Or.inl rfl)]
  have hk : ∀ i, Spec.channel (c i) e ≤ Spec.channel (c' i) e' := fun i =>
    (channel_mono_mantissa _ _ e (hc i)).trans (channel_mono_exp _ _ _ hee)
  have := hk 0; have := hk 1; have := hk 2
  have := h0 (c 0) e; have := h0 (c 1) e; have := h0 (c 2) e
  constructor <;> nlinarith

end Verif.IoMisc
