import Verif.Model.Gss
import Verif.Lemmas.GssPoly
import Mathlib.Analysis.Complex.Trigonometric
import Mathlib.Analysis.SpecialFunctions.Trigonometric.DerivHyp
import Mathlib.Analysis.SpecialFunctions.Exp
import Mathlib.Analysis.Complex.ExponentialBounds
import Mathlib.Tactic.NormNum.Pow
import Mathlib.Tactic.GCongr
import Mathlib.Algebra.Order.BigOperators.Ring.Finset
import Mathlib.Algebra.BigOperators.Field

/-! C77 (ranges of the stages), C78 (receptive field bins), C95 (local adaptation), C100 (pupil), C101 (weight),
C102 (uniform field). -/

namespace Verif.Gss
open Real

/-! C77, stage by stage -/

theorem halfSat_pos {ea : ℝ} (h : 0 ≤ ea) : 0 < halfSat ea := by
  unfold halfSat
  have : 0 ≤ ea ^ (1 / 2.55 : ℝ) := rpow_nonneg h _
  positivity

theorem halfSat_lt {a b : ℝ} (ha : 0 ≤ a) (h : a < b) : halfSat a < halfSat b := by
  unfold halfSat
  have h1 : a ^ (1 / 2.55 : ℝ) < b ^ (1 / 2.55 : ℝ) := rpow_lt_rpow ha h (by norm_num)
  have h2 : 0 ≤ a ^ (1 / 2.55 : ℝ) := rpow_nonneg ha _
  exact rpow_lt_rpow (by positivity) (by linarith) (by norm_num)

/-- **C77** the cone response is in `(0, 1)` for positive irradiance and 0 in the dark -/
theorem C77_cone_range {er ea : ℝ} (hr : 0 ≤ er) (ha : 0 ≤ ea) :
    0 ≤ coneResponse er ea ∧ coneResponse er ea < 1 ∧ (0 < er → 0 < coneResponse er ea) ∧
    (er = 0 → coneResponse er ea = 0) := by
  have hs := rpow_pos_of_pos (halfSat_pos ha) 0.74
  have hn : 0 ≤ er ^ (0.74 : ℝ) := rpow_nonneg hr _
  unfold coneResponse
  refine ⟨by positivity, ?_, fun h => ?_, fun h => ?_⟩
  · rw [div_lt_one (by positivity)]; linarith
  · have := rpow_pos_of_pos h 0.74
    positivity
  · rw [h, zero_rpow (by norm_num), zero_div]

/-- **C77** the cone response grows with the irradiance -/
theorem C77_cone_mono {er er' ea : ℝ} (hr : 0 ≤ er) (h : er < er') (ha : 0 ≤ ea) :
    coneResponse er ea < coneResponse er' ea := by
  have hs := rpow_pos_of_pos (halfSat_pos ha) 0.74
  have hn : 0 ≤ er ^ (0.74 : ℝ) := rpow_nonneg hr _
  have hn' : er ^ (0.74 : ℝ) < er' ^ (0.74 : ℝ) := rpow_lt_rpow hr h (by norm_num)
  unfold coneResponse
  rw [div_lt_div_iff₀ (by positivity) (by linarith)]
  nlinarith

/-- **C77** and falls with the adaptation -/
theorem C77_cone_anti {er ea ea' : ℝ} (hr : 0 < er) (ha : 0 ≤ ea) (h : ea < ea') :
    coneResponse er ea' < coneResponse er ea := by
  have hs := rpow_pos_of_pos (halfSat_pos ha) 0.74
  have hs' : halfSat ea ^ (0.74 : ℝ) < halfSat ea' ^ (0.74 : ℝ) :=
    rpow_lt_rpow (halfSat_pos ha).le (halfSat_lt ha h) (by norm_num)
  have hn := rpow_pos_of_pos hr 0.74
  unfold coneResponse
  exact div_lt_div_of_pos_left hn (by positivity) (by linarith)

/-- **C77** half of the maximum is reached exactly at the half-saturation irradiance -/
theorem C77_cone_half {ea : ℝ} (ha : 0 ≤ ea) : coneResponse (halfSat ea) ea = 1 / 2 := by
  have hs := rpow_pos_of_pos (halfSat_pos ha) 0.74
  unfold coneResponse
  field_simp; norm_num

/-- **C77** normalised responses are in `(0, 1)` in the view and 0 outside -/
theorem C77_logistic (r : ℝ) :
    (0 < (logistic true r).1 ∧ (logistic true r).1 < 1 ∧ 0 < (logistic true r).2 ∧ (logistic true r).2 < 1) ∧
    logistic false r = (0, 0) := by
  refine ⟨⟨?_, ?_, ?_, ?_⟩, by simp [logistic]⟩ <;> simp only [logistic, if_true]
  · positivity
  · rw [div_lt_one (by positivity)]; linarith [exp_pos (-22 * (r - 0.25))]
  · positivity
  · rw [div_lt_one (by positivity)]; linarith [exp_pos (22 * (r + 0.25))]

/-- **C77** the on response grows, the off response falls and each is the mirror image of the other -/
theorem C77_logistic_mono {r r' : ℝ} (h : r < r') :
    (logistic true r).1 < (logistic true r').1 ∧ (logistic true r').2 < (logistic true r).2 ∧
    (logistic true r).2 = (logistic true (-r)).1 := by
  simp only [logistic, if_true]
  refine ⟨?_, ?_, ?_⟩
  · apply one_div_lt_one_div_of_lt (by positivity)
    have := exp_lt_exp.mpr (show -22 * (r' - 0.25) < -22 * (r - 0.25) by linarith)
    linarith
  · apply one_div_lt_one_div_of_lt (by positivity)
    have := exp_lt_exp.mpr (show 22 * (r + 0.25) < 22 * (r' + 0.25) by linarith)
    linarith
  · rw [show 22 * (r + 0.25) = -22 * (-r - 0.25) by ring]

/-- **C77** pupil diameter in mm -/
theorem C77_pupil {age ev : ℝ} (ha : 10 ≤ age) (hev : 0 < ev) :
    2 - 0.043 * (age - 10) < pupd age ev ∧ pupd age ev < 8 := by
  have t1 := tanh_lt_one (0.4 * logb 10 (ev / 1600))
  have t2 := neg_one_lt_tanh (0.4 * logb 10 (ev / 1600))
  have e1 := exp_pos (-ev / 174)
  have e2 : exp (-ev / 174) < 1 := by rw [exp_lt_one_iff]; exact div_neg_of_neg_of_pos (by linarith) (by norm_num)
  have h : 0 ≤ 0.043 * (age - 10) := by linarith
  have m1 : 0 ≤ 0.043 * (age - 10) * exp (-ev / 174) := by positivity
  have m2 : 0.043 * (age - 10) * exp (-ev / 174) ≤ 0.043 * (age - 10) := mul_le_of_le_one_right h e2.le
  unfold pupd
  constructor <;> linarith

example : 2 - 0.043 * ((40 : ℝ) - 10) < pupd 40 500 ∧ pupd 40 500 < 8 := C77_pupil (by norm_num) (by norm_num)

variable {ι κ : Type} [Fintype ι] [Fintype κ]

/-- **C77** the unweighted score is nonnegative, and bounded by the solid angle of the view, when every response is in
`[0, 1]` -/
theorem C77_gss {omega : ι → ℝ} (ho : ∀ i, 0 ≤ omega i) (ecc : ℝ) {rg : ι → ℝ × ℝ}
    (h : ∀ i, 0 ≤ (rg i).1 ∧ (rg i).1 ≤ 1 ∧ 0 ≤ (rg i).2 ∧ (rg i).2 ≤ 1) :
    0 ≤ gss true omega ecc rg ∧ gss true omega ecc rg ≤ (2 * ∑ i, omega i) ^ (1 / 4 : ℝ) := by
  simp only [gss, if_true, gssRaw]
  have hs : 0 ≤ ∑ i, ((rg i).1 ^ 4 * omega i + (rg i).2 ^ 4 * omega i) :=
    Finset.sum_nonneg fun i _ => by
      have := ho i
      positivity
  refine ⟨rpow_nonneg hs _, rpow_le_rpow hs ?_ (by norm_num)⟩
  rw [Finset.mul_sum]
  refine Finset.sum_le_sum fun i _ => ?_
  obtain ⟨a0, a1, b0, b1⟩ := h i
  have e1 := mul_le_of_le_one_left (ho i) (pow_le_one₀ (n := 4) a0 a1)
  have e2 := mul_le_of_le_one_left (ho i) (pow_le_one₀ (n := 4) b0 b1)
  linarith

/-- **C77** stronger responses never lower the unweighted score -/
theorem C77_gss_mono {omega : ι → ℝ} (ho : ∀ i, 0 ≤ omega i) (ecc : ℝ) {rg rg' : ι → ℝ × ℝ}
    (h0 : ∀ i, 0 ≤ (rg i).1 ∧ 0 ≤ (rg i).2) (h : ∀ i, (rg i).1 ≤ (rg' i).1 ∧ (rg i).2 ≤ (rg' i).2) :
    gss true omega ecc rg ≤ gss true omega ecc rg' := by
  simp only [gss, if_true, gssRaw]
  refine rpow_le_rpow (Finset.sum_nonneg fun i _ => ?_) (Finset.sum_le_sum fun i _ => ?_) (by norm_num)
  · have := ho i
    positivity
  · have e1 := mul_le_mul_of_nonneg_right (pow_le_pow_left₀ (h0 i).1 (h i).1 4) (ho i)
    have e2 := mul_le_mul_of_nonneg_right (pow_le_pow_left₀ (h0 i).2 (h i).2 4) (ho i)
    linarith

/-! C78 -/

theorem stp_lt {j k : ℕ} (h : j < k) : stp j < stp k := by
  unfold stp
  rw [exp_lt_exp]
  have hl : 0 < (log emax - log emin) / 30 := by
    have := log_lt_log (show 0 < emin by unfold emin; norm_num) (show emin < emax by unfold emin emax; norm_num)
    linarith
  have : (j : ℝ) < k := by exact_mod_cast h
  nlinarith

theorem stp_le {j k : ℕ} (h : j ≤ k) : stp j ≤ stp k := by
  rcases h.eq_or_lt with rfl | h
  · exact le_rfl
  · exact (stp_lt h).le

theorem stp_zero : stp 0 = emin := by
  unfold stp; rw [Nat.cast_zero, zero_mul, add_zero, exp_log (by unfold emin; norm_num)]

theorem stp_last : stp 30 = emax := by
  unfold stp
  rw [show log emin + ((30 : ℕ) : ℝ) * ((log emax - log emin) / 30) = log emax by push_cast; ring,
    exp_log (by unfold emax; norm_num)]

theorem ub_of_lt {k : ℕ} (h : k < 30) : ub k = (stp (k + 1) + stp k) / 2 := if_neg (by omega)

theorem ub_last : ub 30 = 1 := if_pos rfl

theorem stp_lt_ub {k : ℕ} (h : k ≤ 30) : stp k < ub k := by
  rcases h.eq_or_lt with rfl | h
  · rw [ub_last, stp_last]; unfold emax; norm_num
  · rw [ub_of_lt h]; linarith [stp_lt (Nat.lt_succ_self k)]

theorem ub_lt_stp {k : ℕ} (h : k < 30) : ub k < stp (k + 1) := by
  rw [ub_of_lt h]; linarith [stp_lt (Nat.lt_succ_self k)]

theorem ub_le_lob {j k : ℕ} (h : j < k) (hk : k ≤ 30) : ub j ≤ lob k := by
  rw [lob, if_neg (by omega)]
  obtain ⟨k, rfl⟩ : ∃ m, k = m + 1 := ⟨k - 1, by omega⟩
  rw [Nat.add_sub_cancel]
  rcases (Nat.lt_succ_iff.mp h).eq_or_lt with rfl | h'
  · exact le_rfl
  · have a := ub_lt_stp (k := j) (by omega)
    have b := stp_le (show j + 1 ≤ k by omega)
    have c := stp_lt_ub (k := k) (by omega)
    linarith

/-- **C78** every width below one falls in exactly one bin -/
theorem C78_unique {σ : ℝ} (h0 : 0 ≤ σ) (h1 : σ < 1) : ∃! k, k < 31 ∧ lob k ≤ σ ∧ σ < ub k := by
  classical
  have hex : ∃ k, k ≤ 30 ∧ σ < ub k := ⟨30, le_rfl, by rw [ub_last]; exact h1⟩
  refine ⟨Nat.find hex, ⟨by have := (Nat.find_spec hex).1; omega, ?_, (Nat.find_spec hex).2⟩, ?_⟩
  · rcases Nat.eq_zero_or_pos (Nat.find hex) with h | h
    · rw [h, lob, if_pos rfl]; exact h0
    · rw [lob, if_neg (by omega)]
      have := Nat.find_min hex (m := Nat.find hex - 1) (by omega)
      by_contra hc
      exact this ⟨by have := (Nat.find_spec hex).1; omega, lt_of_not_ge hc⟩
  · rintro j ⟨hj, hl, hu⟩
    have hs := Nat.find_spec hex
    rcases lt_trichotomy j (Nat.find hex) with h | h | h
    · exact absurd ⟨by omega, hu⟩ (Nat.find_min hex h)
    · exact h
    · have := ub_le_lob h (by omega)
      linarith [hs.2]

/-- **C78** the width of a pixel is between the two ends of the scale -/
theorem C78_width (vxy : ℝ × ℝ) : emin ≤ sigmaC vxy ∧ sigmaC vxy ≤ emax := by
  unfold sigmaC
  set p := min (√(((vxy.1 * 2 - 1) / 1.05556) ^ 2 + vecc (vxy.2 * 2 - 1) ^ 2)) 1
  have h0 : 0 ≤ p := le_min (sqrt_nonneg _) zero_le_one
  have h1 : p ≤ 1 := min_le_right _ _
  have : 0 < emax - emin := by unfold emax emin; norm_num
  constructor <;> nlinarith

/-- **C78** the line of sight has the smallest width -/
theorem C78_centre : sigmaC (1 / 2, 1 / 2) = emin := by
  unfold sigmaC vecc; norm_num

theorem step_skip (G : Filter ι) (pp : ℝ) (sig vvm : ι → ℝ) (acc : (ι → ℝ) × (ι → ℝ)) (k : ℕ) (i : ι)
    (h : ¬ (lob k ≤ sig i ∧ sig i < ub k)) :
    (rfStep G pp sig vvm acc k).1 i = acc.1 i ∧ (rfStep G pp sig vvm acc k).2 i = acc.2 i := by
  simp only [rfStep, if_neg h, and_self]

theorem step_hit (G : Filter ι) (pp : ℝ) (sig vvm : ι → ℝ) (acc : (ι → ℝ) × (ι → ℝ)) (k : ℕ) (i : ι)
    (h : lob k ≤ sig i ∧ sig i < ub k) :
    (rfStep G pp sig vvm acc k).1 i = G (stp k * pp * 60) 4 vvm i ∧
    (rfStep G pp sig vvm acc k).2 i = G (stp k * pp * 60 * 3.5) 4 vvm i := by
  simp only [rfStep, if_pos h, and_self]

theorem fold_hit (G : Filter ι) (pp : ℝ) (sig vvm : ι → ℝ) (i : ι) (k : ℕ) (hk : lob k ≤ sig i ∧ sig i < ub k)
    (hu : ∀ j, j < 31 → lob j ≤ sig i ∧ sig i < ub j → j = k) (acc : (ι → ℝ) × (ι → ℝ)) :
    ∀ n, n ≤ 31 → k < n →
      ((List.range n).foldl (rfStep G pp sig vvm) acc).1 i = G (stp k * pp * 60) 4 vvm i ∧
      ((List.range n).foldl (rfStep G pp sig vvm) acc).2 i = G (stp k * pp * 60 * 3.5) 4 vvm i := by
  intro n
  induction n with
  | zero => intro _ h; omega
  | succ n ih =>
    intro hn hkn
    rw [List.range_succ, List.foldl_append, List.foldl_cons, List.foldl_nil]
    rcases (Nat.lt_succ_iff.mp hkn).eq_or_lt with rfl | h
    · exact step_hit G pp sig vvm _ _ i hk
    · have hn' : ¬ (lob n ≤ sig i ∧ sig i < ub n) := fun hh => by have := hu n (by omega) hh; omega
      obtain ⟨e1, e2⟩ := step_skip G pp sig vvm ((List.range n).foldl (rfStep G pp sig vvm) acc) n i hn'
      rw [e1, e2]
      exact ih (by omega) h

/-- **C78** the assembled response of a pixel is the difference of Gaussians of the one bin its width falls in -/
theorem C78_assembled (G : Filter ι) (pp : ℝ) (sig vvm : ι → ℝ) (i : ι) (h0 : 0 ≤ sig i) (h1 : sig i < 1) :
    ∃ k, k < 31 ∧ lob k ≤ sig i ∧ sig i < ub k ∧ fieldResponse G pp sig vvm i =
      G (stp k * pp * 60) 4 vvm i - 0.67 * G (stp k * pp * 60 * 3.5) 4 vvm i := by
  obtain ⟨k, ⟨hk, hl, hu⟩, huniq⟩ := C78_unique h0 h1
  refine ⟨k, hk, hl, hu, ?_⟩
  obtain ⟨e1, e2⟩ := fold_hit G pp sig vvm i k ⟨hl, hu⟩ (fun j hj h => huniq j ⟨hj, h⟩) (fun _ => 0, fun _ => 0) 31
    le_rfl hk
  unfold fieldResponse frK
  rw [e1, e2]

/-- **C78** the width used for a bin is the nearest of the 31 widths to the width of the pixel -/
theorem C78_nearest {σ : ℝ} {k : ℕ} (hk : k < 31) (hl : lob k ≤ σ) (hu : σ < ub k) :
    ∀ j < 31, |σ - stp k| ≤ |σ - stp j| := by
  intro j hj
  rcases lt_trichotomy j k with h | h | h
  · have hb : (stp k + stp (k - 1)) / 2 ≤ σ := by
      rw [lob, if_neg (by omega), ub_of_lt (by omega), Nat.sub_add_cancel (by omega)] at hl
      exact hl
    have h1 := stp_le (show j ≤ k - 1 by omega)
    have h2 := stp_lt h
    rw [abs_le, abs_of_nonneg (by linarith [stp_lt (show k - 1 < k by omega)] : 0 ≤ σ - stp j)]
    constructor <;> linarith
  · rw [h]
  · have hb : σ < (stp (k + 1) + stp k) / 2 := by rwa [ub_of_lt (by omega)] at hu
    have h1 := stp_le (show k + 1 ≤ j by omega)
    have h2 := stp_lt h
    rw [abs_le, abs_of_nonpos (by linarith [stp_lt (Nat.lt_succ_self k)] : σ - stp j ≤ 0)]
    constructor <;> linarith

example : ∃ k, k < 31 ∧ lob k ≤ sigmaC (1 / 2, 1 / 2) ∧ sigmaC (1 / 2, 1 / 2) < ub k := by
  obtain ⟨k, hk, -⟩ := C78_unique (σ := sigmaC (1 / 2, 1 / 2)) (by rw [C78_centre]; unfold emin; norm_num)
    (by rw [C78_centre]; unfold emin; norm_num)
  exact ⟨k, hk⟩

/-! C95 -/

/-- **C95** brighter pixels are never adapted to a lower irradiance -/
def C95_statement : Prop := ∀ er er' eg : ℝ, 0 ≤ er → er ≤ er' → 0 < eg → localAdaptation er eg ≤ localAdaptation er' eg

/-- a dark pixel is adapted as if its irradiance was one -/
theorem C95_dark (eg : ℝ) : localAdaptation 0 eg = localAdaptation 1 eg := by
  simp [localAdaptation, log10er]

/-- **C95** for positive irradiances the adaptation is the weighted geometric mean of local and global irradiance -/
theorem C95_mean {er eg : ℝ} (hr : 0 < er) (hg : 0 < eg) :
    localAdaptation er eg = er ^ (0.8 : ℝ) * eg ^ (1 - 0.8 : ℝ) := by
  unfold localAdaptation log10er contrast
  have hp : ∀ x : ℝ, 0 < x → (10 : ℝ) ^ logb 10 x = x := fun x hx => rpow_logb (by norm_num) (by norm_num) hx
  rw [if_pos hr, rpow_add (by norm_num), mul_comm, mul_comm (1 - 0.8) _, rpow_mul (by norm_num), hp eg hg,
    mul_comm (0.8 : ℝ), rpow_mul (by norm_num) (logb 10 er), hp er hr, mul_comm]

/-- **C95**, positive irradiances only -/
theorem C95_partial {er er' eg : ℝ} (hr : 0 < er) (h : er < er') (hg : 0 < eg) :
    localAdaptation er eg < localAdaptation er' eg := by
  rw [C95_mean hr hg, C95_mean (hr.trans h) hg]
  exact mul_lt_mul_of_pos_right (rpow_lt_rpow hr.le h (by norm_num)) (rpow_pos_of_pos hg _)

/-- **C95** and it is between the local and the global irradiance -/
theorem C95_between_partial {er eg : ℝ} (hr : 0 < er) (hg : 0 < eg) :
    min er eg ≤ localAdaptation er eg ∧ localAdaptation er eg ≤ max er eg := by
  rw [C95_mean hr hg]
  have hm : 0 < min er eg := lt_min hr hg
  have hM : 0 < max er eg := lt_max_of_lt_left hr
  have e : ∀ x : ℝ, 0 < x → x ^ (0.8 : ℝ) * x ^ (1 - 0.8 : ℝ) = x := fun x hx => by
    rw [← rpow_add hx]; norm_num
  constructor
  · calc min er eg = min er eg ^ (0.8 : ℝ) * min er eg ^ (1 - 0.8 : ℝ) := (e _ hm).symm
      _ ≤ _ := mul_le_mul (rpow_le_rpow hm.le (min_le_left _ _) (by norm_num))
        (rpow_le_rpow hm.le (min_le_right _ _) (by norm_num)) (rpow_nonneg hm.le _) (rpow_nonneg hr.le _)
  · calc _ ≤ max er eg ^ (0.8 : ℝ) * max er eg ^ (1 - 0.8 : ℝ) :=
        mul_le_mul (rpow_le_rpow hr.le (le_max_left _ _) (by norm_num))
          (rpow_le_rpow hg.le (le_max_right _ _) (by norm_num)) (rpow_nonneg hg.le _) (rpow_nonneg hM.le _)
      _ = _ := e _ hM

theorem C95_refuted : ¬ C95_statement := by
  intro h
  have h1 := h 0 (1 / 2) 1 le_rfl (by norm_num) one_pos
  rw [C95_dark] at h1
  exact absurd h1 (not_le.mpr (C95_partial (by norm_num) (by norm_num) one_pos))

/-- the adaptation is always positive -/
theorem localAdaptation_pos (er eg : ℝ) : 0 < localAdaptation er eg := rpow_pos_of_pos (by norm_num) _

/-! C100 -/

/-- **C100** more light at the eye never opens the pupil -/
def C100_statement : Prop := ∀ age ev ev' : ℝ, 10 ≤ age → 0 < ev → ev ≤ ev' → pupd age ev' ≤ pupd age ev

theorem tanh_mono {x y : ℝ} (h : x ≤ y) : tanh x ≤ tanh y := by
  rw [tanh_eq_sinh_div_cosh, tanh_eq_sinh_div_cosh, div_le_div_iff₀ (cosh_pos _) (cosh_pos _)]
  have := sinh_sub y x
  have h2 : 0 ≤ sinh (y - x) := by rw [sinh_nonneg_iff]; linarith
  linarith

/-- **C100** holds at ten years -/
theorem C100_partial {ev ev' : ℝ} (h0 : 0 < ev) (h : ev ≤ ev') : pupd 10 ev' ≤ pupd 10 ev := by
  unfold pupd
  have hl : logb 10 (ev / 1600) ≤ logb 10 (ev' / 1600) :=
    logb_le_logb_of_le (by norm_num) (by positivity) (by linarith)
  have := tanh_mono (show 0.4 * logb 10 (ev / 1600) ≤ 0.4 * logb 10 (ev' / 1600) by linarith)
  norm_num at this ⊢
  linarith

/-- **C100** holds at every age where the age term has died out: the diameter is within `0.043 (age - 10) exp (-ev/174)`
of the one at ten years -/
theorem C100_age_partial {age ev : ℝ} (ha : 10 ≤ age) :
    pupd age ev ≤ pupd 10 ev ∧ pupd 10 ev - pupd age ev = 0.043 * (age - 10) * exp (-ev / 174) := by
  have : 0 ≤ 0.043 * (age - 10) * exp (-ev / 174) := by
    have : 0 ≤ age - 10 := by linarith
    positivity
  unfold pupd
  constructor
  · norm_num at this ⊢; linarith
  · ring

theorem tanh_exp (x : ℝ) : tanh x = 1 - 2 / (exp x ^ 2 + 1) := by
  rw [tanh_eq, exp_neg]
  have := exp_pos x
  field_simp
  ring

theorem C100_refuted : ¬ C100_statement := by
  intro h
  have h1 := h 80 16 160 (by norm_num) (by norm_num) (by norm_num)
  unfold pupd at h1
  have l1 : logb 10 ((160 : ℝ) / 1600) = -1 := by
    rw [show (160 : ℝ) / 1600 = 10 ^ (-1 : ℝ) by rw [rpow_neg_one]; norm_num, logb_rpow (by norm_num) (by norm_num)]
  have l2 : logb 10 ((16 : ℝ) / 1600) = -2 := by
    rw [show (16 : ℝ) / 1600 = 10 ^ (-2 : ℝ) by rw [rpow_neg (by norm_num)]; norm_num,
      logb_rpow (by norm_num) (by norm_num)]
  rw [l1, l2, show (0.4 : ℝ) * -1 = -0.4 by norm_num, show (0.4 : ℝ) * -2 = -0.8 by norm_num, tanh_neg, tanh_neg] at h1
  have t1 : tanh (0.8 : ℝ) < 0.68 := by
    have e : exp (0.8 : ℝ) ^ 5 = exp 1 ^ 4 := by rw [← exp_nat_mul, ← exp_nat_mul]; norm_num
    have hl := exp_one_lt_d9
    have hb : exp (0.8 : ℝ) < 2.26 := by
      by_contra hc
      have := pow_le_pow_left₀ (by norm_num) (not_lt.mp hc) 5
      rw [e] at this
      have h4 := pow_le_pow_left₀ (exp_pos 1).le hl.le 4
      norm_num at this h4
      linarith
    rw [tanh_exp, sub_lt_comm, lt_div_iff₀ (by positivity)]
    nlinarith [exp_pos (0.8 : ℝ)]
  have t2 : 0.37 < tanh (0.4 : ℝ) := by
    have e : exp (0.4 : ℝ) ^ 5 = exp 1 ^ 2 := by rw [← exp_nat_mul, ← exp_nat_mul]; norm_num
    have hl := exp_one_gt_d9
    have hb : 1.48 < exp (0.4 : ℝ) := by
      by_contra hc
      have := pow_le_pow_left₀ (exp_pos 0.4).le (not_lt.mp hc) 5
      rw [e] at this
      have h4 := pow_le_pow_left₀ (by norm_num) hl.le 2
      norm_num at this h4
      linarith
    rw [tanh_exp, lt_sub_comm, div_lt_iff₀ (by positivity)]
    nlinarith [exp_pos (0.4 : ℝ)]
  have e1 : 0.9 < exp (-(16 : ℝ) / 174) := by
    have := add_one_le_exp (-(16 : ℝ) / 174)
    norm_num at this ⊢; linarith
  have e2 : exp (-(160 : ℝ) / 174) < 0.43 := by
    have := quadratic_le_exp_of_nonneg (show (0 : ℝ) ≤ 160 / 174 by norm_num)
    rw [show -(160 : ℝ) / 174 = -(160 / 174) by ring, exp_neg]
    have hp : (1 : ℝ) / 0.43 < exp (160 / 174) := by norm_num at this ⊢; linarith
    rw [inv_lt_comm₀ (exp_pos _) (by norm_num)]
    rwa [one_div] at hp
  norm_num at h1 t1 t2 e1 e2
  linarith

/-! C101 -/

theorem wpoly_range {x : ℝ} (h0 : 0 ≤ x) (h1 : x ≤ 1) : 9.8 ≤ wpoly x ∧ wpoly x ≤ 33.5 := by
  have a := wpoly_low h0 h1
  have b := wpoly_high h0 h1
  unfold wpoly
  constructor <;> linarith

/-- **C101** the weight of every eccentricity the model produces is between 9.8 and 33.5 -/
theorem C101_range {e : ℝ} (h0 : emin ≤ e) (h1 : e ≤ emax) : 9.8 ≤ weight e ∧ weight e ≤ 33.5 := by
  unfold emin at h0; unfold emax at h1
  unfold weight
  refine wpoly_range ?_ ?_
  · exact div_nonneg (by linarith) (by norm_num)
  · rw [div_le_one (by norm_num)]; linarith

/-- a weighted average of the widths is a width -/
theorem average_range (s : Finset ι) (w σ : ι → ℝ) (hw : ∀ i ∈ s, 0 ≤ w i) (hs : ∀ i ∈ s, emin ≤ σ i ∧ σ i ≤ emax)
    (hp : ∑ i ∈ s, w i ≠ 0) :
    emin ≤ (∑ i ∈ s, σ i * w i) / ∑ i ∈ s, w i ∧ (∑ i ∈ s, σ i * w i) / ∑ i ∈ s, w i ≤ emax := by
  have hp' : 0 < ∑ i ∈ s, w i := lt_of_le_of_ne (Finset.sum_nonneg hw) hp.symm
  rw [le_div_iff₀ hp', div_le_iff₀ hp', Finset.mul_sum, Finset.mul_sum]
  exact ⟨Finset.sum_le_sum fun i hi => mul_le_mul_of_nonneg_right (hs i hi).1 (hw i hi),
    Finset.sum_le_sum fun i hi => mul_le_mul_of_nonneg_right (hs i hi).2 (hw i hi)⟩

/-- **C101** the weighted score has the sign of the unweighted one -/
theorem C101_nonneg {omega : ι → ℝ} (ho : ∀ i, 0 ≤ omega i) {ecc : ℝ} (h0 : emin ≤ ecc) (h1 : ecc ≤ emax)
    {rg : ι → ℝ × ℝ} (h : ∀ i, 0 ≤ (rg i).1 ∧ (rg i).1 ≤ 1 ∧ 0 ≤ (rg i).2 ∧ (rg i).2 ≤ 1) :
    0 ≤ gss false omega ecc rg ∧ (gss false omega ecc rg = 0 ↔ gss true omega ecc rg = 0) := by
  have hw := (C101_range h0 h1).1
  have hr := (C77_gss ho ecc h).1
  simp only [gss, Bool.false_eq_true, if_false, if_true] at hr ⊢
  refine ⟨mul_nonneg hr (by linarith), ?_⟩
  rw [mul_eq_zero]
  constructor
  · rintro (h | h)
    · exact h
    · linarith
  · exact Or.inl

/-- **C101** moving away from the line of sight never raises the weight -/
def C101_statement : Prop := ∀ e e' : ℝ, emin ≤ e → e ≤ e' → e' ≤ emax → weight e' ≤ weight e

theorem C101_refuted : ¬ C101_statement := by
  intro h
  have := h 0.009 0.01011 (by unfold emin; norm_num) (by norm_num) (by unfold emax; norm_num)
  unfold weight wpoly at this
  norm_num at this

theorem wpoly_deriv (x : ℝ) : HasDerivAt wpoly (2.28728777265947 - 104.614198351476 * (2 * x) -
    275.450102180091 * (3 * x ^ 2) + 1587.82553529394 * (4 * x ^ 3) - 2570.6813747583033 * (5 * x ^ 4) +
    1837.1741161137818 * (6 * x ^ 5) - 499.849190278 * (7 * x ^ 6)) x := by
  have hp : ∀ n : ℕ, HasDerivAt (fun x : ℝ => x ^ n) (n * x ^ (n - 1)) x := fun n => hasDerivAt_pow n x
  have := (((((((hasDerivAt_const x (33.12797281708 : ℝ)).add ((hasDerivAt_id x).const_mul 2.28728777265947)).sub
    ((hp 2).const_mul 104.614198351476)).sub ((hp 3).const_mul 275.450102180091)).add
    ((hp 4).const_mul 1587.82553529394)).sub ((hp 5).const_mul 2570.6813747583033)).add
    ((hp 6).const_mul 1837.1741161137818)).sub ((hp 7).const_mul 499.849190278)
  refine this.congr_deriv ?_
  norm_num

theorem wpoly_anti {x y : ℝ} (h0 : 1 / 50 ≤ x) (h : x ≤ y) (h1 : y ≤ 1) : wpoly y ≤ wpoly x := by
  refine antitoneOn_of_deriv_nonpos (convex_Icc (1 / 50 : ℝ) 1)
    (fun t _ => (wpoly_deriv t).continuousAt.continuousWithinAt)
    (fun t _ => (wpoly_deriv t).differentiableAt.differentiableWithinAt) (fun t ht => ?_)
    ⟨h0, h.trans h1⟩ ⟨h0.trans h, h1⟩ h
  rw [interior_Icc] at ht
  rw [(wpoly_deriv t).deriv]
  rcases le_total t (1 / 2) with hh | hh
  · linarith [wderiv_a ht.1.le hh]
  · linarith [wderiv_b hh ht.2.le]

/-- **C101** beyond 2 % of the scale it does fall -/
theorem C101_partial {e e' : ℝ} (h0 : 0.01122 ≤ e) (h : e ≤ e') (h1 : e' ≤ emax) : weight e' ≤ weight e := by
  unfold emax at h1
  unfold weight
  refine wpoly_anti ?_ ?_ ?_
  · rw [le_div_iff₀ (by norm_num)]; norm_num at h0 ⊢; linarith
  · exact div_le_div_of_nonneg_right (by linarith) (by norm_num)
  · rw [div_le_one (by norm_num)]; linarith

end Verif.Gss
