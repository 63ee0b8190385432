import Verif.Model.RoundedNorm
import Verif.Lemmas.Binary64Order

/-! C167: rounding never turns an angle into a nan. -/

namespace Verif.Fp
open Verif.Geo Real

/-- a double, with any exponent: 53 significant bits -/
def IsDouble (x : ℝ) : Prop := ∃ k e : ℤ, |k| < 2 ^ 53 ∧ x = k * 2 ^ e

def IsDouble3 (v : V3) : Prop := IsDouble v.x ∧ IsDouble v.y ∧ IsDouble v.z

theorem IsDouble.rnd {x : ℝ} (h : IsDouble x) : rnd x = x := by
  obtain ⟨k, e, hk, rfl⟩ := h
  exact rnd_float e hk

theorem isDouble_zero : IsDouble 0 := ⟨0, 0, by norm_num, by simp⟩

/-- the computed length is at least the size of every component -/
theorem nrm_ge {v : V3} (h : IsDouble3 v) : |v.x| ≤ nrm binary64 v ∧ |v.y| ≤ nrm binary64 v ∧ |v.z| ≤ nrm binary64 v := by
  obtain ⟨hx, hy, hz⟩ := h
  have qx := rnd_nonneg (mul_self_nonneg v.x)
  have qy := rnd_nonneg (mul_self_nonneg v.y)
  have qz := rnd_nonneg (mul_self_nonneg v.z)
  have ix := rnd_idem _ (mul_self_nonneg v.x)
  have iy := rnd_idem _ (mul_self_nonneg v.y)
  have iz := rnd_idem _ (mul_self_nonneg v.z)
  set a := rnd (v.x * v.x) with ha
  set b := rnd (v.y * v.y) with hb
  set c := rnd (v.z * v.z) with hc
  have s0 : 0 ≤ rnd (a + b) := rnd_nonneg (by linarith)
  have sa : a ≤ rnd (a + b) := by rw [← ix]; exact rnd_mono qx (by linarith)
  have sb : b ≤ rnd (a + b) := by rw [← iy]; exact rnd_mono qy (by linarith)
  have is := rnd_idem (a + b) (by linarith)
  have t1 : rnd (a + b) ≤ rnd (rnd (a + b) + c) := by
    conv_lhs => rw [← is]
    exact rnd_mono s0 (by linarith)
  have t2 : c ≤ rnd (rnd (a + b) + c) := by
    conv_lhs => rw [← iz]
    exact rnd_mono qz (by linarith)
  have key : ∀ t : ℝ, rnd t = t → rnd (t * t) ≤ rnd (rnd (a + b) + c) → |t| ≤ nrm binary64 v := by
    intro t ht hle
    rw [← sqrt_sq_float ht, sq]
    exact rnd_mono (sqrt_nonneg _) (sqrt_le_sqrt hle)
  exact ⟨key _ hx.rnd (sa.trans t1), key _ hy.rnd (sb.trans t1), key _ hz.rnd t2⟩

/-- the length of a vector other than zero is not zero, so the quotients above are numbers -/
theorem nrm_pos {v : V3} (h : IsDouble3 v) (h0 : v ≠ ⟨0, 0, 0⟩) : 0 < nrm binary64 v := by
  obtain ⟨a, b, c⟩ := nrm_ge h
  by_contra hn
  have hn := not_lt.mp hn
  apply h0
  have ex : v.x = 0 := abs_nonpos_iff.mp (a.trans hn)
  have ey : v.y = 0 := abs_nonpos_iff.mp (b.trans hn)
  have ez : v.z = 0 := abs_nonpos_iff.mp (c.trans hn)
  cases v
  simp_all

/-- **C167** the components of a normalised vector are numbers and never above one in size: for every vector of doubles
other than zero, in the arithmetic of doubles -/
theorem C167_norm {v : V3} (h : IsDouble3 v) (h0 : v ≠ ⟨0, 0, 0⟩) :
    ∃ p, normF binary64 v = some p ∧ |p.x| ≤ 1 ∧ |p.y| ≤ 1 ∧ |p.z| ≤ 1 := by
  obtain ⟨a, b, c⟩ := nrm_ge h
  have hp := nrm_pos h h0
  have k : ∀ t : ℝ, |t| ≤ nrm binary64 v → |rnd (t / nrm binary64 v)| ≤ 1 := by
    intro t ht
    apply rnd_le_one
    rw [abs_div, abs_of_pos hp]
    exact div_le_one_of_le₀ ht hp.le
  exact ⟨_, if_neg hp.ne', k _ a, k _ b, k _ c⟩

/-- **C167** the stored view direction has components of at most one, also when it is given as zero -/
theorem C167_norm1 {v : V3} (h : IsDouble3 v) :
    |(norm1F binary64 v).x| ≤ 1 ∧ |(norm1F binary64 v).y| ≤ 1 ∧ |(norm1F binary64 v).z| ≤ 1 := by
  by_cases h0 : v = ⟨0, 0, 0⟩
  · subst h0
    have e : nrm binary64 ⟨0, 0, 0⟩ = 0 := by simp [nrm, binary64, rnd_zero]
    have e1 : binary64.div 0 1 = 0 := by simp [binary64, rnd_zero]
    unfold norm1F
    rw [if_pos e]
    simp [e1]
  · obtain ⟨p, e, k⟩ := C167_norm h h0
    have hp := nrm_pos h h0
    unfold normF at e
    rw [if_neg hp.ne'] at e
    unfold norm1F
    rw [if_neg hp.ne', Option.some.inj e]
    exact k

theorem npArccos_some {c : ℝ} (h : |c| ≤ 1) : npArccos c = some (arccos c) := if_pos (abs_le.mp h)

/-- **C167** so the polar angle of a normalised vector, and the pitch of a mapper for every view direction, are numbers,
between zero and half a turn -/
theorem C167_pitch {v : V3} (h : IsDouble3 v) (h0 : v ≠ ⟨0, 0, 0⟩) :
    ∃ t, pitchF binary64 v = some t ∧ 0 ≤ t ∧ t ≤ π := by
  obtain ⟨p, e, _, _, k⟩ := C167_norm h h0
  refine ⟨_, ?_, arccos_nonneg p.z, arccos_le_pi _⟩
  unfold pitchF
  rw [e]
  exact npArccos_some k

/-- **C167** the angle of a source to the vertical in the position index is a number for every ray off the line of
sight (a nan would be replaced by the index 1 of the line of sight) -/
theorem C167_tau {v : V3} (h : IsDouble3 v) (h0 : ¬ (v.x = 0 ∧ v.y = 0)) :
    ∃ t, tauF binary64 v = some t ∧ 0 ≤ t ∧ t ≤ π := by
  obtain ⟨p, e, _, n, _⟩ := C167_norm (v := ⟨v.x, v.y, 0⟩) ⟨h.1, h.2.1, isDouble_zero⟩
    (fun hc => h0 ⟨congrArg V3.x hc, congrArg V3.y hc⟩)
  have k : |binary64.dot3 ⟨0, 1, 0⟩ p| ≤ 1 := by
    have : binary64.dot3 ⟨0, 1, 0⟩ p = rnd (rnd (rnd p.y)) := by
      simp only [binary64, zero_mul, one_mul, rnd_zero, zero_add, add_zero]
    rw [this]
    exact rnd_le_one (rnd_le_one (rnd_le_one n))
  refine ⟨_, ?_, arccos_nonneg (binary64.dot3 ⟨0, 1, 0⟩ p), arccos_le_pi _⟩
  unfold tauF toPlaneF
  rw [e]
  exact npArccos_some k

/-- **C167** the clipped angle is a number for all vectors, in any arithmetic -/
theorem C167_radians (A : Arith) (a b : V3) : ∃ t, radiansF A a b = some t ∧ 0 ≤ t ∧ t ≤ π := by
  refine ⟨_, npArccos_some (abs_le.mpr ⟨?_, min_le_right _ _⟩), arccos_nonneg _, arccos_le_pi _⟩
  exact le_min (le_max_right _ _) (by norm_num)

theorem nrm_033 : nrm binary64 ⟨0, 3, 3⟩ = 4776788754394329 * 2 ^ (-50 : ℤ) := by
  have e9 : rnd (3 * 3) = 9 := by
    have := rnd_whole (k := 9) (by norm_num)
    norm_num at this ⊢; exact this
  have e9' : rnd 9 = 9 := by
    have := rnd_whole (k := 9) (by norm_num)
    norm_num at this ⊢; exact this
  have e18 : rnd 18 = 18 := by
    have := rnd_whole (k := 18) (by norm_num)
    norm_num at this ⊢; exact this
  unfold nrm
  simp only [binary64, mul_zero, rnd_zero, zero_add, e9, e9']
  rw [show (9 : ℝ) + 9 = 18 by norm_num, e18]
  have s0 := sqrt_nonneg (18 : ℝ)
  have l : (4776788754394329 - 0.499) * 2⁻¹ ^ 50 < √(18 : ℝ) := by
    apply lt_sqrt_of_sq_lt; norm_num
  have u : √(18 : ℝ) < (4776788754394329 + 0.499) * 2⁻¹ ^ 50 := by
    rw [sqrt_lt' (by norm_num)]; norm_num
  have := rnd_eq (x := √18) 2 4776788754394329
    (by rw [abs_of_nonneg s0]; norm_num at l ⊢; linarith)
    (by rw [abs_of_nonneg s0]; norm_num at u ⊢; linarith)
    (by norm_num at l u ⊢; rw [abs_lt]; constructor <;> linarith)
  rw [this]; norm_num

theorem div_033 : binary64.div 3 (nrm binary64 ⟨0, 3, 3⟩) = 6369051672525773 * 2 ^ (-53 : ℤ) := by
  rw [nrm_033]
  simp only [binary64]
  have := rnd_eq (x := 3 / (4776788754394329 * 2 ^ (-50 : ℤ))) (-1) 6369051672525773
    (by norm_num) (by norm_num) (by norm_num)
  rw [this]; norm_num

/-- without the clipping of `ctheta` the angle of a ray to itself may be nan: the normalised (0, 3, 3) -/
theorem C167_clip_needed : ∃ v p : V3, IsDouble3 v ∧ normF binary64 v = some p ∧ rawAngle binary64 p p = none ∧
    radiansF binary64 p p = some 0 := by
  have e0 : binary64.div 0 (nrm binary64 ⟨0, 3, 3⟩) = 0 := by simp [binary64, rnd_zero]
  have hn : nrm binary64 ⟨0, 3, 3⟩ ≠ 0 := by rw [nrm_033]; positivity
  have d : IsDouble 3 := ⟨3, 0, by norm_num, by norm_num⟩
  have hy : rnd (6369051672525773 * 2 ^ (-53 : ℤ) * (6369051672525773 * 2 ^ (-53 : ℤ))) =
      4503599627370497 * 2 ^ (-53 : ℤ) := by
    have := rnd_eq (x := 6369051672525773 * 2 ^ (-53 : ℤ) * (6369051672525773 * 2 ^ (-53 : ℤ))) (-1) 4503599627370497
      (by norm_num) (by norm_num) (by norm_num)
    rw [this]; norm_num
  have h1 : rnd (4503599627370497 * 2 ^ (-53 : ℤ)) = 4503599627370497 * 2 ^ (-53 : ℤ) := by
    have := rnd_float (k := 4503599627370497) (-53) (by norm_num)
    exact_mod_cast this
  have h2 : rnd (4503599627370497 * 2 ^ (-53 : ℤ) + 4503599627370497 * 2 ^ (-53 : ℤ)) =
      4503599627370497 * 2 ^ (-52 : ℤ) := by
    rw [show (4503599627370497 * 2 ^ (-53 : ℤ) + 4503599627370497 * 2 ^ (-53 : ℤ) : ℝ) =
      4503599627370497 * 2 ^ (-52 : ℤ) by norm_num]
    have := rnd_float (k := 4503599627370497) (-52) (by norm_num)
    exact_mod_cast this
  have hd : binary64.dot3 ⟨0, 6369051672525773 * 2 ^ (-53 : ℤ), 6369051672525773 * 2 ^ (-53 : ℤ)⟩
      ⟨0, 6369051672525773 * 2 ^ (-53 : ℤ), 6369051672525773 * 2 ^ (-53 : ℤ)⟩ = 4503599627370497 * 2 ^ (-52 : ℤ) := by
    unfold binary64
    simp only [mul_zero, rnd_zero, zero_add, hy, h1, h2]
  refine ⟨⟨0, 3, 3⟩, ⟨0, 6369051672525773 * 2 ^ (-53 : ℤ), 6369051672525773 * 2 ^ (-53 : ℤ)⟩,
    ⟨isDouble_zero, d, d⟩, ?_, ?_, ?_⟩
  · unfold normF
    rw [if_neg hn]
    simp only [e0, div_033]
  · unfold rawAngle npArccos
    rw [hd, if_neg]
    norm_num
  · unfold radiansF npArccos
    rw [hd, min_eq_right (by rw [le_max_iff]; left; norm_num), if_pos (by norm_num), arccos_one]

/-- away from the ends of the range the angle without clipping is a number whose cosine is the product of the rays, up to
rounding -/
theorem C167_raw {A : Arith} (h : A.Ok) (a b : V3)
    (hr : |a.dot b| + 4 * A.u * (|a.x * b.x| + |a.y * b.y| + |a.z * b.z|) ≤ 1) :
    ∃ t, rawAngle A a b = some t ∧ |Real.cos t - a.dot b| ≤ 4 * A.u * (|a.x * b.x| + |a.y * b.y| + |a.z * b.z|) := by
  have hd := h.dot3 a b
  have h1 : |A.dot3 a b| ≤ 1 := by
    have := abs_sub_abs_le_abs_sub (A.dot3 a b) (a.dot b)
    linarith
  rw [abs_le] at h1
  unfold rawAngle npArccos
  rw [if_pos h1]
  exact ⟨_, rfl, by rw [Real.cos_arccos h1.1 h1.2]; exact hd⟩

/-- a source above and to the side of the line of sight -/
example : ∃ t, tauF binary64 ⟨3, 4, 5⟩ = some t ∧ 0 ≤ t ∧ t ≤ π :=
  C167_tau ⟨⟨3, 0, by norm_num, by norm_num⟩, ⟨4, 0, by norm_num, by norm_num⟩, ⟨5, 0, by norm_num, by norm_num⟩⟩
    (by norm_num)

/-- a view to the zenith, the edge of the domain of `arccos` -/
example : ∃ t, pitchF binary64 ⟨0, 0, 3⟩ = some t ∧ 0 ≤ t ∧ t ≤ π :=
  C167_pitch ⟨isDouble_zero, isDouble_zero, ⟨3, 0, by norm_num, by norm_num⟩⟩ (by simp)

end Verif.Fp
