import Verif.Model.RoundedView
import Verif.Props.RoundedNorm
import Verif.Props.RoundedUnit

/-! C206: the mask of a view in rounded arithmetic. -/

namespace Verif.Fp
open Verif.Geo Real

/-- the true angle between two vectors of any length, stated here on its own -/
noncomputable def sep (a b : V3) : ℝ :=
  arccos ((a.x * b.x + a.y * b.y + a.z * b.z) / (√(a.x ^ 2 + a.y ^ 2 + a.z ^ 2) * √(b.x ^ 2 + b.y ^ 2 + b.z ^ 2)))

/-- contract of `np.arccos`: four units in the last place on [-1, 1], nothing (nan) outside -/
def AcosOk (A : Arith) (acos : ℝ → ℝ) : Prop := ∀ c, -1 ≤ c → c ≤ 1 → |acos c - arccos c| ≤ 4 * A.u * arccos c

/-- the rounded length -/
theorem nrmR {A : Arith} (h : A.Ok) (v : V3) :
    ∃ g, |g - 1| ≤ 1.2e-15 ∧ nrm A v = √(v.x ^ 2 + v.y ^ 2 + v.z ^ 2) * g := by
  unfold nrm
  obtain ⟨g1, a1, e1⟩ := mulR h v.x v.x
  obtain ⟨g2, a2, e2⟩ := mulR h v.y v.y
  obtain ⟨g3, a3, e3⟩ := addR h (A.mul v.x v.x) (A.mul v.y v.y)
  obtain ⟨g4, a4, e4⟩ := mulR h v.z v.z
  obtain ⟨g5, a5, e5⟩ := addR h (A.add (A.mul v.x v.x) (A.mul v.y v.y)) (A.mul v.z v.z)
  set S := A.add (A.add (A.mul v.x v.x) (A.mul v.y v.y)) (A.mul v.z v.z) with hS
  set Q := v.x ^ 2 + v.y ^ 2 + v.z ^ 2 with hQ
  have hQ0 : 0 ≤ Q := by positivity
  have n1 : |g1 * g3 * g5 - 1| ≤ 7e-16 :=
    (near_mul (near_mul a1 a3 (by norm_num)) a5 (by norm_num)).trans (by norm_num)
  have n2 : |g2 * g3 * g5 - 1| ≤ 7e-16 :=
    (near_mul (near_mul a2 a3 (by norm_num)) a5 (by norm_num)).trans (by norm_num)
  have n3 : |g4 * g5 - 1| ≤ 7e-16 := (near_mul a4 a5 (by norm_num)).trans (by norm_num)
  have hd : |S - Q| ≤ 7e-16 * |Q| := by
    have e : S - Q = v.x ^ 2 * (g1 * g3 * g5 - 1) + v.y ^ 2 * (g2 * g3 * g5 - 1) + v.z ^ 2 * (g4 * g5 - 1) := by
      rw [e5, e3, e1, e2, e4, hQ]; ring
    have c1 := abs_mul_le (abs_of_nonneg (sq_nonneg v.x)).le n1
    have c2 := abs_mul_le (abs_of_nonneg (sq_nonneg v.y)).le n2
    have c3 := abs_mul_le (abs_of_nonneg (sq_nonneg v.z)).le n3
    have := abs_add_three (v.x ^ 2 * (g1 * g3 * g5 - 1)) (v.y ^ 2 * (g2 * g3 * g5 - 1)) (v.z ^ 2 * (g4 * g5 - 1))
    rw [e, abs_of_nonneg hQ0, hQ]; linarith
  obtain ⟨G, aG, eG⟩ := rel (by norm_num) hd
  have pG := near_pos aG (by norm_num)
  obtain ⟨g6, a6, e6⟩ := sqrtR h (show 0 ≤ S by rw [eG]; positivity)
  have sG : |√G - 1| ≤ 7e-16 := by
    have s0 := sqrt_nonneg G
    have e : G - 1 = (√G - 1) * (√G + 1) := by linear_combination (-1) * sq_sqrt pG.le
    rw [e, abs_mul, abs_of_pos (show 0 < √G + 1 by linarith)] at aG
    nlinarith [abs_nonneg (√G - 1)]
  refine ⟨√G * g6, (near_mul sG a6 (by norm_num)).trans (by norm_num), ?_⟩
  rw [e6, eG, sqrt_mul hQ0]; ring

theorem len_pos {v : V3} (h0 : v ≠ ⟨0, 0, 0⟩) : 0 < √(v.x ^ 2 + v.y ^ 2 + v.z ^ 2) := by
  apply sqrt_pos.mpr
  by_contra hn
  apply h0
  have ex : v.x = 0 := by nlinarith [sq_nonneg v.x, sq_nonneg v.y, sq_nonneg v.z]
  have ey : v.y = 0 := by nlinarith [sq_nonneg v.x, sq_nonneg v.y, sq_nonneg v.z]
  have ez : v.z = 0 := by nlinarith [sq_nonneg v.x, sq_nonneg v.y, sq_nonneg v.z]
  cases v
  simp_all

/-- every component of a normalised vector is right up to a relative error -/
theorem norm_comp {A : Arith} (h : A.Ok) {v p : V3} (h0 : v ≠ ⟨0, 0, 0⟩) (hp : normF A v = some p) :
    ∃ g1 g2 g3, |g1 - 1| ≤ 1.5e-15 ∧ |g2 - 1| ≤ 1.5e-15 ∧ |g3 - 1| ≤ 1.5e-15 ∧
      p = ⟨v.x / √(v.x ^ 2 + v.y ^ 2 + v.z ^ 2) * g1, v.y / √(v.x ^ 2 + v.y ^ 2 + v.z ^ 2) * g2,
        v.z / √(v.x ^ 2 + v.y ^ 2 + v.z ^ 2) * g3⟩ := by
  obtain ⟨g, ag, eg⟩ := nrmR h v
  have pg := near_pos ag (by norm_num)
  have hl := len_pos h0
  have hn : nrm A v ≠ 0 := by rw [eg]; positivity
  unfold normF at hp
  rw [if_neg hn] at hp
  have k : ∀ t, ∃ g', |g' - 1| ≤ 1.5e-15 ∧ A.div t (nrm A v) = t / √(v.x ^ 2 + v.y ^ 2 + v.z ^ 2) * g' := fun t => by
    obtain ⟨g', a', e'⟩ := divR h t hn
    refine ⟨1 / g * g', (near_mul (near_inv ag (by norm_num)) a' (by norm_num)).trans (by norm_num), ?_⟩
    rw [e', eg]; field_simp
  obtain ⟨g1, a1, e1⟩ := k v.x
  obtain ⟨g2, a2, e2⟩ := k v.y
  obtain ⟨g3, a3, e3⟩ := k v.z
  refine ⟨g1, g2, g3, a1, a2, a3, ?_⟩
  rw [← Option.some.inj hp, e1, e2, e3]

/-- the product of two unit vectors whose components carry a relative error -/
theorem unit_dot {A : Arith} (h : A.Ok) {x y z X Y Z g1 g2 g3 k1 k2 k3 κ : ℝ} (ua : x ^ 2 + y ^ 2 + z ^ 2 = 1)
    (ub : X ^ 2 + Y ^ 2 + Z ^ 2 = 1) (a1 : |g1 - 1| ≤ 1.5e-15) (a2 : |g2 - 1| ≤ 1.5e-15) (a3 : |g3 - 1| ≤ 1.5e-15)
    (b1 : |k1 - 1| ≤ κ) (b2 : |k2 - 1| ≤ κ) (b3 : |k3 - 1| ≤ κ) (hκ : κ ≤ 1e-3) :
    |x * X + y * Y + z * Z| ≤ 1 ∧
    |A.dot3 ⟨x * g1, y * g2, z * g3⟩ ⟨X * k1, Y * k2, Z * k3⟩ - (x * X + y * Y + z * Z)| ≤ 3e-15 + 1.001 * κ := by
  have s : ∀ s t : ℝ, |s * t| ≤ (s ^ 2 + t ^ 2) / 2 := fun s t => by
    rw [abs_le]; constructor <;> nlinarith [sq_nonneg (s - t), sq_nonneg (s + t)]
  have st : |x * X| + |y * Y| + |z * Z| ≤ 1 := by linarith [s x X, s y Y, s z Z]
  have n1 : |g1 * k1 - 1| ≤ 1.6e-15 + 1.001 * κ :=
    (near_mul a1 b1 (by norm_num)).trans (by linarith)
  have n2 : |g2 * k2 - 1| ≤ 1.6e-15 + 1.001 * κ :=
    (near_mul a2 b2 (by norm_num)).trans (by linarith)
  have n3 : |g3 * k3 - 1| ≤ 1.6e-15 + 1.001 * κ :=
    (near_mul a3 b3 (by norm_num)).trans (by linarith)
  have hd := h.dot3 ⟨x * g1, y * g2, z * g3⟩ ⟨X * k1, Y * k2, Z * k3⟩
  unfold V3.dot at hd
  simp only at hd
  have m : ∀ s t g k : ℝ, |g * k - 1| ≤ 1.6e-15 + 1.001 * κ → |s * g * (t * k)| ≤ 1.01 * |s * t| := fun s t g k hg => by
    rw [show s * g * (t * k) = g * k * (s * t) by ring, abs_mul]
    apply mul_le_mul_of_nonneg_right _ (abs_nonneg _)
    have := abs_sub_abs_le_abs_sub (g * k) 1
    rw [abs_one] at this
    linarith
  have m1 := m x X g1 k1 n1
  have m2 := m y Y g2 k2 n2
  have m3 := m z Z g3 k3 n3
  have hu := h.small
  have hu0 := h.u0
  have hr : 4 * A.u * (|x * g1 * (X * k1)| + |y * g2 * (Y * k2)| + |z * g3 * (Z * k3)|) ≤ 1e-15 := by
    have : |x * g1 * (X * k1)| + |y * g2 * (Y * k2)| + |z * g3 * (Z * k3)| ≤ 1.01 := by linarith
    have := mul_le_mul (show 4 * A.u ≤ 9.2e-16 by linarith) this (by positivity) (by norm_num)
    linarith
  have he : |x * g1 * (X * k1) + y * g2 * (Y * k2) + z * g3 * (Z * k3) - (x * X + y * Y + z * Z)| ≤ 1.6e-15 + 1.001 * κ := by
    have e : x * g1 * (X * k1) + y * g2 * (Y * k2) + z * g3 * (Z * k3) - (x * X + y * Y + z * Z) =
        x * X * (g1 * k1 - 1) + y * Y * (g2 * k2 - 1) + z * Z * (g3 * k3 - 1) := by ring
    have c1 := abs_mul_le (le_refl |x * X|) n1
    have c2 := abs_mul_le (le_refl |y * Y|) n2
    have c3 := abs_mul_le (le_refl |z * Z|) n3
    have := abs_add_three (x * X * (g1 * k1 - 1)) (y * Y * (g2 * k2 - 1)) (z * Z * (g3 * k3 - 1))
    have h0 : 0 ≤ κ := (abs_nonneg _).trans b1
    rw [e]; nlinarith
  refine ⟨(abs_add_three _ _ _).trans st, ?_⟩
  have ht := abs_sub_le (A.dot3 ⟨x * g1, y * g2, z * g3⟩ ⟨X * k1, Y * k2, Z * k3⟩)
    (x * g1 * (X * k1) + y * g2 * (Y * k2) + z * g3 * (Z * k3)) (x * X + y * Y + z * Z)
  linarith

theorem clip_close {d c δ : ℝ} (hc : |c| ≤ 1) (h : |d - c| ≤ δ) : |min (max d (-1)) 1 - c| ≤ δ := by
  obtain ⟨c1, c2⟩ := abs_le.mp hc
  obtain ⟨h1, h2⟩ := abs_le.mp h
  have hδ : 0 ≤ δ := (abs_nonneg _).trans h
  have l : c - δ ≤ min (max d (-1)) 1 := le_min ((show c - δ ≤ d by linarith).trans (le_max_left _ _)) (by linarith)
  have r : min (max d (-1)) 1 ≤ c + δ := (min_le_left _ _).trans (max_le (by linarith) (by linarith))
  rw [abs_le]; constructor <;> linarith

theorem unit_of_len {v : V3} (h : 0 < √(v.x ^ 2 + v.y ^ 2 + v.z ^ 2)) :
    (v.x / √(v.x ^ 2 + v.y ^ 2 + v.z ^ 2)) ^ 2 + (v.y / √(v.x ^ 2 + v.y ^ 2 + v.z ^ 2)) ^ 2 +
      (v.z / √(v.x ^ 2 + v.y ^ 2 + v.z ^ 2)) ^ 2 = 1 := by
  rw [div_pow, div_pow, div_pow, ← add_div, ← add_div, sq_sqrt (by positivity)]
  exact div_self (sqrt_pos.mp h).ne'

/-- the clipped product of two normalised vectors is the cosine of the true angle up to rounding -/
theorem dot_near {A : Arith} (h : A.Ok) {a b p q : V3} (ha : a ≠ ⟨0, 0, 0⟩) (hb : b ≠ ⟨0, 0, 0⟩)
    (hp : normF A a = some p) (hq : normF A b = some q) :
    |min (max (A.dot3 p q) (-1)) 1 - Real.cos (sep a b)| ≤ 5e-15 := by
  obtain ⟨g1, g2, g3, a1, a2, a3, rfl⟩ := norm_comp h ha hp
  obtain ⟨k1, k2, k3, b1, b2, b3, rfl⟩ := norm_comp h hb hq
  have la := len_pos ha
  have lb := len_pos hb
  obtain ⟨sc, hd⟩ := unit_dot h (unit_of_len la) (unit_of_len lb) a1 a2 a3 b1 b2 b3 (by norm_num)
  have ed : (a.x * b.x + a.y * b.y + a.z * b.z) /
        (√(a.x ^ 2 + a.y ^ 2 + a.z ^ 2) * √(b.x ^ 2 + b.y ^ 2 + b.z ^ 2)) =
      a.x / √(a.x ^ 2 + a.y ^ 2 + a.z ^ 2) * (b.x / √(b.x ^ 2 + b.y ^ 2 + b.z ^ 2)) +
      a.y / √(a.x ^ 2 + a.y ^ 2 + a.z ^ 2) * (b.y / √(b.x ^ 2 + b.y ^ 2 + b.z ^ 2)) +
      a.z / √(a.x ^ 2 + a.y ^ 2 + a.z ^ 2) * (b.z / √(b.x ^ 2 + b.y ^ 2 + b.z ^ 2)) := by
    rw [div_mul_div_comm, div_mul_div_comm, div_mul_div_comm, ← add_div, ← add_div]
  unfold sep
  rw [ed, cos_arccos (abs_le.mp sc).1 (abs_le.mp sc).2]
  exact clip_close sc (hd.trans (by norm_num))

/-- the same with a vector of nearly unit length that is not normalised -/
theorem dot_near_len {A : Arith} (h : A.Ok) {a q p : V3} {κ : ℝ} (ha : a ≠ ⟨0, 0, 0⟩) (hp : normF A a = some p)
    (hq : |√(len2 q) - 1| ≤ κ) (hκ : κ ≤ 1e-3) :
    |min (max (A.dot3 p q) (-1)) 1 - Real.cos (sep a q)| ≤ 3e-15 + 1.001 * κ := by
  obtain ⟨g1, g2, g3, a1, a2, a3, rfl⟩ := norm_comp h ha hp
  have la := len_pos ha
  unfold len2 at hq
  have lb := near_pos hq (by linarith)
  obtain ⟨sc, hd⟩ := unit_dot h (unit_of_len la) (unit_of_len lb) a1 a2 a3 hq hq hq hκ
  have eq : (⟨q.x / √(q.x ^ 2 + q.y ^ 2 + q.z ^ 2) * √(q.x ^ 2 + q.y ^ 2 + q.z ^ 2),
      q.y / √(q.x ^ 2 + q.y ^ 2 + q.z ^ 2) * √(q.x ^ 2 + q.y ^ 2 + q.z ^ 2),
      q.z / √(q.x ^ 2 + q.y ^ 2 + q.z ^ 2) * √(q.x ^ 2 + q.y ^ 2 + q.z ^ 2)⟩ : V3) = q := by
    rw [div_mul_cancel₀ _ lb.ne', div_mul_cancel₀ _ lb.ne', div_mul_cancel₀ _ lb.ne']
  rw [eq] at hd
  have ed : (a.x * q.x + a.y * q.y + a.z * q.z) /
        (√(a.x ^ 2 + a.y ^ 2 + a.z ^ 2) * √(q.x ^ 2 + q.y ^ 2 + q.z ^ 2)) =
      a.x / √(a.x ^ 2 + a.y ^ 2 + a.z ^ 2) * (q.x / √(q.x ^ 2 + q.y ^ 2 + q.z ^ 2)) +
      a.y / √(a.x ^ 2 + a.y ^ 2 + a.z ^ 2) * (q.y / √(q.x ^ 2 + q.y ^ 2 + q.z ^ 2)) +
      a.z / √(a.x ^ 2 + a.y ^ 2 + a.z ^ 2) * (q.z / √(q.x ^ 2 + q.y ^ 2 + q.z ^ 2)) := by
    rw [div_mul_div_comm, div_mul_div_comm, div_mul_div_comm, ← add_div, ← add_div]
  unfold sep
  rw [ed, cos_arccos (abs_le.mp sc).1 (abs_le.mp sc).2]
  exact clip_close sc hd

/-- angles with close cosines are close -/
theorem angle_close {α β δ : ℝ} (a0 : 0 ≤ α) (a1 : α ≤ π) (b0 : 0 ≤ β) (b1 : β ≤ π)
    (h : |Real.cos α - Real.cos β| ≤ δ) : (α - β) ^ 2 ≤ π ^ 2 / 2 * δ := by
  wlog hab : β ≤ α generalizing α β
  · have := this b0 b1 a0 a1 (by rwa [abs_sub_comm]) (le_of_not_ge hab)
    linarith [show (α - β) ^ 2 = (β - α) ^ 2 by ring]
  have hp := pi_pos
  set d := (α - β) / 2 with hd
  have d0 : 0 ≤ d := by linarith
  have d1 : d ≤ π / 2 := by linarith
  have hs0 : 0 ≤ sin d := sin_nonneg_of_nonneg_of_le_pi d0 (by linarith)
  have hs : d ≤ π / 2 * sin d := le_half_pi_sin d0 d1
  have hm : sin d ≤ sin ((α + β) / 2) := by
    rcases le_total ((α + β) / 2) (π / 2) with hl | hl
    · exact sin_le_sin_of_le_of_le_pi_div_two (by linarith) hl (by linarith)
    · rw [← sin_pi_sub ((α + β) / 2)]
      exact sin_le_sin_of_le_of_le_pi_div_two (by linarith) (by linarith) (by linarith)
  have hc : 2 * sin ((α + β) / 2) * sin d ≤ δ := by
    have := (abs_le.mp h).1
    rw [cos_sub_cos] at this
    linarith
  have h2 : sin d * sin d ≤ δ / 2 := by nlinarith
  have h3 : d * d ≤ (π / 2 * sin d) * (π / 2 * sin d) := mul_le_mul hs hs d0 (by positivity)
  have h4 : π ^ 2 * (sin d * sin d) ≤ π ^ 2 * (δ / 2) := mul_le_mul_of_nonneg_left h2 (by positivity)
  have : (α - β) ^ 2 = 4 * (d * d) := by rw [hd]; ring
  rw [this]
  nlinarith

/-- away from zero and from half a turn they are much closer -/
theorem angle_closer {α β δ ε : ℝ} (a0 : 0 ≤ α) (a1 : α ≤ π) (b0 : 0 ≤ β) (b1 : β ≤ π)
    (h : |Real.cos α - Real.cos β| ≤ δ) (hε : |α - β| ≤ ε) (hs : ε ≤ sin β) : |α - β| * sin β ≤ π * δ := by
  have hp := pi_pos
  have hd0 := abs_nonneg (α - β)
  have hdp : |α - β| ≤ π := by rw [abs_le]; constructor <;> linarith
  have h1 : |α - β| / 2 ≤ π / 2 * sin (|α - β| / 2) := le_half_pi_sin (by linarith) (by linarith)
  have h2 : |sin ((α - β) / 2)| = sin (|α - β| / 2) := by
    have k0 : 0 ≤ sin (|α - β| / 2) := sin_nonneg_of_nonneg_of_le_pi (by linarith) (by linarith)
    rcases abs_cases (α - β) with ⟨e, _⟩ | ⟨e, _⟩
    · rw [e] at k0 ⊢; exact abs_of_nonneg k0
    · rw [e, neg_div, sin_neg] at k0 ⊢
      exact abs_of_nonpos (by linarith)
  have h3 : sin β / 2 ≤ sin ((α + β) / 2) := by
    have := abs_le.mp (abs_sin_sub_le ((α + β) / 2) β)
    have e : |(α + β) / 2 - β| = |α - β| / 2 := by
      rw [show (α + β) / 2 - β = (α - β) / 2 by ring, abs_div, abs_two]
    rw [e] at this
    linarith [this.1]
  have h4 : 2 * sin ((α + β) / 2) * sin (|α - β| / 2) ≤ δ := by
    rw [cos_sub_cos, abs_mul, abs_mul, abs_neg, abs_two, h2] at h
    have : sin ((α + β) / 2) ≤ |sin ((α + β) / 2)| := le_abs_self _
    have k0 : 0 ≤ sin (|α - β| / 2) := sin_nonneg_of_nonneg_of_le_pi (by linarith) (by linarith)
    nlinarith
  have sb : 0 ≤ sin β := sin_nonneg_of_nonneg_of_le_pi b0 b1
  have k0 : 0 ≤ sin (|α - β| / 2) := sin_nonneg_of_nonneg_of_le_pi (by linarith) (by linarith)
  have h5 : sin β * sin (|α - β| / 2) ≤ δ := by nlinarith
  nlinarith

theorem sep_mem (a b : V3) : 0 ≤ sep a b ∧ sep a b ≤ π := ⟨arccos_nonneg _, arccos_le_pi _⟩

/-- **C206** the angle a mapper reports between its view direction and a vector is the true one up to 2e-7 radians, for
all vectors other than zero -/
theorem C206_angle {A : Arith} (h : A.Ok) {acos : ℝ → ℝ} (hc : AcosOk A acos) {a b p q : V3} (ha : a ≠ ⟨0, 0, 0⟩)
    (hb : b ≠ ⟨0, 0, 0⟩) (hp : normF A a = some p) (hq : normF A b = some q) :
    |angleF A acos p q - sep a b| ≤ 2e-7 := by
  have hd := dot_near h ha hb hp hq
  unfold angleF
  set c := min (max (A.dot3 p q) (-1)) 1 with hcd
  have c0 : -1 ≤ c := le_min (le_max_right _ _) (by norm_num)
  have c1 : c ≤ 1 := min_le_right _ _
  obtain ⟨s0, s1⟩ := sep_mem a b
  have hcos : |Real.cos (arccos c) - Real.cos (sep a b)| ≤ 5e-15 := by rw [cos_arccos c0 c1]; exact hd
  have hk := angle_close (arccos_nonneg c) (arccos_le_pi c) s0 s1 hcos
  have hp := pi_lt_d2
  have hp0 := pi_pos
  have hk2 : |arccos c - sep a b| ≤ 1.6e-7 := by
    apply abs_le_of_sq_le_sq _ (by norm_num)
    nlinarith
  have := hc c c0 c1
  have hu := h.small
  have hu0 := h.u0
  have : 4 * A.u * arccos c ≤ 1e-14 := by
    have := mul_le_mul (show 4 * A.u ≤ 9.2e-16 by linarith) ((arccos_le_pi c).trans hp.le) (arccos_nonneg c) (by norm_num)
    linarith
  have := abs_sub_le (acos c) (arccos c) (sep a b)
  linarith [hc c c0 c1]

/-- **C206** away from the line of sight and from its opposite the error is that of the arithmetic -/
theorem C206_angle_sharp {A : Arith} (h : A.Ok) {acos : ℝ → ℝ} (hc : AcosOk A acos) {a b p q : V3}
    (ha : a ≠ ⟨0, 0, 0⟩) (hb : b ≠ ⟨0, 0, 0⟩) (hp : normF A a = some p) (hq : normF A b = some q)
    (hs : 2e-7 ≤ sin (sep a b)) : |angleF A acos p q - sep a b| ≤ 2e-14 / sin (sep a b) := by
  have hd := dot_near h ha hb hp hq
  unfold angleF
  set c := min (max (A.dot3 p q) (-1)) 1 with hcd
  have c0 : -1 ≤ c := le_min (le_max_right _ _) (by norm_num)
  have c1 : c ≤ 1 := min_le_right _ _
  obtain ⟨s0, s1⟩ := sep_mem a b
  have hcos : |Real.cos (arccos c) - Real.cos (sep a b)| ≤ 5e-15 := by rw [cos_arccos c0 c1]; exact hd
  have hk := angle_close (arccos_nonneg c) (arccos_le_pi c) s0 s1 hcos
  have hp := pi_lt_d2
  have hp0 := pi_pos
  have hk2 : |arccos c - sep a b| ≤ 1.6e-7 := by
    apply abs_le_of_sq_le_sq _ (by norm_num)
    nlinarith
  have hk3 := angle_closer (arccos_nonneg c) (arccos_le_pi c) s0 s1 hcos hk2 (by linarith)
  have hu := h.small
  have hu0 := h.u0
  have hr : 4 * A.u * arccos c ≤ 3e-15 := by
    have := mul_le_mul (show 4 * A.u ≤ 9.2e-16 by linarith) ((arccos_le_pi c).trans hp.le) (arccos_nonneg c) (by norm_num)
    linarith
  have ht := abs_sub_le (acos c) (arccos c) (sep a b)
  have := hc c c0 c1
  have hsp : 0 < sin (sep a b) := by linarith
  have hs1 := sin_le_one (sep a b)
  rw [le_div_iff₀ hsp]
  nlinarith [abs_nonneg (acos c - sep a b)]

/-- the rim and the difference to it -/
theorem mask_near {A : Arith} (h : A.Ok) {cf va tol t s E : ℝ} (h0 : 0 ≤ cf * va) (h1 : cf * va ≤ 720)
    (ht : |t - s| ≤ E) (hE : E ≤ 1) (s0 : 0 ≤ s) (s1 : s ≤ π) (htol : |tol| ≤ 4) :
    (s < cf * va * π / 360 + tol - E - 2e-14 → A.sub t tol < rimF A cf va) ∧
    (A.sub t tol < rimF A cf va → s < cf * va * π / 360 + tol + E + 2e-14) := by
  obtain ⟨g1, a1, e1⟩ := mulR h cf va
  obtain ⟨g2, a2, e2⟩ := piR h
  obtain ⟨g3, a3, e3⟩ := mulR h (A.mul cf va) A.pi
  obtain ⟨g4, a4, e4⟩ := divR h (A.mul (A.mul cf va) A.pi) (show (360 : ℝ) ≠ 0 by norm_num)
  obtain ⟨g5, a5, e5⟩ := subR h t tol
  have hp := pi_lt_d2
  have hp0 := pi_pos
  have er : rimF A cf va = cf * va * π / 360 * (g1 * g2 * (g3 * g4)) := by
    unfold rimF; rw [e4, e3, e1, e2]; ring
  have n : |g1 * g2 * (g3 * g4) - 1| ≤ 1e-15 :=
    (near_mul (near_mul a1 a2 (by norm_num)) (near_mul a3 a4 (by norm_num)) (by norm_num)).trans (by norm_num)
  have r0 : 0 ≤ cf * va * π / 360 := by positivity
  have r1 : cf * va * π / 360 ≤ 6.3 := by
    rw [div_le_iff₀ (by norm_num)]
    have := mul_le_mul h1 hp.le hp0.le (by norm_num)
    linarith
  have k1 : |rimF A cf va - cf * va * π / 360| ≤ 6.3e-15 := by
    rw [er, show cf * va * π / 360 * (g1 * g2 * (g3 * g4)) - cf * va * π / 360 =
      cf * va * π / 360 * (g1 * g2 * (g3 * g4) - 1) by ring]
    have := abs_mul_le ((abs_of_nonneg r0).le.trans r1) n
    linarith
  have k2 : |A.sub t tol - (t - tol)| ≤ 2.3e-15 := by
    rw [e5, show (t - tol) * g5 - (t - tol) = (t - tol) * (g5 - 1) by ring]
    have : |t - tol| ≤ 8.2 := by
      obtain ⟨q1, q2⟩ := abs_le.mp ht
      obtain ⟨q3, q4⟩ := abs_le.mp htol
      rw [abs_le]; constructor <;> linarith
    have := abs_mul_le this a5
    linarith
  obtain ⟨k3, k4⟩ := abs_le.mp k1
  obtain ⟨k5, k6⟩ := abs_le.mp k2
  obtain ⟨k7, k8⟩ := abs_le.mp ht
  constructor <;> intro hh <;> linarith

/-- **C206** `in_view` contains every direction that lies inside the rim by more than the tolerance and none outside
it by more -/
theorem C206_mask_partial {A : Arith} (h : A.Ok) {acos : ℝ → ℝ} (hc : AcosOk A acos) {cf va tol : ℝ}
    (h0 : 0 ≤ cf * va) (h1 : cf * va ≤ 720) (htol : |tol| ≤ 4) {a b p q : V3} (ha : a ≠ ⟨0, 0, 0⟩)
    (hb : b ≠ ⟨0, 0, 0⟩) (hp : normF A a = some p) (hq : normF A b = some q) :
    (sep a b < cf * va * π / 360 + tol - 3e-7 → inViewF A acos cf va tol p q) ∧
    (inViewF A acos cf va tol p q → sep a b < cf * va * π / 360 + tol + 3e-7) := by
  obtain ⟨s0, s1⟩ := sep_mem a b
  obtain ⟨k1, k2⟩ := mask_near h h0 h1 (C206_angle h hc ha hb hp hq) (by norm_num) s0 s1 htol
  exact ⟨fun hh => k1 (by linarith), fun hh => (k2 hh).trans (by linarith)⟩

/-- **C206** between one thousandth of a radian and that much less than half a turn the tolerance is 3e-11 -/
theorem C206_mask_sharp_partial {A : Arith} (h : A.Ok) {acos : ℝ → ℝ} (hc : AcosOk A acos) {cf va tol : ℝ}
    (h0 : 0 ≤ cf * va) (h1 : cf * va ≤ 720) (htol : |tol| ≤ 4) {a b p q : V3} (ha : a ≠ ⟨0, 0, 0⟩)
    (hb : b ≠ ⟨0, 0, 0⟩) (hp : normF A a = some p) (hq : normF A b = some q) (hs : 1e-3 ≤ sin (sep a b)) :
    (sep a b < cf * va * π / 360 + tol - 3e-11 → inViewF A acos cf va tol p q) ∧
    (inViewF A acos cf va tol p q → sep a b < cf * va * π / 360 + tol + 3e-11) := by
  obtain ⟨s0, s1⟩ := sep_mem a b
  have hE := C206_angle_sharp h hc ha hb hp hq (by linarith)
  have hsp : 0 < sin (sep a b) := by linarith
  have hE2 : 2e-14 / sin (sep a b) ≤ 2e-11 := by rw [div_le_iff₀ hsp]; linarith
  obtain ⟨k1, k2⟩ := mask_near h h0 h1 (hE.trans hE2) (by norm_num) s0 s1 htol
  exact ⟨fun hh => k1 (by linarith), fun hh => (k2 hh).trans (by linarith)⟩

/-- **C206** the mask of the pixels of any mapper against the view of any other (or the same): every pixel whose ray
is inside the rim by more than 2e-6 radians is in it, none outside by more -/
theorem C206_pixels_partial {A : Arith} (h : A.Ok) {acos : ℝ → ℝ} (hc : AcosOk A acos) {cf va : ℝ}
    (h0 : 0 ≤ cf * va) (h1 : cf * va ≤ 720) {a p : V3} (ha : a ≠ ⟨0, 0, 0⟩) (hp : normF A a = some p)
    (va' cf' : ℝ) (e ne : Bool) (yaw pitch : ℝ) (res : ℕ) (pxy : ℝ × ℝ) {q : V3}
    (hq : q = (FView.mk va' cf' (rmtxYp A e ne yaw pitch).1 (rmtxYp A e ne yaw pitch).2).pixel2ray A res pxy) :
    (sep a q < cf * va * π / 360 - 2e-6 → inViewF A acos cf va 0 p q) ∧
    (inViewF A acos cf va 0 p q → sep a q < cf * va * π / 360 + 2e-6) := by
  have hl : |√(len2 q) - 1| ≤ 1.5e-13 := by rw [hq]; exact C166_unit h va' cf' e ne yaw pitch res pxy
  have hd := dot_near_len h ha hp hl (by norm_num)
  have hE : |angleF A acos p q - sep a q| ≤ 1.5e-6 := by
    unfold angleF
    set c := min (max (A.dot3 p q) (-1)) 1 with hcd
    have c0 : -1 ≤ c := le_min (le_max_right _ _) (by norm_num)
    have c1 : c ≤ 1 := min_le_right _ _
    obtain ⟨s0, s1⟩ := sep_mem a q
    have hcos : |Real.cos (arccos c) - Real.cos (sep a q)| ≤ 1.6e-13 := by
      rw [cos_arccos c0 c1]; exact hd.trans (by norm_num)
    have hk := angle_close (arccos_nonneg c) (arccos_le_pi c) s0 s1 hcos
    have hp := pi_lt_d2
    have hp0 := pi_pos
    have hk2 : |arccos c - sep a q| ≤ 1e-6 := by
      apply abs_le_of_sq_le_sq _ (by norm_num)
      nlinarith
    have hu := h.small
    have hu0 := h.u0
    have : 4 * A.u * arccos c ≤ 1e-14 := by
      have := mul_le_mul (show 4 * A.u ≤ 9.2e-16 by linarith) ((arccos_le_pi c).trans hp.le) (arccos_nonneg c) (by norm_num)
      linarith
    have := abs_sub_le (acos c) (arccos c) (sep a q)
    linarith [hc c c0 c1]
  obtain ⟨s0, s1⟩ := sep_mem a q
  obtain ⟨k1, k2⟩ := mask_near h h0 h1 hE (by norm_num) s0 s1 (show |(0 : ℝ)| ≤ 4 by norm_num)
  exact ⟨fun hh => k1 (by linarith), fun hh => (k2 hh).trans (by linarith)⟩

/-- **C206** as one would like it: in view exactly when the angle is less than half the view angle -/
def C206_statement : Prop :=
  ∀ (cf va : ℝ) (a b p q : V3), 0 < cf * va → cf * va ≤ 720 → IsDouble3 a → IsDouble3 b →
    normF binary64 a = some p → normF binary64 b = some q →
    (inViewF binary64 arccos cf va 0 p q ↔ sep a b < cf * va * π / 360)

/-- a vector next to the axis of a view of a millionth of a thousandth of a degree is far outside it and in view -/
theorem C206_refuted : ¬ C206_statement := by
  intro hs
  have e28 : rnd (2 ^ (-28 : ℤ)) = 2 ^ (-28 : ℤ) := rnd_pow _
  have r1 : rnd 1 = 1 := by have := rnd_pow 0; simpa using this
  have e56 : rnd ((2 : ℝ) ^ (-28 : ℤ) * 2 ^ (-28 : ℤ)) = 2 ^ (-56 : ℤ) := by
    rw [← zpow_add₀ (by norm_num)]; exact rnd_pow _
  have e56' : rnd ((2 : ℝ) ^ (-56 : ℤ)) = 2 ^ (-56 : ℤ) := rnd_pow _
  have e1 : rnd ((2 : ℝ) ^ (-56 : ℤ) + 1) = 1 := by
    have := rnd_eq (x := (2 : ℝ) ^ (-56 : ℤ) + 1) 0 4503599627370496 (by norm_num) (by norm_num) (by norm_num)
    rw [this]; norm_num
  have n1 : nrm binary64 ⟨0, 0, 1⟩ = 1 := by
    simp [nrm, binary64, rnd_zero, r1]
  have n2 : nrm binary64 ⟨2 ^ (-28 : ℤ), 0, 1⟩ = 1 := by
    unfold nrm binary64
    simp only [mul_zero, rnd_zero, mul_one, r1, add_zero, e56, e56', e1, sqrt_one]
  have p1 : normF binary64 ⟨0, 0, 1⟩ = some ⟨0, 0, 1⟩ := by
    unfold normF
    rw [n1, if_neg one_ne_zero]
    simp [binary64, rnd_zero, r1]
  have p2 : normF binary64 ⟨2 ^ (-28 : ℤ), 0, 1⟩ = some ⟨2 ^ (-28 : ℤ), 0, 1⟩ := by
    unfold normF
    rw [n2, if_neg one_ne_zero]
    simp only [binary64, div_one, e28, rnd_zero, r1]
  have d1 : IsDouble 1 := ⟨1, 0, by norm_num, by norm_num⟩
  have hd : binary64.dot3 ⟨0, 0, 1⟩ ⟨2 ^ (-28 : ℤ), 0, 1⟩ = 1 := by
    simp only [binary64, zero_mul, rnd_zero, add_zero, mul_one, r1, zero_add]
  have ha : angleF binary64 arccos ⟨0, 0, 1⟩ ⟨2 ^ (-28 : ℤ), 0, 1⟩ = 0 := by
    unfold angleF
    rw [hd, max_eq_left (by norm_num), min_self, arccos_one]
  have hrim : 0 < rimF binary64 1 (2 ^ (-30 : ℤ)) := by
    obtain ⟨g1, a1, e1⟩ := mulR binary64_ok 1 (2 ^ (-30 : ℤ))
    obtain ⟨g2, a2, e2⟩ := piR binary64_ok
    obtain ⟨g3, a3, e3⟩ := mulR binary64_ok (binary64.mul 1 (2 ^ (-30 : ℤ))) binary64.pi
    obtain ⟨g4, a4, e4⟩ := divR binary64_ok (binary64.mul (binary64.mul 1 (2 ^ (-30 : ℤ))) binary64.pi)
      (show (360 : ℝ) ≠ 0 by norm_num)
    have q1 := near_pos a1 (by norm_num)
    have q2 := near_pos a2 (by norm_num)
    have q3 := near_pos a3 (by norm_num)
    have q4 := near_pos a4 (by norm_num)
    have := pi_pos
    unfold rimF
    rw [e4, e3, e1, e2]
    positivity
  have hin : inViewF binary64 arccos 1 (2 ^ (-30 : ℤ)) 0 ⟨0, 0, 1⟩ ⟨2 ^ (-28 : ℤ), 0, 1⟩ := by
    unfold inViewF
    rw [ha]
    simpa [binary64, rnd_zero] using hrim
  have hlt := (hs 1 (2 ^ (-30 : ℤ)) _ _ _ _ (by positivity) (by norm_num)
    ⟨isDouble_zero, isDouble_zero, d1⟩ ⟨⟨1, -28, by norm_num, by norm_num⟩, isDouble_zero, d1⟩ p1 p2).mp hin
  have hp := pi_lt_d2
  have hr0 : 0 ≤ 1 * (2 : ℝ) ^ (-30 : ℤ) * π / 360 := by have := pi_pos; positivity
  have hr1 : 1 * (2 : ℝ) ^ (-30 : ℤ) * π / 360 ≤ 1e-11 := by norm_num; linarith
  have hpp := pi_gt_three
  have hc := cos_lt_cos_of_nonneg_of_le_pi (sep_mem _ _).1 (by linarith) hlt
  unfold sep at hc
  have s1 : (1 + 1e-18 : ℝ) ≤ √(((2 : ℝ) ^ (-28 : ℤ)) ^ 2 + 0 ^ 2 + 1 ^ 2) := by
    apply le_sqrt_of_sq_le; norm_num
  have hq : 1 - (1e-11 : ℝ) ^ 2 / 2 ≤ Real.cos (1 * (2 : ℝ) ^ (-30 : ℤ) * π / 360) := by
    have := one_sub_sq_div_two_le_cos (x := 1 * (2 : ℝ) ^ (-30 : ℤ) * π / 360)
    nlinarith
  simp only at hc
  generalize √(((2 : ℝ) ^ (-28 : ℤ)) ^ 2 + 0 ^ 2 + 1 ^ 2) = T at s1 hc
  rw [show ((0 : ℝ) ^ 2 + 0 ^ 2 + 1 ^ 2) = 1 by norm_num, sqrt_one, one_mul T,
    show (0 : ℝ) * 2 ^ (-28 : ℤ) + 0 * 0 + 1 * 1 = 1 by norm_num] at hc
  have hT : 0 < T := by linarith
  have hv : 1 / T ≤ 1 - 0.9e-18 := by rw [div_le_iff₀ hT]; nlinarith
  have hv0 : 0 ≤ 1 / T := by positivity
  rw [cos_arccos (by linarith) (by linarith)] at hc
  have : (1 : ℝ) - 0.9e-18 < 1 - (1e-11 : ℝ) ^ 2 / 2 := by norm_num
  linarith

/-- the hypotheses are met by the mapper along y with an angle of 180 degrees -/
example : (⟨0, 2, 0⟩ : V3) ≠ ⟨0, 0, 0⟩ ∧ AcosOk binary64 arccos ∧ (0 : ℝ) ≤ 1 * 180 ∧ (1 : ℝ) * 180 ≤ 720 ∧
    (∃ p, normF binary64 ⟨0, 2, 0⟩ = some p) ∧ sep ⟨0, 2, 0⟩ ⟨1, 0, 0⟩ = π / 2 ∧
    1e-3 ≤ sin (sep ⟨0, 2, 0⟩ ⟨1, 0, 0⟩) := by
  have e : sep ⟨0, 2, 0⟩ ⟨1, 0, 0⟩ = π / 2 := by unfold sep; norm_num
  refine ⟨by simp, fun c _ _ => ?_, by norm_num, by norm_num, ?_, e, by rw [e, sin_pi_div_two]; norm_num⟩
  · rw [sub_self, abs_zero]
    have := arccos_nonneg c
    have := binary64_ok.u0
    positivity
  · obtain ⟨p, hp, _⟩ := C167_norm (v := ⟨0, 2, 0⟩) ⟨isDouble_zero, ⟨2, 0, by norm_num, by norm_num⟩, isDouble_zero⟩ (by simp)
    exact ⟨p, hp⟩

end Verif.Fp
