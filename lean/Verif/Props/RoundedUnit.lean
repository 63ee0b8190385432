import Verif.Props.Rounded
import Verif.Lemmas.Binary64

/-! C166: the rays of an angular mapper have unit length up to rounding. -/

namespace Verif.Fp
open Verif.Geo Verif.Map Real

/-- squared Euclidean length, stated here on its own -/
def len2 (v : V3) : ℝ := v.x ^ 2 + v.y ^ 2 + v.z ^ 2

/-- `s * x * f` squared when `f` is the computed `√(1 - z * z) / d` -/
theorem factor_near {g2 g3 g4 gh g5 : ℝ} (a2 : |g2 - 1| ≤ 2.3e-16) (a3 : |g3 - 1| ≤ 2.3e-16)
    (a4 : |g4 - 1| ≤ 2.3e-16) (ah : |gh - 1| ≤ 7e-16) (a5 : |g5 - 1| ≤ 2.3e-16) :
    |g2 * ((g3 * g4 * (1 / gh) * g5) * (g3 * g4 * (1 / gh) * g5)) - 1| ≤ 4e-15 := by
  have k := near_mul (near_mul (near_mul a3 a4 (by norm_num)) (near_inv ah (by norm_num)) (by norm_num)) a5 (by norm_num)
  have k2 := near_mul k k (by norm_num)
  exact (near_mul a2 k2 (by norm_num)).trans (by norm_num)

/-- **C166** the direction of any point of the image plane, in the frame of the view -/
theorem C166_view {A : Arith} (h : A.Ok) (x y : ℝ) : |len2 (polar2view A (x, y)) - 1| ≤ 5e-15 := by
  obtain ⟨gh, ah, eh⟩ := hypR h x y
  set D := √(x ^ 2 + y ^ 2) with hDd
  have hD0 : 0 ≤ D := sqrt_nonneg _
  have pg := near_pos ah (by norm_num)
  rcases eq_or_lt_of_le hD0 with h0 | h0
  · have hs : x ^ 2 + y ^ 2 = 0 := by
      have := sq_sqrt (show 0 ≤ x ^ 2 + y ^ 2 by positivity)
      rw [← hDd, ← h0] at this; linarith
    have hx : x = 0 := by nlinarith [sq_nonneg x, sq_nonneg y]
    have hy : y = 0 := by nlinarith [sq_nonneg x, sq_nonneg y]
    have hd : hyp A x y = 0 := by rw [eh, ← h0, zero_mul]
    subst hx hy
    obtain ⟨g1, _, e1⟩ := mulR h 0 (polFactor A (hyp A 0 0))
    obtain ⟨g2, _, e2⟩ := mulR h A.pi (hyp A 0 0)
    have n := cosA h 0
    rw [cos_zero] at n
    have c := h.cos_le 0
    have ez : A.mul A.pi (hyp A 0 0) = 0 := by rw [e2, hd]; ring
    have ex : A.mul 0 (polFactor A (hyp A 0 0)) = 0 := by rw [e1]; ring
    unfold len2 polar2view zOf
    simp only [ez, ex]
    have e : (0 : ℝ) ^ 2 + 0 ^ 2 + A.cos 0 ^ 2 - 1 = (A.cos 0 - 1) * (A.cos 0 + 1) := by ring
    rw [e]
    have c2 : |A.cos 0 + 1| ≤ 2 := by
      have := abs_add_le (A.cos 0) 1
      rw [abs_one] at this; linarith
    have := abs_mul_le n c2
    linarith
  · have hd : 0 < hyp A x y := by rw [eh]; positivity
    unfold len2 polar2view polFactor
    simp only [if_neg (not_le.mpr hd)]
    set z := zOf A (hyp A x y) with hzd
    have hz1 : |z| ≤ 1 := h.cos_le _
    obtain ⟨gz, az, ez⟩ := mulR h z z
    have pz := near_pos az (by norm_num)
    have hq1 : A.mul z z ≤ 1 := (le_abs_self _).trans (h.mul_le z z hz1 hz1)
    have hq0 : 0 ≤ A.mul z z := by rw [ez]; exact mul_nonneg (mul_self_nonneg z) pz.le
    obtain ⟨g2, a2, e2⟩ := subR h 1 (A.mul z z)
    have p2 := near_pos a2 (by norm_num)
    set S := A.sub 1 (A.mul z z) with hS
    have hS0 : 0 ≤ S := by rw [e2]; exact mul_nonneg (by linarith) p2.le
    obtain ⟨g3, a3, e3⟩ := sqrtR h hS0
    obtain ⟨g4, a4, e4⟩ := divR h (A.sqrt S) hd.ne'
    set f := A.div (A.sqrt S) (hyp A x y) with hf
    have key : ∀ t, ∃ H, |H - 1| ≤ 4e-15 ∧ A.mul t f ^ 2 = t ^ 2 / D ^ 2 * (1 - A.mul z z) * H := by
      intro t
      obtain ⟨g5, a5, e5⟩ := mulR h t f
      refine ⟨_, factor_near a2 a3 a4 ah a5, ?_⟩
      rw [e5, e4, e3, eh]
      have s2 := sq_sqrt hS0
      have : (t * (√S * g3 / (D * gh) * g4) * g5) ^ 2 =
          t ^ 2 / D ^ 2 * √S ^ 2 * ((g3 * g4 * (1 / gh) * g5) * (g3 * g4 * (1 / gh) * g5)) := by
        field_simp
      rw [this, s2, e2]
      ring
    obtain ⟨H1, b1, k1⟩ := key x
    obtain ⟨H2, b2, k2⟩ := key y
    rw [k1, k2]
    have hD2 : D ^ 2 = x ^ 2 + y ^ 2 := sq_sqrt (by positivity)
    have hD2p : 0 < D ^ 2 := by positivity
    set p := x ^ 2 / D ^ 2 with hp
    set q := y ^ 2 / D ^ 2 with hq
    have hp0 : 0 ≤ p := by positivity
    have hq0' : 0 ≤ q := by positivity
    have hpq : p + q = 1 := by rw [hp, hq, ← add_div, ← hD2]; exact div_self hD2p.ne'
    set w := A.mul z z with hw
    have e : p * (1 - w) * H1 + q * (1 - w) * H2 + z ^ 2 - 1 =
        p * (1 - w) * (H1 - 1) + q * (1 - w) * (H2 - 1) - z * z * (gz - 1) := by
      rw [ez]; linear_combination (1 - z * z * gz) * hpq
    rw [e]
    have zz : z * z ≤ 1 := by nlinarith [abs_le.mp hz1]
    have c0 : |1 - w| ≤ 1 := by rw [abs_of_nonneg (by linarith)]; linarith
    have c1 : |p * (1 - w) * (H1 - 1)| ≤ p * 1 * 4e-15 := abs_mul_le (abs_mul_le (abs_of_nonneg hp0).le c0) b1
    have c2 : |q * (1 - w) * (H2 - 1)| ≤ q * 1 * 4e-15 := abs_mul_le (abs_mul_le (abs_of_nonneg hq0').le c0) b2
    have c3 : |z * z * (gz - 1)| ≤ 1 * 2.3e-16 :=
      abs_mul_le (by rw [abs_of_nonneg (mul_self_nonneg z)]; exact zz) az
    have d1 := abs_sub (p * (1 - w) * (H1 - 1) + q * (1 - w) * (H2 - 1)) (z * z * (gz - 1))
    have d2 := abs_add_le (p * (1 - w) * (H1 - 1)) (q * (1 - w) * (H2 - 1))
    linarith

theorem bounded_of_len {v : V3} {B : ℝ} (hB : 0 ≤ B) (h : len2 v ≤ B ^ 2) : Bounded v B := by
  unfold len2 at h
  refine ⟨abs_le_of_sq_le_sq ?_ hB, abs_le_of_sq_le_sq ?_ hB, abs_le_of_sq_le_sq ?_ hB⟩ <;>
    linarith [sq_nonneg v.x, sq_nonneg v.y, sq_nonneg v.z]

/-- the transpose of a nearly orthonormal matrix nearly keeps lengths -/
theorem turn_len {η : ℝ} {M : M3} (hM : NearOrth η M) {v : V3} {B : ℝ} (hv : Bounded v B) :
    |len2 (M3.app M.transpose v) - len2 v| ≤ 9 * η * B ^ 2 := by
  have t : ∀ i k a b, |a| ≤ B → |b| ≤ B →
      |((∑ j, M i j * M k j) - if i = k then 1 else 0) * (a * b)| ≤ η * (B * B) :=
    fun i k a b ha hb => abs_mul_le (hM i k) (abs_mul_le ha hb)
  obtain ⟨hx, hy, hz⟩ := hv
  have t1 := abs_le.mp (t 0 0 _ _ hx hx)
  have t2 := abs_le.mp (t 1 1 _ _ hy hy)
  have t3 := abs_le.mp (t 2 2 _ _ hz hz)
  have t4 := abs_le.mp (t 0 1 _ _ hx hy)
  have t5 := abs_le.mp (t 0 2 _ _ hx hz)
  have t6 := abs_le.mp (t 1 2 _ _ hy hz)
  have e : len2 (M3.app M.transpose v) - len2 v =
      ((∑ j, M 0 j * M 0 j) - if (0 : Fin 3) = 0 then 1 else 0) * (v.x * v.x) +
      ((∑ j, M 1 j * M 1 j) - if (1 : Fin 3) = 1 then 1 else 0) * (v.y * v.y) +
      ((∑ j, M 2 j * M 2 j) - if (2 : Fin 3) = 2 then 1 else 0) * (v.z * v.z) +
      2 * (((∑ j, M 0 j * M 1 j) - if (0 : Fin 3) = 1 then 1 else 0) * (v.x * v.y)) +
      2 * (((∑ j, M 0 j * M 2 j) - if (0 : Fin 3) = 2 then 1 else 0) * (v.x * v.z)) +
      2 * (((∑ j, M 1 j * M 2 j) - if (1 : Fin 3) = 2 then 1 else 0) * (v.y * v.z)) := by
    simp only [len2, M3.app, Matrix.transpose_apply, Fin.sum_univ_three, if_true,
      if_neg (show ¬ (0 : Fin 3) = 1 by decide), if_neg (show ¬ (0 : Fin 3) = 2 by decide),
      if_neg (show ¬ (1 : Fin 3) = 2 by decide)]
    ring
  rw [e, abs_le]
  constructor <;> linarith

theorem near_len {a b : V3} {e B : ℝ} (h : Near a b e) (hb : Bounded b B) :
    |len2 a - len2 b| ≤ 3 * (e * (2 * B + e)) := by
  have k : ∀ s t : ℝ, |s - t| ≤ e → |t| ≤ B → |s ^ 2 - t ^ 2| ≤ e * (2 * B + e) := fun s t hs ht => by
    have : |s + t| ≤ 2 * B + e := by
      have := abs_add_le (s - t) (2 * t)
      rw [abs_mul, abs_two, show s - t + 2 * t = s + t by ring] at this; linarith
    have := abs_mul_le hs this
    rwa [show (s - t) * (s + t) = s ^ 2 - t ^ 2 by ring] at this
  have k1 := k _ _ h.1 hb.1
  have k2 := k _ _ h.2.1 hb.2.1
  have k3 := k _ _ h.2.2 hb.2.2
  have := abs_add_three (a.x ^ 2 - b.x ^ 2) (a.y ^ 2 - b.y ^ 2) (a.z ^ 2 - b.z ^ 2)
  rw [show len2 a - len2 b = a.x ^ 2 - b.x ^ 2 + (a.y ^ 2 - b.y ^ 2) + (a.z ^ 2 - b.z ^ 2) by unfold len2; ring]
  linarith

/-- one rotation in rounded arithmetic -/
theorem rot_len {A : Arith} (h : A.Ok) {η : ℝ} {M : M3} (hM : NearOrth η M) (hη : η ≤ 1e-3) {v : V3}
    (hv : len2 v ≤ 1.02) : |len2 (app A M.transpose v) - len2 v| ≤ 10 * η + 2.1e-14 := by
  have hη0 : 0 ≤ η := (abs_nonneg _).trans (hM 0 0)
  have hB : Bounded v 1.01 := bounded_of_len (by norm_num) (hv.trans (by norm_num))
  have hT : ∀ i j, |M.transpose i j| ≤ 1.01 := fun i j => hM.entry (by linarith) j i
  have n1 := app_near h hT hB
  have n2 := turn_len hM hB
  have n3 : Bounded (M3.app M.transpose v) 1.02 := by
    apply bounded_of_len (by norm_num)
    have := (abs_le.mp n2).2
    norm_num at this ⊢
    linarith
  have n4 := near_len n1 n3
  have n5 := abs_sub_le (len2 (app A M.transpose v)) (len2 (M3.app M.transpose v)) (len2 v)
  norm_num at n2 n4 ⊢
  linarith

/-- **C166** every coordinate of the image gives a unit vector in the world, up to the orthonormality of the stored
matrices and rounding -/
theorem C166_ray {A : Arith} (h : A.Ok) (m : FView) {η : ℝ} (hη : η ≤ 1e-4) (hy : NearOrth η m.ry)
    (hp : NearOrth η m.rp) (res : ℕ) (pxy : ℝ × ℝ) : |len2 (m.pixel2ray A res pxy) - 1| ≤ 20 * η + 5e-14 := by
  have hη0 : 0 ≤ η := (abs_nonneg _).trans (hy 0 0)
  unfold FView.pixel2ray FView.v2w
  set v := polar2view A (m.centred A (A.div pxy.1 res, A.div pxy.2 res)) with hv
  have k0 : |len2 v - 1| ≤ 5e-15 := C166_view h _ _
  have l0 := (abs_le.mp k0).2
  have k1 := rot_len h hp (v := v) (by linarith) (by linarith)
  have l1 := (abs_le.mp k1).2
  have k2 := rot_len h hy (v := app A m.rp.transpose v) (by linarith) (by linarith)
  have t1 := abs_sub_le (len2 (app A m.ry.transpose (app A m.rp.transpose v))) (len2 (app A m.rp.transpose v)) (len2 v)
  have t2 := abs_sub_le (len2 (app A m.ry.transpose (app A m.rp.transpose v))) (len2 v) 1
  linarith

/-- **C166** for the matrices that the constructor stores, whatever the view direction, the view angle, the resolution
and the pixel, in or out of the image: the length differs from one by less than `1.5e-13` -/
theorem C166_unit {A : Arith} (h : A.Ok) (va cf : ℝ) (e ne : Bool) (y p : ℝ) (res : ℕ) (pxy : ℝ × ℝ) :
    |√(len2 ((FView.mk va cf (rmtxYp A e ne y p).1 (rmtxYp A e ne y p).2).pixel2ray A res pxy)) - 1| ≤ 1.5e-13 := by
  obtain ⟨hy, hp⟩ := rotations_near h e ne y p
  have k := C166_ray h (FView.mk va cf (rmtxYp A e ne y p).1 (rmtxYp A e ne y p).2) (by norm_num) hy hp res pxy
  set L := len2 ((FView.mk va cf (rmtxYp A e ne y p).1 (rmtxYp A e ne y p).2).pixel2ray A res pxy) with hL
  obtain ⟨k1, k2⟩ := abs_le.mp k
  have hL0 : 0 ≤ L := by unfold L len2; positivity
  have s := sq_sqrt hL0
  have s0 := sqrt_nonneg L
  rw [abs_le]
  constructor
  · by_contra hn
    have : √L < 1 - 1.5e-13 := by linarith
    have := pow_lt_pow_left₀ this s0 two_ne_zero
    rw [s] at this; norm_num at this k1; linarith
  · by_contra hn
    have : 1 + 1.5e-13 < √L := by linarith
    have := pow_lt_pow_left₀ this (by norm_num) two_ne_zero
    rw [s] at this; norm_num at this k2; linarith

/-- the arithmetic of doubles meets the contract: the ray of pixel (17, 300) of a 180 degree image of 512 pixels -/
example : |√(len2 ((FView.mk 180 1 (rmtxYp binary64 false false 1 (1 / 2)).1
    (rmtxYp binary64 false false 1 (1 / 2)).2).pixel2ray binary64 512 (17, 300))) - 1| ≤ 1.5e-13 :=
  C166_unit binary64_ok _ _ _ _ _ _ _ _

end Verif.Fp
