import Verif.Model.RoundedCull
import Verif.Props.Cull
import Verif.Lemmas.Binary64Order

/-! Property C219: cull_vectors in double precision. -/

namespace Verif.Fp
open Verif.Geo Verif.Cull Classical

/-- an index of a vector; distances of indices are given by a relation -/
structure Ix where
  i : ℕ

instance : Inhabited Ix := ⟨⟨0⟩⟩

/-- the distance 1 between related indices, 2 between others -/
noncomputable def relSpace (R : ℕ → ℕ → Prop) (hs : ∀ i j, R i j → R j i) : PseudoMetricSpace Ix where
  dist a b := if a.i = b.i then 0 else if R a.i b.i then 1 else 2
  dist_self a := by simp
  dist_comm a b := by
    have : R a.i b.i ↔ R b.i a.i := ⟨hs _ _, hs _ _⟩
    simp only [this, eq_comm (a := a.i)]
  dist_triangle a b c := by
    by_cases h1 : a.i = b.i
    · simp [h1]
    · by_cases h2 : b.i = c.i
      · simp [h2]
      · simp only [h1, h2, if_false]
        split_ifs <;> norm_num

/-- the loop on neighbour lists of any symmetric relation that relates every index to itself -/
theorem cull_rel (n : ℕ) (R : ℕ → ℕ → Prop) (hr : ∀ i, R i i) (hs : ∀ i j, R i j → R j i) (m : List Bool)
    (hm : m = cullPairs n ((List.range n).map fun j => (List.range n).filter fun i => decide (R j i))) :
    m.length = n ∧ ∀ k < n, (m.getD k false = true ↔ ∀ i < k, m.getD i false = true → ¬ R i k) := by
  by_cases hn : n = 0
  · subst hn
    subst hm
    exact ⟨rfl, fun k hk => absurd hk (Nat.not_lt_zero k)⟩
  letI := relSpace R hs
  have hg : ∀ i < n, ((List.range n).map Ix.mk).getD i default = ⟨i⟩ := by
    intro i hi
    simp [List.getD_eq_getElem?_getD, hi]
  have hd : ∀ i < n, ∀ j < n, dist (((List.range n).map Ix.mk).getD i default) (((List.range n).map Ix.mk).getD j default) ≤ 1 ↔ R i j := by
    intro i hi j hj
    rw [hg i hi, hg j hj]
    change (if i = j then (0 : ℝ) else if R i j then 1 else 2) ≤ 1 ↔ R i j
    by_cases h1 : i = j
    · subst h1
      simp [hr]
    · by_cases h2 : R i j
      · simp [h1, h2]
      · simp only [h1, h2, if_false, iff_false]
        norm_num
  have e : m = cullVectors ((List.range n).map Ix.mk) 1 := by
    rw [hm]
    unfold cullVectors balls ball
    simp only [List.length_map, List.length_range]
    congr 1
    refine List.map_congr_left fun j hj => List.filter_congr fun i hi => ?_
    rw [decide_eq_decide]
    exact (hd j (List.mem_range.mp hj) i (List.mem_range.mp hi)).symm
  obtain ⟨hl, hor, -, hfar, hnear, -⟩ := C38_cull ((List.range n).map Ix.mk) 1 (by simpa using hn)
  simp only [List.length_map, List.length_range] at hl hor hfar hnear
  have key : ∀ k < n, (m.getD k false = true ↔ Kept ((List.range n).map Ix.mk) 1 k) := by
    intro k hk
    rw [e]
    unfold Kept
    rw [List.getD_eq_getElem?_getD, List.getElem?_eq_getElem (by omega)]
    simp
  refine ⟨by rw [e, hl], fun k hk => ?_⟩
  rw [key k hk]
  constructor
  · intro h i hi hki hR
    exact absurd ((hd i (by omega) k hk).mpr hR) (not_le.mpr (hfar i (by omega) k hk (by omega) ((key i (by omega)).mp hki) h))
  · intro h
    rcases hor k hk with h' | h'
    · exact h'
    · obtain ⟨i, hi, hki, hd'⟩ := hnear k hk h'
      exact absurd ((hd i (by omega) k hk).mp hd') (h i hi ((key i (by omega)).mpr hki))

theorem rne_neg (x : ℝ) : rne (-x) = -rne x := by
  by_cases hx : (⌊x⌋ : ℝ) = x
  · rw [← hx]
    have := rne_int ⌊x⌋
    have h2 := rne_int (-⌊x⌋)
    push_cast at h2
    rw [this, h2]
  · have h1 := Int.floor_le x
    have h2 := Int.lt_floor_add_one x
    have h1' := lt_of_le_of_ne h1 hx
    have f : ⌊-x⌋ = -⌊x⌋ - 1 := by
      rw [Int.floor_eq_iff]
      push_cast
      constructor <;> linarith
    have ev : Even (-⌊x⌋ - 1) ↔ ¬ Even ⌊x⌋ := by
      rw [Int.even_sub_one, even_neg]
    unfold rne
    rw [f]
    push_cast
    split_ifs <;> first | omega | (exfalso; linarith) | (exfalso; tauto)

theorem rnd_neg (x : ℝ) : rnd (-x) = -rnd x := by
  have : ulp (-x) = ulp x := by unfold ulp; rw [abs_neg]
  unfold rnd
  rw [this, neg_div, rne_neg]
  push_cast
  ring

theorem dist2F_comm (u v : V3) : dist2F binary64 u v = dist2F binary64 v u := by
  have h : ∀ a b : ℝ, binary64.sub a b = -binary64.sub b a := fun a b => by
    change rnd (a - b) = -rnd (b - a)
    rw [← rnd_neg, neg_sub]
  have m : ∀ a b : ℝ, binary64.mul (binary64.sub a b) (binary64.sub a b) = binary64.mul (binary64.sub b a) (binary64.sub b a) := fun a b => by
    rw [h a b]
    change rnd _ = rnd _
    rw [neg_mul_neg]
  unfold dist2F
  rw [m u.x, m u.y, m u.z]

theorem dist2F_self (u : V3) : dist2F binary64 u u = 0 := by
  simp [dist2F, binary64, rnd_zero]

/-- specification: the squared distance -/
def sqDist (u v : V3) : ℝ := (u.x - v.x) ^ 2 + (u.y - v.y) ^ 2 + (u.z - v.z) ^ 2

theorem rnd_rel {x : ℝ} (h : 0 ≤ x) : (1 - 2⁻¹ ^ 53) * x ≤ rnd x ∧ rnd x ≤ (1 + 2⁻¹ ^ 53) * x := by
  have := abs_le.mp (rnd_near x)
  rw [abs_of_nonneg h] at this
  constructor <;> linarith [this.1, this.2]

theorem rnd_sq_rel (x : ℝ) : (1 - 2⁻¹ ^ 53) ^ 3 * x ^ 2 ≤ rnd (rnd x * rnd x) ∧ rnd (rnd x * rnd x) ≤ (1 + 2⁻¹ ^ 53) ^ 3 * x ^ 2 := by
  have e : rnd x * rnd x = rnd |x| * rnd |x| := by
    rcases abs_choice x with h | h
    · rw [h]
    · rw [h, rnd_neg, neg_mul_neg]
  obtain ⟨a, b⟩ := rnd_rel (abs_nonneg x)
  rw [e, ← sq_abs x]
  have h0 := abs_nonneg x
  generalize |x| = y at *
  have r0 := rnd_nonneg h0
  obtain ⟨c, d⟩ := rnd_rel (mul_nonneg r0 r0)
  have l0 : (0 : ℝ) ≤ (1 - 2⁻¹ ^ 53) * y := mul_nonneg (by norm_num) h0
  have s1 := mul_le_mul a a l0 r0
  have s2 := mul_le_mul b b r0 (l0.trans (a.trans b))
  constructor
  · refine le_trans (le_of_eq ?_) ((mul_le_mul_of_nonneg_left s1 (show (0 : ℝ) ≤ 1 - 2⁻¹ ^ 53 by norm_num)).trans c)
    ring
  · refine (d.trans (mul_le_mul_of_nonneg_left s2 (show (0 : ℝ) ≤ 1 + 2⁻¹ ^ 53 by norm_num))).trans (le_of_eq ?_)
    ring

theorem dist2F_rel (u v : V3) : (1 - 2⁻¹ ^ 53) ^ 5 * sqDist u v ≤ dist2F binary64 u v ∧
    dist2F binary64 u v ≤ (1 + 2⁻¹ ^ 53) ^ 5 * sqDist u v := by
  obtain ⟨x1, x2⟩ := rnd_sq_rel (u.x - v.x)
  obtain ⟨y1, y2⟩ := rnd_sq_rel (u.y - v.y)
  obtain ⟨z1, z2⟩ := rnd_sq_rel (u.z - v.z)
  change _ ≤ rnd (rnd (rnd (rnd (u.x - v.x) * rnd (u.x - v.x)) + rnd (rnd (u.y - v.y) * rnd (u.y - v.y))) +
    rnd (rnd (u.z - v.z) * rnd (u.z - v.z))) ∧ rnd (rnd (rnd (rnd (u.x - v.x) * rnd (u.x - v.x)) + rnd (rnd (u.y - v.y) * rnd (u.y - v.y))) +
    rnd (rnd (u.z - v.z) * rnd (u.z - v.z))) ≤ _
  unfold sqDist
  have hx := sq_nonneg (u.x - v.x)
  have hy := sq_nonneg (u.y - v.y)
  have hz := sq_nonneg (u.z - v.z)
  have X0 := rnd_nonneg (mul_self_nonneg (rnd (u.x - v.x)))
  have Y0 := rnd_nonneg (mul_self_nonneg (rnd (u.y - v.y)))
  have Z0 := rnd_nonneg (mul_self_nonneg (rnd (u.z - v.z)))
  generalize rnd (rnd (u.x - v.x) * rnd (u.x - v.x)) = X at *
  generalize rnd (rnd (u.y - v.y) * rnd (u.y - v.y)) = Y at *
  generalize rnd (rnd (u.z - v.z) * rnd (u.z - v.z)) = Z at *
  generalize (u.x - v.x) ^ 2 = x at *
  generalize (u.y - v.y) ^ 2 = y at *
  generalize (u.z - v.z) ^ 2 = z at *
  obtain ⟨p, q⟩ := rnd_rel (add_nonneg X0 Y0)
  have P0 := rnd_nonneg (add_nonneg X0 Y0)
  generalize rnd (X + Y) = P at *
  obtain ⟨r, s⟩ := rnd_rel (add_nonneg P0 Z0)
  generalize rnd (P + Z) = D at *
  have a0 : (0 : ℝ) ≤ 1 - 2⁻¹ ^ 53 := by norm_num
  have a1 : (1 : ℝ) - 2⁻¹ ^ 53 ≤ 1 := by norm_num
  have b1 : (1 : ℝ) ≤ 1 + 2⁻¹ ^ 53 := by norm_num
  generalize (1 : ℝ) - 2⁻¹ ^ 53 = a at *
  generalize (1 : ℝ) + 2⁻¹ ^ 53 = b at *
  constructor
  · have h1 : a * (a ^ 3 * x + a ^ 3 * y) ≤ P := (mul_le_mul_of_nonneg_left (add_le_add x1 y1) a0).trans p
    have h2 : a * (a ^ 3 * z) ≤ Z := le_trans (by
      have : 0 ≤ a ^ 3 * z := mul_nonneg (pow_nonneg a0 3) hz
      nlinarith) z1
    refine le_trans (le_of_eq ?_) ((mul_le_mul_of_nonneg_left (add_le_add h1 h2) a0).trans r)
    ring
  · have b0 : 0 ≤ b := zero_le_one.trans b1
    have h1 : P ≤ b * (b ^ 3 * x + b ^ 3 * y) := q.trans (mul_le_mul_of_nonneg_left (add_le_add x2 y2) b0)
    have h2 : Z ≤ b * (b ^ 3 * z) := z2.trans (by
      have : 0 ≤ b ^ 3 * z := mul_nonneg (pow_nonneg b0 3) hz
      nlinarith)
    refine (s.trans (mul_le_mul_of_nonneg_left (add_le_add h1 h2) b0)).trans (le_of_eq ?_)
    ring

/-- **C219** in double precision culling goes through the vectors in order and keeps those that are not found within the
tolerance of one kept before -/
theorem C219_first_come (vecs : List V3) (tol : ℝ) :
    (cullF binary64 vecs tol).length = vecs.length ∧
    ∀ k < vecs.length, ((cullF binary64 vecs tol).getD k false = true ↔
      ∀ i < k, (cullF binary64 vecs tol).getD i false = true → ¬ NearF binary64 tol (vecs.getD i ⟨0, 0, 0⟩) (vecs.getD k ⟨0, 0, 0⟩)) := by
  refine cull_rel vecs.length (fun i j => NearF binary64 tol (vecs.getD i ⟨0, 0, 0⟩) (vecs.getD j ⟨0, 0, 0⟩)) (fun i => ?_)
    (fun i j h => ?_) _ rfl
  · unfold NearF
    rw [dist2F_self]
    exact rnd_nonneg (mul_self_nonneg tol)
  · unfold NearF at *
    rwa [dist2F_comm]

/-- **C219** kept vectors are farther apart than the tolerance, up to rounding -/
theorem C219_spaced (vecs : List V3) {tol : ℝ} (h0 : 0 < tol) {i k : ℕ} (hi : i < k) (hk : k < vecs.length)
    (hki : (cullF binary64 vecs tol).getD i false = true) (hkk : (cullF binary64 vecs tol).getD k false = true) :
    tol * (1 - 2⁻¹ ^ 50) < √(sqDist (vecs.getD i ⟨0, 0, 0⟩) (vecs.getD k ⟨0, 0, 0⟩)) := by
  have h := ((C219_first_come vecs tol).2 k hk).mp hkk i hi hki
  unfold NearF at h
  rw [not_le] at h
  have d := (dist2F_rel (vecs.getD i ⟨0, 0, 0⟩) (vecs.getD k ⟨0, 0, 0⟩)).2
  have t := (rnd_rel (mul_self_nonneg tol)).1
  change rnd (tol * tol) < _ at h
  generalize sqDist _ _ = s at *
  have t0 : 0 < tol * tol := mul_pos h0 h0
  rw [Real.lt_sqrt (mul_nonneg h0.le (by norm_num))]
  have c : ((1 : ℝ) - 2⁻¹ ^ 50) ^ 2 * (1 + 2⁻¹ ^ 53) ^ 5 ≤ 1 - 2⁻¹ ^ 53 := by norm_num
  have b0 : (0 : ℝ) < (1 + 2⁻¹ ^ 53) ^ 5 := by norm_num
  generalize ((1 : ℝ) + 2⁻¹ ^ 53) ^ 5 = b at *
  have c' := mul_le_mul_of_nonneg_right c t0.le
  have : b * (tol * (1 - 2⁻¹ ^ 50)) ^ 2 < b * s := by
    calc b * (tol * (1 - 2⁻¹ ^ 50)) ^ 2 = (1 - 2⁻¹ ^ 50) ^ 2 * b * (tol * tol) := by ring
      _ ≤ (1 - 2⁻¹ ^ 53) * (tol * tol) := c'
      _ ≤ rnd (tol * tol) := t
      _ < _ := h
      _ ≤ _ := d
  exact lt_of_mul_lt_mul_left this b0.le

/-- **C219** removed vectors are within the tolerance of an earlier kept one, up to rounding -/
theorem C219_covered (vecs : List V3) {tol : ℝ} (h0 : 0 ≤ tol) {k : ℕ} (hk : k < vecs.length)
    (hkk : (cullF binary64 vecs tol).getD k false = false) :
    ∃ i < k, (cullF binary64 vecs tol).getD i false = true ∧
      √(sqDist (vecs.getD i ⟨0, 0, 0⟩) (vecs.getD k ⟨0, 0, 0⟩)) ≤ tol * (1 + 2⁻¹ ^ 50) := by
  have h := (C219_first_come vecs tol).2 k hk
  rw [hkk] at h
  simp only [Bool.false_eq_true, false_iff, not_forall, not_not] at h
  obtain ⟨i, hi, hki, hn⟩ := h
  refine ⟨i, hi, hki, ?_⟩
  have d := (dist2F_rel (vecs.getD i ⟨0, 0, 0⟩) (vecs.getD k ⟨0, 0, 0⟩)).1
  have t := (rnd_rel (mul_self_nonneg tol)).2
  change _ ≤ rnd (tol * tol) at hn
  generalize sqDist _ _ = s at *
  rw [Real.sqrt_le_left (mul_nonneg h0 (by norm_num))]
  have t0 : 0 ≤ tol * tol := mul_nonneg h0 h0
  have c : (1 : ℝ) + 2⁻¹ ^ 53 ≤ (1 + 2⁻¹ ^ 50) ^ 2 * (1 - 2⁻¹ ^ 53) ^ 5 := by norm_num
  have b0 : (0 : ℝ) < (1 - 2⁻¹ ^ 53) ^ 5 := by norm_num
  generalize ((1 : ℝ) - 2⁻¹ ^ 53) ^ 5 = b at *
  have c' := mul_le_mul_of_nonneg_right c t0
  refine le_of_mul_le_mul_left ?_ b0
  calc b * s ≤ _ := d
    _ ≤ _ := hn
    _ ≤ _ := t
    _ ≤ _ := c'
    _ = b * (tol * (1 + 2⁻¹ ^ 50)) ^ 2 := by ring

/-- of two equal vectors the second is removed, so both cases are met -/
example : (cullF binary64 [⟨1, 0, 0⟩, ⟨1, 0, 0⟩] 1).getD 0 false = true ∧ (cullF binary64 [⟨1, 0, 0⟩, ⟨1, 0, 0⟩] 1).getD 1 false = false := by
  have h := (C219_first_come [⟨1, 0, 0⟩, ⟨1, 0, 0⟩] 1).2
  have a : (cullF binary64 [⟨1, 0, 0⟩, ⟨1, 0, 0⟩] 1).getD 0 false = true := (h 0 (by simp)).mpr fun i hi => absurd hi (Nat.not_lt_zero i)
  refine ⟨a, ?_⟩
  have b := h 1 (by simp)
  rw [← Bool.not_eq_true, b]
  intro hn
  refine hn 0 (by norm_num) a ?_
  unfold NearF
  change dist2F binary64 ⟨1, 0, 0⟩ ⟨1, 0, 0⟩ ≤ _
  rw [dist2F_self]
  exact rnd_nonneg (mul_self_nonneg 1)

end Verif.Fp
