import Verif.Props.EqualArea
import Verif.Props.Bins
import Mathlib.MeasureTheory.Group.MeasurableEquiv

/-! C199, continued: the whole square, the 2 by 1 rectangle, and the solid angle of a grid cell. -/

namespace Verif.Geo
open Real MeasureTheory Set Verif.Map ENNReal

/-- integral of `G` over the directions less than `T` from the z axis, in spherical coordinates -/
noncomputable def dirInt (T : ℝ) (G : V3 → ℝ≥0∞) : ℝ≥0∞ :=
  ∫⁻ p in (Ioo 0 T ×ˢ Ioo (-π) π : Set (ℝ × ℝ)), ENNReal.ofReal (sin p.1) * G (sphDir p.1 p.2)

open Classical in
/-- solid angle (steradian) of the directions of `S` less than `T` from the z axis -/
noncomputable def solidAngle (T : ℝ) (S : Set V3) : ℝ≥0∞ := dirInt T fun d => if d ∈ S then 1 else 0

theorem lint_map {e1 e2 : ℝ ≃ᵐ ℝ} (h1 : MeasurePreserving e1) (h2 : MeasurePreserving e2) (S T : Set ℝ)
    (H : ℝ × ℝ → ℝ≥0∞) :
    ∫⁻ p in ((e1 ⁻¹' S) ×ˢ (e2 ⁻¹' T) : Set (ℝ × ℝ)), H (e1 p.1, e2 p.2) = ∫⁻ p in (S ×ˢ T : Set (ℝ × ℝ)), H p :=
  (h1.prod h2).setLIntegral_comp_preimage_emb (e1.prodCongr e2).measurableEmbedding H (S ×ˢ T)

theorem band_shift (S : Set ℝ) (a b : ℝ) (H : ℝ × ℝ → ℝ≥0∞) (hH : ∀ p, H (p.1, p.2 + 2 * π) = H p) :
    ∫⁻ p in (S ×ˢ Ioo (a + 2 * π) (b + 2 * π) : Set (ℝ × ℝ)), H p = ∫⁻ p in (S ×ˢ Ioo a b : Set (ℝ × ℝ)), H p := by
  have h := lint_map (e1 := MeasurableEquiv.refl ℝ) (e2 := MeasurableEquiv.addRight (2 * π)) (MeasurePreserving.id _)
    (measurePreserving_add_right volume (2 * π)) S (Ioo (a + 2 * π) (b + 2 * π)) H
  rw [← h]
  have e : (MeasurableEquiv.addRight (2 * π) : ℝ → ℝ) ⁻¹' (Ioo (a + 2 * π) (b + 2 * π)) = Ioo a b := by
    ext x; simp
  rw [e]
  exact lintegral_congr fun p => hH p

theorem band_mirror (S : Set ℝ) (H : ℝ × ℝ → ℝ≥0∞) (a b : ℝ) :
    ∫⁻ p in (S ×ˢ Ioo (π - b) (π - a) : Set (ℝ × ℝ)), H (p.1, π - p.2) = ∫⁻ p in (S ×ˢ Ioo a b : Set (ℝ × ℝ)), H p := by
  have h := lint_map (e1 := MeasurableEquiv.refl ℝ) (e2 := MeasurableEquiv.subLeft π) (MeasurePreserving.id _)
    (Measure.measurePreserving_sub_left volume π) S (Ioo a b) H
  rw [← h]
  have e : (MeasurableEquiv.subLeft π : ℝ → ℝ) ⁻¹' (Ioo a b) = Ioo (π - b) (π - a) := by
    ext x
    show a < π - x ∧ π - x < b ↔ π - b < x ∧ x < π - a
    constructor <;> rintro ⟨x, y⟩ <;> constructor <;> linarith
  rw [e]
  rfl

theorem band_flip (T : Set ℝ) (H : ℝ × ℝ → ℝ≥0∞) (a b : ℝ) :
    ∫⁻ p in (Ioo (π - b) (π - a) ×ˢ T : Set (ℝ × ℝ)), H (π - p.1, p.2) = ∫⁻ p in (Ioo a b ×ˢ T : Set (ℝ × ℝ)), H p := by
  have h := lint_map (e2 := MeasurableEquiv.refl ℝ) (e1 := MeasurableEquiv.subLeft π)
    (Measure.measurePreserving_sub_left volume π) (MeasurePreserving.id _) (Ioo a b) T H
  rw [← h]
  have e : (MeasurableEquiv.subLeft π : ℝ → ℝ) ⁻¹' (Ioo a b) = Ioo (π - b) (π - a) := by
    ext x
    show a < π - x ∧ π - x < b ↔ π - b < x ∧ x < π - a
    constructor <;> rintro ⟨x, y⟩ <;> constructor <;> linarith
  rw [e]
  rfl

theorem Ioo_split {a b c : ℝ} (h1 : a < b) (h2 : b < c) :
    (Ioo a c : Set ℝ) =ᵐ[volume] (Ioo a b ∪ Ioo b c : Set ℝ) := by
  have h : Ioo a c = (Ioo a b ∪ Ioo b c) ∪ {b} := by
    ext x
    simp only [mem_Ioo, mem_union, mem_singleton_iff]
    constructor
    · rintro ⟨x1, x2⟩
      rcases lt_trichotomy x b with h | h | h
      · exact Or.inl (Or.inl ⟨x1, h⟩)
      · exact Or.inr h
      · exact Or.inl (Or.inr ⟨h, x2⟩)
    · rintro ((⟨x1, x2⟩ | ⟨x1, x2⟩) | rfl)
      · exact ⟨x1, x2.trans h2⟩
      · exact ⟨h1.trans x1, x2⟩
      · exact ⟨h1, h2⟩
  rw [h]
  exact union_ae_eq_left_of_ae_eq_empty (ae_eq_empty.mpr (by simp))

theorem band_split (S : Set ℝ) {a b c : ℝ} (h1 : a < b) (h2 : b < c) (hS : MeasurableSet S) (H : ℝ × ℝ → ℝ≥0∞) :
    ∫⁻ p in (S ×ˢ Ioo a c : Set (ℝ × ℝ)), H p =
      (∫⁻ p in (S ×ˢ Ioo a b : Set (ℝ × ℝ)), H p) + ∫⁻ p in (S ×ˢ Ioo b c : Set (ℝ × ℝ)), H p := by
  have e : (S ×ˢ Ioo a c : Set (ℝ × ℝ)) =ᵐ[volume] (S ×ˢ Ioo a b ∪ S ×ˢ Ioo b c : Set (ℝ × ℝ)) := by
    rw [← prod_union]
    exact Measure.set_prod_ae_eq (ae_eq_refl _) (Ioo_split h1 h2)
  rw [setLIntegral_congr e, lintegral_union (hS.prod measurableSet_Ioo)]
  refine Set.disjoint_left.mpr fun q x y => ?_
  exact absurd x.2.2 (not_lt.mpr y.2.1.le)

theorem cap_split (S : Set ℝ) {a b c : ℝ} (h1 : a < b) (h2 : b < c) (hS : MeasurableSet S) (H : ℝ × ℝ → ℝ≥0∞) :
    ∫⁻ p in (Ioo a c ×ˢ S : Set (ℝ × ℝ)), H p =
      (∫⁻ p in (Ioo a b ×ˢ S : Set (ℝ × ℝ)), H p) + ∫⁻ p in (Ioo b c ×ˢ S : Set (ℝ × ℝ)), H p := by
  have e : (Ioo a c ×ˢ S : Set (ℝ × ℝ)) =ᵐ[volume] (Ioo a b ×ˢ S ∪ Ioo b c ×ˢ S : Set (ℝ × ℝ)) := by
    rw [← union_prod]
    exact Measure.set_prod_ae_eq (Ioo_split h1 h2) (ae_eq_refl _)
  rw [setLIntegral_congr e, lintegral_union (measurableSet_Ioo.prod hS)]
  refine Set.disjoint_left.mpr fun q x y => ?_
  exact absurd x.1.2 (not_lt.mpr y.1.1.le)

theorem sphDir_period (t f : ℝ) : sphDir t (f + 2 * π) = sphDir t f := by
  unfold sphDir; rw [cos_add_two_pi, sin_add_two_pi]

/-- any full turn gives the same integral -/
theorem band_turn {S : Set ℝ} (hS : MeasurableSet S) {a : ℝ} (h0 : -π < a) (h1 : a < π) (H : ℝ × ℝ → ℝ≥0∞)
    (hH : ∀ p, H (p.1, p.2 + 2 * π) = H p) :
    ∫⁻ p in (S ×ˢ Ioo a (a + 2 * π) : Set (ℝ × ℝ)), H p = ∫⁻ p in (S ×ˢ Ioo (-π) π : Set (ℝ × ℝ)), H p := by
  have hpi := pi_pos
  rw [band_split S (b := π) h1 (by linarith) hS, band_split S h0 h1 hS]
  have := band_shift S (-π) a H hH
  rw [show -π + 2 * π = π by ring] at this
  rw [this, add_comm]

theorem weight_split (t : ℝ) (ht : t ∈ Ioo 0 π) (x : ℝ≥0∞) : ENNReal.ofReal (sin t / (2 * π)) * x =
    ENNReal.ofReal (1 / (2 * π)) * (ENNReal.ofReal (sin t) * x) := by
  have hpi := pi_pos
  rw [← mul_assoc, ← ENNReal.ofReal_mul (by positivity)]
  congr 2
  ring

/-- **C199, the square.** For every quantity over directions, its mean over the unit square the library maps to the upper
hemisphere is its solid-angle integral over that hemisphere, divided by 2π. -/
theorem C199_square (G : V3 → ℝ≥0∞) :
    ∫⁻ q in unitSq, G (uv2xyz 1 q) = ENNReal.ofReal (1 / (2 * π)) * dirInt (π / 2) G := by
  have hpi := pi_pos
  have hm : MeasurableSet (Ioo (0 : ℝ) (π / 2)) := measurableSet_Ioo
  rw [square_integral]
  set H : ℝ × ℝ → ℝ≥0∞ := fun p => ENNReal.ofReal (sin p.1 / (2 * π)) * G (sphDir p.1 p.2) with hH
  have hp : ∀ p, H (p.1, p.2 + 2 * π) = H p := fun p => by simp only [hH, sphDir_period]
  have key : ∫⁻ p in (Ioo 0 (π / 2) ×ˢ Ioo (-(π / 4)) (-(π / 4) + 2 * π) : Set (ℝ × ℝ)), H p =
      ((∫⁻ p in secAng 0, H p) + ∫⁻ p in secAng (π / 2), H p) +
        ((∫⁻ p in secAng π, H p) + ∫⁻ p in secAng (3 * π / 2), H p) := by
    unfold secAng
    rw [band_split _ (b := 3 * π / 4) (by linarith) (by linarith) hm, band_split _ (b := π / 4) (by linarith) (by linarith) hm,
      band_split _ (a := 3 * π / 4) (b := 5 * π / 4) (by linarith) (by linarith) hm, show (0 : ℝ) - π / 4 = -(π / 4) by ring,
      show (0 : ℝ) + π / 4 = π / 4 by ring, show π / 2 - π / 4 = π / 4 by ring, show π / 2 + π / 4 = 3 * π / 4 by ring,
      show π - π / 4 = 3 * π / 4 by ring, show π + π / 4 = 5 * π / 4 by ring, show 3 * π / 2 - π / 4 = 5 * π / 4 by ring,
      show 3 * π / 2 + π / 4 = -(π / 4) + 2 * π by ring]
  rw [← key, band_turn hm (by linarith) (by linarith) H hp]
  unfold dirInt
  rw [← lintegral_const_mul' _ _ ENNReal.ofReal_ne_top]
  refine setLIntegral_congr_fun (measurableSet_Ioo.prod measurableSet_Ioo) fun p hp => ?_
  exact weight_split _ ⟨hp.1.1, by linarith [hp.1.2]⟩ _

/-! ### the second square and the whole rectangle -/

/-- the rectangle `uv2xyz` maps to the whole sphere -/
def uvRect : Set (ℝ × ℝ) := Ioo 0 2 ×ˢ Ioo 0 1

theorem uv2xyz_second {u v : ℝ} (hu : u ∈ Ioo (0 : ℝ) 1) : uv2xyz 1 (u + 1, v) =
    ⟨-(uv2xyz 1 (u, v)).x, (uv2xyz 1 (u, v)).y, -(uv2xyz 1 (u, v)).z⟩ := by
  obtain ⟨u0, u1⟩ := hu
  have h1 : hemi (u + 1) = -1 := by unfold hemi; rw [if_pos (by linarith)]
  have h2 : foldU (u + 1) = u := by unfold foldU; rw [if_pos (by linarith)]; ring
  rw [uv2xyz_low u1.le]
  unfold uv2xyz uv2xyzOn
  simp [h1, h2, V3.set, Axes.std]

theorem uv2xyz_mirror (q : ℝ × ℝ) : uv2xyz (-1) q = ⟨-(uv2xyz 1 q).x, (uv2xyz 1 q).y, (uv2xyz 1 q).z⟩ := by
  unfold uv2xyz uv2xyzOn
  simp [V3.set, Axes.std]

theorem dirInt_mirror (T : ℝ) (G : V3 → ℝ≥0∞) : dirInt T (fun d => G ⟨-d.x, d.y, d.z⟩) = dirInt T G := by
  have hpi := pi_pos
  unfold dirInt
  set H : ℝ × ℝ → ℝ≥0∞ := fun p => ENNReal.ofReal (sin p.1) * G (sphDir p.1 p.2) with hH
  have hp : ∀ p, H (p.1, p.2 + 2 * π) = H p := fun p => by simp only [hH, sphDir_period]
  rw [← band_turn (S := Ioo 0 T) measurableSet_Ioo (a := 0) (by linarith) hpi H hp,
    ← band_mirror (Ioo 0 T) H 0 (0 + 2 * π), show π - (0 + 2 * π) = -π by ring, sub_zero]
  refine lintegral_congr fun p => ?_
  simp only [hH, sphDir, cos_pi_sub, sin_pi_sub, mul_neg]

theorem dirInt_turn (G : V3 → ℝ≥0∞) : dirInt (π / 2) (fun d => G ⟨-d.x, d.y, -d.z⟩) =
    ∫⁻ p in (Ioo (π / 2) π ×ˢ Ioo (-π) π : Set (ℝ × ℝ)), ENNReal.ofReal (sin p.1) * G (sphDir p.1 p.2) := by
  rw [← dirInt_mirror]
  unfold dirInt
  rw [← band_flip _ (fun p : ℝ × ℝ => ENNReal.ofReal (sin p.1) * G (sphDir p.1 p.2)) (π / 2) π, sub_self,
    show π - π / 2 = π / 2 by ring]
  refine lintegral_congr fun p => ?_
  simp only [sphDir, cos_pi_sub, sin_pi_sub, neg_neg]

/-- **C199, the sphere.** The same for the two-by-one rectangle and the whole sphere, in both orientations. -/
theorem C199_sphere (xsign : ℝ) (hx : xsign = 1 ∨ xsign = -1) (G : V3 → ℝ≥0∞) :
    ∫⁻ q in uvRect, G (uv2xyz xsign q) = ENNReal.ofReal (1 / (2 * π)) * dirInt π G := by
  have hpi := pi_pos
  have main : ∀ G : V3 → ℝ≥0∞, ∫⁻ q in uvRect, G (uv2xyz 1 q) = ENNReal.ofReal (1 / (2 * π)) * dirInt π G := by
    intro G
    have h2 : ∫⁻ q in (Ioo 1 2 ×ˢ Ioo 0 1 : Set (ℝ × ℝ)), G (uv2xyz 1 q) =
        ∫⁻ q in unitSq, G ⟨-(uv2xyz 1 q).x, (uv2xyz 1 q).y, -(uv2xyz 1 q).z⟩ := by
      have h := lint_map (e1 := MeasurableEquiv.addRight 1) (e2 := MeasurableEquiv.refl ℝ)
        (measurePreserving_add_right volume 1) (MeasurePreserving.id _) (Ioo 1 2) (Ioo 0 1) (fun q => G (uv2xyz 1 q))
      rw [← h]
      have e : (MeasurableEquiv.addRight (1 : ℝ) : ℝ → ℝ) ⁻¹' (Ioo 1 2) = Ioo 0 1 := by
        ext x
        show 1 < x + 1 ∧ x + 1 < 2 ↔ 0 < x ∧ x < 1
        constructor <;> rintro ⟨x, y⟩ <;> constructor <;> linarith
      rw [e]
      refine setLIntegral_congr_fun (measurableSet_Ioo.prod measurableSet_Ioo) fun q hq => ?_
      exact congrArg G (uv2xyz_second hq.1)
    unfold uvRect
    rw [cap_split _ (b := 1) (by norm_num) (by norm_num) measurableSet_Ioo, h2]
    have h1 := C199_square G
    have h3 := C199_square fun d => G ⟨-d.x, d.y, -d.z⟩
    unfold unitSq at h1 h3 ⊢
    rw [h1, h3, dirInt_turn, ← mul_add]
    congr 1
    unfold dirInt
    exact (cap_split _ (b := π / 2) (by linarith) (by linarith) measurableSet_Ioo _).symm
  rcases hx with rfl | rfl
  · exact main G
  · rw [← dirInt_mirror π G, ← main]
    exact lintegral_congr fun q => by rw [uv2xyz_mirror]

/-- the same for the square and the upper hemisphere, in both orientations -/
theorem C199_hemisphere (xsign : ℝ) (hx : xsign = 1 ∨ xsign = -1) (G : V3 → ℝ≥0∞) :
    ∫⁻ q in unitSq, G (uv2xyz xsign q) = ENNReal.ofReal (1 / (2 * π)) * dirInt (π / 2) G := by
  rcases hx with rfl | rfl
  · exact C199_square G
  · rw [← dirInt_mirror _ G, ← C199_square]
    exact lintegral_congr fun q => by rw [uv2xyz_mirror]

/-! ### grid cells -/

theorem bin_iff {side b : ℤ} (hs : 1 ≤ side) (h0 : 0 ≤ b) (h1 : b < 2 * side ^ 2) {q : ℝ × ℝ} (hu0 : 0 ≤ q.1) (hu2 : q.1 < 2)
    (hv0 : 0 ≤ q.2) (hv1 : q.2 < 1) : uv2bin side q = b ↔ Cell side (b / side) (b % side) q := by
  have hsr := sideR hs
  constructor
  · rintro rfl
    have c := C27_cell_partial side hs q hu0 hu2 hv0 hv1
    obtain ⟨r1, r2, r3, r4⟩ := C27_index_range side hs q
    unfold uv2bin
    generalize (uv2ij true side q).1 = i at *
    generalize (uv2ij true side q).2 = j at *
    have hdiv : (i * side + j) / side = i := by
      rw [Int.add_comm, Int.add_mul_ediv_right _ _ (by omega), Int.ediv_eq_zero_of_lt r3 r4]; omega
    have hmod : (i * side + j) % side = j := by
      rw [Int.add_comm, Int.add_mul_emod_self_right, Int.emod_eq_of_lt r3 r4]
    rwa [hdiv, hmod]
  · rintro ⟨c1, c2, c3, c4⟩
    obtain ⟨g0, g1, ox, oy, hx, hy, e⟩ := C26_uv_in_cell side hs q hu0 hu2 hv0 hv1
    rw [div_le_iff₀ (by linarith)] at c1 c3
    rw [lt_div_iff₀ (by linarith)] at c2 c4
    refine (C26_cells_disjoint side b _ hs h0 h1 g0 g1 (side * q.1 - (b / side : ℤ)) (side * q.2 - (b % side : ℤ)) ox oy
      ⟨by linarith, by linarith⟩ ⟨by linarith, by linarith⟩ hx hy ?_).symm
    rw [← e]
    refine Prod.ext ?_ ?_
    · simp only
      rw [bin2uv_fst hs]; field_simp; ring
    · simp only [bin2uv]
      field_simp; ring

/-- the part of the rectangle with a given bin has area `1/side²` -/
theorem bin_area {side b : ℤ} (hs : 1 ≤ side) (h0 : 0 ≤ b) (h1 : b < 2 * side ^ 2) {R : Set (ℝ × ℝ)}
    (hR : R ⊆ uvRect) (hb : ∀ q ∈ uvRect, ((b / side : ℤ) : ℝ) / side < q.1 → q.1 < ((b / side : ℤ) + 1) / side → q ∈ R) :
    volume {q | q ∈ R ∧ uv2bin side q = b} = ENNReal.ofReal (1 / side ^ 2) := by
  have hsr := sideR hs
  have hk0 : 0 ≤ b / side := Int.ediv_nonneg h0 (by omega)
  have hk1 : b / side + 1 ≤ 2 * side := by
    have : b / side < 2 * side := by rw [Int.ediv_lt_iff_lt_mul (by omega)]; nlinarith
    omega
  have hj0 := Int.emod_nonneg b (show side ≠ 0 by omega)
  have hj1 : b % side + 1 ≤ side := Int.emod_lt_of_pos b (show 0 < side by omega)
  have H0 : (0 : ℝ) ≤ (b / side : ℤ) := by exact_mod_cast hk0
  have H1 : ((b / side : ℤ) : ℝ) + 1 ≤ 2 * side := by exact_mod_cast hk1
  have J0 : (0 : ℝ) ≤ (b % side : ℤ) := by exact_mod_cast hj0
  have J1 : ((b % side : ℤ) : ℝ) + 1 ≤ side := by exact_mod_cast hj1
  have hi : ∀ x : ℝ, ENNReal.ofReal ((x + 1) / side - x / side) = ENNReal.ofReal (1 / side) := fun x => by
    congr 1; rw [← sub_div]; ring
  have hv : ENNReal.ofReal (1 / (side : ℝ)) * ENNReal.ofReal (1 / (side : ℝ)) = ENNReal.ofReal (1 / (side : ℝ) ^ 2) := by
    rw [← ENNReal.ofReal_mul (by positivity)]; congr 1; field_simp
  refine le_antisymm ?_ ?_
  · calc volume {q | q ∈ R ∧ uv2bin side q = b} ≤
        volume (Icc (((b / side : ℤ) : ℝ) / side) ((((b / side : ℤ) : ℝ) + 1) / side) ×ˢ
          Icc (((b % side : ℤ) : ℝ) / side) ((((b % side : ℤ) : ℝ) + 1) / side)) := by
          refine measure_mono ?_
          rintro q ⟨hq, e⟩
          obtain ⟨⟨q1, q2⟩, q3, q4⟩ := hR hq
          obtain ⟨c1, c2, c3, c4⟩ := (bin_iff hs h0 h1 q1.le q2 q3.le q4).mp e
          exact ⟨⟨c1, c2.le⟩, c3, c4.le⟩
      _ = _ := by rw [Measure.volume_eq_prod, Measure.prod_prod, Real.volume_Icc, Real.volume_Icc, hi, hi, hv]
  · calc ENNReal.ofReal (1 / (side : ℝ) ^ 2) =
        volume (Ioo (((b / side : ℤ) : ℝ) / side) ((((b / side : ℤ) : ℝ) + 1) / side) ×ˢ
          Ioo (((b % side : ℤ) : ℝ) / side) ((((b % side : ℤ) : ℝ) + 1) / side)) := by
          rw [Measure.volume_eq_prod, Measure.prod_prod, Real.volume_Ioo, Real.volume_Ioo, hi, hi, hv]
      _ ≤ _ := by
          refine measure_mono ?_
          rintro q ⟨⟨c1, c2⟩, c3, c4⟩
          have u0 : 0 < q.1 := lt_of_le_of_lt (by positivity) c1
          have v0 : 0 < q.2 := lt_of_le_of_lt (by positivity) c3
          have u2 : q.1 < 2 := lt_of_lt_of_le c2 (by rw [div_le_iff₀ (by linarith)]; exact H1)
          have v1 : q.2 < 1 := lt_of_lt_of_le c4 (by rw [div_le_one (by linarith)]; exact J1)
          exact ⟨hb q ⟨⟨u0, u2⟩, v0, v1⟩ c1 c2, (bin_iff hs h0 h1 u0.le u2 v0.le v1).mpr ⟨c1.le, c2, c3.le, c4⟩⟩

/-- an area is a solid angle -/
theorem area_solid {T c : ℝ} {R : Set (ℝ × ℝ)} {xs : ℝ} {S : Set V3} (hR : MeasurableSet R)
    (h : ∀ G : V3 → ℝ≥0∞, ∫⁻ q in R, G (uv2xyz xs q) = ENNReal.ofReal (1 / (2 * π)) * dirInt T G)
    (hm : MeasurableSet {q | q ∈ R ∧ uv2xyz xs q ∈ S}) (hv : volume {q | q ∈ R ∧ uv2xyz xs q ∈ S} = ENNReal.ofReal c) :
    solidAngle T S = ENNReal.ofReal (2 * π * c) := by
  classical
  have hpi := pi_pos
  have e := h fun d => if d ∈ S then 1 else 0
  have l : ∫⁻ q in R, (if uv2xyz xs q ∈ S then (1 : ℝ≥0∞) else 0) = ENNReal.ofReal c := by
    rw [← hv, ← lintegral_indicator hR, ← lintegral_indicator_one hm]
    refine lintegral_congr fun q => ?_
    by_cases a : q ∈ R <;> by_cases b : uv2xyz xs q ∈ S <;> simp [indicator, a, b]
  have e2 : ENNReal.ofReal c = ENNReal.ofReal (1 / (2 * π)) * solidAngle T S := by
    rw [← l, e]
    unfold solidAngle
    congr
  rw [ENNReal.ofReal_mul (by positivity), e2, ← mul_assoc, ← ENNReal.ofReal_mul (by positivity),
    mul_one_div_cancel (by positivity), ENNReal.ofReal_one, one_mul]

theorem bin_set_measurable {side b : ℤ} (hs : 1 ≤ side) (h0 : 0 ≤ b) (h1 : b < 2 * side ^ 2) {R : Set (ℝ × ℝ)}
    (hR : R ⊆ uvRect) (hm : MeasurableSet R) : MeasurableSet {q | q ∈ R ∧ uv2bin side q = b} := by
  have e : {q | q ∈ R ∧ uv2bin side q = b} = R ∩
      (Ico (((b / side : ℤ) : ℝ) / side) ((((b / side : ℤ) : ℝ) + 1) / side) ×ˢ
          Ico (((b % side : ℤ) : ℝ) / side) ((((b % side : ℤ) : ℝ) + 1) / side)) := by
    ext q
    constructor
    · rintro ⟨hq, e⟩
      obtain ⟨⟨q1, q2⟩, q3, q4⟩ := hR hq
      obtain ⟨c1, c2, c3, c4⟩ := (bin_iff hs h0 h1 q1.le q2 q3.le q4).mp e
      exact ⟨hq, ⟨c1, c2⟩, c3, c4⟩
    · rintro ⟨hq, ⟨c1, c2⟩, c3, c4⟩
      obtain ⟨⟨q1, q2⟩, q3, q4⟩ := hR hq
      exact ⟨hq, (bin_iff hs h0 h1 q1.le q2 q3.le q4).mpr ⟨c1, c2, c3, c4⟩⟩
  rw [e]
  exact hm.inter (measurableSet_Ico.prod measurableSet_Ico)

theorem uvRect_measurable : MeasurableSet uvRect := measurableSet_Ioo.prod measurableSet_Ioo

theorem uvRect_inRect {q : ℝ × ℝ} (h : q ∈ uvRect) : InRect q := ⟨h.1.1.le, h.1.2.le, h.2.1.le, h.2.2.le⟩

theorem uv2xyz_unit {xs : ℝ} (hx : xs = 1 ∨ xs = -1) {q : ℝ × ℝ} (h : q ∈ uvRect) : (uv2xyz xs q).normSq = 1 :=
  (C21_uv2xyz_sphere V3.zero Axes.std Axes.std_ok xs hx q (uvRect_inRect h)).1

theorem xyz2uvA_unit (normalize flipu : Bool) {d : V3} (h : d.normSq = 1) :
    xyz2uvA normalize Axes.std flipu d = xyz2uv flipu d := by
  unfold xyz2uv xyz2uvA
  cases normalize <;> simp [norm_of_unit h]

/-- **C199, grid cells.** In the orientation of view coordinates, the directions of the whole sphere that fall in any one
cell of the grid take up the same solid angle, `2π/side²`, at every resolution, whether or not they are normalised first. -/
theorem C199_cell (normalize : Bool) (side b : ℤ) (hs : 1 ≤ side) (h0 : 0 ≤ b) (h1 : b < 2 * side ^ 2) :
    solidAngle π {d | uv2bin side (xyz2uvA normalize Axes.std true d) = b} = ENNReal.ofReal (2 * π * (1 / side ^ 2)) := by
  have e : {q | q ∈ uvRect ∧ uv2xyz (-1) q ∈ {d | uv2bin side (xyz2uvA normalize Axes.std true d) = b}} =
      {q | q ∈ uvRect ∧ uv2bin side q = b} := by
    ext q
    refine and_congr_right fun hq => ?_
    obtain ⟨⟨q1, q2⟩, q3, q4⟩ := id hq
    have : xyz2uvA normalize Axes.std true (uv2xyz (-1) q) = q := by
      rw [xyz2uvA_unit _ _ (uv2xyz_unit (Or.inr rfl) hq)]
      refine C24_uv_xyz_uv V3.zero Axes.std Axes.std_ok q ?_
      rcases le_or_gt q.1 1 with h | h
      · exact Or.inl ⟨q1.le, h, q3.le, q4.le⟩
      · exact Or.inr ⟨h, q2, q3, q4⟩
    show uv2bin side (xyz2uvA normalize Axes.std true (uv2xyz (-1) q)) = b ↔ _
    rw [this]
  refine area_solid (xs := -1) uvRect_measurable (C199_sphere (-1) (Or.inr rfl)) ?_ ?_ <;> rw [e]
  · exact bin_set_measurable hs h0 h1 subset_rfl uvRect_measurable
  · exact bin_area hs h0 h1 subset_rfl fun q hq _ _ => hq

/-! ### sky patches -/

theorem sky_second {q : ℝ × ℝ} (h : q ∈ uvRect) (hu : 1 < q.1) : xyz2uv false (uv2xyz (-1) q) = q := by
  obtain ⟨⟨q1, q2⟩, q3, q4⟩ := id h
  have hsq := xyz2sq_uv2xyz V3.zero Axes.std Axes.std_ok (-1) (Or.inr rfl) q (uvRect_inRect h)
  have hz : zsign ((uv2xyzOn V3.zero Axes.std (-1) q).get Axes.std.a2) = -1 := by
    have hh : hemi q.1 = -1 := by unfold hemi; rw [if_pos hu]
    have hlt : sqR (2 * foldU q.1 - 1) (2 * q.2 - 1) * sqR (2 * foldU q.1 - 1) (2 * q.2 - 1) < 1 := by
      rw [sqR_sq, max_lt_iff]
      unfold foldU; rw [if_pos hu]
      constructor <;> nlinarith
    rw [uv2xyz_c2 _ Axes.std_ok, hh]; unfold zsign; rw [if_pos (by linarith)]
  unfold xyz2uv xyz2uvA uv2xyz
  simp only [Bool.false_eq_true, if_false]
  rw [hsq, hz]
  unfold sq2uv hemi foldU
  simp only [Bool.false_eq_true, if_false, if_pos hu]
  refine Prod.ext ?_ ?_ <;> simp only <;> ring

theorem sky_first_mirror {q : ℝ × ℝ} (h : q ∈ uvRect) (hu : q.1 ≤ 1) : xyz2uv false (uv2xyz (-1) q) = (1 - q.1, q.2) := by
  have hsq := xyz2sq_uv2xyz V3.zero Axes.std Axes.std_ok (-1) (Or.inr rfl) q (uvRect_inRect h)
  have hz : 0 ≤ (uv2xyz (-1) q).z :=
    (C21_uv2xyz_sphere V3.zero Axes.std Axes.std_ok (-1) (Or.inr rfl) q (uvRect_inRect h)).2.1 hu
  have hzs : zsign ((uv2xyzOn V3.zero Axes.std (-1) q).get Axes.std.a2) = 1 := by
    unfold zsign; exact if_neg (not_lt.mpr hz)
  unfold xyz2uv xyz2uvA uv2xyz
  simp only [Bool.false_eq_true, if_false]
  rw [hsq, hzs]
  unfold sq2uv hemi foldU
  simp only [Bool.false_eq_true, if_false, if_neg (not_lt.mpr hu)]
  refine Prod.ext ?_ ?_ <;> simp only <;> ring

theorem sky_second_mirror {q : ℝ × ℝ} (h : q ∈ uvRect) (hu : 1 < q.1) : 1 ≤ (xyz2uv false (uv2xyz 1 q)).1 := by
  have e : uv2xyz 1 q = ⟨-(uv2xyz (-1) q).x, (uv2xyz (-1) q).y, (uv2xyz (-1) q).z⟩ := by
    rw [uv2xyz_mirror]; simp
  have u1 := uv2xyz_unit (Or.inl rfl) h
  have hz : (uv2xyz 1 q).z < 0 := by
    have hz := (C23_in_rect Axes.std Axes.std_ok false (uv2xyz (-1) q) (uv2xyz_unit (Or.inr rfl) h)).2
    rw [e]
    refine hz.mpr ?_
    show 1 < (xyz2uv false (uv2xyz (-1) q)).1
    rw [sky_second h hu]
    exact hu
  exact ((C23_in_rect Axes.std Axes.std_ok false (uv2xyz 1 q) u1).2.mp hz).le

theorem uv2bin_low {side : ℤ} (hs : 1 ≤ side) {q : ℝ × ℝ} (h : q.1 < 1) : uv2bin side q < side ^ 2 := by
  have a := axisBin_range hs q.1
  have b := axisBin_range hs q.2
  unfold uv2bin uv2ij
  simp only [if_true, if_neg (not_le.mpr h), add_zero, ge_iff_le]
  nlinarith

theorem uv2bin_high {side : ℤ} (hs : 1 ≤ side) {q : ℝ × ℝ} (h : 1 ≤ q.1) : side ^ 2 ≤ uv2bin side q := by
  have a := axisBin_range hs q.1
  have b := axisBin_range hs q.2
  unfold uv2bin uv2ij
  simp only [if_true, ge_iff_le, if_pos h]
  nlinarith

/-- **C199, sky patches.** Every sky patch takes up the same solid angle, `2π/side²`: the upper hemisphere is shared equally
by the patches below `side²`, and the lower one by the others, at every resolution. -/
theorem C199_patch (normalize : Bool) (side b : ℤ) (hs : 1 ≤ side) (h0 : 0 ≤ b) (h1 : b < 2 * side ^ 2) :
    solidAngle π {d | xyz2skybin normalize side d = b} = ENNReal.ofReal (2 * π * (1 / side ^ 2)) := by
  have hsr := sideR hs
  have hdm := Int.emod_add_mul_ediv b side
  have hj0 := Int.emod_nonneg b (show side ≠ 0 by omega)
  have hj1 := Int.emod_lt_of_pos b (show 0 < side by omega)
  have hbin : ∀ xs : ℝ, xs = 1 ∨ xs = -1 → ∀ q ∈ uvRect,
      (uv2xyz xs q ∈ {d | xyz2skybin normalize side d = b} ↔ uv2bin side (xyz2uv false (uv2xyz xs q)) = b) := by
    intro xs hx q hq
    show uv2bin side (xyz2uvA normalize Axes.std false (uv2xyz xs q)) = b ↔ _
    rw [xyz2uvA_unit _ _ (uv2xyz_unit hx hq)]
  by_cases hb : b < side ^ 2
  · have hR : ({q | q ∈ uvRect ∧ q.1 ≤ 1} : Set (ℝ × ℝ)) ⊆ uvRect := fun q hq => hq.1
    have hm : MeasurableSet {q | q ∈ uvRect ∧ q.1 ≤ 1} :=
      uvRect_measurable.inter (measurableSet_le measurable_fst measurable_const)
    have e : {q | q ∈ uvRect ∧ uv2xyz 1 q ∈ {d | xyz2skybin normalize side d = b}} =
        {q | q ∈ {q | q ∈ uvRect ∧ q.1 ≤ 1} ∧ uv2bin side q = b} := by
      ext q
      simp only [mem_setOf_eq]
      rw [and_assoc]
      refine and_congr_right fun hq => ?_
      rw [show xyz2skybin normalize side (uv2xyz 1 q) = b ↔ _ from hbin 1 (Or.inl rfl) q hq]
      obtain ⟨⟨q1, q2⟩, q3, q4⟩ := id hq
      rcases le_or_gt q.1 1 with h | h
      · rw [sky_uv_xyz_uv q q1.le h q3.le q4.le]
        exact (and_iff_right h).symm
      · constructor
        · intro k
          have := uv2bin_high hs (sky_second_mirror hq h)
          omega
        · exact fun k => absurd k.1 (not_le.mpr h)
    refine area_solid (xs := 1) uvRect_measurable (C199_sphere 1 (Or.inl rfl)) ?_ ?_ <;> rw [e]
    · exact bin_set_measurable hs h0 h1 hR hm
    · refine bin_area hs h0 h1 hR fun q hq _ hlt => ⟨hq, hlt.le.trans ?_⟩
      rw [div_le_one (by linarith)]
      have : b / side < side := by rw [Int.ediv_lt_iff_lt_mul (by omega)]; nlinarith
      exact_mod_cast this
  · have hR : ({q | q ∈ uvRect ∧ 1 < q.1} : Set (ℝ × ℝ)) ⊆ uvRect := fun q hq => hq.1
    have hm : MeasurableSet {q | q ∈ uvRect ∧ 1 < q.1} :=
      uvRect_measurable.inter (measurableSet_lt measurable_const measurable_fst)
    have e : {q | q ∈ uvRect ∧ uv2xyz (-1) q ∈ {d | xyz2skybin normalize side d = b}} =
        {q | q ∈ {q | q ∈ uvRect ∧ 1 < q.1} ∧ uv2bin side q = b} := by
      ext q
      simp only [mem_setOf_eq]
      rw [and_assoc]
      refine and_congr_right fun hq => ?_
      rw [show xyz2skybin normalize side (uv2xyz (-1) q) = b ↔ _ from hbin (-1) (Or.inr rfl) q hq]
      rcases le_or_gt q.1 1 with h | h
      · rw [sky_first_mirror hq h]
        have a1 := uv2bin_low hs (q := (1 - q.1, q.2)) (by have := hq.1.1; simp; exact this)
        constructor
        · intro k; omega
        · exact fun k => absurd k.1 (not_lt.mpr h)
      · rw [sky_second hq h]
        exact (and_iff_right h).symm
    refine area_solid (xs := -1) uvRect_measurable (C199_sphere (-1) (Or.inr rfl)) ?_ ?_ <;> rw [e]
    · exact bin_set_measurable hs h0 h1 hR hm
    · refine bin_area hs h0 h1 hR fun q hq hlt _ => ⟨hq, lt_of_le_of_lt ?_ hlt⟩
      rw [one_le_div (by linarith)]
      have : side ≤ b / side := by rw [Int.le_ediv_iff_mul_le (by omega)]; nlinarith
      exact_mod_cast this

end Verif.Geo
