import Verif.Props.Square
import Verif.Model.Bins

/-! Properties C26-C29, C82-C84: grid bins and sky patches. -/

namespace Verif.Geo
open Real

/-! ### C26 -/

theorem axisBin_range {side : ℤ} (hs : 1 ≤ side) (x : ℝ) : 0 ≤ axisBin side x ∧ axisBin side x < side :=
  ⟨Int.emod_nonneg _ (by omega), Int.emod_lt_of_pos _ (by omega)⟩

theorem sideR {side : ℤ} (hs : 1 ≤ side) : (1 : ℝ) ≤ (side : ℝ) := by exact_mod_cast hs

/-- column/row of a shifted cell corner -/
theorem floor_cell {side k : ℤ} (hs : 1 ≤ side) {o : ℝ} (h0 : 0 ≤ o) (h1 : o < 1) :
    ⌊(side : ℝ) * (((k : ℝ) + o) / side)⌋ = k := by
  have := sideR hs
  rw [mul_div_cancel₀ _ (by linarith), Int.floor_eq_iff]
  constructor <;> linarith

theorem bin2uv_fst {bn side : ℤ} (hs : 1 ≤ side) (o : ℝ) :
    (bin2uv bn side o).1 = (((bn / side : ℤ) : ℝ) + o) / side := by
  have := sideR hs
  unfold bin2uv
  simp only
  have : bn - bn % side = side * (bn / side) := by have := Int.emod_add_mul_ediv bn side; linarith
  rw [this, Int.cast_mul, mul_div_cancel_left₀ _ (by linarith)]

/-- **C26** every bin number survives `bin2uv` then `uv2bin`, at every offset inside the cell. -/
theorem C26_bin_uv_bin (side b : ℤ) (hs : 1 ≤ side) (h0 : 0 ≤ b) (h1 : b < 2 * side ^ 2)
    (o : ℝ) (ho0 : 0 ≤ o) (ho1 : o < 1) : uv2bin side (bin2uv b side o) = b := by
  have hsr := sideR hs
  have hk0 : 0 ≤ b / side := Int.ediv_nonneg h0 (by omega)
  have hk1 : b / side < 2 * side := by
    rw [Int.ediv_lt_iff_lt_mul (by omega)]; nlinarith
  have hj0 := Int.emod_nonneg b (show side ≠ 0 by omega)
  have hj1 := Int.emod_lt_of_pos b (show 0 < side by omega)
  have hu : (bin2uv b side o).1 ≥ 1 ↔ side ≤ b / side := by
    rw [bin2uv_fst hs, ge_iff_le, le_div_iff₀ (by linarith), one_mul]
    constructor
    · intro h
      by_contra hlt
      have : ((b / side : ℤ) : ℝ) + 1 ≤ side := by
        have : b / side + 1 ≤ side := by omega
        exact_mod_cast this
      linarith
    · intro h
      have : (side : ℝ) ≤ ((b / side : ℤ) : ℝ) := by exact_mod_cast h
      linarith
  have hi : axisBin side (bin2uv b side o).1 = (b / side) % side := by
    unfold axisBin; rw [bin2uv_fst hs, floor_cell hs ho0 ho1]
  have hj : axisBin side (bin2uv b side o).2 = b % side := by
    unfold axisBin bin2uv
    simp only
    rw [floor_cell hs ho0 ho1, Int.emod_emod_of_dvd _ (dvd_refl _)]
  unfold uv2bin uv2ij
  simp only [if_true]
  rw [hi, hj]
  have hcol : (b / side) % side + (if (bin2uv b side o).1 ≥ 1 then side else 0) = b / side := by
    by_cases hk : side ≤ b / side
    · rw [if_pos (hu.mpr hk)]
      have : (b / side) % side = b / side - side := by
        rw [← Int.emod_eq_of_lt (show 0 ≤ b / side - side by omega) (show b / side - side < side by omega)]
        rw [Int.sub_emod_right]
      omega
    · rw [if_neg (fun h => hk (hu.mp h)), Int.emod_eq_of_lt hk0 (by omega)]; omega
  rw [hcol]
  have := Int.emod_add_mul_ediv b side
  linarith

/-- **C26** distinct bins have disjoint cells. -/
theorem C26_cells_disjoint (side b b' : ℤ) (hs : 1 ≤ side) (h0 : 0 ≤ b) (h1 : b < 2 * side ^ 2)
    (h0' : 0 ≤ b') (h1' : b' < 2 * side ^ 2) (ox oy ox' oy' : ℝ)
    (hox : 0 ≤ ox ∧ ox < 1) (hoy : 0 ≤ oy ∧ oy < 1) (hox' : 0 ≤ ox' ∧ ox' < 1) (hoy' : 0 ≤ oy' ∧ oy' < 1)
    (h : ((bin2uv b side ox).1, (bin2uv b side oy).2) = ((bin2uv b' side ox').1, (bin2uv b' side oy').2)) :
    b = b' := by
  have e1 := C26_bin_uv_bin side b hs h0 h1 ox hox.1 hox.2
  have e2 := C26_bin_uv_bin side b hs h0 h1 oy hoy.1 hoy.2
  have e3 := C26_bin_uv_bin side b' hs h0' h1' ox' hox'.1 hox'.2
  have e4 := C26_bin_uv_bin side b' hs h0' h1' oy' hoy'.1 hoy'.2
  rw [Prod.mk.injEq] at h
  have hsr := sideR hs
  have c1 : b / side = b' / side := by
    have := h.1
    rw [bin2uv_fst hs, bin2uv_fst hs] at this
    have f1 := floor_cell (side := side) (k := b / side) hs hox.1 hox.2
    have f2 := floor_cell (side := side) (k := b' / side) hs hox'.1 hox'.2
    rw [← f1, ← f2, this]
  have c2 : b % side = b' % side := by
    have := h.2
    unfold bin2uv at this
    simp only at this
    have f1 := floor_cell (side := side) (k := b % side) hs hoy.1 hoy.2
    have f2 := floor_cell (side := side) (k := b' % side) hs hoy'.1 hoy'.2
    rw [← f1, ← f2, this]
  have d1 := Int.emod_add_mul_ediv b side
  have d2 := Int.emod_add_mul_ediv b' side
  rw [c1, c2] at d1
  linarith

/-- the half-open cell (column `i`, row `j`) of the grid -/
def Cell (side i j : ℤ) (uv : ℝ × ℝ) : Prop :=
  (i : ℝ) / side ≤ uv.1 ∧ uv.1 < ((i : ℝ) + 1) / side ∧ (j : ℝ) / side ≤ uv.2 ∧ uv.2 < ((j : ℝ) + 1) / side

theorem axis_cell {side : ℤ} (hs : 1 ≤ side) {x : ℝ} (h0 : 0 ≤ x) (h1 : x < 1) :
    ((axisBin side x : ℤ) : ℝ) / side ≤ x ∧ x < (((axisBin side x : ℤ) : ℝ) + 1) / side := by
  have hsr := sideR hs
  have hf0 : 0 ≤ ⌊(side : ℝ) * x⌋ := Int.floor_nonneg.mpr (by positivity)
  have hf1 : ⌊(side : ℝ) * x⌋ < side := by
    rw [Int.floor_lt]; nlinarith
  unfold axisBin
  rw [Int.emod_eq_of_lt hf0 hf1]
  rw [div_le_iff₀ (by linarith), lt_div_iff₀ (by linarith)]
  have a := Int.floor_le ((side : ℝ) * x)
  have b := Int.lt_floor_add_one ((side : ℝ) * x)
  constructor <;> linarith

theorem axis_shift {side : ℤ} (x : ℝ) : axisBin side (x - 1) = axisBin side x := by
  unfold axisBin
  have : (side : ℝ) * (x - 1) = side * x - (side : ℤ) := by push_cast; ring
  rw [this, Int.floor_sub_intCast, Int.sub_emod_right]

/-- **C27** the two grid indices are always in range, whatever the point. -/
theorem C27_index_range (side : ℤ) (hs : 1 ≤ side) (uv : ℝ × ℝ) :
    0 ≤ (uv2ij true side uv).1 ∧ (uv2ij true side uv).1 < 2 * side ∧
    0 ≤ (uv2ij true side uv).2 ∧ (uv2ij true side uv).2 < side := by
  have a := axisBin_range hs uv.1
  have b := axisBin_range hs uv.2
  unfold uv2ij
  simp only [if_true]
  split_ifs <;> omega

/-- **C27** on `[0,2) x [0,1)` the index is that of the cell containing the point. Missing for the full claim:
the closed upper edges, where it is false (`C27_refuted`). -/
theorem C27_cell_partial (side : ℤ) (hs : 1 ≤ side) (uv : ℝ × ℝ) (hu0 : 0 ≤ uv.1) (hu2 : uv.1 < 2)
    (hv0 : 0 ≤ uv.2) (hv1 : uv.2 < 1) :
    Cell side (uv2ij true side uv).1 (uv2ij true side uv).2 uv := by
  have hsr := sideR hs
  obtain ⟨c3, c4⟩ := axis_cell hs hv0 hv1
  unfold Cell uv2ij
  simp only [if_true]
  by_cases h : uv.1 ≥ 1
  · rw [if_pos h]
    obtain ⟨c1, c2⟩ := axis_cell hs (show 0 ≤ uv.1 - 1 by linarith) (show uv.1 - 1 < 1 by linarith)
    rw [axis_shift] at c1 c2
    push_cast
    refine ⟨?_, ?_, c3, c4⟩
    · rw [add_div, div_self (by linarith)]; linarith
    · rw [add_right_comm, add_div, div_self (by linarith : (side : ℝ) ≠ 0)]; linarith
  · rw [if_neg h, add_zero]
    obtain ⟨c1, c2⟩ := axis_cell hs hu0 (not_le.mp h)
    exact ⟨c1, c2, c3, c4⟩

/-- the closed cell -/
def ClosedCell (side i j : ℤ) (uv : ℝ × ℝ) : Prop :=
  (i : ℝ) / side ≤ uv.1 ∧ uv.1 ≤ ((i : ℝ) + 1) / side ∧ (j : ℝ) / side ≤ uv.2 ∧ uv.2 ≤ ((j : ℝ) + 1) / side

/-- The full statement of C27 (closed rectangle). -/
def C27_statement : Prop :=
  ∀ side : ℤ, 1 ≤ side → ∀ uv : ℝ × ℝ, InRect uv →
    ClosedCell side (uv2ij true side uv).1 (uv2ij true side uv).2 uv

/-- **C27** is false on the upper edge: `v = 1` wraps to row 0. -/
theorem C27_refuted : ¬ C27_statement := by
  intro h
  have := h 2 (by norm_num) (0, 1) (by unfold InRect; norm_num)
  unfold ClosedCell uv2ij axisBin at this
  norm_num at this

/-- and so does `u = 2`, which goes to the first column of the second square -/
theorem C27_wraps (side : ℤ) (v : ℝ) :
    (uv2ij true side (2, v)).1 = side ∧ (uv2ij true side (v, 1)).2 = 0 := by
  unfold uv2ij axisBin
  constructor
  · have : (side : ℝ) * 2 = ((side * 2 : ℤ) : ℝ) := by push_cast; ring
    simp only [if_true]
    rw [this, Int.floor_intCast, Int.mul_emod_right]; norm_num
  · simp

/-- **C26** every point of `[0,2) x [0,1)` lies in the cell of its bin, and that bin is a valid number. -/
theorem C26_uv_in_cell (side : ℤ) (hs : 1 ≤ side) (uv : ℝ × ℝ) (hu0 : 0 ≤ uv.1) (hu2 : uv.1 < 2)
    (hv0 : 0 ≤ uv.2) (hv1 : uv.2 < 1) :
    0 ≤ uv2bin side uv ∧ uv2bin side uv < 2 * side ^ 2 ∧
    (∃ ox oy : ℝ, (0 ≤ ox ∧ ox < 1) ∧ (0 ≤ oy ∧ oy < 1) ∧
      uv = ((bin2uv (uv2bin side uv) side ox).1, (bin2uv (uv2bin side uv) side oy).2)) := by
  have hsr := sideR hs
  obtain ⟨r1, r2, r3, r4⟩ := C27_index_range side hs uv
  obtain ⟨c1, c2, c3, c4⟩ := C27_cell_partial side hs uv hu0 hu2 hv0 hv1
  unfold uv2bin
  generalize (uv2ij true side uv).1 = i at *
  generalize (uv2ij true side uv).2 = j at *
  have hdiv : (i * side + j) / side = i := by
    rw [Int.add_comm, Int.add_mul_ediv_right _ _ (by omega), Int.ediv_eq_zero_of_lt r3 r4]; omega
  have hmod : (i * side + j) % side = j := by
    rw [Int.add_comm, Int.add_mul_emod_self_right, Int.emod_eq_of_lt r3 r4]
  refine ⟨by nlinarith, by nlinarith, side * uv.1 - i, side * uv.2 - j, ?_, ?_, ?_⟩
  · rw [div_le_iff₀ (by linarith)] at c1
    rw [lt_div_iff₀ (by linarith)] at c2
    constructor <;> linarith
  · rw [div_le_iff₀ (by linarith)] at c3
    rw [lt_div_iff₀ (by linarith)] at c4
    constructor <;> linarith
  · refine Prod.ext ?_ ?_
    · simp only
      rw [bin2uv_fst hs, hdiv]; field_simp; ring
    · simp only [bin2uv]
      rw [hmod]; field_simp; ring

example : uv2bin 3 (bin2uv 17 3 0.25) = 17 := C26_bin_uv_bin 3 17 (by norm_num) (by norm_num) (by norm_num)
  0.25 (by norm_num) (by norm_num)

/-! ### C28 -/

theorem bin2uv_center {side b : ℤ} (hs : 1 ≤ side) (h0 : 0 ≤ b) (h1 : b < 2 * side ^ 2) :
    0 < (bin2uv b side 0.5).1 ∧ (bin2uv b side 0.5).1 < 2 ∧ 0 < (bin2uv b side 0.5).2 ∧
    (bin2uv b side 0.5).2 < 1 ∧ ((bin2uv b side 0.5).1 < 1 ↔ b < side ^ 2) ∧ (bin2uv b side 0.5).1 ≠ 1 := by
  have hsr := sideR hs
  have hk0 : 0 ≤ b / side := Int.ediv_nonneg h0 (by omega)
  have hk1 : b / side < 2 * side := by
    rw [Int.ediv_lt_iff_lt_mul (by omega)]; nlinarith
  have hj0 := Int.emod_nonneg b (show side ≠ 0 by omega)
  have hj1 := Int.emod_lt_of_pos b (show 0 < side by omega)
  have hk0r : (0 : ℝ) ≤ ((b / side : ℤ) : ℝ) := by exact_mod_cast hk0
  have hk1r : ((b / side : ℤ) : ℝ) + 1 ≤ 2 * side := by
    have : b / side + 1 ≤ 2 * side := by omega
    exact_mod_cast this
  have hj0r : (0 : ℝ) ≤ ((b % side : ℤ) : ℝ) := by exact_mod_cast hj0
  have hj1r : ((b % side : ℤ) : ℝ) + 1 ≤ side := by
    have : b % side + 1 ≤ side := by omega
    exact_mod_cast this
  have hq : b / side < side ↔ b < side ^ 2 := by
    rw [Int.ediv_lt_iff_lt_mul (by omega), sq]
  rw [bin2uv_fst hs]
  refine ⟨by positivity, ?_, ?_, ?_, ?_, ?_⟩
  · rw [div_lt_iff₀ (by linarith)]; linarith
  · unfold bin2uv; simp only; positivity
  · unfold bin2uv; simp only; rw [div_lt_iff₀ (by linarith)]; linarith
  · rw [div_lt_iff₀ (by linarith), ← hq, one_mul]
    constructor
    · intro h
      have : ((b / side : ℤ) : ℝ) < side := by linarith
      exact_mod_cast this
    · intro h
      have : ((b / side : ℤ) : ℝ) + 1 ≤ side := by
        have : b / side + 1 ≤ side := by omega
        exact_mod_cast this
      linarith
  · intro h
    rw [div_eq_iff (by linarith), one_mul] at h
    have h2 : (2 * (b / side) + 1 : ℤ) = (2 * side : ℤ) := by
      have : (((2 * (b / side) + 1 : ℤ)) : ℝ) = ((2 * side : ℤ) : ℝ) := by push_cast; linarith
      exact_mod_cast this
    omega

theorem z_uv2xyz (xs : ℝ) (uv : ℝ × ℝ) : (uv2xyz xs uv).z = hemi uv.1 *
    (1 - sqR (2 * foldU uv.1 - 1) (2 * uv.2 - 1) * sqR (2 * foldU uv.1 - 1) (2 * uv.2 - 1)) :=
  uv2xyz_c2 V3.zero Axes.std_ok xs uv

theorem sqR_lt {a b : ℝ} (ha : |a| < 1) (hb : |b| < 1) : sqR a b * sqR a b < 1 := by
  rw [sqR_sq, max_lt_iff]
  rw [← abs_mul_abs_self a, ← abs_mul_abs_self b]
  constructor <;> nlinarith [abs_nonneg a, abs_nonneg b]

/-- sky orientation, uv → direction → uv on the first square -/
theorem sky_uv_xyz_uv (uv : ℝ × ℝ) (hu0 : 0 ≤ uv.1) (hu1 : uv.1 ≤ 1) (hv0 : 0 ≤ uv.2) (hv1 : uv.2 ≤ 1) :
    xyz2uv false (uv2xyz 1 uv) = uv := by
  have hrect : InRect uv := ⟨hu0, by linarith, hv0, hv1⟩
  have hsq := xyz2sq_uv2xyz V3.zero Axes.std Axes.std_ok 1 (Or.inl rfl) uv hrect
  have hz : 0 ≤ (uv2xyz 1 uv).z :=
    (C21_uv2xyz_sphere V3.zero Axes.std Axes.std_ok 1 (Or.inl rfl) uv hrect).2.1 hu1
  have hzs : zsign ((uv2xyzOn V3.zero Axes.std 1 uv).get Axes.std.a2) = 1 := by
    unfold zsign; exact if_neg (not_lt.mpr hz)
  unfold xyz2uv xyz2uvA uv2xyz
  simp only [Bool.false_eq_true, if_false]
  rw [hsq, hzs]
  unfold sq2uv hemi foldU
  simp only [Bool.false_eq_true, if_false, if_neg (not_lt.mpr hu1)]
  refine Prod.ext ?_ ?_ <;> simp only <;> ring

/-- **C28** the centre direction of every sky patch is a unit vector above the horizon and belongs to it. -/
theorem C28_sky_patch (side b : ℤ) (hs : 1 ≤ side) (h0 : 0 ≤ b) (h1 : b < side ^ 2) :
    xyz2skybin false side (skybin2xyz b side) = b ∧ (skybin2xyz b side).normSq = 1 ∧
    0 ≤ (skybin2xyz b side).z := by
  obtain ⟨a1, a2, a3, a4, a5, _⟩ := bin2uv_center hs h0 (show b < 2 * side ^ 2 by nlinarith)
  have hu := a5.mpr h1
  have hrect : InRect (bin2uv b side 0.5) := ⟨a1.le, a2.le, a3.le, a4.le⟩
  have hC := C21_uv2xyz_sphere V3.zero Axes.std Axes.std_ok 1 (Or.inl rfl) _ hrect
  have hz : 0 ≤ (uv2xyz 1 (bin2uv b side 0.5)).z := hC.2.1 hu.le
  have he : skybin2xyz b side = uv2xyz 1 (bin2uv b side 0.5) := by
    unfold skybin2xyz; rw [if_neg (not_lt.mpr hz)]
  rw [he]
  refine ⟨?_, hC.1, hz⟩
  have := sky_uv_xyz_uv _ a1.le hu.le a3.le a4.le
  unfold xyz2uv at this
  unfold xyz2skybin
  rw [this]
  exact C26_bin_uv_bin side b hs h0 (by nlinarith) 0.5 (by norm_num) (by norm_num)

/-- **C28** the bins of the second square are mapped to straight down. -/
theorem C28_below (side b : ℤ) (hs : 1 ≤ side) (h0 : side ^ 2 ≤ b) (h1 : b < 2 * side ^ 2) :
    skybin2xyz b side = ⟨0, 0, -1⟩ := by
  obtain ⟨a1, a2, a3, a4, a5, a6⟩ := bin2uv_center hs (show 0 ≤ b by nlinarith) h1
  have hu : 1 < (bin2uv b side 0.5).1 := by
    rcases lt_trichotomy (bin2uv b side 0.5).1 1 with h | h | h
    · exact absurd (a5.mp h) (by omega)
    · exact absurd h a6
    · exact h
  unfold skybin2xyz
  rw [if_pos]
  rw [z_uv2xyz, hemi, if_pos hu]
  have : sqR (2 * foldU (bin2uv b side 0.5).1 - 1) (2 * (bin2uv b side 0.5).2 - 1)
      * sqR (2 * foldU (bin2uv b side 0.5).1 - 1) (2 * (bin2uv b side 0.5).2 - 1) < 1 := by
    apply sqR_lt
    · unfold foldU; rw [if_pos hu, abs_lt]; constructor <;> linarith
    · rw [abs_lt]; constructor <;> linarith
  linarith

example : (1 : ℤ) ≤ 5 ∧ (0 : ℤ) ≤ 7 ∧ (7 : ℤ) < 5 ^ 2 ∧ (5 : ℤ) ^ 2 ≤ 33 ∧ (33 : ℤ) < 2 * 5 ^ 2 := by norm_num

/-! ### C29 -/

theorem mem_tolPts {side : ℤ} {tol : ℝ} {uv q : ℝ × ℝ} :
    q ∈ tolPts side tol uv ↔ ∃ dx ∈ offs (tol / side), ∃ dy ∈ offs (tol / side), q = (dx + uv.1, dy + uv.2) := by
  unfold tolPts
  simp only [List.mem_flatMap, List.mem_map]
  constructor
  · rintro ⟨dy, hy, dx, hx, rfl⟩; exact ⟨dx, hx, dy, hy, rfl⟩
  · rintro ⟨dx, hx, dy, hy, rfl⟩; exact ⟨dy, hy, dx, hx, rfl⟩

/-- **C29** the returned bins: strictly increasing, in range, and exactly the bins below `side^2` of the nine
points at `0, ±tol/side` around the direction's uv. -/
theorem C29_tolerant (normalize : Bool) (side : ℤ) (hs : 1 ≤ side) (tol : ℝ) (p : V3) :
    (xyz2skybinTol normalize side tol p).Pairwise (· < ·) ∧
    (∀ b ∈ xyz2skybinTol normalize side tol p, 0 ≤ b ∧ b < side ^ 2) ∧
    (∀ b, b ∈ xyz2skybinTol normalize side tol p ↔ b < side ^ 2 ∧
      ∃ dx ∈ [-(tol / side), 0, tol / side], ∃ dy ∈ [-(tol / side), 0, tol / side],
        b = uv2bin side (dx + (xyz2uvA normalize Axes.std false p).1, dy + (xyz2uvA normalize Axes.std false p).2)) := by
  have hmem : ∀ b, b ∈ xyz2skybinTol normalize side tol p ↔ b < side ^ 2 ∧
      ∃ dx ∈ [-(tol / side), 0, tol / side], ∃ dy ∈ [-(tol / side), 0, tol / side],
        b = uv2bin side (dx + (xyz2uvA normalize Axes.std false p).1, dy + (xyz2uvA normalize Axes.std false p).2) := by
    intro b
    unfold xyz2skybinTol npUnique
    rw [List.mem_filter, Finset.mem_sort, List.mem_toFinset, List.mem_map, decide_eq_true_eq, and_comm]
    refine and_congr_right fun _ => ?_
    constructor
    · rintro ⟨q, hq, rfl⟩
      obtain ⟨dx, hx, dy, hy, rfl⟩ := mem_tolPts.mp hq
      exact ⟨dx, hx, dy, hy, rfl⟩
    · rintro ⟨dx, hx, dy, hy, rfl⟩
      exact ⟨_, mem_tolPts.mpr ⟨dx, hx, dy, hy, rfl⟩, rfl⟩
  refine ⟨?_, ?_, hmem⟩
  · unfold xyz2skybinTol npUnique
    exact ((Finset.sortedLT_sort _).pairwise).filter _
  · intro b hb
    obtain ⟨h1, dx, _, dy, _, rfl⟩ := (hmem b).mp hb
    refine ⟨?_, h1⟩
    obtain ⟨r1, r2, r3, r4⟩ := C27_index_range side hs
      (dx + (xyz2uvA normalize Axes.std false p).1, dy + (xyz2uvA normalize Axes.std false p).2)
    unfold uv2bin
    exact add_nonneg (mul_nonneg r1 (by omega)) r3

/-- directions above the horizon have uv strictly inside the first square (sky orientation) -/
theorem sky_uv_inside {p : V3} (hp : p.normSq = 1) (hz : 0 < p.z) :
    0 ≤ (xyz2uv false p).1 ∧ (xyz2uv false p).1 < 1 ∧ 0 ≤ (xyz2uv false p).2 ∧ (xyz2uv false p).2 < 1 := by
  obtain ⟨h1, hr, hs⟩ := unit_sq Axes.std_ok hp
  unfold xyz2uv xyz2uvA xyz2sq sq2uv
  simp only [Bool.false_eq_true, if_false]
  rw [zsign_mul]
  have hz' : 0 < p.get Axes.std.a2 := hz
  obtain ⟨b1, b2, b3⟩ := disk2sq_unit hr (by linarith [abs_nonneg (p.get Axes.std.a2)])
  obtain ⟨b4, b5⟩ := b3 (by rw [abs_of_pos hz']; linarith)
  rw [abs_lt] at b4 b5
  have : zsign (p.get Axes.std.a2) = 1 := by unfold zsign; exact if_neg (not_lt.mpr hz'.le)
  rw [this]
  obtain ⟨b4, b4'⟩ := b4
  obtain ⟨b5, b5'⟩ := b5
  refine ⟨?_, ?_, ?_, ?_⟩ <;> linarith

/-- **C29** a direction above the horizon gets its own bin, whatever the tolerance. -/
theorem C29_contains_own (side : ℤ) (hs : 1 ≤ side) (tol : ℝ) (p : V3) (hp : p.normSq = 1)
    (hz : 0 < p.z) : xyz2skybin false side p ∈ xyz2skybinTol false side tol p := by
  rw [(C29_tolerant false side hs tol p).2.2]
  obtain ⟨a1, a2, a3, a4⟩ := sky_uv_inside hp hz
  refine ⟨?_, 0, by simp, 0, by simp, by simp [xyz2skybin]⟩
  unfold xyz2uv at a1 a2 a3 a4
  unfold xyz2skybin uv2bin uv2ij
  simp only [if_true]
  rw [if_neg (not_le.mpr a2)]
  have r1 := axisBin_range hs (xyz2uvA false Axes.std false p).1
  have r2 := axisBin_range hs (xyz2uvA false Axes.std false p).2
  nlinarith

/-- **C29** the same for a vector of any length that is normalised on the way -/
theorem C29_contains_own_norm (side : ℤ) (hs : 1 ≤ side) (tol : ℝ) (p : V3) (hz : 0 < p.z) :
    xyz2skybin true side p ∈ xyz2skybinTol true side tol p := by
  have hl : 0 < p.len := by
    unfold V3.len V3.normSq
    exact Real.sqrt_pos.mpr (by nlinarith [sq_nonneg p.x, sq_nonneg p.y])
  have h := C29_contains_own side hs tol (norm p) (by
      have : p.len ^ 2 = p.normSq := Real.sq_sqrt (by unfold V3.normSq; positivity)
      unfold norm V3.divS V3.normSq
      unfold V3.normSq at this
      simp only
      field_simp
      linarith) (by
      show 0 < p.z / p.len
      positivity)
  simpa [xyz2skybin, xyz2skybinTol, xyz2uvA] using h

example : (⟨0, 3 / 5, 4 / 5⟩ : V3).normSq = 1 ∧ (0 : ℝ) < (⟨0, 3 / 5, 4 / 5⟩ : V3).z := by
  norm_num [V3.normSq]

/-! ### C82 -/

/-- The full statement of C82: every returned bin's cell comes within `tol` cells of the direction's uv. -/
def C82_statement : Prop :=
  ∀ (side : ℤ), 1 ≤ side → ∀ tol : ℝ, 0 < tol → ∀ p : V3, p.normSq = 1 → 0 < p.z →
    ∀ b ∈ xyz2skybinTol false side tol p, ∃ q : ℝ × ℝ,
      Cell side (b / side) (b % side) q ∧ |q.1 - (xyz2uv false p).1| ≤ tol / side ∧
        |q.2 - (xyz2uv false p).2| ≤ tol / side

/-- **C82** is false: near the border of the square the tolerance wraps to the opposite border. -/
theorem C82_refuted : ¬ C82_statement := by
  intro h
  have hrect : InRect (0.5, 0.99) := by unfold InRect; norm_num
  have hsph := C21_uv2xyz_sphere V3.zero Axes.std Axes.std_ok 1 (Or.inl rfl) _ hrect
  have hback := sky_uv_xyz_uv (0.5, 0.99) (by norm_num) (by norm_num) (by norm_num) (by norm_num)
  have hz : 0 < (uv2xyz 1 (0.5, 0.99)).z := by
    rw [z_uv2xyz]
    norm_num [hemi, foldU, sqR]
  have hb : (50 : ℤ) ∈ xyz2skybinTol false 10 0.5 (uv2xyz 1 (0.5, 0.99)) := by
    rw [(C29_tolerant false 10 (by norm_num) 0.5 _).2.2]
    refine ⟨by norm_num, 0, by simp, 0.5 / (10 : ℤ), by simp, ?_⟩
    have : xyz2uvA false Axes.std false (uv2xyz 1 (0.5, 0.99)) = (0.5, 0.99) := hback
    rw [this]
    have f1 : ⌊(10 : ℝ) * 0.5⌋ = 5 := by norm_num
    have f2 : ⌊(10 : ℝ) * (0.5 / 10 + 0.99)⌋ = 10 := by
      rw [Int.floor_eq_iff]; norm_num
    unfold uv2bin uv2ij axisBin
    simp only [if_true, zero_add]
    push_cast
    rw [f1, f2]
    norm_num
  obtain ⟨q, hc, _, h2⟩ := h 10 (by norm_num) 0.5 (by norm_num) (uv2xyz 1 (0.5, 0.99)) hsph.1 hz 50 hb
  have e : (xyz2uv false (uv2xyz 1 (0.5, 0.99))).2 = 0.99 := by rw [hback]
  have hsnd := hc.2.2.2
  rw [e, abs_le] at h2
  norm_num at hsnd h2
  linarith [h2.1]

/-- **C82** what does hold: away from the border by more than the tolerance, every returned bin's cell contains
a point within the tolerance. Missing for the full claim: directions closer to the border. -/
theorem C82_near_partial (side : ℤ) (hs : 1 ≤ side) (tol : ℝ) (ht : 0 < tol) (p : V3)
    (hu0 : tol / side ≤ (xyz2uv false p).1) (hu1 : (xyz2uv false p).1 + tol / side < 1)
    (hv0 : tol / side ≤ (xyz2uv false p).2) (hv1 : (xyz2uv false p).2 + tol / side < 1)
    (b : ℤ) (hb : b ∈ xyz2skybinTol false side tol p) : ∃ q : ℝ × ℝ,
      Cell side (b / side) (b % side) q ∧ |q.1 - (xyz2uv false p).1| ≤ tol / side ∧
        |q.2 - (xyz2uv false p).2| ≤ tol / side := by
  have hsr := sideR hs
  obtain ⟨_, dx, hx, dy, hy, rfl⟩ := ((C29_tolerant false side hs tol p).2.2 b).mp hb
  have ht' : 0 < tol / side := by positivity
  have bnd : ∀ d ∈ [-(tol / side), 0, tol / side], |d| ≤ tol / side := by
    intro d hd
    simp only [List.mem_cons, List.not_mem_nil, or_false] at hd
    rcases hd with rfl | rfl | rfl
    · rw [abs_neg, abs_of_pos ht']
    · rw [abs_zero]; exact ht'.le
    · rw [abs_of_pos ht']
  have bx := bnd dx hx
  have by' := bnd dy hy
  refine ⟨(dx + (xyz2uv false p).1, dy + (xyz2uv false p).2), ?_, by simpa using bx, by simpa using by'⟩
  rw [abs_le] at bx by'
  have hc := C27_cell_partial side hs (dx + (xyz2uv false p).1, dy + (xyz2uv false p).2)
    (by dsimp only; linarith) (by dsimp only; linarith) (by dsimp only; linarith) (by dsimp only; linarith)
  obtain ⟨r1, r2, r3, r4⟩ := C27_index_range side hs (dx + (xyz2uv false p).1, dy + (xyz2uv false p).2)
  have e : uv2bin side (dx + (xyz2uvA false Axes.std false p).1, dy + (xyz2uvA false Axes.std false p).2)
    = (uv2ij true side (dx + (xyz2uv false p).1, dy + (xyz2uv false p).2)).1 * side
      + (uv2ij true side (dx + (xyz2uv false p).1, dy + (xyz2uv false p).2)).2 := rfl
  rw [e]
  generalize (uv2ij true side (dx + (xyz2uv false p).1, dy + (xyz2uv false p).2)).1 = i at *
  generalize (uv2ij true side (dx + (xyz2uv false p).1, dy + (xyz2uv false p).2)).2 = j at *
  have hdiv : (i * side + j) / side = i := by
    rw [Int.add_comm, Int.add_mul_ediv_right _ _ (by omega), Int.ediv_eq_zero_of_lt r3 r4]; omega
  have hmod : (i * side + j) % side = j := by
    rw [Int.add_comm, Int.add_mul_emod_self_right, Int.emod_eq_of_lt r3 r4]
  rw [hdiv, hmod]; exact hc

/-! ### C83 -/

theorem calIf_pos {c : ℝ} (h : 0 < c) (t e : ℝ) : calIf c t e = t := if_pos h
theorem calIf_neg {c : ℝ} (h : ¬ 0 < c) (t e : ℝ) : calIf c t e = e := if_neg h

/-- the nested cal `if`s are the wedge of `xyz2uv` -/
theorem cal_wedge (d : V3) : (calA d, calB d) = disk2sq (calY d) (calX d) := by
  have hphi : calPhi d = wrapPhi (calY d) (calX d) := by
    unfold calPhi wrapPhi calPh calIf
    congr 1
    by_cases h : arctan2 (calX d) (calY d) < -(π / 4)
    · rw [if_pos h, if_pos (by linarith)]
    · rw [if_neg h, if_neg (by intro h2; apply h; linarith)]
  have hr : calR d = √(calY d ^ 2 + calX d ^ 2) := by unfold calR; rw [add_comm]
  unfold disk2sq
  rw [← hphi, ← hr]
  unfold calA calB wedge calIf
  by_cases c1 : calPhi d < π / 4
  · simp only [if_pos c1, if_pos (show π / 4 - calPhi d > 0 by linarith)]
  · simp only [if_neg c1, if_neg (show ¬ π / 4 - calPhi d > 0 by intro h; apply c1; linarith)]
    by_cases c2 : calPhi d < 3 * (π / 4)
    · simp only [if_pos c2, if_pos (show 3 * (π / 4) - calPhi d > 0 by linarith)]
    · simp only [if_neg c2, if_neg (show ¬ 3 * (π / 4) - calPhi d > 0 by intro h; apply c2; linarith)]
      by_cases c3 : calPhi d < 5 * (π / 4)
      · simp only [if_pos c3, if_pos (show 5 * (π / 4) - calPhi d > 0 by linarith)]
      · simp only [if_neg c3, if_neg (show ¬ 5 * (π / 4) - calPhi d > 0 by intro h; apply c3; linarith)]

/-- quarter-turn symmetry of the concentric map -/
theorem sq_turn (a b : ℝ) : sqX (-b) a = -sqY a b ∧ sqY (-b) a = sqX a b := by
  unfold sqX sqY sqPhi sqR
  simp only [neg_mul_neg]
  rcases lt_trichotomy (a * a) (b * b) with h | h | h
  · have hb : b ≠ 0 := by rintro rfl; nlinarith [mul_self_nonneg a]
    simp only [if_pos h, if_neg (not_lt.mpr h.le), if_neg hb, gt_iff_lt]
    have : a / (2 * -b) * π / 2 = (1 - a / (2 * b)) * π / 2 - π / 2 := by
      rw [mul_neg, div_neg]; ring
    rw [this, cos_sub_pi_div_two, sin_sub_pi_div_two]; constructor <;> ring
  · simp only [gt_iff_lt, h, lt_irrefl, if_false]
    by_cases hb : b = 0
    · subst hb
      have ha : a = 0 := by nlinarith [mul_self_nonneg a]
      simp [ha]
    · have ha : a ≠ 0 := by rintro rfl; apply hb; nlinarith [mul_self_nonneg b]
      simp only [if_neg hb, if_neg ha]
      have hab : a = b ∨ a = -b := mul_self_eq_mul_self_iff.mp h
      rcases hab with rfl | rfl
      · have e1 : (1 - -a / (2 * a)) * π / 2 = 3 * π / 4 := by field_simp; ring
        have e2 : (1 - a / (2 * a)) * π / 2 = π / 4 := by field_simp; ring
        have e3 : 3 * π / 4 = π - π / 4 := by ring
        rw [e1, e2, e3, cos_pi_sub, sin_pi_sub, cos_pi_div_four, sin_pi_div_four]
        constructor <;> ring
      · have e1 : (1 - -b / (2 * -b)) * π / 2 = π / 4 := by field_simp; ring
        have e2 : (1 - -b / (2 * b)) * π / 2 = π - π / 4 := by field_simp; ring
        rw [e1, e2, cos_pi_sub, sin_pi_sub, cos_pi_div_four, sin_pi_div_four]
        constructor <;> ring
  · have ha : a ≠ 0 := by rintro rfl; nlinarith [mul_self_nonneg b]
    simp only [if_pos h, if_neg (not_lt.mpr h.le), if_neg ha, gt_iff_lt]
    have : (1 - -b / (2 * a)) * π / 2 = b / (2 * a) * π / 2 + π / 2 := by ring
    rw [this, cos_add_pi_div_two, sin_add_pi_div_two]; constructor <;> ring

theorem disk2sq_turn (x y : ℝ) : disk2sq (-y) x = (-(disk2sq x y).2, (disk2sq x y).1) := by
  obtain ⟨h1, h2⟩ := sq_disk2sq x y
  obtain ⟨h3, h4⟩ := sq_turn (disk2sq x y).1 (disk2sq x y).2
  have := disk2sq_sq (-(disk2sq x y).2) (disk2sq x y).1
  rwa [h3, h4, h1, h2] at this

/-- **C83** the exported Radiance function bins every direction above the horizon exactly as `xyz2skybin`, and
every other direction into the extra bin `side^2`. -/
theorem C83_cal_bin (side : ℤ) (hs : 1 ≤ side) (d : V3) (hd : d.normSq = 1) :
    (0 < d.z → calBin side d = xyz2skybin false side d) ∧ (d.z ≤ 0 → calBin side d = side ^ 2) := by
  constructor
  · intro hz
    have hn : calN d = 1 := by unfold calN; rw [calIf_pos hz]
    have hzs : zsign d.z = 1 := by unfold zsign; exact if_neg (not_lt.mpr hz.le)
    have hU : calU d = (xyz2uv false d).2 ∧ calV d = (xyz2uv false d).1 := by
      have hw := cal_wedge d
      have hY : calY d = -(d.y / √(2 - (1 - d.z))) := by
        unfold calY; rw [hn, one_mul, neg_div]
      have hX : calX d = d.x / √(2 - (1 - d.z)) := by unfold calX; rw [hn, one_mul]
      rw [hX, hY, disk2sq_turn, Prod.mk.injEq] at hw
      unfold calU calV
      rw [hw.1, hw.2, hn, calIf_pos one_pos]
      unfold xyz2uv xyz2uvA xyz2sq sq2uv
      simp only [Bool.false_eq_true, if_false, Axes.std, V3.get]
      rw [hzs, one_mul]
      constructor <;> ring
    obtain ⟨a1, a2, a3, a4⟩ := sky_uv_inside hd hz
    unfold calBin
    rw [hn, if_pos one_pos, hU.1, hU.2]
    unfold xyz2skybin uv2bin uv2ij
    simp only [if_true]
    unfold xyz2uv at *
    rw [if_neg (not_le.mpr a2), add_zero]
  · intro hz
    have hn : calN d = -1 := by unfold calN; rw [calIf_neg (not_lt.mpr hz)]
    unfold calBin
    rw [hn, if_neg (by norm_num), sq]

/-! ### C84 -/

theorem cal2_r {ft a b : ℝ} (hft : 0 ≤ ft) (hb : b = 0 ∨ ft < |b|) :
    cal2r ft a b = sqR a b ∧ cal2phi ft a b = sqPhi a b := by
  unfold cal2r cal2phi sqR sqPhi calIf
  have e : (a ^ 2 - b ^ 2 > 0) ↔ (a * a > b * b) := by
    constructor <;> intro h <;> nlinarith
  have e2 : (|b| - ft > 0) ↔ ¬ b = 0 := by
    constructor
    · rintro h rfl; simp at h; linarith
    · intro h; rcases hb with h2 | h2
      · exact absurd h2 h
      · linarith
  simp only [e, e2]
  by_cases hc : a * a > b * b
  · simp [if_pos hc]
  · by_cases hb0 : b = 0 <;> simp [if_neg hc, hb0]

/-- **C84** the exported Radiance source function returns the same direction as `uv2xyz(bin2uv(bin))` for every
bin of both squares, as long as half a patch is wider than Radiance's FTINY. -/
theorem C84_cal_xyz (ft : ℝ) (side b : ℤ) (hft : 0 ≤ ft) (hs : 1 ≤ side) (hside : ft * side < 1) :
    cal2xyz ft b side = uv2xyz 1 (bin2uv b side 0.5) := by
  have hsr := sideR hs
  have hU : cal2U b side = (bin2uv b side 0.5).1 := rfl
  have hV : cal2V b side = (bin2uv b side 0.5).2 := rfl
  have hn : calIf (cal2U b side - 1) (-1) 1 = hemi (bin2uv b side 0.5).1 := by
    unfold calIf hemi; rw [hU]
    by_cases h : (bin2uv b side 0.5).1 > 1
    · rw [if_pos h, if_pos (by linarith)]
    · rw [if_neg h, if_neg (by intro h2; apply h; linarith)]
  have ha : cal2a b side = 2 * foldU (bin2uv b side 0.5).1 - 1 := by
    unfold cal2a calIf foldU; rw [hU]
    by_cases h : (bin2uv b side 0.5).1 > 1
    · rw [if_pos h, if_pos (by linarith)]
    · rw [if_neg h, if_neg (by intro h2; apply h; linarith)]
  have hb : cal2b b side = 2 * (bin2uv b side 0.5).2 - 1 := by unfold cal2b; rw [hV]
  have hsep : cal2b b side = 0 ∨ ft < |cal2b b side| := by
    have hval : cal2b b side = ((2 * (b % side) + 1 - side : ℤ) : ℝ) / side := by
      unfold cal2b cal2V; push_cast; field_simp; ring
    rw [hval]
    rcases eq_or_ne (2 * (b % side) + 1 - side) 0 with h | h
    · left; rw [h]; simp
    · right
      rw [abs_div, abs_of_pos (show (0:ℝ) < side by linarith), lt_div_iff₀ (by linarith)]
      have : (1 : ℝ) ≤ |((2 * (b % side) + 1 - side : ℤ) : ℝ)| := by
        rw [← Int.cast_abs]
        exact_mod_cast Int.one_le_abs h
      linarith
  obtain ⟨e1, e2⟩ := cal2_r (a := cal2a b side) hft hsep
  unfold cal2xyz
  rw [e1, e2, hn, ha, hb]
  apply V3.ext
  · exact (by
      have := uv2xyz_c0 V3.zero Axes.std_ok 1 (bin2uv b side 0.5)
      change (uv2xyz 1 (bin2uv b side 0.5)).x = _ at this
      rw [this]; unfold sqX; simp only [sq]; ring)
  · exact (by
      have := uv2xyz_c1 V3.zero Axes.std_ok 1 (bin2uv b side 0.5)
      change (uv2xyz 1 (bin2uv b side 0.5)).y = _ at this
      rw [this]; unfold sqY; simp only [sq]; ring)
  · exact (by
      rw [z_uv2xyz]; simp only [sq])

example : (0 : ℝ) ≤ 1e-6 ∧ (1e-6 : ℝ) * ((20 : ℤ) : ℝ) < 1 := by norm_num

end Verif.Geo
