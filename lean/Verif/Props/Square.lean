import Verif.Lemmas.Square

/-! Properties C20-C25: normalisation and the square/sphere maps of translate.py. -/

namespace Verif.Geo
open Real

/-! ### C20 -/

theorem normSq_pos {v : V3} (h : v ≠ V3.zero) : 0 < v.normSq := by
  obtain ⟨x, y, z⟩ := v
  unfold V3.normSq
  by_contra hn
  apply h
  dsimp only at hn
  have hx : x = 0 := by nlinarith [sq_nonneg x, sq_nonneg y, sq_nonneg z]
  have hy : y = 0 := by nlinarith [sq_nonneg x, sq_nonneg y, sq_nonneg z]
  have hz : z = 0 := by nlinarith [sq_nonneg x, sq_nonneg y, sq_nonneg z]
  subst hx hy hz; rfl

theorem len_pos {v : V3} (h : v ≠ V3.zero) : 0 < v.len := sqrt_pos.mpr (normSq_pos h)

theorem len_sq (v : V3) : v.len ^ 2 = v.normSq := by
  unfold V3.len
  rw [sq_sqrt]
  unfold V3.normSq; positivity

/-- **C20** `norm(v)` has length one and is the positive multiple `1/|v|` of `v`. -/
theorem C20_norm_unit (v : V3) (h : v ≠ V3.zero) :
    (norm v).len = 1 ∧ v = V3.smul v.len (norm v) ∧ 0 < v.len := by
  have hl := len_pos h
  have hs := len_sq v
  refine ⟨?_, ?_, hl⟩
  · unfold V3.len
    rw [sqrt_eq_one]
    unfold norm V3.divS V3.normSq
    simp only
    unfold V3.normSq at hs
    field_simp
    linarith
  · unfold norm V3.divS V3.smul
    apply V3.ext <;> simp only <;> field_simp

/-- **C20** `norm1` agrees with `norm` on nonzero vectors and fixes the zero vector. -/
theorem C20_norm1 (v : V3) : (v ≠ V3.zero → norm1 v = norm v) ∧ norm1 V3.zero = V3.zero := by
  constructor
  · intro h
    have hl := len_pos h
    unfold V3.len at hl
    unfold norm1 norm V3.len
    rw [if_neg hl.ne']
  · simp [norm1, V3.zero, V3.divS, V3.normSq]

/-- **C20** positive scaling does not matter. -/
theorem C20_norm_scale (v : V3) (s : ℝ) (hs : 0 < s) : norm (V3.smul s v) = norm v := by
  have : (V3.smul s v).len = s * v.len := by
    unfold V3.len
    rw [← sqrt_sq hs.le, ← sqrt_mul (sq_nonneg _), sqrt_sq hs.le]
    unfold V3.normSq V3.smul; congr 1; ring
  unfold norm
  rw [this]
  unfold V3.divS V3.smul
  apply V3.ext <;> simp only <;> rw [mul_div_mul_left _ _ hs.ne']

theorem norm_of_len_one {v : V3} (h : v.len = 1) : norm v = v := by
  unfold norm V3.divS; rw [h]; simp

/-- **C20** normalising twice changes nothing. -/
theorem C20_norm_idem (v : V3) (h : v ≠ V3.zero) :
    norm (norm v) = norm v ∧ norm1 (norm1 v) = norm1 v := by
  have h1 := (C20_norm_unit v h).1
  have h2 : norm v ≠ V3.zero := by
    intro h0
    rw [h0] at h1
    simp [V3.len, V3.normSq, V3.zero] at h1
  refine ⟨norm_of_len_one h1, ?_⟩
  rw [(C20_norm1 v).1 h, (C20_norm1 _).1 h2, norm_of_len_one h1]

example : norm ⟨3, 0, 4⟩ = ⟨3 / 5, 0, 4 / 5⟩ ∧ (⟨3, 0, 4⟩ : V3) ≠ V3.zero := by
  refine ⟨?_, by simp [V3.zero]⟩
  have : (⟨3, 0, 4⟩ : V3).len = 5 := by
    unfold V3.len V3.normSq
    rw [show ((3:ℝ) ^ 2 + 0 ^ 2 + 4 ^ 2) = 5 ^ 2 by norm_num, sqrt_sq (by norm_num)]
  simp [norm, V3.divS, this]

/-! ### C21 -/

/-- the uv rectangle `[0,2] x [0,1]` -/
def InRect (uv : ℝ × ℝ) : Prop := 0 ≤ uv.1 ∧ uv.1 ≤ 2 ∧ 0 ≤ uv.2 ∧ uv.2 ≤ 1

/-- **C21** `uv2xyz` always lands on the unit sphere, in the hemisphere selected by `u > 1`. -/
theorem C21_uv2xyz_sphere (e : V3) (ax : Axes) (hax : ax.Ok) (xs : ℝ) (hxs : xs = 1 ∨ xs = -1)
    (uv : ℝ × ℝ) (huv : InRect uv) :
    (uv2xyzOn e ax xs uv).normSq = 1 ∧
    (uv.1 ≤ 1 → 0 ≤ (uv2xyzOn e ax xs uv).get ax.a2) ∧
    (1 < uv.1 → (uv2xyzOn e ax xs uv).get ax.a2 ≤ 0) := by
  obtain ⟨h1, h2, h3, h4⟩ := huv
  obtain ⟨ha, hb⟩ := fold_bounds h1 h2 h3 h4
  have hr := sqR_le ha hb
  have hx2 : xs * xs = 1 := by rcases hxs with rfl | rfl <;> norm_num
  refine ⟨?_, ?_, ?_⟩
  · rw [V3.normSq_axes hax, uv2xyz_c0 _ hax, uv2xyz_c1 _ hax, uv2xyz_c2 _ hax]
    have hh := hemi_sq uv.1
    have hxy := sqXY_sq (2 * foldU uv.1 - 1) (2 * uv.2 - 1)
    generalize sqR (2 * foldU uv.1 - 1) (2 * uv.2 - 1) = r at *
    generalize sqX (2 * foldU uv.1 - 1) (2 * uv.2 - 1) = X at *
    generalize sqY (2 * foldU uv.1 - 1) (2 * uv.2 - 1) = Y at *
    generalize hemi uv.1 = n at *
    have hs : √(2 - r * r) ^ 2 = 2 - r * r := sq_sqrt (by linarith)
    have : (xs * n * X * √(2 - r * r)) ^ 2 + (Y * √(2 - r * r)) ^ 2 + (n * (1 - r * r)) ^ 2
        = ((xs * xs) * (n * n) * X ^ 2 + Y ^ 2) * √(2 - r * r) ^ 2 + (n * n) * (1 - r * r) ^ 2 := by ring
    rw [this, hx2, hh, hs]
    have : 1 * 1 * X ^ 2 + Y ^ 2 = r * r := by linarith
    rw [this]; ring
  · intro hu
    rw [uv2xyz_c2 _ hax, hemi, if_neg (by linarith)]; linarith
  · intro hu
    rw [uv2xyz_c2 _ hax, hemi, if_pos hu]; linarith

example : InRect (1.5, 0.25) ∧ (⟨2, 0, 1⟩ : Axes).Ok :=
  ⟨by unfold InRect; norm_num, by decide, by decide, by decide⟩

/-! ### C22 -/

theorem uv2xy_first {u v : ℝ} (hu : u ≤ 1) :
    uv2xy (u, v) = (sqX (2 * u - 1) (2 * v - 1), sqY (2 * u - 1) (2 * v - 1)) := by
  unfold uv2xy hemi foldU
  simp only [if_neg (not_lt.mpr hu)]
  unfold sqX sqY; simp

/-- **C22** the point at max-norm distance `s` of the centre goes to distance `s` of the origin. -/
theorem C22_uv2xy_radius (u v : ℝ) (hu : u ≤ 1) :
    (uv2xy (u, v)).1 ^ 2 + (uv2xy (u, v)).2 ^ 2 = max |2 * u - 1| |2 * v - 1| ^ 2 := by
  rw [uv2xy_first hu]; exact disk_radius _ _

/-- **C22** each concentric square is mapped onto the circle of the same radius; in particular the whole
unit square is mapped onto the closed unit disk. -/
theorem C22_uv2xy_circles (s : ℝ) (h0 : 0 ≤ s) (h1 : s ≤ 1) :
    uv2xy '' {uv | 0 ≤ uv.1 ∧ uv.1 ≤ 1 ∧ 0 ≤ uv.2 ∧ uv.2 ≤ 1 ∧ max |2 * uv.1 - 1| |2 * uv.2 - 1| = s}
      = {xy | xy.1 ^ 2 + xy.2 ^ 2 = s ^ 2} := by
  ext ⟨x, y⟩
  simp only [Set.mem_image, Set.mem_setOf_eq]
  constructor
  · rintro ⟨⟨u, v⟩, ⟨_, hu, _, _, hs⟩, he⟩
    have := C22_uv2xy_radius u v hu
    rw [he] at this
    dsimp only at this hs
    rw [this, hs]
  · intro h
    have hm := disk2sq_max x y
    obtain ⟨e1, e2⟩ := sq_disk2sq x y
    generalize (disk2sq x y).1 = a at *
    generalize (disk2sq x y).2 = b at *
    have hs : max |a| |b| = s := by
      have h2 : max |a| |b| ^ 2 = s ^ 2 := by rw [hm, h]
      have h3 : 0 ≤ max |a| |b| := le_max_of_le_left (abs_nonneg _)
      nlinarith
    have ha : |a| ≤ 1 := (le_max_left _ _).trans (hs.le.trans h1)
    have hb : |b| ≤ 1 := (le_max_right _ _).trans (hs.le.trans h1)
    rw [abs_le] at ha hb
    have ea : 2 * ((a + 1) / 2) - 1 = a := by ring
    have eb : 2 * ((b + 1) / 2) - 1 = b := by ring
    refine ⟨((a + 1) / 2, (b + 1) / 2), ⟨by dsimp only; linarith [ha.1], by dsimp only; linarith [ha.2],
      by dsimp only; linarith [hb.1], by dsimp only; linarith [hb.2], by dsimp only; rw [ea, eb, hs]⟩, ?_⟩
    rw [uv2xy_first (by linarith [ha.2]), ea, eb, e1, e2]

theorem C22_uv2xy_disk (u v : ℝ) (hu0 : 0 ≤ u) (hu1 : u ≤ 1) (hv0 : 0 ≤ v) (hv1 : v ≤ 1) :
    (uv2xy (u, v)).1 ^ 2 + (uv2xy (u, v)).2 ^ 2 ≤ 1 := by
  rw [C22_uv2xy_radius u v hu1]
  have ha : |2 * u - 1| ≤ 1 := by rw [abs_le]; constructor <;> linarith
  have hb : |2 * v - 1| ≤ 1 := by rw [abs_le]; constructor <;> linarith
  have h := max_le ha hb
  have h3 : 0 ≤ max |2 * u - 1| |2 * v - 1| := le_max_of_le_left (abs_nonneg _)
  nlinarith

/-- the equal-area lift of a disk point to the upper hemisphere -/
noncomputable def lift (xy : ℝ × ℝ) : V3 :=
  ⟨xy.1 * √(2 - (xy.1 ^ 2 + xy.2 ^ 2)), xy.2 * √(2 - (xy.1 ^ 2 + xy.2 ^ 2)), 1 - (xy.1 ^ 2 + xy.2 ^ 2)⟩

/-- scaled disk point of a direction on the upper side -/
theorem xyz2sq_lift {X Y z r2 : ℝ} (hz : |z| = 1 - r2) (hr : r2 ≤ 1) :
    xyz2sq (X * √(2 - r2)) (Y * √(2 - r2)) z = disk2sq X Y := by
  unfold xyz2sq
  rw [zsign_mul, hz]
  have : 2 - (1 - (1 - r2)) = 2 - r2 := by ring
  rw [this]
  have hs : √(2 - r2) ≠ 0 := by
    rw [Ne, sqrt_eq_zero']; linarith
  rw [mul_div_assoc, mul_div_assoc, div_self hs, mul_one, mul_one]

/-- **C22** `xyz2uv` of the lifted disk point gives the square point back, for the whole unit square. -/
theorem C22_lift_back (u v : ℝ) (hu0 : 0 ≤ u) (hu1 : u ≤ 1) (hv0 : 0 ≤ v) (hv1 : v ≤ 1) :
    xyz2uv false (lift (uv2xy (u, v))) = (u, v) := by
  have hd := C22_uv2xy_disk u v hu0 hu1 hv0 hv1
  unfold xyz2uv xyz2uvA lift
  simp only [Bool.false_eq_true, if_false, Axes.std, V3.get]
  rw [xyz2sq_lift (by rw [abs_of_nonneg (by linarith)]) hd, uv2xy_first hu1, disk2sq_sq]
  rw [uv2xy_first hu1] at hd
  have hz : zsign (1 - (sqX (2 * u - 1) (2 * v - 1) ^ 2 + sqY (2 * u - 1) (2 * v - 1) ^ 2)) = 1 := by
    unfold zsign; rw [if_neg (by dsimp only at hd; linarith)]
  rw [hz]
  unfold sq2uv
  simp only [Bool.false_eq_true, if_false]
  refine Prod.ext ?_ ?_ <;> simp only <;> ring

example : uv2xy (1, 0.5) = (1, 0) := by
  rw [uv2xy_first le_rfl]
  norm_num [sqX, sqY, sqPhi, sqR]

/-! ### C23 -/

/-- components of a unit vector through the square coordinates -/
theorem unit_sq {p : V3} {ax : Axes} (hax : ax.Ok) (hp : p.normSq = 1) :
    |p.get ax.a2| ≤ 1 ∧
    (p.get ax.a0 / √(2 - (1 - |p.get ax.a2|))) ^ 2 + (p.get ax.a1 / √(2 - (1 - |p.get ax.a2|))) ^ 2
      = 1 - |p.get ax.a2| ∧ 0 < √(2 - (1 - |p.get ax.a2|)) := by
  rw [V3.normSq_axes hax] at hp
  have hz : |p.get ax.a2| ^ 2 = p.get ax.a2 ^ 2 := sq_abs _
  have h0 := abs_nonneg (p.get ax.a2)
  have h1 : |p.get ax.a2| ≤ 1 := by nlinarith [sq_nonneg (p.get ax.a0), sq_nonneg (p.get ax.a1)]
  have hs : 0 < √(2 - (1 - |p.get ax.a2|)) := sqrt_pos.mpr (by linarith)
  have hs2 : √(2 - (1 - |p.get ax.a2|)) ^ 2 = 2 - (1 - |p.get ax.a2|) := sq_sqrt (by linarith)
  refine ⟨h1, ?_, hs⟩
  rw [div_pow, div_pow, hs2, ← add_div, div_eq_iff (by linarith)]
  nlinarith

theorem disk2sq_unit {x y q : ℝ} (h : x ^ 2 + y ^ 2 = q) (hq : q ≤ 1) :
    |(disk2sq x y).1| ≤ 1 ∧ |(disk2sq x y).2| ≤ 1 ∧ (q < 1 → |(disk2sq x y).1| < 1 ∧ |(disk2sq x y).2| < 1) := by
  have hm := disk2sq_max x y
  rw [h] at hm
  have h0 : 0 ≤ max |(disk2sq x y).1| |(disk2sq x y).2| := le_max_of_le_left (abs_nonneg _)
  have h1 : max |(disk2sq x y).1| |(disk2sq x y).2| ≤ 1 := by nlinarith
  refine ⟨(le_max_left _ _).trans h1, (le_max_right _ _).trans h1, fun hq1 => ?_⟩
  have h2 : max |(disk2sq x y).1| |(disk2sq x y).2| < 1 := by nlinarith
  exact ⟨(le_max_left _ _).trans_lt h2, (le_max_right _ _).trans_lt h2⟩

/-- every unit vector's uv lies in the rectangle, with `u > 1` exactly below the horizon (view orientation) -/
theorem C23_in_rect (ax : Axes) (hax : ax.Ok) (flipu : Bool) (p : V3) (hp : p.normSq = 1) :
    InRect (xyz2uvA false ax flipu p) ∧ (p.get ax.a2 < 0 ↔ 1 < (xyz2uvA false ax flipu p).1) := by
  obtain ⟨hz, hr, hs⟩ := unit_sq hax hp
  unfold xyz2uvA xyz2sq sq2uv
  simp only [Bool.false_eq_true, if_false]
  rw [zsign_mul]
  obtain ⟨b1, b2, b3⟩ := disk2sq_unit hr (by linarith [abs_nonneg (p.get ax.a2)])
  generalize (disk2sq (p.get ax.a0 / √(2 - (1 - |p.get ax.a2|))) (p.get ax.a1 / √(2 - (1 - |p.get ax.a2|)))).1
    = a at *
  generalize (disk2sq (p.get ax.a0 / √(2 - (1 - |p.get ax.a2|))) (p.get ax.a1 / √(2 - (1 - |p.get ax.a2|)))).2
    = b at *
  rw [abs_le] at b1 b2
  unfold InRect zsign
  by_cases hn : p.get ax.a2 < 0
  · have hlt := (b3 (by have := abs_pos.mpr hn.ne; linarith)).1
    rw [abs_lt] at hlt
    cases flipu <;> simp only [if_pos hn, if_true, Bool.false_eq_true, if_false] <;> norm_num <;>
      (try simp only [hn, true_iff]) <;>
      refine ⟨⟨?_, ?_, ?_, ?_⟩, ?_⟩ <;> linarith [hlt.1, hlt.2, b2.1, b2.2]
  · cases flipu <;> simp only [if_neg hn, if_true, Bool.false_eq_true, if_false] <;> norm_num <;>
      (have hn' := not_lt.mp hn) <;>
      refine ⟨⟨?_, ?_, ?_, ?_⟩, ⟨fun _ => ?_, fun _ => ?_⟩⟩ <;> linarith [b1.1, b1.2, b2.1, b2.2]

/-- rebuilding a unit vector from its uv: both orientations at once. With `flipu`/`xsign=-1` the result is
`p`; without, the first mapped component is multiplied by the sign of the third. -/
theorem rebuild (e : V3) (ax : Axes) (hax : ax.Ok) (flipu : Bool) (p : V3) (hp : p.normSq = 1) :
    (uv2xyzOn e ax (if flipu then -1 else 1) (xyz2uvA false ax flipu p)).get ax.a0
        = (if flipu then 1 else zsign (p.get ax.a2)) * p.get ax.a0 ∧
    (uv2xyzOn e ax (if flipu then -1 else 1) (xyz2uvA false ax flipu p)).get ax.a1 = p.get ax.a1 ∧
    (uv2xyzOn e ax (if flipu then -1 else 1) (xyz2uvA false ax flipu p)).get ax.a2 = p.get ax.a2 := by
  obtain ⟨hz, hr, hs⟩ := unit_sq hax hp
  have hu := (C23_in_rect ax hax flipu p hp).2
  rw [uv2xyz_c0 _ hax, uv2xyz_c1 _ hax, uv2xyz_c2 _ hax]
  have hhemi : hemi (xyz2uvA false ax flipu p).1 = zsign (p.get ax.a2) := by
    unfold hemi zsign
    by_cases hn : p.get ax.a2 < 0
    · rw [if_pos hn, if_pos (hu.mp hn)]
    · rw [if_neg hn, if_neg (fun h => hn (hu.mpr h))]
  -- the centred square point
  obtain ⟨A, hA⟩ : ∃ A : ℝ × ℝ, disk2sq (p.get ax.a0 / √(2 - (1 - |p.get ax.a2|)))
    (p.get ax.a1 / √(2 - (1 - |p.get ax.a2|))) = A := ⟨_, rfl⟩
  obtain ⟨e1, e2⟩ := sq_disk2sq (p.get ax.a0 / √(2 - (1 - |p.get ax.a2|)))
    (p.get ax.a1 / √(2 - (1 - |p.get ax.a2|)))
  rw [hA] at e1 e2
  have hv : 2 * (xyz2uvA false ax flipu p).2 - 1 = A.2 := by
    unfold xyz2uvA xyz2sq sq2uv
    simp only [Bool.false_eq_true, if_false]
    rw [zsign_mul, hA]; ring
  have hua : 2 * foldU (xyz2uvA false ax flipu p).1 - 1
      = (if flipu then -zsign (p.get ax.a2) else 1) * A.1 := by
    unfold foldU
    by_cases hn : p.get ax.a2 < 0
    · have := hu.mp hn
      rw [if_pos this]
      unfold xyz2uvA xyz2sq sq2uv
      simp only [Bool.false_eq_true, if_false]
      rw [zsign_mul, hA]
      have hzs : zsign (p.get ax.a2) = -1 := by unfold zsign; rw [if_pos hn]
      rw [hzs]
      cases flipu <;> norm_num <;> ring
    · rw [if_neg (fun h => hn (hu.mpr h))]
      unfold xyz2uvA xyz2sq sq2uv
      simp only [Bool.false_eq_true, if_false]
      rw [zsign_mul, hA]
      have hzs : zsign (p.get ax.a2) = 1 := by unfold zsign; rw [if_neg hn]
      rw [hzs]
      cases flipu <;> norm_num <;> ring
  rw [hhemi, hv, hua]
  -- mirror
  have hm : ∀ s : ℝ, (s = 1 ∨ s = -1) → sqX (s * A.1) A.2 = s * sqX A.1 A.2 ∧ sqY (s * A.1) A.2 = sqY A.1 A.2 := by
    rintro s (rfl | rfl)
    · simp
    · have := sq_mirror A.1 A.2
      simpa using this
  have hzz := zsign_sq (p.get ax.a2)
  have hs1 : (if flipu then -zsign (p.get ax.a2) else 1) = 1 ∨ (if flipu then -zsign (p.get ax.a2) else 1) = -1 := by
    unfold zsign; cases flipu <;> by_cases hn : p.get ax.a2 < 0 <;> simp [hn]
  obtain ⟨m1, m2⟩ := hm _ hs1
  have hrr : sqR ((if flipu then -zsign (p.get ax.a2) else 1) * A.1) A.2
      * sqR ((if flipu then -zsign (p.get ax.a2) else 1) * A.1) A.2 = 1 - |p.get ax.a2| := by
    rw [← sqXY_sq, m1, m2, e1, e2]
    refine Eq.trans ?_ hr
    rcases hs1 with h | h <;> rw [h] <;> ring
  rw [m1, m2, hrr, e1, e2]
  refine ⟨?_, ?_, ?_⟩
  · have : (if flipu then (-1 : ℝ) else 1) * zsign (p.get ax.a2) *
        ((if flipu then -zsign (p.get ax.a2) else 1) * (p.get ax.a0 / √(2 - (1 - |p.get ax.a2|)))) *
        √(2 - (1 - |p.get ax.a2|))
        = ((if flipu then (-1 : ℝ) else 1) * (zsign (p.get ax.a2) * (if flipu then -zsign (p.get ax.a2) else 1)))
          * (p.get ax.a0 / √(2 - (1 - |p.get ax.a2|)) * √(2 - (1 - |p.get ax.a2|))) := by ring
    rw [this, div_mul_cancel₀ _ hs.ne']
    cases flipu
    · simp
    · simp only [if_true, mul_neg, hzz]; ring
  · rw [div_mul_cancel₀ _ hs.ne']
  · have : 1 - (1 - |p.get ax.a2|) = |p.get ax.a2| := by ring
    rw [this, ← zsign_mul, ← mul_assoc, hzz, one_mul]

/-- **C23** direction → uv → direction is the identity on the whole sphere (view-mapper orientation),
for every axis permutation. -/
theorem C23_xyz_uv_xyz (e : V3) (ax : Axes) (hax : ax.Ok) (p : V3) (hp : p.normSq = 1) :
    uv2xyzOn e ax (-1) (xyz2uvA false ax true p) = p := by
  obtain ⟨h0, h1, h2⟩ := rebuild e ax hax true p hp
  simp only [if_true, one_mul] at h0 h1 h2
  exact V3.ext_axes hax h0 h1 h2

theorem normSq_norm {v : V3} (h : v ≠ V3.zero) : (norm v).normSq = 1 := by
  rw [← len_sq, (C20_norm_unit v h).1]; norm_num

/-- **C23** with `normalize=True`: every nonzero vector comes back normalised. -/
theorem C23_xyz_uv_xyz_normalize (e : V3) (ax : Axes) (hax : ax.Ok) (p : V3) (hp : p ≠ V3.zero) :
    uv2xyzOn e ax (-1) (xyz2uvA true ax true p) = norm p ∧ InRect (xyz2uvA true ax true p) := by
  have : xyz2uvA true ax true p = xyz2uvA false ax true (norm p) := by simp [xyz2uvA]
  rw [this]
  exact ⟨C23_xyz_uv_xyz e ax hax _ (normSq_norm hp), (C23_in_rect ax hax true _ (normSq_norm hp)).1⟩

example : (⟨2 / 3, -1 / 3, -2 / 3⟩ : V3).normSq = 1 := by norm_num [V3.normSq]

/-! ### C24 -/

/-- square coordinates of `uv2xyz` output: the first component carries `xsign * n`. -/
theorem xyz2sq_uv2xyz (e : V3) (ax : Axes) (hax : ax.Ok) (xs : ℝ) (hxs : xs = 1 ∨ xs = -1)
    (uv : ℝ × ℝ) (huv : InRect uv) :
    xyz2sq ((uv2xyzOn e ax xs uv).get ax.a0) ((uv2xyzOn e ax xs uv).get ax.a1)
      ((uv2xyzOn e ax xs uv).get ax.a2)
      = (xs * hemi uv.1 * (2 * foldU uv.1 - 1), 2 * uv.2 - 1) := by
  obtain ⟨h1, h2, h3, h4⟩ := huv
  obtain ⟨ha, hb⟩ := fold_bounds h1 h2 h3 h4
  have hr := sqR_le ha hb
  rw [uv2xyz_c0 _ hax, uv2xyz_c1 _ hax, uv2xyz_c2 _ hax]
  rw [xyz2sq_lift _ hr]
  · have hsg : xs * hemi uv.1 = 1 ∨ xs * hemi uv.1 = -1 := by
      unfold hemi
      rcases hxs with rfl | rfl <;> split_ifs <;> norm_num
    rcases hsg with h | h
    · rw [h, one_mul, one_mul, disk2sq_sq]
    · rw [h, neg_one_mul, neg_one_mul, disk2sq_mirror, disk2sq_sq]
  · rw [abs_mul, abs_of_nonneg (sub_nonneg.mpr hr)]
    unfold hemi; split_ifs <;> simp

/-- **C24** uv → direction → uv is the identity on the first square and on the open second square. -/
theorem C24_uv_xyz_uv (e : V3) (ax : Axes) (hax : ax.Ok) (uv : ℝ × ℝ)
    (h : (0 ≤ uv.1 ∧ uv.1 ≤ 1 ∧ 0 ≤ uv.2 ∧ uv.2 ≤ 1) ∨ (1 < uv.1 ∧ uv.1 < 2 ∧ 0 < uv.2 ∧ uv.2 < 1)) :
    xyz2uvA false ax true (uv2xyzOn e ax (-1) uv) = uv := by
  have hrect : InRect uv := by
    rcases h with ⟨a, b, c, d⟩ | ⟨a, b, c, d⟩
    · exact ⟨a, by linarith, c, d⟩
    · exact ⟨by linarith, b.le, c.le, d.le⟩
  have hsq := xyz2sq_uv2xyz e ax hax (-1) (Or.inr rfl) uv hrect
  have hz : zsign ((uv2xyzOn e ax (-1) uv).get ax.a2) = hemi uv.1 := by
    rw [uv2xyz_c2 _ hax]
    obtain ⟨h1, h2, h3, h4⟩ := hrect
    obtain ⟨ha, hb⟩ := fold_bounds h1 h2 h3 h4
    have hr := sqR_le ha hb
    rcases h with ⟨a, b, c, d⟩ | ⟨a, b, c, d⟩
    · have : hemi uv.1 = 1 := by unfold hemi; rw [if_neg (not_lt.mpr b)]
      rw [this]; unfold zsign; rw [if_neg (by linarith)]
    · have : hemi uv.1 = -1 := by unfold hemi; rw [if_pos a]
      have hlt : sqR (2 * foldU uv.1 - 1) (2 * uv.2 - 1) * sqR (2 * foldU uv.1 - 1) (2 * uv.2 - 1) < 1 := by
        rw [sqR_sq, max_lt_iff]
        unfold foldU; rw [if_pos a]
        constructor <;> nlinarith
      rw [this]; unfold zsign; rw [if_pos (by linarith)]
  unfold xyz2uvA
  simp only [Bool.false_eq_true, if_false]
  rw [hsq, hz]
  unfold sq2uv
  simp only [if_true]
  refine Prod.ext ?_ (by simp only; ring)
  simp only
  unfold hemi foldU
  by_cases hu : uv.1 > 1
  · simp only [if_pos hu]; norm_num; ring
  · simp only [if_neg hu]; norm_num

/-- **C24** the excluded edge: on the border of the second square (the equator, `z = 0`) the same direction
also belongs to the first square, and that is the uv returned: `u` is mirrored into `2 - u`. -/
theorem C24_equator (e : V3) (ax : Axes) (hax : ax.Ok) (uv : ℝ × ℝ) (h : InRect uv) (hu : 1 < uv.1)
    (hedge : max |2 * uv.1 - 3| |2 * uv.2 - 1| = 1) :
    xyz2uvA false ax true (uv2xyzOn e ax (-1) uv) = (2 - uv.1, uv.2) := by
  have hsq := xyz2sq_uv2xyz e ax hax (-1) (Or.inr rfl) uv h
  have hz : zsign ((uv2xyzOn e ax (-1) uv).get ax.a2) = 1 := by
    rw [uv2xyz_c2 _ hax, ← sqXY_sq, disk_radius]
    have : 2 * foldU uv.1 - 1 = 2 * uv.1 - 3 := by unfold foldU; rw [if_pos hu]; ring
    rw [this, hedge]
    simp [zsign]
  unfold xyz2uvA
  simp only [Bool.false_eq_true, if_false]
  rw [hsq, hz]
  unfold sq2uv hemi foldU
  simp only [if_true, if_pos hu]
  refine Prod.ext ?_ (by simp only; ring)
  norm_num
  ring

example : InRect (1.5, 1) ∧ (1 : ℝ) < 1.5 ∧ max |2 * (1.5 : ℝ) - 3| |2 * (1 : ℝ) - 1| = 1 := by
  unfold InRect; norm_num

/-! ### C25 -/

/-- The full statement of C25. -/
def C25_statement : Prop :=
  ∀ p : V3, p.normSq = 1 → uv2xyz 1 (xyz2uv false p) = p

/-- what the code does in the sky orientation: below the horizon the first component is mirrored -/
theorem C25_sky_orientation (p : V3) (hp : p.normSq = 1) :
    uv2xyz 1 (xyz2uv false p) = if p.z < 0 then ⟨-p.x, p.y, p.z⟩ else p := by
  obtain ⟨h0, h1, h2⟩ := rebuild V3.zero Axes.std Axes.std_ok false p hp
  simp only [Bool.false_eq_true, if_false] at h0 h1 h2
  have key : (uv2xyz 1 (xyz2uv false p)).x = zsign p.z * p.x ∧ (uv2xyz 1 (xyz2uv false p)).y = p.y ∧
      (uv2xyz 1 (xyz2uv false p)).z = p.z := ⟨h0, h1, h2⟩
  obtain ⟨k0, k1, k2⟩ := key
  split_ifs with hz
  · refine V3.ext ?_ k1 k2
    rw [k0, zsign, if_pos hz]; ring
  · refine V3.ext ?_ k1 k2
    rw [k0, zsign, if_neg hz]; ring

/-- **C25** holds exactly on the upper hemisphere and the plane `x = 0`. Missing for the full claim: the
directions below the horizon off that plane, where it is false (`C25_refuted`). -/
theorem C25_sky_round_trip_partial (p : V3) (hp : p.normSq = 1) :
    uv2xyz 1 (xyz2uv false p) = p ↔ 0 ≤ p.z ∨ p.x = 0 := by
  rw [C25_sky_orientation p hp]
  split_ifs with hz
  · constructor
    · intro h
      right
      have := congrArg V3.x h
      simp only at this; linarith
    · rintro (h | h)
      · linarith
      · apply V3.ext <;> simp [h]
  · exact ⟨fun _ => Or.inl (not_lt.mp hz), fun _ => rfl⟩

/-- **C25** is false: a direction below the horizon. -/
theorem C25_refuted : ¬ C25_statement := by
  intro h
  have hp : (⟨3 / 5, 0, -4 / 5⟩ : V3).normSq = 1 := by norm_num [V3.normSq]
  have := (C25_sky_round_trip_partial _ hp).mp (h _ hp)
  norm_num at this

end Verif.Geo
