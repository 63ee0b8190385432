import Verif.Props.PatchMean
import Verif.Props.BackThere
import Verif.Props.PixelOmega

/-! C200, light kept when images move between projections: means and sums over the converted image tend to those of the
scene. -/

namespace Verif.Map
open Verif.Geo Real MeasureTheory Set Filter Topology

/-! ### Spec -/

/-- an `n × n` image of the view that holds the scene at its pixel centres -/
def Pictures (v : View) (L : V3 → ℝ) (n : ℕ) (im : Img ℝ) : Prop :=
  im.n = n ∧ im.m = n ∧ ∀ i j, i < n → j < n → im.at_ i j = L (v.pixel2ray n (pixelCentre i j))

/-- an `n × n` square image that holds the scene at its cell centres -/
def Samples (v : View) (L : V3 → ℝ) (n : ℕ) (im : Img ℝ) : Prop :=
  im.n = n ∧ im.m = n ∧ ∀ i j, i < n → j < n → im.at_ i j = L (v.uv2xyz (((i : ℝ) + 1 / 2) / n, ((j : ℝ) + 1 / 2) / n))

/-- the plain mean of an image -/
noncomputable def Img.mean (im : Img ℝ) : ℝ :=
  (∑ i ∈ Finset.range im.n, ∑ j ∈ Finset.range im.m, im.at_ i j) / ((im.n : ℝ) * im.m)

/-- the sum over all pixels of value, weight of the direction and solid angle -/
noncomputable def Img.light (v : View) (w : V3 → ℝ) (im : Img ℝ) : ℝ :=
  ∑ i ∈ Finset.range im.n, ∑ j ∈ Finset.range im.m,
    im.at_ i j * w (v.pixel2ray im.m (pixelCentre i j)) * v.pixel2omega im.m (pixelCentre i j)

/-! ### nearby directions have nearby values -/

theorem smooth_unif {g : V3 → ℝ} (hg : Smooth g) {e : ℝ} (he : 0 < e) : ∃ δ, 0 < δ ∧ ∀ p q : V3, p.normSq = 1 → q.normSq = 1 →
    |p.x - q.x| < δ → |p.y - q.y| < δ → |p.z - q.z| < δ → |g p - g q| < e := by
  have hu := (isCompact_Icc (a := ((-1, -1, -1) : ℝ × ℝ × ℝ)) (b := (1, 1, 1))).uniformContinuousOn_of_continuous hg.continuousOn
  rw [Metric.uniformContinuousOn_iff] at hu
  obtain ⟨δ, h0, h⟩ := hu e he
  have hin : ∀ v : V3, v.normSq = 1 → (v.x, v.y, v.z) ∈ Icc ((-1, -1, -1) : ℝ × ℝ × ℝ) (1, 1, 1) := by
    intro v hv
    unfold V3.normSq at hv
    refine ⟨⟨?_, ?_, ?_⟩, ⟨?_, ?_, ?_⟩⟩ <;> simp only <;> nlinarith [sq_nonneg v.x, sq_nonneg v.y, sq_nonneg v.z]
  refine ⟨δ, h0, fun p q hp hq hx hy hz => ?_⟩
  have := h _ (hin p hp) _ (hin q hq) (by
    rw [Prod.dist_eq, Prod.dist_eq, Real.dist_eq, Real.dist_eq, Real.dist_eq]
    exact max_lt hx (max_lt hy hz))
  rwa [Real.dist_eq] at this

theorem v2w_polar (d : V3) (n : ℕ) (i j : ℕ) : (View.new d 180).pixel2ray n (pixelCentre i j)
    = (View.new d 180).v2w (polar2view (-(((i : ℝ) + 1 / 2) / n - 1 / 2), ((j : ℝ) + 1 / 2) / n - 1 / 2)) := by
  have hc := centred_view (d := d) (va := 180) le_rfl (((i : ℝ) + 1 / 2) / n, ((j : ℝ) + 1 / 2) / n)
  have hk : kOf 180 = 1 := by unfold kOf; rw [cf_180]; norm_num
  rw [hk, mul_one, mul_one] at hc
  unfold View.pixel2ray View.vxy2xyz View.vxy2xyzM pixelCentre
  rw [hc]

theorem v2w_square (d : V3) (uv : ℝ × ℝ) : (View.new d 180).uv2xyz uv = (View.new d 180).v2w (Geo.uv2xyz (-1) uv) := by
  obtain ⟨s, l, -, -⟩ := view180 d
  unfold View.uv2xyz
  rw [s, l]
  simp

/-- two points of the angular image within half a pixel -/
theorem polar_near {u v : ℝ × ℝ} {h : ℝ} (hv : v.1 ^ 2 + v.2 ^ 2 < (1 / 2) ^ 2) (h1 : |u.1 - v.1| ≤ h / 2) (h2 : |u.2 - v.2| ≤ h / 2)
    (hh : h ≤ 1 / 4) :
    |(polar2view u).x - (polar2view v).x| ≤ 4 * h ∧ |(polar2view u).y - (polar2view v).y| ≤ 4 * h ∧
      |(polar2view u).z - (polar2view v).z| ≤ 4 * h := by
  have hpi := pi_pos
  have h0 : 0 ≤ h := by linarith [(abs_nonneg _).trans h1]
  have hd : rad2 (u.1 - v.1, u.2 - v.2) ≤ h := by
    unfold rad2
    refine sqrt_le_iff.mpr ⟨h0, ?_⟩
    simp only
    have a := sq_le_sq' (abs_le.mp h1).1 (abs_le.mp h1).2
    have b := sq_le_sq' (abs_le.mp h2).1 (abs_le.mp h2).2
    nlinarith
  have hv' : rad2 v ≤ 1 / 2 := by
    unfold rad2
    exact sqrt_le_iff.mpr ⟨by norm_num, hv.le⟩
  have hu' : rad2 u ≤ rad2 v + rad2 (u.1 - v.1, u.2 - v.2) := by
    have := hyp_add v.1 v.2 (u.1 - v.1) (u.2 - v.2)
    unfold rad2
    simp only
    rwa [add_sub_cancel, add_sub_cancel] at this
  have hc := chord_le (u := u) (v := v) (by linarith) (by linarith) (by linarith)
  have hr0 := rad2_nonneg (u.1 - v.1, u.2 - v.2)
  have hs : sin (π * rad2 (u.1 - v.1, u.2 - v.2) / 2) ≤ π * rad2 (u.1 - v.1, u.2 - v.2) / 2 := sin_le (by positivity)
  have hs0 : 0 ≤ sin (π * rad2 (u.1 - v.1, u.2 - v.2) / 2) := by
    refine sin_nonneg_of_nonneg_of_le_pi (by positivity) ?_
    nlinarith
  have hb : 2 * sin (π * rad2 (u.1 - v.1, u.2 - v.2) / 2) ≤ 4 * h := by
    have := pi_le_four
    nlinarith
  have hn : ((polar2view u).sub (polar2view v)).normSq ≤ (4 * h) ^ 2 := by
    refine hc.trans ?_
    nlinarith
  unfold V3.normSq V3.sub at hn
  simp only at hn
  refine ⟨abs_le_of_sq_le_sq ?_ (by positivity), abs_le_of_sq_le_sq ?_ (by positivity), abs_le_of_sq_le_sq ?_ (by positivity)⟩ <;>
    nlinarith [sq_nonneg ((polar2view u).x - (polar2view v).x), sq_nonneg ((polar2view u).y - (polar2view v).y),
      sq_nonneg ((polar2view u).z - (polar2view v).z)]

theorem half_cell {n : ℕ} (hn : 0 < n) {u : ℝ} {a : ℕ} (h1 : (a : ℝ) / n ≤ u) (h2 : u < (a + 1) / n) :
    |((a : ℝ) + 1 / 2) / n - u| ≤ 1 / n / 2 := by
  have hr' : (0 : ℝ) < n := by exact_mod_cast hn
  have e1 : ((a : ℝ) + 1 / 2) / n = a / n + 1 / n / 2 := by ring
  have e2 : ((a : ℝ) + 1) / n = a / n + 1 / n := by ring
  rw [e2] at h2
  rw [e1, abs_le]
  constructor <;> linarith

/-! ### from the angular to the square image -/

/-- entry by entry, the square image made of a picture of the scene tends to the scene at the cell centres -/
theorem convert_near (d : V3) (hd : d ≠ V3.zero) (L : V3 → ℝ) (hL : Smooth L) {e : ℝ} (he : 0 < e) :
    ∀ᶠ n : ℕ in atTop, ∀ im sq : Img ℝ, Pictures (View.new d 180) L n im → SquareOf (View.new d 180) im sq →
      ∀ i j, i < n → j < n →
        |sq.at_ i j - L ((View.new d 180).uv2xyz (((i : ℝ) + 1 / 2) / n, ((j : ℝ) + 1 / 2) / n))| < e := by
  obtain ⟨δ, hδ, hu⟩ := smooth_unif (smooth_v2w hL (View.new d 180)) he
  have hlim : Tendsto (fun n : ℕ => (1 : ℝ) / n) atTop (𝓝 0) := tendsto_one_div_atTop_nhds_zero_nat
  filter_upwards [hlim.eventually (gt_mem_nhds (show (0 : ℝ) < δ / 4 by positivity)), eventually_ge_atTop 4] with n hsm hn
    im sq hp hs i j hi hj
  obtain ⟨p1, p2, p3⟩ := hp
  obtain ⟨s1, s2, s3⟩ := hs
  have hnr : (4 : ℝ) ≤ n := by exact_mod_cast hn
  obtain ⟨a, b, ha, hb, hok, ⟨h1, h2⟩, h3, h4⟩ := C63_ang2uv d hd 180 (by norm_num) le_rfl im (p1.trans p2.symm) i j
    (by rw [p2]; exact hi) (by rw [p2]; exact hj)
  have hv := s3 i j (by rw [p2]; exact hi) (by rw [p2]; exact hj)
  rw [hok] at hv
  injection hv with hv
  rw [← hv, p3 a b (by omega) (by omega), v2w_polar, v2w_square]
  rw [p2] at h1 h2 h3 h4
  rw [show (0.5 : ℝ) = 1 / 2 by norm_num] at h1 h2 h3 h4
  obtain ⟨a1, a2⟩ := cell_unit hi
  obtain ⟨b1, b2⟩ := cell_unit hj
  rw [show (0.5 : ℝ) = 1 / 2 by norm_num] at a1 a2 b1 b2
  have hbox : (2 * (((i : ℝ) + 1 / 2) / n) - 1, 2 * (((j : ℝ) + 1 / 2) / n) - 1) ∈ box :=
    ⟨by simp only; linarith, by simp only; linarith, by simp only; linarith, by simp only; linarith⟩
  have hin := uv_in_image d hd 180 (by norm_num) le_rfl (((i : ℝ) + 1 / 2) / n, ((j : ℝ) + 1 / 2) / n) a1 a2 b1 b2
  rw [drawn_at d hd _ hbox] at h1 h2 h3 h4 hin
  have hunit := (C21_uv2xyz_sphere V3.zero Axes.std Axes.std_ok (-1) (Or.inr rfl) (((i : ℝ) + 1 / 2) / n, ((j : ℝ) + 1 / 2) / n)
    ⟨a1.le, by linarith, b1.le, b2.le⟩).1
  have hn0 : 0 < n := by omega
  have k1 := half_cell hn0 h1 h2
  have k2 := half_cell hn0 h3 h4
  have hx := square_dir (((i : ℝ) + 1 / 2) / n, ((j : ℝ) + 1 / 2) / n) hbox
  simp only at hx hin k1 k2
  have hq : (1 : ℝ) / n ≤ 1 / 4 := one_div_le_one_div_of_le (by norm_num) hnr
  obtain ⟨c1, c2, c3⟩ := polar_near (u := (-(((a : ℝ) + 1 / 2) / n - 1 / 2), ((b : ℝ) + 1 / 2) / n - 1 / 2))
    (v := (-imgA (2 * (((i : ℝ) + 1 / 2) / n) - 1, 2 * (((j : ℝ) + 1 / 2) / n) - 1),
      imgB (2 * (((i : ℝ) + 1 / 2) / n) - 1, 2 * (((j : ℝ) + 1 / 2) / n) - 1))) (h := 1 / n)
    (by simp only; nlinarith) (by
      simp only
      rw [show -(((a : ℝ) + 1 / 2) / n - 1 / 2) - -imgA (2 * (((i : ℝ) + 1 / 2) / n) - 1, 2 * (((j : ℝ) + 1 / 2) / n) - 1)
        = -(((a : ℝ) + 1 / 2) / n - (1 / 2 + imgA (2 * (((i : ℝ) + 1 / 2) / n) - 1, 2 * (((j : ℝ) + 1 / 2) / n) - 1))) by ring, abs_neg]
      exact k1) (by
      simp only
      rw [show ((b : ℝ) + 1 / 2) / n - 1 / 2 - imgB (2 * (((i : ℝ) + 1 / 2) / n) - 1, 2 * (((j : ℝ) + 1 / 2) / n) - 1)
        = ((b : ℝ) + 1 / 2) / n - (1 / 2 + imgB (2 * (((i : ℝ) + 1 / 2) / n) - 1, 2 * (((j : ℝ) + 1 / 2) / n) - 1)) by ring]
      exact k2) hq
  rw [← hx] at c1 c2 c3
  exact hu _ _ (polar2view_unit _) hunit (by linarith) (by linarith) (by linarith)

theorem mean_diff {f g : ℕ → ℕ → ℝ} {n : ℕ} {e : ℝ} (hn : 0 < n) (h : ∀ i j, i < n → j < n → |f i j - g i j| ≤ e) :
    |(∑ i ∈ Finset.range n, ∑ j ∈ Finset.range n, f i j) / (n : ℝ) ^ 2
      - (∑ i ∈ Finset.range n, ∑ j ∈ Finset.range n, g i j) / (n : ℝ) ^ 2| ≤ e := by
  have hn' : (0 : ℝ) < n := by exact_mod_cast hn
  rw [← sub_div, abs_div, abs_of_pos (by positivity : (0 : ℝ) < (n : ℝ) ^ 2), div_le_iff₀ (by positivity), ← Finset.sum_sub_distrib]
  refine (Finset.abs_sum_le_sum_abs _ _).trans ?_
  have : ∀ i ∈ Finset.range n, |∑ j ∈ Finset.range n, f i j - ∑ j ∈ Finset.range n, g i j| ≤ n * e := by
    intro i hi
    rw [← Finset.sum_sub_distrib]
    refine (Finset.abs_sum_le_sum_abs _ _).trans ?_
    refine (Finset.sum_le_sum fun j hj => h i j (Finset.mem_range.mp hi) (Finset.mem_range.mp hj)).trans ?_
    simp
  refine (Finset.sum_le_sum this).trans ?_
  simp only [Finset.sum_const, Finset.card_range, nsmul_eq_mul]
  nlinarith

/-- **C200, angular to square.** Picture any continuous scene with a 180 degree view at growing resolutions and turn the
pictures into square images: their plain means tend to the average of the scene over the solid angle of the view. -/
theorem C200_mean (d : V3) (hd : d ≠ V3.zero) (L : V3 → ℝ) (hL : Smooth L) (im sq : ℕ → Img ℝ)
    (hp : ∀ n, Pictures (View.new d 180) L n (im n)) (hs : ∀ n, SquareOf (View.new d 180) (im n) (sq n)) :
    Tendsto (fun n => (sq n).mean) atTop (𝓝 (capIntegral (π / 2) (fun p => L ((View.new d 180).v2w p)) / (2 * π))) := by
  have base := C199_cells _ (smooth_v2w hL (View.new d 180)) (-1) (Or.inr rfl)
  rw [Metric.tendsto_atTop'] at base ⊢
  intro e he
  obtain ⟨N, hN⟩ := base (e / 2) (by positivity)
  obtain ⟨N', hN'⟩ := eventually_atTop.mp (convert_near d hd L hL (show (0 : ℝ) < e / 2 by positivity))
  refine ⟨max N N', fun n hn => ?_⟩
  have h1 := hN n (lt_of_le_of_lt (le_max_left _ _) hn)
  have h2 := hN' n ((le_max_right _ _).trans hn.le) (im n) (sq n) (hp n) (hs n)
  rw [Real.dist_eq] at h1 ⊢
  have e1 : (sq n).n = n := (hs n).1.trans (hp n).2.1
  have e2 : (sq n).m = n := (hs n).2.1.trans (hp n).2.1
  have h3 := mean_diff (f := (sq n).at_) (by omega : 0 < n) fun i j hi hj => (h2 i j hi hj).le
  simp only [v2w_square] at h3
  unfold Img.mean
  rw [e1, e2, ← pow_two (n : ℝ)]
  rw [abs_lt] at h1 ⊢
  rw [abs_le] at h3
  constructor <;> linarith [h1.1, h1.2, h3.1, h3.2]

/-! ### from the square to the angular image -/

/-- every pixel in view of the angular image made of a square one tends to the scene at its own direction, every other is
zero -/
theorem convert_back (L : V3 → ℝ) (hL : Smooth L) {e : ℝ} (he : 0 < e) :
    ∀ᶠ n : ℕ in atTop, ∀ sq im : Img ℝ, Samples (dfltView 180) L n sq → AngularOf sq im → ∀ i j, i < n → j < n →
      ((dfltView 180).inView 0 ((dfltView 180).pixel2ray n (pixelCentre i j)) →
        |im.at_ i j - L ((dfltView 180).pixel2ray n (pixelCentre i j))| < e) ∧
      (¬ (dfltView 180).inView 0 ((dfltView 180).pixel2ray n (pixelCentre i j)) → im.at_ i j = 0) := by
  obtain ⟨δ, hδ, hu⟩ := smooth_unif (smooth_v2w hL (dfltView 180)) he
  have hlim : Tendsto (fun n : ℕ => (1 : ℝ) / n) atTop (𝓝 0) := tendsto_one_div_atTop_nhds_zero_nat
  filter_upwards [hlim.eventually (gt_mem_nhds (show (0 : ℝ) < δ / 28 by positivity)), eventually_ge_atTop 1] with n hsm hn
    sq im hp hs i j hi hj
  obtain ⟨p1, p2, p3⟩ := hp
  obtain ⟨s1, s2, s3⟩ := hs
  have hn0 : 0 < n := hn
  obtain ⟨c1, c2⟩ := C63_uv2ang sq (p1.trans p2.symm) i j (by omega) (by omega)
  have hv := s3 i j (by omega) (by omega)
  obtain ⟨u1, u2⟩ := cell_unit hi
  obtain ⟨u3, u4⟩ := cell_unit hj
  norm_num only at u1 u2 u3 u4
  have hcirc : (dfltView 180).inView 0 ((dfltView 180).pixel2ray n (pixelCentre i j)) ↔
      (((i : ℝ) + 1 / 2) / n - 1 / 2) ^ 2 + (((j : ℝ) + 1 / 2) / n - 1 / 2) ^ 2 < (1 / 2) ^ 2 :=
    C53_circle_partial ⟨0, 1, 0⟩ dflt_clear 180 (by norm_num) (by norm_num) _ u1.le u2.le u3.le u4.le
  rw [p2] at c1 c2
  refine ⟨fun h => ?_, fun h => ?_⟩
  · have hpu : ((dfltView 180).pixel2ray n (pixelCentre i j)).normSq = 1 := pixel_unit ⟨0, 1, 0⟩ dflt_ne 180 _ _
    obtain ⟨a, b, ha, hb, hok, h1, h2, h3, h4⟩ := c1 (hcirc.mp h)
    rw [hok] at hv
    injection hv with hv
    rw [← hv, p3 a b (by omega) hb]
    have hback := back_from_square ⟨0, 1, 0⟩ dflt_ne _ hpu
    rw [v2w_square] at hback
    set w := (dfltView 180).xyz2uv ((dfltView 180).pixel2ray n (pixelCentre i j)) with hw
    have hz : 0 < ((dfltView 180).w2v ((dfltView 180).pixel2ray n (pixelCentre i j))).z :=
      (inView180_z ⟨0, 1, 0⟩ dflt_clear _ hpu).mp h
    obtain ⟨x0, x1, y0, y1⟩ := uv_front (w2v_unit ⟨0, 1, 0⟩ dflt_ne 180 _ hpu) hz
    have huv : w = Geo.xyz2uv true ((View.new ⟨0, 1, 0⟩ 180).w2v ((dfltView 180).pixel2ray n (pixelCentre i j))) := by
      obtain ⟨s, l, -, -⟩ := view180 ⟨0, 1, 0⟩
      rw [hw]
      unfold dfltView View.xyz2uv
      rw [s, l]
      refine Prod.ext ?_ ?_ <;> simp
    rw [← huv] at x0 x1 y0 y1
    have hrect : InRect w := ⟨x0.le, by linarith, y0.le, y1.le⟩
    obtain ⟨r1, r2⟩ := cell_unit (show a < n by omega)
    obtain ⟨r3, r4⟩ := cell_unit hb
    rw [show (0.5 : ℝ) = 1 / 2 by norm_num] at r1 r2 r3 r4
    have hrect' : InRect (((a : ℝ) + 1 / 2) / n, ((b : ℝ) + 1 / 2) / n) := ⟨r1.le, by simp only; linarith, r3.le, r4.le⟩
    obtain ⟨g1, g2, g3⟩ := C179_join (-1) (Or.inr rfl) _ _ (1 / n / 2) hrect' hrect (half_cell hn0 h1 h2) (half_cell hn0 h3 h4)
    rw [← show (View.new ⟨0, 1, 0⟩ 180).v2w (Geo.uv2xyz (-1) w) = (dfltView 180).pixel2ray n (pixelCentre i j) from hback]
    rw [show (dfltView 180).uv2xyz (((a : ℝ) + 1 / 2) / n, ((b : ℝ) + 1 / 2) / n)
      = (View.new ⟨0, 1, 0⟩ 180).v2w (Geo.uv2xyz (-1) (((a : ℝ) + 1 / 2) / n, ((b : ℝ) + 1 / 2) / n)) from v2w_square _ _]
    have hpos : (0 : ℝ) < 1 / n := by positivity
    exact hu _ _ (C21_uv2xyz_sphere V3.zero Axes.std Axes.std_ok (-1) (Or.inr rfl) _ hrect').1
      (C21_uv2xyz_sphere V3.zero Axes.std Axes.std_ok (-1) (Or.inr rfl) _ hrect).1 (by linarith) (by linarith) (by linarith)
  · rw [c2 fun hh => h (hcirc.mpr hh)] at hv
    injection hv with hv
    exact hv.symm

/-- **C200, square to angular.** Sample any continuous scene at the cells of square images of growing resolution and turn
them into angular images: the sum over the pixels of value, any continuous weight of the direction, and solid angle tends to
the integral of scene times weight over the hemisphere.  With weight one this is the light of the scene, with the cosine
to the line of sight its illuminance. -/
theorem C200_light (L w : V3 → ℝ) (hL : Smooth L) (hw : Smooth w) (sq im : ℕ → Img ℝ)
    (hp : ∀ n, Samples (dfltView 180) L n (sq n)) (hs : ∀ n, AngularOf (sq n) (im n)) :
    Tendsto (fun n => (im n).light (dfltView 180) w) atTop
      (𝓝 (capIntegral (π / 2) fun p => L ((dfltView 180).v2w p) * w ((dfltView 180).v2w p))) := by
  have hLw : Smooth fun p => L p * w p := by unfold Smooth at *; exact hL.mul hw
  have ha : chordFactor 180 * 180 * π / 360 = π / 2 := by rw [cf_180]; ring
  have base := C158_limit ⟨0, 1, 0⟩ dflt_clear 180 (by norm_num) le_rfl _ hLw
  have area := C158_area ⟨0, 1, 0⟩ dflt_clear 180 (by norm_num) le_rfl
  rw [ha] at base area
  obtain ⟨M, hM0, hM⟩ := smooth_bound hw
  rw [cos_pi_div_two, sub_zero, mul_one] at area
  have hpi := pi_pos
  have diff : ∀ e : ℝ, 0 < e → ∀ᶠ n : ℕ in atTop,
      |(im n).light (dfltView 180) w - viewSum (dfltView 180) (fun p => L p * w p) n| ≤ e * M * viewSum (dfltView 180) (fun _ => 1) n := by
    intro e he
    filter_upwards [convert_back L hL he] with n hn
    have hc := hn (sq n) (im n) (hp n) (hs n)
    have e1 : (im n).n = n := (hs n).1.trans (hp n).2.1
    have e2 : (im n).m = n := (hs n).2.1.trans (hp n).2.1
    unfold Img.light viewSum
    rw [e1, e2, ← Finset.sum_sub_distrib, Finset.mul_sum]
    refine (Finset.abs_sum_le_sum_abs _ _).trans (Finset.sum_le_sum fun i hi => ?_)
    rw [← Finset.sum_sub_distrib, Finset.mul_sum]
    refine (Finset.abs_sum_le_sum_abs _ _).trans (Finset.sum_le_sum fun j hj => ?_)
    obtain ⟨k1, k2⟩ := hc i j (Finset.mem_range.mp hi) (Finset.mem_range.mp hj)
    have ho : 0 ≤ (dfltView 180).pixel2omega n (pixelCentre i j) := sqrt_nonneg _
    have hm := hM _ (pixel_unit ⟨0, 1, 0⟩ dflt_ne 180 n (pixelCentre i j))
    split_ifs with h
    · have h1 := (k1 h).le
      rw [show ∀ a b c o : ℝ, a * b * o - c * b * o = (a - c) * b * o from fun a b c o => by ring, abs_mul, abs_mul,
        abs_of_nonneg ho, one_mul]
      gcongr
      exact hm
    · rw [k2 h]; simp
  have zero : Tendsto (fun n => (im n).light (dfltView 180) w - viewSum (dfltView 180) (fun p => L p * w p) n) atTop (𝓝 0) := by
    rw [Metric.tendsto_nhds]
    intro e he
    have hA : (0 : ℝ) < M * (2 * π + 1) + 1 := by positivity
    filter_upwards [diff (e / (M * (2 * π + 1) + 1)) (by positivity), area.eventually (gt_mem_nhds (show 2 * π < 2 * π + 1 by linarith))]
      with n h1 h2
    rw [Real.dist_eq, sub_zero]
    refine lt_of_le_of_lt h1 ?_
    have h2' : viewSum (dfltView 180) (fun _ => 1) n < 2 * π + 1 := h2
    rw [div_mul_eq_mul_div, div_mul_eq_mul_div, div_lt_iff₀ hA]
    nlinarith [mul_le_mul_of_nonneg_left h2'.le (mul_nonneg he.le hM0)]
  have := zero.add base
  simp only [zero_add] at this
  refine this.congr fun n => ?_
  show _ - viewSum (dfltView 180) _ n + viewSum (dfltView 180) _ n = _
  ring

/-! ### there are such pictures -/

theorem pictures_exist (v : View) (L : V3 → ℝ) (n : ℕ) : ∃ im, Pictures v L n im :=
  ⟨⟨n, n, fun i j => L (v.pixel2ray n (pixelCentre i j))⟩, rfl, rfl, fun _ _ _ _ => rfl⟩

theorem samples_exist (v : View) (L : V3 → ℝ) (n : ℕ) : ∃ im, Samples v L n im :=
  ⟨⟨n, n, fun i j => L (v.uv2xyz (((i : ℝ) + 1 / 2) / n, ((j : ℝ) + 1 / 2) / n))⟩, rfl, rfl, fun _ _ _ _ => rfl⟩

/-- a scene brighter towards the line of sight: the mean of its square images tends to one half -/
example : ∃ im sq : ℕ → Img ℝ, (∀ n, Pictures (dfltView 180) (fun p => p.y) n (im n)) ∧
    (∀ n, SquareOf (dfltView 180) (im n) (sq n)) := by
  choose im him using pictures_exist (dfltView 180) fun p => p.y
  choose sq hsq using fun n => squareOf_exists ⟨0, 1, 0⟩ dflt_ne (im n) ((him n).1.trans (him n).2.1.symm)
  exact ⟨im, sq, him, hsq⟩

example : ∃ sq im : ℕ → Img ℝ, (∀ n, Samples (dfltView 180) (fun p => p.y + 2 * p.z) n (sq n)) ∧
    (∀ n, AngularOf (sq n) (im n)) := by
  choose sq hsq using samples_exist (dfltView 180) fun p => p.y + 2 * p.z
  choose im him using fun n => angularOf_exists (sq n) ((hsq n).1.trans (hsq n).2.1.symm)
  exact ⟨sq, im, hsq, him⟩

end Verif.Map
