import Verif.Model.ViewMapper
import Verif.Props.Rotation

/-! Properties of the planar mapper: C47, C48, C49, C55 (planar part), C87. -/

namespace Verif.Map
open Verif.Geo

theorem w2v_one (p : V3) : w2v 1 1 p = p := by unfold w2v; rw [app_one, app_one]
theorem v2w_one (p : V3) : v2w 1 1 p = p := by unfold v2w; rw [Matrix.transpose_one, app_one, app_one]

/-! ### C47 -/

/-- **C47** uv to world and back, for every planar mapper with nonzero scale factors. -/
theorem C47_uv_xyz_uv (d : V3) (sf lo hi : ℝ × ℝ) (a : Option ℝ) (jr z : ℝ) (h1 : sf.1 ≠ 0) (h2 : sf.2 ≠ 0)
    (uv : ℝ × ℝ) : (Planar.new d sf lo hi a jr z).xyz2uv ((Planar.new d sf lo hi a jr z).uv2xyz uv) = uv := by
  unfold Planar.xyz2uv Planar.uv2xyz Planar.new
  simp only [v2w_one, w2v_one]
  apply Prod.ext <;> simp only <;> field_simp <;> ring

/-- **C47** world to uv and back, exactly on the mapper's plane. -/
theorem C47_xyz_uv_xyz (d : V3) (sf lo hi : ℝ × ℝ) (a : Option ℝ) (jr z : ℝ) (h1 : sf.1 ≠ 0) (h2 : sf.2 ≠ 0)
    (p : V3) : (Planar.new d sf lo hi a jr z).uv2xyz ((Planar.new d sf lo hi a jr z).xyz2uv p) = p ↔ p.z = z := by
  unfold Planar.xyz2uv Planar.uv2xyz Planar.new
  simp only [v2w_one, w2v_one]
  constructor
  · intro h; have := congrArg V3.z h; exact this.symm
  · intro h
    apply V3.ext <;> simp only
    · field_simp; ring
    · field_simp; ring
    · exact h.symm

/-- **C47** uv space is the bounding box: with the scale factors equal to the box sides the unit square is mapped
onto the box (`(0,0)` to the lower corner, `(1,1)` to the upper one). -/
theorem C47_box (d : V3) (lo hi : ℝ × ℝ) (a : Option ℝ) (jr z : ℝ) (u v : ℝ) :
    (Planar.new d (hi.1 - lo.1, hi.2 - lo.2) lo hi a jr z).uv2xyz (u, v)
      = ⟨(1 - u) * lo.1 + u * hi.1, (1 - v) * lo.2 + v * hi.2, z⟩ := by
  unfold Planar.uv2xyz Planar.new
  simp only [v2w_one]
  apply V3.ext <;> simp only <;> ring

example : (Planar.new ⟨0, 1, 0⟩ (4, 2) (-2, 1) (2, 3) none 1 5).uv2xyz (1 / 4, 1) = ⟨-1, 3, 5⟩ ∧ (4 : ℝ) ≠ 0 := by
  refine ⟨?_, by norm_num⟩
  unfold Planar.uv2xyz Planar.new
  simp only [v2w_one]
  apply V3.ext <;> norm_num

/-! ### C48 -/

/-- what C48 asks -/
def C48_statement : Prop :=
  ∀ (d : V3) (sf lo hi : ℝ × ℝ) (a : Option ℝ) (jr z : ℝ), sf.1 ≠ 0 → sf.2 ≠ 0 → ∀ (xres yres i j : ℕ),
    i < xres → j < yres →
    (Planar.new d sf lo hi a jr z).ray2pixel (xres, yres)
      ((Planar.new d sf lo hi a jr z).pixel2ray (xres, yres) (pixelCentre i j)) = ((i : ℤ), (j : ℤ))

theorem floor_half (k n : ℤ) (r : ℝ) (h : r = (k : ℝ) + 1 / 2) (hk : n = k) : ⌊r⌋ = n := by
  rw [hk, Int.floor_eq_iff, h]
  constructor <;> linarith

/-- **C48** what the code does: the pixel comes back mirrored along the first axis (the second is kept). Missing
for the full claim: the mirror, `C48_refuted`. -/
theorem C48_mirrored_partial (d : V3) (sf lo hi : ℝ × ℝ) (a : Option ℝ) (jr z : ℝ) (h1 : sf.1 ≠ 0)
    (h2 : sf.2 ≠ 0) (xres yres i j : ℕ) (hi' : i < xres) (hj : j < yres) :
    (Planar.new d sf lo hi a jr z).ray2pixel (xres, yres)
      ((Planar.new d sf lo hi a jr z).pixel2ray (xres, yres) (pixelCentre i j))
        = ((xres : ℤ) - 1 - i, (j : ℤ)) := by
  have hx : (xres : ℝ) ≠ 0 := by have : 0 < xres := by omega
                                 positivity
  have hy : (yres : ℝ) ≠ 0 := by have : 0 < yres := by omega
                                 positivity
  unfold Planar.ray2pixel Planar.pixel2ray Planar.vxy2xyz Planar.vxy2xyzM Planar.xyz2vxy
  simp only
  rw [C47_uv_xyz_uv d sf lo hi a jr z h1 h2]
  unfold pixelCentre
  simp only
  apply Prod.ext <;> simp only
  · refine floor_half _ _ _ ?_ rfl
    push_cast
    field_simp
    ring
  · refine floor_half j _ _ ?_ rfl
    push_cast
    field_simp

/-- hence C48 fails: two pixels side by side are exchanged -/
theorem C48_refuted : ¬ C48_statement := by
  intro h
  have h1 := h ⟨0, 0, 1⟩ (1, 1) (0, 0) (1, 1) none 1 0 (by norm_num) (by norm_num) 2 1 0 0 (by norm_num) (by norm_num)
  have h2 := C48_mirrored_partial ⟨0, 0, 1⟩ (1, 1) (0, 0) (1, 1) none 1 0 (by norm_num) (by norm_num) 2 1 0 0
    (by norm_num) (by norm_num)
  rw [h2] at h1
  have := congrArg Prod.fst h1
  norm_num at this

/-- **C48** every pixel-centre ray is in view, and the pixel areas add up to the area of the box. -/
theorem C48_pixels_in_view (d : V3) (sf lo hi : ℝ × ℝ) (a : Option ℝ) (jr z : ℝ) (h1 : sf.1 ≠ 0)
    (h2 : sf.2 ≠ 0) (xres yres i j : ℕ) (hi' : i < xres) (hj : j < yres) :
    (Planar.new d sf lo hi a jr z).inView
      ((Planar.new d sf lo hi a jr z).pixel2ray (xres, yres) (pixelCentre i j)) ∧
    (xres * yres : ℝ) * (Planar.new d sf lo hi a jr z).pixel2omega (xres, yres)
      = (hi.1 - lo.1) * (hi.2 - lo.2) := by
  have hx : (0 : ℝ) < xres := by have : 0 < xres := by omega
                                 positivity
  have hy : (0 : ℝ) < yres := by have : 0 < yres := by omega
                                 positivity
  have hi1 : ((i : ℝ) + 1) ≤ xres := by exact_mod_cast hi'
  have hj1 : ((j : ℝ) + 1) ≤ yres := by exact_mod_cast hj
  have hi0 : (0 : ℝ) ≤ i := by positivity
  have hj0 : (0 : ℝ) ≤ j := by positivity
  constructor
  · unfold Planar.inView Planar.pixel2ray Planar.vxy2xyz Planar.vxy2xyzM
    simp only
    rw [C47_uv_xyz_uv d sf lo hi a jr z h1 h2]
    unfold pixelCentre
    simp only
    have e1 : ((i : ℝ) + 1 / 2) / xres ≤ 1 := by rw [div_le_one hx]; linarith
    have e2 : 0 ≤ ((i : ℝ) + 1 / 2) / xres := by positivity
    have e3 : ((j : ℝ) + 1 / 2) / yres ≤ 1 := by rw [div_le_one hy]; linarith
    have e4 : 0 ≤ ((j : ℝ) + 1 / 2) / yres := by positivity
    exact ⟨⟨by linarith, by linarith⟩, e4, e3⟩
  · unfold Planar.pixel2omega Planar.new
    simp only
    field_simp

/-! ### C49 -/

theorem trunc_cell {n : ℕ} (hn : 0 < n) (i : ℕ) {o : ℝ} (h0 : 0 ≤ o) (h1 : o < 1) :
    trunc (((i : ℝ) + o) / n * n) = i := by
  have hn' : (n : ℝ) ≠ 0 := by positivity
  rw [div_mul_cancel₀ _ hn']
  unfold trunc
  rw [if_pos (by positivity), Int.floor_eq_iff]
  push_cast
  constructor <;> linarith

theorem offset_range {jitter : Bool} {rate o : ℝ} (hr : rate ≤ 1) (h : OffsetOk jitter rate o) : 0 ≤ o ∧ o < 1 := by
  unfold OffsetOk at h
  split_ifs at h with hc
  · constructor <;> linarith [h.1, h.2]
  · rw [h]; norm_num

/-- **C49** planar mapper: flat index to uv and back, for every shape, index and draw. -/
theorem C49_planar (n m : ℕ) (idx : ℕ) (hidx : idx < n * m) (jitter : Bool) (rate : ℝ) (hr : rate ≤ 1)
    (o : ℝ × ℝ) (h1 : OffsetOk jitter rate o.1) (h2 : OffsetOk jitter rate o.2) :
    ∃ uv, idx2uv (n, m) o idx = .ok uv ∧ uv2idx (n, m) uv = idx := by
  have hm : 0 < m := by
    rcases Nat.eq_zero_or_pos m with h | h
    · rw [h] at hidx; simp at hidx
    · exact h
  have hn : 0 < n := by
    rcases Nat.eq_zero_or_pos n with h | h
    · rw [h] at hidx; simp at hidx
    · exact h
  obtain ⟨a0, a1⟩ := offset_range hr h1
  obtain ⟨b0, b1⟩ := offset_range hr h2
  refine ⟨offsetCell (idx / m, idx % m) o ((n : ℝ), (m : ℝ)), ?_, ?_⟩
  · unfold idx2uv unravel
    simp only
    rw [if_pos hidx]; rfl
  · unfold uv2idx offsetCell
    simp only
    rw [trunc_cell hn _ a0 a1, trunc_cell hm _ b0 b1]
    exact_mod_cast Nat.div_add_mod' idx m

/-- an index outside the shape is refused by both classes -/
theorem C49_out_of_range (n m : ℕ) (idx : ℕ) (h : n * m ≤ idx) (o : ℝ × ℝ) :
    idx2uv (n, m) o idx = .error .ValueError ∧ View.idx2uv (n, m) o idx = .error .ValueError := by
  unfold idx2uv View.idx2uv unravel
  simp only
  rw [if_neg (by omega)]
  exact ⟨rfl, rfl⟩

/-- what C49 asks of `ViewMapper` -/
def C49_statement : Prop :=
  ∀ (n m idx : ℕ), idx < n * m → ∀ (jitter : Bool) (rate : ℝ), rate ≤ 1 → ∀ o : ℝ × ℝ,
    OffsetOk jitter rate o.1 → OffsetOk jitter rate o.2 →
    ∃ uv, View.idx2uv (n, m) o idx = .ok uv ∧ uv2idx (n, m) uv = idx

/-- **C49** angular mappers: correct for square shapes. Missing for the full claim: other shapes
(`C49_refuted`), because the first coordinate is also divided by `shape[1]`. -/
theorem C49_view_square_partial (n : ℕ) (idx : ℕ) (hidx : idx < n * n) (jitter : Bool) (rate : ℝ) (hr : rate ≤ 1)
    (o : ℝ × ℝ) (h1 : OffsetOk jitter rate o.1) (h2 : OffsetOk jitter rate o.2) :
    ∃ uv, View.idx2uv (n, n) o idx = .ok uv ∧ uv2idx (n, n) uv = idx :=
  C49_planar n n idx hidx jitter rate hr o h1 h2

/-- a 360 degree view is sampled on `(2 n, n)`: without jitter, cell `(i, j)` comes back as cell `(2 i + 1, j)` -/
theorem C49_view_double (n : ℕ) (i j : ℕ) (hi : i < 2 * n) (hj : j < n) :
    ∃ uv, View.idx2uv (2 * n, n) (1 / 2, 1 / 2) (i * n + j) = .ok uv ∧
      uv2idx (2 * n, n) uv = (2 * i + 1) * n + j := by
  have hn : 0 < n := by omega
  have hlt : i * n + j < 2 * n * n := by nlinarith
  have hd : (i * n + j) / n = i := by
    rw [Nat.mul_comm, Nat.mul_add_div hn, Nat.div_eq_of_lt hj]; rfl
  have hm : (i * n + j) % n = j := by
    rw [Nat.mul_comm, Nat.mul_add_mod, Nat.mod_eq_of_lt hj]
  refine ⟨offsetCell (i, j) (1 / 2, 1 / 2) ((n : ℝ), (n : ℝ)), ?_, ?_⟩
  · unfold View.idx2uv unravel
    simp only
    rw [if_pos hlt, hd, hm]; rfl
  · unfold uv2idx offsetCell
    simp only
    rw [trunc_cell hn j (by norm_num) (by norm_num)]
    have hn' : (n : ℝ) ≠ 0 := by positivity
    have : ((i : ℝ) + 1 / 2) / n * ((2 * n : ℕ) : ℝ) = ((2 * i + 1 : ℕ) : ℝ) := by
      push_cast; field_simp
    rw [this]
    unfold trunc
    rw [if_pos (by positivity), Int.floor_natCast]
    push_cast; ring

theorem C49_refuted : ¬ C49_statement := by
  intro h
  obtain ⟨uv, a, b⟩ := h 2 1 1 (by norm_num) false 0 (by norm_num) (1 / 2, 1 / 2) (by simp [OffsetOk])
    (by simp [OffsetOk])
  obtain ⟨uv', a', b'⟩ := C49_view_double 1 1 0 (by norm_num) (by norm_num)
  rw [show (2 * 1, 1) = (2, 1) from rfl, show 1 * 1 + 0 = 1 from rfl] at *
  rw [a] at a'
  injection a' with a'
  rw [a', b'] at b
  norm_num at b

example : OffsetOk true (1 / 2) (3 / 10) ∧ (1 / 2 : ℝ) ≤ 1 ∧ 5 < 2 * 3 := by
  refine ⟨?_, by norm_num, by norm_num⟩
  unfold OffsetOk
  rw [if_pos ⟨rfl, by norm_num⟩]
  norm_num

/-! ### framesize -/

theorem pyRound_near (x : ℝ) : |(pyRound x : ℝ) - x| ≤ 1 / 2 := by
  have h1 := Int.floor_le x
  have h2 := Int.lt_floor_add_one x
  unfold pyRound
  rw [abs_le]
  split_ifs <;> push_cast <;> constructor <;> linarith

/-- **C88** the frame has the requested resolution on its longer side, and its shorter side is within half a pixel
of what the aspect ratio asks. -/
theorem C88_framesize (m : Planar) (ha : 0 < m.aspect) (res : ℕ) :
    max (m.framesize res).1 (m.framesize res).2 = res ∧
    (m.aspect < 1 → |((m.framesize res).1 : ℝ) - m.aspect * (m.framesize res).2| ≤ 1 / 2) ∧
    (1 ≤ m.aspect → |((m.framesize res).2 : ℝ) - (m.framesize res).1 / m.aspect| ≤ 1 / 2) := by
  have hround : ∀ x : ℝ, x ≤ res → pyRound x ≤ res := by
    intro x hx
    have h1 := Int.floor_le x
    have h3 : ⌊x⌋ ≤ (res : ℤ) := by
      have : (⌊x⌋ : ℝ) ≤ ((res : ℤ) : ℝ) := by push_cast; linarith
      exact_mod_cast this
    unfold pyRound
    have key : ¬ x - ⌊x⌋ < 1 / 2 → ⌊x⌋ + 1 ≤ (res : ℤ) := by
      intro h
      by_contra hc
      have : ⌊x⌋ = (res : ℤ) := by omega
      rw [this] at h
      push_cast at h
      linarith
    split_ifs with c1 c2 c3
    · exact h3
    · exact key c1
    · exact h3
    · exact key c1
  unfold Planar.framesize
  by_cases h : m.aspect < 1
  · rw [if_pos h]
    refine ⟨?_, fun _ => ?_, fun h' => absurd h (not_lt.mpr h')⟩
    · apply max_eq_right
      apply hround
      have : (0 : ℝ) ≤ res := by positivity
      nlinarith
    · have := pyRound_near (res * m.aspect)
      push_cast
      rwa [mul_comm m.aspect]
  · rw [if_neg h]
    refine ⟨?_, fun h' => absurd h' h, fun _ => ?_⟩
    · apply max_eq_left
      apply hround
      rw [div_le_iff₀ ha]
      have : (0 : ℝ) ≤ res := by positivity
      nlinarith [not_lt.mp h]
    · have := pyRound_near (res / m.aspect)
      push_cast
      exact this

/-- **C88** without an aspect ratio the frame follows the bounding box wherever it lies: the pixels are square up to
half a pixel of the shorter side, and the area is that of the box -/
theorem C88_box (d : V3) (sf lo hi : ℝ × ℝ) (j z : ℝ) (hx : lo.1 < hi.1) (hy : lo.2 < hi.2) (res : ℕ) :
    |((Planar.new d sf lo hi none j z).framesize res).2 * (hi.1 - lo.1) -
      ((Planar.new d sf lo hi none j z).framesize res).1 * (hi.2 - lo.2)| ≤ max (hi.1 - lo.1) (hi.2 - lo.2) / 2 ∧
    (Planar.new d sf lo hi none j z).area = (hi.1 - lo.1) * (hi.2 - lo.2) := by
  refine ⟨?_, rfl⟩
  set m := Planar.new d sf lo hi none j z with hm
  have e : m.aspect = (hi.1 - lo.1) / (hi.2 - lo.2) := rfl
  have px : 0 < hi.1 - lo.1 := sub_pos.2 hx
  have py : 0 < hi.2 - lo.2 := sub_pos.2 hy
  have ha : 0 < m.aspect := by rw [e]; positivity
  obtain ⟨-, h2, h3⟩ := C88_framesize m ha res
  by_cases h : m.aspect < 1
  · have h2 := h2 h
    have hc : ((m.framesize res).2 : ℝ) * (hi.1 - lo.1) - (m.framesize res).1 * (hi.2 - lo.2) =
        -((((m.framesize res).1 : ℝ) - m.aspect * (m.framesize res).2) * (hi.2 - lo.2)) := by
      rw [e]; field_simp; ring
    rw [hc, abs_neg, abs_mul, abs_of_pos py]
    have := le_max_right (hi.1 - lo.1) (hi.2 - lo.2)
    nlinarith
  · have h3 := h3 (not_lt.1 h)
    have hc : ((m.framesize res).2 : ℝ) * (hi.1 - lo.1) - (m.framesize res).1 * (hi.2 - lo.2) =
        (((m.framesize res).2 : ℝ) - (m.framesize res).1 / m.aspect) * (hi.1 - lo.1) := by
      rw [e]; field_simp
    rw [hc, abs_mul, abs_of_pos px]
    have := le_max_left (hi.1 - lo.1) (hi.2 - lo.2)
    nlinarith

/-- **C88** half pixels go to the even side length -/
theorem C88_ties (m : Planar) (res : ℕ) (k : ℤ) :
    (m.aspect < 1 → res * m.aspect = k + 1 / 2 → Even (m.framesize res).1) ∧
    (1 ≤ m.aspect → res / m.aspect = k + 1 / 2 → Even (m.framesize res).2) := by
  have key : Even (pyRound (k + 1 / 2)) := by
    unfold pyRound
    have : ⌊(k : ℝ) + 1 / 2⌋ = k := by rw [Int.floor_intCast_add]; norm_num
    rw [this, if_neg (by norm_num), if_neg (by norm_num)]
    split_ifs with h
    · exact Int.even_iff.2 h
    · rw [Int.even_iff]; omega
  unfold Planar.framesize
  constructor
  · intro h e; rw [if_pos h, e]; exact key
  · intro h e; rw [if_neg (not_lt.2 h), e]; exact key

/-- five pixels of a two to one box: the short side is two -/
example : ((Planar.new ⟨0, 0, 1⟩ (1, 1) (3, 1) (5, 2) none 1 0).framesize 5).2 = 2 := by
  have ha : (Planar.new ⟨0, 0, 1⟩ (1, 1) (3, 1) (5, 2) none 1 0).aspect = 2 := by norm_num [Planar.new, aspectOf]
  unfold Planar.framesize
  rw [ha, if_neg (by norm_num)]
  have : ⌊((5 : ℕ) : ℝ) / 2⌋ = 2 := by norm_num [Int.floor_eq_iff]
  unfold pyRound
  simp only [this]
  norm_num

/-! ### C55, planar mapper -/

theorem putAll_at {α : Type} (ps : List (ℤ × ℤ)) (c : α) (im : Img α) (i j : ℕ) :
    (im.putAll ps c).n = im.n ∧ (im.putAll ps c).m = im.m ∧
    (((i : ℤ), (j : ℤ)) ∈ ps → (im.putAll ps c).at_ i j = c) ∧
    (((i : ℤ), (j : ℤ)) ∉ ps → (im.putAll ps c).at_ i j = im.at_ i j) := by
  unfold Img.putAll
  induction ps generalizing im with
  | nil => simp
  | cons p ps ih =>
    simp only [List.foldl_cons]
    obtain ⟨a, b, c1, c2⟩ := ih (im.put p c)
    refine ⟨by rw [a]; rfl, by rw [b]; rfl, ?_, ?_⟩
    · intro h
      by_cases hm : ((i : ℤ), (j : ℤ)) ∈ ps
      · exact c1 hm
      · rw [c2 hm]
        rcases List.mem_cons.mp h with h | h
        · unfold Img.put
          simp only
          rw [if_pos ⟨by rw [← h], by rw [← h]⟩]
        · exact absurd h hm
    · intro h
      rw [List.mem_cons, not_or] at h
      rw [c2 h.2]
      unfold Img.put
      simp only
      rw [if_neg]
      rintro ⟨e1, e2⟩
      exact h.1 (Prod.ext e1 e2)

theorem inBounds_iff {α : Type} (im : Img α) (i j : ℕ) :
    inBounds im ((i : ℤ), (j : ℤ)) = true ↔ i < im.n ∧ j < im.m := by
  unfold inBounds
  simp

/-- **C55** planar mapper: a pixel of the result is the channel value exactly when some ray falls on it, every
other pixel is unchanged; the shape is unchanged. -/
theorem C55_planar {α : Type} (m : Planar) (im : Img α) (vs : List V3) (c : α) (i j : ℕ) (hi : i < im.n)
    (hj : j < im.m) :
    (m.addVecs im vs c).n = im.n ∧ (m.addVecs im vs c).m = im.m ∧
    ((∃ v ∈ vs, m.ray2pixel (im.n, im.m) v = ((i : ℤ), (j : ℤ))) → (m.addVecs im vs c).at_ i j = c) ∧
    ((∀ v ∈ vs, m.ray2pixel (im.n, im.m) v ≠ ((i : ℤ), (j : ℤ))) → (m.addVecs im vs c).at_ i j = im.at_ i j) := by
  have hb := (inBounds_iff im i j).mpr ⟨hi, hj⟩
  have key : (m.addVecs im vs c) = im.putAll ((vs.map (m.ray2pixel (im.n, im.m))).filter (inBounds im)) c := by
    unfold Planar.addVecs addPixels
    split_ifs with h
    · rw [List.length_eq_zero_iff] at h
      rw [h]; rfl
    · rfl
  rw [key]
  obtain ⟨a, b, c1, c2⟩ := putAll_at ((vs.map (m.ray2pixel (im.n, im.m))).filter (inBounds im)) c im i j
  refine ⟨a, b, ?_, ?_⟩
  · rintro ⟨v, hv, he⟩
    apply c1
    rw [List.mem_filter, List.mem_map]
    exact ⟨⟨v, hv, he⟩, hb⟩
  · intro h
    apply c2
    rw [List.mem_filter, List.mem_map]
    rintro ⟨⟨v, hv, he⟩, -⟩
    exact h v hv he

/-! ### C87: jittered pixels -/

/-- what a user expects of `pixels(res, jitter)` with jitter: the same shape as without -/
def C87_statement : Prop :=
  ∀ xres yres : ℕ, 0 < xres → 0 < yres → pixelsShape xres yres true = pixelsShape xres yres false

theorem C87_plain (xres yres : ℕ) : pixelsShape xres yres false = .ok [xres, yres, 2] := by
  simp [pixelsShape, bcast, bcastRev]

/-- **C87** jittered pixel coordinates exist exactly for images one or two pixels wide; every other width raises.
Missing for the full claim: all other widths (`C87_refuted`). -/
theorem C87_jitter_partial (xres yres : ℕ) :
    pixelsShape xres yres true = (if xres = 1 ∨ xres = 2 then .ok [xres, yres, 2] else .error .ValueError) := by
  unfold pixelsShape bcast
  simp only [if_true, List.reverse_cons, List.reverse_nil, List.nil_append, List.cons_append]
  by_cases h2 : xres = 2
  · subst h2; simp [bcastRev, bdim]
  · by_cases h1 : xres = 1
    · subst h1; simp [bcastRev, bdim]
    · have hb : bdim 2 xres = none := by unfold bdim; rw [if_neg (by omega), if_neg (by omega), if_neg h1]
      simp [bcastRev, hb, h1, h2]

theorem C87_refuted : ¬ C87_statement := by
  intro h
  have := h 3 3 (by norm_num) (by norm_num)
  rw [C87_plain, C87_jitter_partial] at this
  simp at this

end Verif.Map
