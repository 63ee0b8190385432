import Verif.Model.Interp
import Verif.Props.Project
import Verif.Props.Align

/-! C184: the values of images moved between views (`transform_to`). -/

namespace Verif.Map
open Verif.Geo Real

/-! ### one axis -/

theorem cellOf_node {n k : ℕ} : cellOf n (k : ℝ) = min k (n - 2) := by
  unfold cellOf; rw [Int.floor_natCast]; rfl

theorem lin_node {n k : ℕ} (hk : k < n) (f : ℕ → ℝ) : lin n f k = f k := by
  unfold lin
  rw [cellOf_node]
  rcases Nat.lt_or_ge (k + 1) n with h | h
  · rw [min_eq_left (by omega)]; ring
  · rcases Nat.eq_zero_or_pos k with rfl | hp
    · simp
    · obtain ⟨k', rfl⟩ : ∃ k', k = k' + 1 := ⟨k - 1, by omega⟩
      rw [show min (k' + 1) (n - 2) = k' by omega]
      push_cast; ring

theorem near_node {n k : ℕ} (hk : k < n) : nearIdx n (k : ℝ) = k := by
  unfold nearIdx
  rw [cellOf_node]
  rcases Nat.lt_or_ge (k + 1) n with h | h
  · rw [min_eq_left (by omega), if_pos (by simp)]
  · rcases Nat.eq_zero_or_pos k with rfl | hp
    · simp
    · obtain ⟨k', rfl⟩ : ∃ k', k = k' + 1 := ⟨k - 1, by omega⟩
      rw [show min (k' + 1) (n - 2) = k' by omega, if_neg (by push_cast; norm_num)]

/-- **C184** the contract of the interpolator used by C91 -/
theorem C184_node (nearest : Bool) : NodeOk (centreInterp nearest) := by
  intro im a b ha hb
  unfold centreInterp gridInterp bilin
  simp only [add_sub_cancel_right, Option.isSome_none, Bool.false_eq_true, false_and, if_false]
  cases nearest
  · simp only [Bool.false_eq_true, if_false]
    rw [lin_node ha, lin_node hb]
  · simp only [if_true]
    rw [near_node ha, near_node hb]

/-- **C184** an image moved to its own view is unchanged inside the view and zero outside -/
theorem C184_self (nearest : Bool) (d : V3) (hd : d ≠ V3.zero) (va : ℝ) (h0 : 0 < va) (h1 : va ≤ 180) (im : Img ℝ)
    (hsq : im.n = im.m) (i j : ℕ) (hi : i < im.m) (hj : j < im.m) :
    ((View.new d va).inView 0 ((View.new d va).pixel2ray im.m (pixelCentre i j)) →
      (View.new d va).transformTo (View.new d va) (centreInterp nearest) im i j = .ok (im.at_ i j)) ∧
    (¬ (View.new d va).inView 0 ((View.new d va).pixel2ray im.m (pixelCentre i j)) →
      (View.new d va).transformTo (View.new d va) (centreInterp nearest) im i j = .ok 0) :=
  C91_swapped_partial _ (C184_node nearest) d d hd va va h0 h1 h0 h1 im hsq i j i j hi hj rfl

/-- the position is inside the square of the outermost pixel centres -/
def Covered (n : ℕ) (p : ℝ × ℝ) : Prop := 1 / 2 ≤ p.1 ∧ p.1 ≤ n - 1 / 2 ∧ 1 / 2 ≤ p.2 ∧ p.2 ≤ n - 1 / 2

/-- what a user expects of the values: a moved image has no values outside the range of the image (with the zeros outside the
view) -/
def C184_statement : Prop :=
  ∀ (nearest : Bool) (d d' : V3), Clear d → Clear d' → ∀ va va' : ℝ, 0 < va → va ≤ 180 → 0 < va' → va' ≤ 180 →
    ∀ (im : Img ℝ) (lo hi : ℝ), im.n = im.m → 2 ≤ im.m → lo ≤ 0 → 0 ≤ hi → (∀ a b, a < im.n → b < im.m → lo ≤ im.at_ a b ∧ im.at_ a b ≤ hi) →
      ∀ i j v, i < im.m → j < im.m → (View.new d va).transformTo (View.new d' va') (centreInterp nearest) im i j = .ok v →
        lo ≤ v ∧ v ≤ hi

/-- **C184** with `nearest=True` every value is zero or a pixel of the image -/
theorem C184_nearest_partial (m other : View) (im : Img ℝ) (h2 : 2 ≤ im.m) (i j : ℕ) (v : ℝ)
    (h : m.transformTo other (centreInterp true) im i j = .ok v) :
    v = 0 ∨ ∃ a b, a < im.n ∧ b < im.m ∧ v = im.at_ a b := by
  unfold View.transformTo at h
  split_ifs at h with h3 h4
  · simp only [not_or, not_not] at h3
    right
    cases h
    refine ⟨_, _, nearIdx_lt (by omega) ((other.ray2pixelF im.m (m.pixel2ray im.m (pixelCentre i j))).1 - 1 / 2),
      nearIdx_lt h2 ((other.ray2pixelF im.m (m.pixel2ray im.m (pixelCentre i j))).2 - 1 / 2), ?_⟩
    unfold centreInterp gridInterp
    simp
  · left; cases h; rfl

/-- **C184** with linear interpolation values stay in the range wherever the position read is not in the outer half of a
border pixel -/
theorem C184_linear_partial (m other : View) (im : Img ℝ) (h2 : 2 ≤ im.m) (lo hi : ℝ)
    (hb : ∀ a b, a < im.n → b < im.m → lo ≤ im.at_ a b ∧ im.at_ a b ≤ hi) (i j : ℕ) (v : ℝ)
    (hin : other.inView 0 (m.pixel2ray im.m (pixelCentre i j)))
    (hc : Covered im.m (other.ray2pixelF im.m (m.pixel2ray im.m (pixelCentre i j))))
    (h : m.transformTo other (centreInterp false) im i j = .ok v) : lo ≤ v ∧ v ≤ hi := by
  unfold View.transformTo at h
  split_ifs at h with h3
  simp only [not_or, not_not] at h3
  cases h
  obtain ⟨c1, c2, c3, c4⟩ := hc
  unfold centreInterp gridInterp bilin
  simp only [Option.isSome_none, Bool.false_eq_true, false_and, if_false]
  rw [h3.1]
  refine lin_range h2 _ (by linarith) (by linarith) fun a ha => ?_
  exact lin_range h2 _ (by linarith) (by linarith) fun b hb' => hb a b (by omega) hb'

theorem lin_affine (n : ℕ) (c0 c1 x : ℝ) : lin n (fun a => c0 + c1 * a) x = c0 + c1 * x := by
  unfold lin; push_cast; ring

/-- **C184** an image whose values change evenly along both axes is reproduced exactly at every position in view (constant
images in particular), also in the border -/
theorem C184_even (m other : View) (im : Img ℝ) (hsq : im.n = im.m) (htwo : m.two = false) (c0 c1 c2 : ℝ)
    (hat : ∀ a b, im.at_ a b = c0 + c1 * ((a : ℝ) + 1 / 2) + c2 * ((b : ℝ) + 1 / 2)) (i j : ℕ)
    (hin : other.inView 0 (m.pixel2ray im.m (pixelCentre i j))) :
    m.transformTo other (centreInterp false) im i j =
      .ok (c0 + c1 * (other.ray2pixelF im.m (m.pixel2ray im.m (pixelCentre i j))).1 +
        c2 * (other.ray2pixelF im.m (m.pixel2ray im.m (pixelCentre i j))).2) := by
  unfold View.transformTo
  rw [if_neg (by simp [hsq, htwo]), if_pos hin]
  congr 1
  generalize other.ray2pixelF im.m (m.pixel2ray im.m (pixelCentre i j)) = p
  unfold centreInterp gridInterp bilin
  simp only [Option.isSome_none, Bool.false_eq_true, false_and, if_false]
  have e1 : ∀ a : ℕ, lin im.m (im.at_ a) (p.2 - 1 / 2) = (c0 + c1 * (1 / 2) + c2 * p.2) + c1 * a := by
    intro a
    have : im.at_ a = fun b : ℕ => (c0 + c1 * ((a : ℝ) + 1 / 2) + c2 * (1 / 2)) + c2 * b := by
      funext b; rw [hat]; ring
    rw [this, lin_affine]
    ring
  simp only [e1]
  rw [lin_affine]
  ring

/-- a view drawn with three quarters of the size of the half sphere -/
theorem exists_size : ∃ va : ℝ, 0 < va ∧ va ≤ 180 ∧ va * chordFactor va = 135 := by
  have hpi := pi_pos
  have hcont : ContinuousOn (fun va => va * chordFactor va) (Set.Icc 1 180) := by
    unfold chordFactor theta2chord
    apply ContinuousOn.mul continuousOn_id
    apply ContinuousOn.div continuousOn_const
    · apply ContinuousOn.div
      · fun_prop
      · fun_prop
      · intro x hx; have := hx.1; positivity
    · intro x hx
      have h1 := hx.1
      have h2 := hx.2
      have : 0 < sin (x * π / 360 / 2) := sin_pos_of_pos_of_lt_pi (by positivity) (by nlinarith)
      positivity
  have hi := intermediate_value_Icc (by norm_num : (1 : ℝ) ≤ 180) hcont
  have hm : (135 : ℝ) ∈ Set.Icc ((fun va => va * chordFactor va) 1) ((fun va => va * chordFactor va) 180) := by
    have := (cf_bounds (va := 1) (by norm_num) (by norm_num)).2.1
    simp only [cf_180]
    constructor <;> linarith
  obtain ⟨va, hva, e⟩ := hi hm
  exact ⟨va, by linarith [hva.1], hva.2, e⟩

/-- an image with one dark pixel -/
def oneDark : Img ℝ := ⟨2, 2, fun i j => if i = 0 ∧ j = 0 then 0 else 1⟩

open Classical in
/-- a dark pixel next to bright ones, seen in a wider view, is read in the border and becomes negative -/
theorem oneDark_moved : ∃ va' : ℝ, 0 < va' ∧ va' ≤ 180 ∧
    (View.new ⟨0, 1, 0⟩ 180).transformTo (View.new ⟨0, 1, 0⟩ va') (centreInterp false) oneDark 0 0 = .ok (-13 / 36) := by
  have hpi := pi_pos
  obtain ⟨va', h0, h1, hk⟩ := exists_size
  obtain ⟨_, _, f1, f2, f3⟩ := new_sf (d := ⟨0, 1, 0⟩) (va := va') (by linarith)
  obtain ⟨_, _, e1, e2, e3⟩ := new_sf (d := ⟨0, 1, 0⟩) (va := 180) (by norm_num)
  have hm : oneDark.m = 2 := rfl
  have hray : (View.new ⟨0, 1, 0⟩ 180).pixel2ray oneDark.m (pixelCentre 0 0)
        = (View.new ⟨0, 1, 0⟩ 180).vxy2xyz (1 / 4, 1 / 4) := by
      unfold View.pixel2ray pixelCentre; rw [hm]; norm_num
  have hin : (View.new ⟨0, 1, 0⟩ va').inView 0 ((View.new ⟨0, 1, 0⟩ 180).pixel2ray oneDark.m (pixelCentre 0 0)) := by
    have hr : (View.new ⟨0, 1, 0⟩ va').radians ((View.new ⟨0, 1, 0⟩ 180).vxy2xyz (1 / 4, 1 / 4)) = √(1 / 8) * π := by
      have := C53_equiangular_partial ⟨0, 1, 0⟩ dflt_clear 180 (by norm_num) (by norm_num) (1 / 4, 1 / 4) (by norm_num)
        (by norm_num) (by norm_num) (by norm_num)
      have hc : chordFactor 180 * 180 * π / 180 = π := by rw [cf_180]; ring
      rw [hc] at this
      show (View.new ⟨0, 1, 0⟩ 180).radians _ = _
      rw [this]
      norm_num
    unfold View.inView
    rw [hray, hr, f1, f3, mul_comm (chordFactor va'), hk, sub_zero]
    have : √(1 / 8 : ℝ) < 3 / 8 := by rw [sqrt_lt' (by norm_num)]; norm_num
    nlinarith
  have hpos : (View.new ⟨0, 1, 0⟩ va').ray2pixelF oneDark.m
      ((View.new ⟨0, 1, 0⟩ 180).pixel2ray oneDark.m (pixelCentre 0 0)) = (1 / 3, 1 / 3) := by
    unfold View.ray2pixelF
    rw [hray, C91_zoom ⟨0, 1, 0⟩ dflt_ne 180 va' (by norm_num) le_rfl h0 h1 _ (by norm_num) (by norm_num) (by norm_num)
      (by norm_num), hk, cf_180, hm]
    norm_num
  have hv : (View.new ⟨0, 1, 0⟩ 180).transformTo (View.new ⟨0, 1, 0⟩ va') (centreInterp false) oneDark 0 0 =
      .ok (-13 / 36) := by
    unfold View.transformTo
    rw [if_neg (by rw [e2]; simp [oneDark]), if_pos hin, hpos]
    congr 1
    unfold centreInterp gridInterp bilin lin
    have hc : cellOf 2 (1 / 3 - 1 / 2) = 0 := by unfold cellOf; simp
    simp only [Option.isSome_none, Bool.false_eq_true, false_and, if_false]
    simp only [oneDark, hc]
    norm_num
  exact ⟨va', h0, h1, hv⟩

/-- **C184** is false with linear interpolation: moved to a wider view, an image without negative values has a negative value
next to its corner. -/
theorem C184_refuted : ¬ C184_statement := by
  intro h
  obtain ⟨va', h0, h1, hv⟩ := oneDark_moved
  have := (h false ⟨0, 1, 0⟩ ⟨0, 1, 0⟩ dflt_clear dflt_clear 180 va' (by norm_num) le_rfl h0 h1 oneDark 0 1 rfl le_rfl le_rfl
    (by norm_num) (fun a b _ _ => by unfold oneDark; simp only; split <;> norm_num) 0 0 _ (by decide) (by decide) hv).1
  norm_num at this

end Verif.Map
