import Verif.Model.Align
import Verif.Props.Project
import Verif.Props.SolidMapper

/-! Turning and centring fisheye images: C110 to C116. -/

namespace Verif.Map
open Verif.Geo Real

/-! ### the default view -/

theorem fmod_self_add {x m : ℝ} (h0 : 0 ≤ x) (h1 : x < m) : fmod (x + m) m = x := by
  have hm : 0 < m := by linarith
  unfold fmod
  have : ⌊(x + m) / m⌋ = 1 := by
    rw [Int.floor_eq_iff]
    push_cast
    constructor
    · rw [le_div_iff₀ hm]; linarith
    · rw [div_lt_iff₀ hm]; linarith
  rw [this]; push_cast; ring

theorem tpPhi_y : tpPhi (π / 2) 0 1 = π / 2 := by
  have hpi := pi_gt_three
  unfold tpPhi
  rw [if_neg (by unfold isclose; rw [sub_zero, abs_of_pos (by linarith)]; norm_num; linarith),
    if_neg (by
      unfold isclose
      rw [show π / 2 - π = -(π / 2) by ring, abs_neg, abs_of_pos (by linarith), abs_of_pos (by linarith)]
      norm_num; linarith)]
  exact Complex.arg_I

theorem tp_y : xyz2tp ⟨0, 1, 0⟩ = (π / 2, π / 2) := by
  have hpi := pi_gt_three
  unfold xyz2tp
  rw [show arccos (⟨0, 1, 0⟩ : V3).z = π / 2 from arccos_zero]
  have : tpPhi (π / 2) (⟨0, 1, 0⟩ : V3).x (⟨0, 1, 0⟩ : V3).y = π / 2 := tpPhi_y
  rw [this]
  unfold tpnorm
  simp only
  rw [fmod_self_add (by linarith) (by linarith), fmod_self_add (by linarith) (by linarith)]

theorem norm_y : Geo.norm ⟨0, 1, 0⟩ = ⟨0, 1, 0⟩ := by
  unfold Geo.norm V3.divS V3.len V3.normSq; simp

theorem fwd_y (p : V3) : fwd ⟨0, 1, 0⟩ p = ⟨-p.x, p.z, p.y⟩ := by
  rw [fwd_generic _ (by unfold NearUp; rw [norm_y]; unfold allClose isclose; norm_num)
    (by unfold NearDown; rw [norm_y]; unfold allClose isclose; norm_num), norm_y, tp_y, yaw_app, pitch_app]
  simp

theorem dflt_w2v (p : V3) : (dfltView 180).w2v p = ⟨-p.x, p.z, p.y⟩ := by
  unfold dfltView; rw [new_w2v dflt_ne, fwd_y]

theorem bwd_y (p : V3) : bwd ⟨0, 1, 0⟩ p = ⟨-p.x, p.z, p.y⟩ := by
  have h := (C36_inverse ⟨0, 1, 0⟩ ⟨-p.x, p.z, p.y⟩ p).1
  rw [fwd_y] at h
  simpa using h

theorem dflt_v2w (p : V3) : (dfltView 180).v2w p = ⟨-p.x, p.z, p.y⟩ := by
  unfold dfltView; rw [new_v2w dflt_ne, bwd_y]

/-- the ray of a pixel position, written out -/
theorem dflt_ray (res : ℕ) (q : ℝ × ℝ) :
    (dfltView 180).pixel2ray res q
      = ⟨(q.1 / res - 1 / 2) * polFactor (off (q.1 / res, q.2 / res)), cos (π * off (q.1 / res, q.2 / res)),
          (q.2 / res - 1 / 2) * polFactor (off (q.1 / res, q.2 / res))⟩ := by
  obtain ⟨_, _, e1, e2, e3⟩ := new_sf (d := ⟨0, 1, 0⟩) (va := 180) (by norm_num)
  unfold View.pixel2ray View.vxy2xyz View.vxy2xyzM
  simp only
  rw [dflt_v2w]
  have hr : rad2 ((dfltView 180).centred (q.1 / res, q.2 / res)) = off (q.1 / res, q.2 / res) := by
    rw [centred_rad]
    · unfold dfltView off; rw [e1, e3, cf_180]; norm_num
    · unfold dfltView; rw [e1, e3, cf_180]; norm_num
  unfold polar2view
  simp only
  rw [hr]
  unfold View.centred dfltView
  rw [e1, e3, cf_180]
  apply V3.ext <;> simp only
  · ring
  · ring

/-- reading the position of the ray of a position gives the position back, wherever it is less than the image side
from the centre -/
theorem dflt_round (res : ℕ) (hr : 0 < res) (q : ℝ × ℝ) (h : off (q.1 / res, q.2 / res) < 1) :
    (dfltView 180).ray2pixelF res ((dfltView 180).pixel2ray res q) = q := by
  have hr' : (res : ℝ) ≠ 0 := by positivity
  obtain ⟨_, _, e1, e2, e3⟩ := new_sf (d := ⟨0, 1, 0⟩) (va := 180) (by norm_num)
  unfold View.ray2pixelF View.pixel2ray
  have : (dfltView 180).xyz2vxy ((dfltView 180).vxy2xyz (q.1 / res, q.2 / res)) = (q.1 / res, q.2 / res) := by
    unfold dfltView
    rw [xyz2vxy1_180]
    apply vxy_round _ ⟨0, 1, 0⟩ (fun p => (C50_isometry ⟨0, 1, 0⟩ dflt_ne 180 p p).2.1)
    · rw [e1, e3, cf_180]; norm_num
    · rw [e1, e3, cf_180]; norm_num; exact h
  rw [this]
  apply Prod.ext <;> simp only <;> field_simp

/-- a position of the image -/
def InSquare (res : ℕ) (q : ℝ × ℝ) : Prop := 0 ≤ q.1 ∧ q.1 ≤ res ∧ 0 ≤ q.2 ∧ q.2 ≤ res

theorem off_lt_one {res : ℕ} (hr : 0 < res) {q : ℝ × ℝ} (h : InSquare res q) : off (q.1 / res, q.2 / res) < 1 := by
  have hr' : (0 : ℝ) < res := by positivity
  obtain ⟨a, b, c, d⟩ := h
  exact rad2_square (q.1 / res, q.2 / res) (by positivity) (by simp only; rw [div_le_one hr']; exact b) (by positivity)
    (by simp only; rw [div_le_one hr']; exact d)

/-! ### C110: turning -/

/-- the position `q` turned about the image centre by `ang` degrees, clockwise in axes with the first index to the
right and the second one upwards -/
noncomputable def clockwise (res : ℕ) (ang : ℝ) (q : ℝ × ℝ) : ℝ × ℝ :=
  (res / 2 + (cos (ang * π / 180) * (q.1 - res / 2) + sin (ang * π / 180) * (q.2 - res / 2)),
   res / 2 + (-sin (ang * π / 180) * (q.1 - res / 2) + cos (ang * π / 180) * (q.2 - res / 2)))

theorem clockwise_off {res : ℕ} (hr : 0 < res) (ang : ℝ) (q : ℝ × ℝ) :
    off ((clockwise res ang q).1 / res, (clockwise res ang q).2 / res) = off (q.1 / res, q.2 / res) := by
  have hr' : (res : ℝ) ≠ 0 := by positivity
  have h := sin_sq_add_cos_sq (ang * π / 180)
  unfold off rad2 clockwise
  simp only
  congr 1
  generalize sin (ang * π / 180) = s at *
  generalize cos (ang * π / 180) = c at *
  have e1 : ∀ x : ℝ, (res / 2 + x) / res - 1 / 2 = x / res := by intro x; field_simp; ring
  have e2 : ∀ x : ℝ, x / res - 1 / 2 = (x - res / 2) / res := by intro x; field_simp
  rw [e1, e1, e2, e2]
  generalize q.1 - res / 2 = u
  generalize q.2 - res / 2 = v
  rw [div_pow, div_pow, div_pow, div_pow, ← add_div, ← add_div]
  congr 1
  linear_combination (u ^ 2 + v ^ 2) * h

theorem turn_ray {res : ℕ} (hr : 0 < res) (ang : ℝ) (q : ℝ × ℝ) :
    turnRay ang ((dfltView 180).pixel2ray res q) = (dfltView 180).pixel2ray res (clockwise res ang q) := by
  have hr' : (res : ℝ) ≠ 0 := by positivity
  have key : rotateElem true 1 ang ((dfltView 180).pixel2ray res q)
      = (dfltView 180).pixel2ray res (clockwise res ang q) := by
    rw [rot1, dflt_ray, dflt_ray, clockwise_off hr]
    unfold angleOf clockwise
    simp only [if_true]
    generalize sin (ang * π / 180) = s
    generalize cos (ang * π / 180) = c
    have e1 : ∀ x : ℝ, (res / 2 + x) / res - 1 / 2 = x / res := by intro x; field_simp; ring
    have e2 : ∀ x : ℝ, x / res - 1 / 2 = (x - res / 2) / res := by intro x; field_simp
    apply V3.ext <;> simp only
    · rw [e1, e2, e2]; ring
    · rw [e1, e2, e2]; ring
  unfold turnRay
  by_cases h : ang = 0
  · rw [if_neg (by simpa using h)]
    congr 1
    unfold clockwise
    rw [h]; simp
  · rw [if_pos h, key]

/-- **C110** turning by `ang` degrees: the result shows at every pixel centre what the image holds at the same
distance from the image centre, `ang` degrees further clockwise, that is the picture turns counter-clockwise (first
index to the right, second upwards). Every resolution, every angle, also outside the image circle. -/
theorem C110_turn (res : ℕ) (hr : 0 < res) (ang : ℝ) (q : ℝ × ℝ) (hq : InSquare res q) :
    lookAt res ang none true q = .ok (clockwise res ang q) := by
  unfold lookAt lookRay aimRay
  simp only [if_true, Except.map]
  rw [turn_ray hr, dflt_round res hr]
  rw [clockwise_off hr]
  exact off_lt_one hr hq

theorem centre_in {res i j : ℕ} (hi : i < res) (hj : j < res) : InSquare res (pixelCentre i j) := by
  have hi1 : ((i : ℝ) + 1) ≤ res := by exact_mod_cast hi
  have hj1 : ((j : ℝ) + 1) ≤ res := by exact_mod_cast hj
  refine ⟨?_, ?_, ?_, ?_⟩ <;> unfold pixelCentre <;> simp only <;> first | positivity | linarith

/-- **C110** the same for the whole function: the array returned has the shape of the image and every entry is read
at the turned position. -/
theorem C110_array (nearest : Bool) (fill : Option ℝ) (im : Img ℝ) (hsq : im.n = im.m) (ang : ℝ) :
    ∃ out, arrayRotate nearest fill im ang none true = .ok out ∧ out.n = im.n ∧ out.m = im.m ∧
      ∀ i j, i < im.n → j < im.m →
        out.at_ i j = gridInterp nearest fill im (clockwise im.m ang (pixelCentre i j)) := by
  unfold arrayRotate rotatePass aimRay
  rw [if_neg (by simpa using hsq)]
  simp only [Except.map, Except.bind, Bool.not_true, Bool.false_eq_true, false_and, if_false]
  refine ⟨_, rfl, hsq.symm, rfl, ?_⟩
  intro i j hi hj
  simp only
  rw [C110_turn im.m (by omega) ang _ (centre_in (by omega) hj)]
  rfl

/-- **C110** an array that is not square raises `ValueError`. -/
theorem C110_shape (nearest : Bool) (fill : Option ℝ) (im : Img ℝ) (hsq : im.n ≠ im.m) (ang : ℝ)
    (center : Option (List ℝ)) (first : Bool) :
    arrayRotate nearest fill im ang center first = .error .ValueError := by
  unfold arrayRotate rotatePass
  rw [if_pos hsq]; rfl

/-- **C110** `rotate_first=False` is two calls: centre the image, then turn the result (unless the angle is zero) -/
theorem C110_order (nearest : Bool) (fill : Option ℝ) (im : Img ℝ) (ang : ℝ) (center : Option (List ℝ)) :
    arrayRotate nearest fill im ang center false =
      (arrayRotate nearest fill im 0 center true).bind fun mid =>
        if ang = 0 then .ok mid else arrayRotate nearest fill mid ang none true := by
  have e : rotatePass nearest fill im ang center false = rotatePass nearest fill im 0 center true := by
    unfold rotatePass lookAt lookRay turnRay
    simp
  unfold arrayRotate
  rw [e]
  cases rotatePass nearest fill im 0 center true with
  | error x => rfl
  | ok mid =>
    simp only [Except.bind, Bool.not_true, Bool.false_eq_true, false_and, if_false, Bool.not_false, true_and]
    by_cases ha : ang = 0
    · rw [if_neg (by simpa using ha), if_pos ha]
    · rw [if_pos ha, if_neg ha]
      cases rotatePass nearest fill mid ang none true <;> rfl

example : InSquare 4 (pixelCentre 1 2) := centre_in (by norm_num) (by norm_num)

/-! ### the interpolator -/

theorem cellOf_half {n k : ℕ} (hk : k + 1 < n) : cellOf n ((k : ℝ) + 1 / 2) = k := by
  unfold cellOf
  have : ⌊(k : ℝ) + 1 / 2⌋ = (k : ℤ) := by
    rw [Int.floor_eq_iff]; push_cast; constructor <;> linarith
  rw [this]
  simp
  omega

theorem cellOf_last {n : ℕ} (hn : 2 ≤ n) : cellOf n (((n - 1 : ℕ) : ℝ) + 1 / 2) = n - 2 := by
  unfold cellOf
  have : ⌊((n - 1 : ℕ) : ℝ) + 1 / 2⌋ = ((n - 1 : ℕ) : ℤ) := by
    rw [Int.floor_eq_iff]; push_cast; constructor <;> linarith
  rw [this]
  simp
  omega

theorem nearIdx_half {n k : ℕ} (hn : 2 ≤ n) (hk : k < n) : nearIdx n ((k : ℝ) + 1 / 2) = k := by
  unfold nearIdx
  rcases Nat.lt_or_ge (k + 1) n with h | h
  · rw [cellOf_half h, if_pos (by linarith)]
  · obtain rfl : k = n - 1 := by omega
    rw [cellOf_last hn, if_neg]
    · omega
    · push Not
      have : ((n - 1 : ℕ) : ℝ) = ((n - 2 : ℕ) : ℝ) + 1 := by
        rw [show n - 1 = (n - 2) + 1 by omega]; push_cast; ring
      rw [this]; linarith

theorem nearIdx_lt {n : ℕ} (hn : 2 ≤ n) (x : ℝ) : nearIdx n x < n := by
  unfold nearIdx cellOf
  split_ifs <;> omega

/-- **C112** where the position read is a pixel centre, nearest interpolation returns that pixel. -/
theorem near_centre (im : Img ℝ) (hn : 2 ≤ im.n) (hm : 2 ≤ im.m) (a b : ℕ) (ha : a < im.n) (hb : b < im.m) :
    gridInterp true none im (pixelCentre a b) = im.at_ a b := by
  unfold gridInterp pixelCentre
  simp [nearIdx_half hn ha, nearIdx_half hm hb, -one_div]

/-! ### C111: the turn by zero degrees -/

theorem clockwise_zero (res : ℕ) (q : ℝ × ℝ) : clockwise res 0 q = q := by
  unfold clockwise; simp

/-- the full claim of C111 -/
def C111_statement : Prop :=
  ∀ (nearest : Bool) (im : Img ℝ), im.n = im.m → 2 ≤ im.m →
    ∃ out, arrayRotate nearest none im 0 none true = .ok out ∧ ∀ i j, i < im.n → j < im.m → out.at_ i j = im.at_ i j

/-- **C111** with nearest interpolation the turn by zero degrees returns the image. Missing: linear interpolation,
where the claim is false (`C111_refuted`). -/
theorem C111_nearest_partial (im : Img ℝ) (hsq : im.n = im.m) (h2 : 2 ≤ im.m) :
    ∃ out, arrayRotate true none im 0 none true = .ok out ∧ ∀ i j, i < im.n → j < im.m → out.at_ i j = im.at_ i j := by
  obtain ⟨out, h, _, _, ha⟩ := C110_array true none im hsq 0
  refine ⟨out, h, ?_⟩
  intro i j hi hj
  rw [ha i j hi hj, clockwise_zero, near_centre im (by omega) h2 i j hi hj]

/-- half a pixel further along an axis, as linear interpolation on the pixel indices gives it -/
noncomputable def halfStep (n : ℕ) (f : ℕ → ℝ) (k : ℕ) : ℝ :=
  if k + 1 < n then (f k + f (k + 1)) / 2 else (3 * f k - f (k - 1)) / 2

theorem lin_half {n k : ℕ} (hn : 2 ≤ n) (hk : k < n) (f : ℕ → ℝ) : lin n f ((k : ℝ) + 1 / 2) = halfStep n f k := by
  unfold lin halfStep
  rcases Nat.lt_or_ge (k + 1) n with h | h
  · rw [cellOf_half h, if_pos h]; ring
  · obtain rfl : k = n - 1 := by omega
    rw [cellOf_last hn, if_neg (by omega)]
    have e : ((n - 1 : ℕ) : ℝ) = ((n - 2 : ℕ) : ℝ) + 1 := by
      rw [show n - 1 = (n - 2) + 1 by omega]; push_cast; ring
    rw [show n - 2 + 1 = n - 1 by omega, show n - 1 - 1 = n - 2 by omega, e]
    ring

/-- **C111** with linear interpolation every pixel becomes the mean of itself and its three neighbours at higher
indices (the image moves by half a pixel along both axes), and the last row and column are extrapolated. -/
theorem C111_linear_partial (im : Img ℝ) (hsq : im.n = im.m) (h2 : 2 ≤ im.m) :
    ∃ out, arrayRotate false none im 0 none true = .ok out ∧ ∀ i j, i < im.n → j < im.m →
      out.at_ i j = halfStep im.n (fun a => halfStep im.m (im.at_ a) j) i := by
  obtain ⟨out, h, _, _, ha⟩ := C110_array false none im hsq 0
  refine ⟨out, h, ?_⟩
  intro i j hi hj
  rw [ha i j hi hj, clockwise_zero]
  unfold gridInterp pixelCentre bilin
  simp only [Option.isSome_none, Bool.false_eq_true, false_and, if_false]
  rw [lin_half (by omega) hi]
  congr 1
  funext a
  exact lin_half h2 hj _

/-- an image with one bright pixel -/
def oneBright : Img ℝ := ⟨2, 2, fun i j => if i = 1 ∧ j = 0 then 1 else 0⟩

theorem oneBright_turn : ∃ out, arrayRotate false none oneBright 0 none true = .ok out ∧
    out.at_ 0 0 = 1 / 4 ∧ out.at_ 1 1 = -3 / 4 := by
  obtain ⟨out, h, ha⟩ := C111_linear_partial oneBright rfl (le_refl 2)
  refine ⟨out, h, ?_, ?_⟩
  · rw [ha 0 0 (by decide) (by decide)]; unfold halfStep oneBright; norm_num
  · rw [ha 1 1 (by decide) (by decide)]; unfold halfStep oneBright; norm_num

/-- **C111** is false: linear interpolation shifts the image. -/
theorem C111_refuted : ¬ C111_statement := by
  intro h
  obtain ⟨out, h1, h2, _⟩ := oneBright_turn
  obtain ⟨out', h1', h3⟩ := h false oneBright rfl (le_refl 2)
  rw [h1] at h1'
  injection h1' with e
  rw [← e] at h3
  have := h3 0 0 (by decide) (by decide)
  rw [h2] at this
  unfold oneBright at this
  norm_num at this

/-! ### C112: quarter turns -/

theorem clockwise_90 {res i j : ℕ} (hi : i < res) :
    clockwise res 90 (pixelCentre i j) = pixelCentre j (res - 1 - i) := by
  unfold clockwise pixelCentre
  rw [show (90 : ℝ) * π / 180 = π / 2 by ring, sin_pi_div_two, cos_pi_div_two]
  have : ((res - 1 - i : ℕ) : ℝ) = res - 1 - i := by
    rw [Nat.cast_sub (by omega), Nat.cast_sub (by omega)]; simp
  apply Prod.ext <;> simp only
  · ring
  · rw [this]; ring

theorem clockwise_180 {res i j : ℕ} (hi : i < res) (hj : j < res) :
    clockwise res 180 (pixelCentre i j) = pixelCentre (res - 1 - i) (res - 1 - j) := by
  unfold clockwise pixelCentre
  rw [show (180 : ℝ) * π / 180 = π by ring, sin_pi, cos_pi]
  have : ((res - 1 - i : ℕ) : ℝ) = res - 1 - i := by
    rw [Nat.cast_sub (by omega), Nat.cast_sub (by omega)]; simp
  have h' : ((res - 1 - j : ℕ) : ℝ) = res - 1 - j := by
    rw [Nat.cast_sub (by omega), Nat.cast_sub (by omega)]; simp
  apply Prod.ext <;> simp only
  · rw [this]; ring
  · rw [h']; ring

theorem clockwise_270 {res i j : ℕ} (hj : j < res) :
    clockwise res (-90) (pixelCentre i j) = pixelCentre (res - 1 - j) i := by
  unfold clockwise pixelCentre
  rw [show (-90 : ℝ) * π / 180 = -(π / 2) by ring, sin_neg, cos_neg, sin_pi_div_two, cos_pi_div_two]
  have : ((res - 1 - j : ℕ) : ℝ) = res - 1 - j := by
    rw [Nat.cast_sub (by omega), Nat.cast_sub (by omega)]; simp
  apply Prod.ext <;> simp only
  · rw [this]; ring
  · ring

/-- the full claim of C112: quarter turns move pixels, whatever the interpolation -/
def C112_statement : Prop :=
  ∀ (nearest : Bool) (im : Img ℝ), im.n = im.m → 2 ≤ im.m →
    ∃ out, arrayRotate nearest none im 90 none true = .ok out ∧
      ∀ i j, i < im.n → j < im.m → out.at_ i j = im.at_ j (im.m - 1 - i)

/-- **C112** with nearest interpolation the turns by 90, 180 and -90 degrees move every pixel to its turned place:
every square image of at least two by two pixels, corners included. Missing: linear interpolation. -/
theorem C112_nearest_partial (im : Img ℝ) (hsq : im.n = im.m) (h2 : 2 ≤ im.m) :
    (∃ out, arrayRotate true none im 90 none true = .ok out ∧
      ∀ i j, i < im.n → j < im.m → out.at_ i j = im.at_ j (im.m - 1 - i)) ∧
    (∃ out, arrayRotate true none im 180 none true = .ok out ∧
      ∀ i j, i < im.n → j < im.m → out.at_ i j = im.at_ (im.m - 1 - i) (im.m - 1 - j)) ∧
    (∃ out, arrayRotate true none im (-90) none true = .ok out ∧
      ∀ i j, i < im.n → j < im.m → out.at_ i j = im.at_ (im.m - 1 - j) i) := by
  refine ⟨?_, ?_, ?_⟩
  · obtain ⟨out, h, _, _, ha⟩ := C110_array true none im hsq 90
    refine ⟨out, h, fun i j hi hj => ?_⟩
    rw [ha i j hi hj, clockwise_90 (by omega), near_centre im (by omega) h2 _ _ (by omega) (by omega)]
  · obtain ⟨out, h, _, _, ha⟩ := C110_array true none im hsq 180
    refine ⟨out, h, fun i j hi hj => ?_⟩
    rw [ha i j hi hj, clockwise_180 (by omega) hj, near_centre im (by omega) h2 _ _ (by omega) (by omega)]
  · obtain ⟨out, h, _, _, ha⟩ := C110_array true none im hsq (-90)
    refine ⟨out, h, fun i j hi hj => ?_⟩
    rw [ha i j hi hj, clockwise_270 hj, near_centre im (by omega) h2 _ _ (by omega) (by omega)]

/-- **C112** is false with linear interpolation. -/
theorem C112_refuted : ¬ C112_statement := by
  intro h
  obtain ⟨out, h1, h3⟩ := h false oneBright rfl (le_refl 2)
  obtain ⟨out', h1', _, _, ha⟩ := C110_array false none oneBright rfl 90
  rw [h1] at h1'
  injection h1' with e
  rw [← e] at ha
  have a := h3 0 1 (by decide) (by decide)
  rw [ha 0 1 (by decide) (by decide), show oneBright.m = 2 from rfl, clockwise_90 (by decide)] at a
  unfold gridInterp pixelCentre bilin at a
  simp only [Option.isSome_none, Bool.false_eq_true, false_and, if_false] at a
  rw [show oneBright.n = 2 from rfl, show oneBright.m = 2 from rfl, lin_half (le_refl 2) (by norm_num)] at a
  have e2 : (fun a => lin 2 (oneBright.at_ a) (((2 - 1 - 0 : ℕ) : ℝ) + 1 / 2))
      = fun a => halfStep 2 (oneBright.at_ a) 1 := by
    funext a; exact lin_half (le_refl 2) (by norm_num) _
  simp only [e2] at a
  unfold halfStep oneBright at a
  norm_num at a

/-! ### C116: values of the result -/

theorem lin_const (n : ℕ) (f : ℕ → ℝ) (c x : ℝ) (h : ∀ k, f k = c) : lin n f x = c := by
  unfold lin; rw [h, h]; ring

theorem lin_const' {n : ℕ} (hn : 2 ≤ n) (f : ℕ → ℝ) (c x : ℝ) (h : ∀ k, k < n → f k = c) : lin n f x = c := by
  unfold lin
  have : cellOf n x + 1 < n := by unfold cellOf; omega
  rw [h _ (by omega), h _ this]; ring

theorem interp_uniform (nearest : Bool) (im : Img ℝ) (hn : 2 ≤ im.n) (hm : 2 ≤ im.m) (c : ℝ)
    (h : ∀ i j, i < im.n → j < im.m → im.at_ i j = c) (p : ℝ × ℝ) : gridInterp nearest none im p = c := by
  unfold gridInterp
  simp only [Option.isSome_none, Bool.false_eq_true, false_and, if_false]
  cases nearest
  · simp only [Bool.false_eq_true, if_false]
    exact lin_const' hn _ c _ fun a ha => lin_const' hm _ c _ fun b hb => h a b ha hb
  · simp only [if_true]
    exact h _ _ (nearIdx_lt hn _) (nearIdx_lt hm _)

/-- the centre argument is usable -/
def CentreOk : Option (List ℝ) → Prop
  | none => True
  | some l => 2 ≤ l.length

theorem aim_ok {res : ℕ} {center : Option (List ℝ)} (h : CentreOk center) (p : V3) :
    ∃ p', aimRay res center p = .ok p' := by
  unfold aimRay
  rcases center with _ | l
  · exact ⟨_, rfl⟩
  · match l, h with
    | [_, _], _ => exact ⟨_, rfl⟩
    | [_, _, _], _ => exact ⟨_, rfl⟩
    | [_, _, _, _], _ => exact ⟨_, rfl⟩
    | _ :: _ :: _ :: _ :: _ :: _, _ => exact ⟨_, rfl⟩

theorem pass_ok (nearest : Bool) (fill : Option ℝ) (im : Img ℝ) (hsq : im.n = im.m) (ang : ℝ)
    (center : Option (List ℝ)) (hc : CentreOk center) (first : Bool) :
    ∃ out, rotatePass nearest fill im ang center first = .ok out ∧ out.n = im.m ∧ out.m = im.m ∧
      ∀ i j, ∃ p, lookAt im.m ang center first (pixelCentre i j) = .ok p ∧ out.at_ i j = gridInterp nearest fill im p := by
  unfold rotatePass
  rw [if_neg (by simpa using hsq)]
  obtain ⟨p0, hp0⟩ := aim_ok (res := im.m) hc ⟨0, 1, 0⟩
  rw [hp0]
  refine ⟨_, rfl, rfl, rfl, fun i j => ?_⟩
  obtain ⟨p1, hp1⟩ := aim_ok (res := im.m) hc
    (if first then turnRay ang ((dfltView 180).pixel2ray im.m (pixelCentre i j)) else
      (dfltView 180).pixel2ray im.m (pixelCentre i j))
  have hl : lookAt im.m ang center first (pixelCentre i j) = .ok ((dfltView 180).ray2pixelF im.m p1) := by
    unfold lookAt lookRay; rw [hp1]; rfl
  exact ⟨_, hl, by simp only; rw [hl]; rfl⟩

/-- **C116** a uniform image stays uniform, whatever the angle, the centre, the order and the interpolation. -/
theorem C116_uniform (nearest : Bool) (im : Img ℝ) (hsq : im.n = im.m) (h2 : 2 ≤ im.m) (c : ℝ)
    (h : ∀ i j, i < im.n → j < im.m → im.at_ i j = c) (ang : ℝ) (center : Option (List ℝ)) (hc : CentreOk center)
    (first : Bool) :
    ∃ out, arrayRotate nearest none im ang center first = .ok out ∧ out.n = im.n ∧ out.m = im.m ∧
      ∀ i j, out.at_ i j = c := by
  obtain ⟨o1, e1, n1, m1, a1⟩ := pass_ok nearest none im hsq ang center hc first
  have u1 : ∀ i j, o1.at_ i j = c := by
    intro i j
    obtain ⟨p, _, hp⟩ := a1 i j
    rw [hp, interp_uniform nearest im (by omega) h2 c h]
  unfold arrayRotate
  rw [e1]
  simp only [Except.bind]
  split_ifs with hb
  · obtain ⟨o2, e2, n2, m2, a2⟩ := pass_ok nearest none o1 (by omega) ang none trivial true
    refine ⟨o2, e2, by omega, by omega, fun i j => ?_⟩
    obtain ⟨p, _, hp⟩ := a2 i j
    rw [hp, interp_uniform nearest o1 (by omega) (by omega) c (fun i j _ _ => u1 i j)]
  · exact ⟨o1, rfl, by omega, m1, u1⟩

/-- the full claim of C116: the result keeps within the range of the image -/
def C116_statement : Prop :=
  ∀ (nearest : Bool) (im : Img ℝ), im.n = im.m → 2 ≤ im.m → ∀ lo hi : ℝ,
    (∀ i j, i < im.n → j < im.m → lo ≤ im.at_ i j ∧ im.at_ i j ≤ hi) →
    ∀ ang center, CentreOk center → ∀ first, ∃ out, arrayRotate nearest none im ang center first = .ok out ∧
      ∀ i j, i < im.n → j < im.m → lo ≤ out.at_ i j ∧ out.at_ i j ≤ hi

/-- **C116** is false with linear interpolation: a nonnegative image gives a negative pixel. -/
theorem C116_refuted : ¬ C116_statement := by
  intro h
  obtain ⟨out, h1, _, h2⟩ := oneBright_turn
  obtain ⟨out', h1', h3⟩ := h false oneBright rfl (le_refl 2) 0 1
    (by intro i j _ _; unfold oneBright; simp only; split_ifs <;> norm_num) 0 none trivial true
  rw [h1] at h1'
  injection h1' with e
  rw [← e] at h3
  have := (h3 1 1 (by decide) (by decide)).1
  rw [h2] at this
  norm_num at this

/-- **C116** with nearest interpolation every value of the result is a value of the image. Missing: linear
interpolation, see `C116_inside_partial`. -/
theorem C116_nearest_partial (im : Img ℝ) (hsq : im.n = im.m) (h2 : 2 ≤ im.m) (ang : ℝ) (center : Option (List ℝ))
    (hc : CentreOk center) (first : Bool) :
    ∃ out, arrayRotate true none im ang center first = .ok out ∧
      ∀ i j, ∃ a b, a < im.n ∧ b < im.m ∧ out.at_ i j = im.at_ a b := by
  obtain ⟨o1, e1, n1, m1, a1⟩ := pass_ok true none im hsq ang center hc first
  have pick : ∀ (o : Img ℝ), 2 ≤ o.n → 2 ≤ o.m → ∀ p, ∃ a b, a < o.n ∧ b < o.m ∧ gridInterp true none o p = o.at_ a b := by
    intro o hn hm p
    refine ⟨nearIdx o.n p.1, nearIdx o.m p.2, nearIdx_lt hn _, nearIdx_lt hm _, ?_⟩
    unfold gridInterp; simp
  have u1 : ∀ i j, ∃ a b, a < im.n ∧ b < im.m ∧ o1.at_ i j = im.at_ a b := by
    intro i j
    obtain ⟨p, _, hp⟩ := a1 i j
    rw [hp]; exact pick im (by omega) h2 p
  unfold arrayRotate
  rw [e1]
  simp only [Except.bind]
  split_ifs with hb
  · obtain ⟨o2, e2, n2, m2, a2⟩ := pass_ok true none o1 (by omega) ang none trivial true
    refine ⟨o2, e2, fun i j => ?_⟩
    obtain ⟨p, _, hp⟩ := a2 i j
    obtain ⟨a, b, _, _, hab⟩ := pick o1 (by omega) (by omega) p
    rw [hp, hab]; exact u1 a b
  · exact ⟨o1, rfl, u1⟩

theorem cellOf_in {n : ℕ} (hn : 2 ≤ n) {x : ℝ} (h0 : 0 ≤ x) (h1 : x ≤ (n : ℝ) - 1) :
    0 ≤ x - cellOf n x ∧ x - cellOf n x ≤ 1 := by
  unfold cellOf
  have hf : ((⌊x⌋.toNat : ℕ) : ℝ) = ⌊x⌋ := by
    have := Int.toNat_of_nonneg (Int.floor_nonneg.mpr h0)
    exact_mod_cast congrArg (Int.cast : ℤ → ℝ) this
  have a := Int.floor_le x
  have b := Int.lt_floor_add_one x
  rcases le_total ⌊x⌋.toNat (n - 2) with h | h
  · rw [min_eq_left h, hf]; constructor <;> linarith
  · rw [min_eq_right h]
    have hc : ((n - 2 : ℕ) : ℝ) = n - 2 := by rw [Nat.cast_sub hn]; norm_num
    have hle : ((n - 2 : ℕ) : ℝ) ≤ ⌊x⌋ := by rw [← hf]; exact_mod_cast h
    rw [hc] at hle ⊢
    constructor <;> linarith

theorem lin_range {n : ℕ} (hn : 2 ≤ n) (f : ℕ → ℝ) {x lo hi : ℝ} (h0 : 0 ≤ x) (h1 : x ≤ (n : ℝ) - 1)
    (h : ∀ k, k < n → lo ≤ f k ∧ f k ≤ hi) : lo ≤ lin n f x ∧ lin n f x ≤ hi := by
  obtain ⟨a, b⟩ := cellOf_in hn h0 h1
  have hc : cellOf n x + 1 < n := by unfold cellOf; omega
  obtain ⟨p1, p2⟩ := h _ (show cellOf n x < n by omega)
  obtain ⟨q1, q2⟩ := h _ hc
  unfold lin
  constructor <;> nlinarith

/-- **C116** with linear interpolation a pixel read inside the grid of pixel indices keeps within the range of the
image; pixels read outside are extrapolated (`C116_refuted`). -/
theorem C116_inside_partial (im : Img ℝ) (hn : 2 ≤ im.n) (hm : 2 ≤ im.m) (lo hi : ℝ)
    (h : ∀ i j, i < im.n → j < im.m → lo ≤ im.at_ i j ∧ im.at_ i j ≤ hi) (p : ℝ × ℝ) (h0 : 0 ≤ p.1)
    (h1 : p.1 ≤ (im.n : ℝ) - 1) (h2 : 0 ≤ p.2) (h3 : p.2 ≤ (im.m : ℝ) - 1) :
    lo ≤ gridInterp false none im p ∧ gridInterp false none im p ≤ hi := by
  unfold gridInterp
  simp only [Option.isSome_none, Bool.false_eq_true, false_and, if_false]
  exact lin_range hn _ h0 h1 fun a ha => lin_range hm _ h2 h3 fun b hb => h a b ha hb

/-- **C116** with a fill value, every pixel of the turned or centred image is the fill value or within the range. -/
theorem C116_fill (nearest : Bool) (im : Img ℝ) (hsq : im.n = im.m) (h2 : 2 ≤ im.m) (lo hi v : ℝ)
    (h : ∀ i j, i < im.n → j < im.m → lo ≤ im.at_ i j ∧ im.at_ i j ≤ hi) (ang : ℝ) (center : Option (List ℝ))
    (hc : CentreOk center) :
    ∃ out, arrayRotate nearest (some v) im ang center true = .ok out ∧
      ∀ i j, out.at_ i j = v ∨ lo ≤ out.at_ i j ∧ out.at_ i j ≤ hi := by
  obtain ⟨o1, e1, n1, m1, a1⟩ := pass_ok nearest (some v) im hsq ang center hc true
  unfold arrayRotate
  rw [e1]
  simp only [Except.bind, Bool.not_true, Bool.false_eq_true, false_and, if_false]
  refine ⟨o1, rfl, fun i j => ?_⟩
  obtain ⟨p, _, hp⟩ := a1 i j
  rw [hp]
  unfold gridInterp
  simp only [Option.isSome_some, true_and, Option.getD_some]
  split_ifs with hb hnr
  · exact Or.inl rfl
  · exact Or.inr (h _ _ (nearIdx_lt (by omega) _) (nearIdx_lt h2 _))
  · unfold offGrid at hb
    push Not at hb
    obtain ⟨⟨b1, b2⟩, b3, b4⟩ := hb rfl
    exact Or.inr (lin_range (by omega) _ b1 b2 fun a ha => lin_range h2 _ b3 b4 fun b hb => h a b ha hb)

theorem fill_range (nearest : Bool) (im : Img ℝ) (hn : 2 ≤ im.n) (hm : 2 ≤ im.m) {lo hi v : ℝ}
    (h : ∀ i j, i < im.n → j < im.m → lo ≤ im.at_ i j ∧ im.at_ i j ≤ hi) (hv : lo ≤ v ∧ v ≤ hi) (p : ℝ × ℝ) :
    lo ≤ gridInterp nearest (some v) im p ∧ gridInterp nearest (some v) im p ≤ hi := by
  unfold gridInterp
  simp only [Option.isSome_some, true_and, Option.getD_some]
  split_ifs with hb hnr
  · exact hv
  · exact h _ _ (nearIdx_lt hn _) (nearIdx_lt hm _)
  · unfold offGrid at hb
    push Not at hb
    obtain ⟨⟨b1, b2⟩, b3, b4⟩ := hb rfl
    exact lin_range hn _ b1 b2 fun a ha => lin_range hm _ b3 b4 fun b hb => h a b ha hb

/-- **C116** with a fill value within the range of the image the result keeps within it, in both orders. -/
theorem C116_fill_range (nearest : Bool) (im : Img ℝ) (hsq : im.n = im.m) (h2 : 2 ≤ im.m) (lo hi v : ℝ)
    (h : ∀ i j, i < im.n → j < im.m → lo ≤ im.at_ i j ∧ im.at_ i j ≤ hi) (hv : lo ≤ v ∧ v ≤ hi) (ang : ℝ)
    (center : Option (List ℝ)) (hc : CentreOk center) (first : Bool) :
    ∃ out, arrayRotate nearest (some v) im ang center first = .ok out ∧
      ∀ i j, lo ≤ out.at_ i j ∧ out.at_ i j ≤ hi := by
  obtain ⟨o1, e1, n1, m1, a1⟩ := pass_ok nearest (some v) im hsq ang center hc first
  have u1 : ∀ i j, lo ≤ o1.at_ i j ∧ o1.at_ i j ≤ hi := by
    intro i j
    obtain ⟨p, _, hp⟩ := a1 i j
    rw [hp]; exact fill_range nearest im (by omega) h2 h hv p
  unfold arrayRotate
  rw [e1]
  simp only [Except.bind]
  split_ifs with hb
  · obtain ⟨o2, e2, n2, m2, a2⟩ := pass_ok nearest (some v) o1 (by omega) ang none trivial true
    refine ⟨o2, e2, fun i j => ?_⟩
    obtain ⟨p, _, hp⟩ := a2 i j
    rw [hp]; exact fill_range nearest o1 (by omega) (by omega) (fun i j _ _ => u1 i j) hv p
  · exact ⟨o1, rfl, u1⟩

example : CentreOk (some [3, 1]) ∧ CentreOk (some [3, 1, 2, 2]) ∧ CentreOk none := by
  refine ⟨?_, ?_, trivial⟩ <;> simp [CentreOk]

/-! ### C113: aiming at a new centre -/

/-- the position of the image centre -/
noncomputable def middle (res : ℕ) : ℝ × ℝ := ((res : ℝ) / 2, (res : ℝ) / 2)

theorem middle_ray {res : ℕ} (hr : 0 < res) : (dfltView 180).pixel2ray res (middle res) = ⟨0, 1, 0⟩ := by
  have hr' : (res : ℝ) ≠ 0 := by positivity
  rw [dflt_ray]
  have e : (res : ℝ) / 2 / res = 1 / 2 := by field_simp
  unfold middle
  simp only [e]
  have : off (1 / 2, 1 / 2) = 0 := by unfold off rad2; simp
  rw [this]; simp

theorem ray_unit (res : ℕ) (q : ℝ × ℝ) : ((dfltView 180).pixel2ray res q).normSq = 1 :=
  pixel_unit ⟨0, 1, 0⟩ dflt_ne 180 res q

theorem norm_of_unit {p : V3} (h : p.normSq = 1) : Geo.norm p = p := by
  unfold Geo.norm V3.divS V3.len
  rw [h]; simp

theorem unit_ne {p : V3} (h : p.normSq = 1) : p ≠ V3.zero := by
  intro e; rw [e] at h; unfold V3.normSq V3.zero at h; norm_num at h

theorem turn_axis (ang : ℝ) : turnRay ang ⟨0, 1, 0⟩ = ⟨0, 1, 0⟩ := by
  unfold turnRay
  split_ifs
  · rw [rot1]; simp
  · rfl

theorem aim_two (res : ℕ) (cx cy : ℝ) (p : V3) :
    aimRay res (some [cx, cy]) p = .ok (bwd ((dfltView 180).pixel2ray res (cx, cy)) (fwd ⟨0, 1, 0⟩ p)) := by
  unfold aimRay
  simp only
  rw [new_v2w (unit_ne (ray_unit res _))]
  unfold dfltView
  rw [new_w2v dflt_ne]

theorem aim_four (res : ℕ) (sx sy ex ey : ℝ) (p : V3) :
    aimRay res (some [sx, sy, ex, ey]) p
      = .ok (bwd ((dfltView 180).pixel2ray res (sx, sy)) (fwd ((dfltView 180).pixel2ray res (ex, ey)) p)) := rfl

/-- the full claim of C113: the new centre is shown in the middle, and the picture is turned rigidly on the sphere -/
def C113_statement : Prop :=
  ∀ res : ℕ, 0 < res → ∀ (ang cx cy : ℝ) (first : Bool), InSquare res (cx, cy) →
    lookAt res ang (some [cx, cy]) first (middle res) = .ok (cx, cy) ∧
    ∀ p q, ∃ p' q', lookRay res ang (some [cx, cy]) first p = .ok p' ∧ lookRay res ang (some [cx, cy]) first q = .ok q' ∧
      p'.dot q' = p.dot q

theorem turn_dot (ang : ℝ) (p q : V3) : (turnRay ang p).dot (turnRay ang q) = p.dot q := by
  unfold turnRay
  split_ifs
  · exact app_dot (C35_is_rotation true 1 ang) p q
  · rfl

/-- **C113** the rays looked up are those of the result turned rigidly: angles between pixels are kept, for every
angle, every usable centre argument and both orders. -/
theorem C113_rigid (res : ℕ) (ang : ℝ) (center : Option (List ℝ)) (hc : CentreOk center) (first : Bool) (p q : V3) :
    ∃ p' q', lookRay res ang center first p = .ok p' ∧ lookRay res ang center first q = .ok q' ∧
      p'.dot q' = p.dot q := by
  have hd : ∀ a b : V3, ∃ a' b', aimRay res center a = .ok a' ∧ aimRay res center b = .ok b' ∧ a'.dot b' = a.dot b := by
    intro a b
    have two : ∀ (cx cy : ℝ) (l : List ℝ), (∀ x, aimRay res (some (cx :: cy :: l)) x =
        .ok ((View.new ((dfltView 180).pixel2ray res (cx, cy)) 180).v2w ((dfltView 180).w2v x))) →
        ∃ a' b', aimRay res (some (cx :: cy :: l)) a = .ok a' ∧ aimRay res (some (cx :: cy :: l)) b = .ok b' ∧
          a'.dot b' = a.dot b := by
      intro cx cy l hl
      refine ⟨_, _, hl a, hl b, ?_⟩
      rw [new_v2w (unit_ne (ray_unit res _)), new_v2w (unit_ne (ray_unit res _)), (C36_inverse _ _ _).2.2.2]
      unfold dfltView
      rw [new_w2v dflt_ne, new_w2v dflt_ne, (C36_inverse _ _ _).2.2.1]
    rcases center with _ | l
    · exact ⟨_, _, rfl, rfl, rfl⟩
    · match l, hc with
      | [_, _], _ => exact two _ _ _ fun _ => rfl
      | [_, _, _], _ => exact two _ _ _ fun _ => rfl
      | [_, _, _, _], _ =>
        refine ⟨_, _, rfl, rfl, ?_⟩
        rw [(C36_inverse _ _ _).2.2.2, (C36_inverse _ _ _).2.2.1]
      | _ :: _ :: _ :: _ :: _ :: _, _ => exact two _ _ _ fun _ => rfl
  unfold lookRay
  obtain ⟨a', b', h1, h2, h3⟩ := hd (if first then turnRay ang p else p) (if first then turnRay ang q else q)
  refine ⟨a', b', h1, h2, ?_⟩
  rw [h3]
  cases first
  · simp
  · simp [turn_dot]

/-- **C113** the result shows the chosen position in its middle, for every angle and both orders, as long as the ray
of the chosen position is not in the small caps around the vertical where `rmtx_yp` snaps (missing: those caps,
`C113_refuted`; whole pixel numbers never fall in them, `C113_pixels`). -/
theorem C113_centre_partial (res : ℕ) (hr : 0 < res) (ang cx cy : ℝ) (first : Bool) (hin : InSquare res (cx, cy))
    (hc : Clear ((dfltView 180).pixel2ray res (cx, cy))) :
    lookAt res ang (some [cx, cy]) first (middle res) = .ok (cx, cy) := by
  unfold lookAt lookRay
  rw [middle_ray hr, aim_two]
  have e : (if first then turnRay ang ⟨0, 1, 0⟩ else (⟨0, 1, 0⟩ : V3)) = ⟨0, 1, 0⟩ := by
    cases first
    · simp
    · simp [turn_axis]
  rw [e, fwd_y]
  have := hc.look.2
  rw [norm_of_unit (ray_unit res _)] at this
  simp only [neg_zero, Except.map]
  rw [this, dflt_round res hr _ (off_lt_one hr hin)]

/-- **C114** four numbers `sx sy ex ey`: the result shows at position `(ex, ey)` what the image holds at `(sx, sy)`,
as long as neither ray is in the caps around the vertical; the centre of the image is `(res/2, res/2)`. -/
theorem C114_move_partial (res : ℕ) (hr : 0 < res) (sx sy ex ey : ℝ) (first : Bool) (hin : InSquare res (sx, sy))
    (hs : Clear ((dfltView 180).pixel2ray res (sx, sy))) (he : Clear ((dfltView 180).pixel2ray res (ex, ey))) :
    lookAt res 0 (some [sx, sy, ex, ey]) first (ex, ey) = .ok (sx, sy) := by
  unfold lookAt lookRay
  have e : ∀ p, (if first then turnRay 0 p else p) = p := by
    intro p
    cases first
    · simp
    · simp [turnRay]
  rw [e, aim_four]
  have h1 := he.look.1
  rw [norm_of_unit (ray_unit res _)] at h1
  have h2 := hs.look.2
  rw [norm_of_unit (ray_unit res _)] at h2
  rw [h1, h2]
  simp only [Except.map]
  rw [dflt_round res hr _ (off_lt_one hr hin)]

/-- away from the vertical by the horizontal components -/
theorem clear_of {p : V3} (hp : p.normSq = 1) (h : 3.2e-5 ^ 2 < p.x ^ 2 + p.y ^ 2) : Clear p := by
  have hpi := pi_gt_three
  refine ⟨unit_ne hp, Or.inl ?_⟩
  rw [norm_of_unit hp]
  unfold V3.normSq at hp
  have hs : sin 3.2e-5 ≤ 3.2e-5 := sin_le (by norm_num)
  have hs0 : 0 ≤ sin (3.2e-5 : ℝ) := sin_nonneg_of_nonneg_of_le_pi (by norm_num) (by linarith)
  have hsc := sin_sq_add_cos_sq (3.2e-5 : ℝ)
  have hc0 : 0 < cos (3.2e-5 : ℝ) := cos_pos_of_mem_Ioo ⟨by linarith, by linarith⟩
  have hzz : p.z ^ 2 < cos (3.2e-5 : ℝ) ^ 2 := by nlinarith
  obtain ⟨h1, h2⟩ := abs_lt.mp (abs_lt_of_sq_lt_sq hzz hc0.le)
  constructor
  · rw [← arccos_cos (x := 3.2e-5) (by norm_num) (by linarith)]
    exact arccos_lt_arccos (by linarith [cos_le_one (3.2e-5 : ℝ)]) h2 (cos_le_one _)
  · have : π - 3.2e-5 = arccos (-cos 3.2e-5) := by
      rw [arccos_neg, arccos_cos (by norm_num) (by linarith)]
    rw [this]
    exact arccos_lt_arccos (by linarith [cos_le_one (3.2e-5 : ℝ)]) h1 (by nlinarith)

/-- a lower bound of the radial factor in the image square -/
theorem polFactor_ge {r : ℝ} (h0 : 0 < r) (h1 : r ^ 2 ≤ 1 / 2) : 0.82 ≤ polFactor r := by
  have hpi := pi_gt_three
  have hr1 : r ≤ 0.7072 := by nlinarith
  have hf := polFactor_eq h0.le (by linarith)
  have hj : ∀ t : ℝ, 0 ≤ t → t ≤ 1 / 2 → 2 * t ≤ sin (π * t) := by
    intro t ht ht'
    have := mul_le_sin (x := π * t) (by positivity) (by nlinarith)
    have e : 2 / π * (π * t) = 2 * t := by field_simp
    linarith
  have hk : 0.82 * r ≤ sin (π * r) := by
    rcases le_total r (1 / 2) with h | h
    · have := hj r h0.le h; linarith
    · have := hj (1 - r) (by linarith) (by linarith)
      rw [show π * (1 - r) = π - π * r by ring, sin_pi_sub] at this
      linarith
  rw [← hf] at hk
  nlinarith

/-- **C113** whole pixel numbers never fall in the caps, in images of up to 12000 pixels a side. -/
theorem pixel_clear (res : ℕ) (hr : 0 < res) (hm : res ≤ 12000) (a b : ℕ) (ha : a ≤ res) (hb : b ≤ res) :
    Clear ((dfltView 180).pixel2ray res ((a : ℝ), (b : ℝ))) := by
  have hpi := pi_gt_three
  have hr' : (0 : ℝ) < res := by positivity
  have hm' : (res : ℝ) ≤ 12000 := by exact_mod_cast hm
  have ha' : (a : ℝ) ≤ res := by exact_mod_cast ha
  have hb' : (b : ℝ) ≤ res := by exact_mod_cast hb
  have hu := ray_unit res ((a : ℝ), (b : ℝ))
  have hin : InSquare res ((a : ℝ), (b : ℝ)) := ⟨by positivity, ha', by positivity, hb'⟩
  by_cases h2 : 2 * a = res
  · -- on the vertical line through the centre
    have e1 : (a : ℝ) / res - 1 / 2 = 0 := by
      have : (2 : ℝ) * a = res := by exact_mod_cast h2
      rw [← this]; have : (a : ℝ) ≠ 0 := by intro h; rw [h] at this; linarith
      field_simp; norm_num
    have eo : off ((a : ℝ) / res, (b : ℝ) / res) = |(b : ℝ) / res - 1 / 2| := by
      unfold off rad2; simp only; rw [e1]; simp [sqrt_sq_eq_abs]
    rcases Nat.eq_zero_or_pos b with hb0 | hb0
    · have : (dfltView 180).pixel2ray res ((a : ℝ), (b : ℝ)) = ⟨0, 0, -1⟩ := by
        rw [dflt_ray]; simp only
        rw [eo, e1, hb0]; simp only [Nat.cast_zero, zero_div, zero_sub, abs_neg]
        rw [abs_of_pos (by norm_num)]
        have := polFactor_eq (r := 1 / 2) (by norm_num) (by norm_num)
        rw [show π * (1 / 2) = π / 2 by ring, sin_pi_div_two] at this
        rw [show π * (1 / 2) = π / 2 by ring, cos_pi_div_two]
        apply V3.ext <;> simp only
        · ring
        · linarith
      rw [this] at hu ⊢
      exact ⟨unit_ne hu, Or.inr (Or.inr (norm_of_unit hu))⟩
    · rcases Nat.lt_or_ge b res with hb1 | hb1
      · apply clear_of hu
        have hy : sin (π / (res : ℝ)) ≤ ((dfltView 180).pixel2ray res ((a : ℝ), (b : ℝ))).y := by
          rw [dflt_ray]; simp only
          rw [eo, ← cos_pi_div_two_sub]
          have hB0 : (1 : ℝ) ≤ b := by exact_mod_cast hb0
          have hB1 : (b : ℝ) + 1 ≤ res := by exact_mod_cast hb1
          have k1 : 1 / (res : ℝ) ≤ (b : ℝ) / res := by gcongr
          have k2 : (b : ℝ) / res + 1 / res ≤ 1 := by rw [← add_div, div_le_one hr']; exact hB1
          have k : |(b : ℝ) / res - 1 / 2| ≤ 1 / 2 - 1 / res := by
            rw [abs_le]; constructor <;> linarith
          have q0 : (0 : ℝ) < 1 / res := by positivity
          apply cos_le_cos_of_nonneg_of_le_pi
          · positivity
          · have : π / (res : ℝ) = π * (1 / res) := by ring
            rw [this]; nlinarith
          · have : π / 2 - π / (res : ℝ) = π * (1 / 2 - 1 / res) := by ring
            rw [this]
            exact mul_le_mul_of_nonneg_left k (by linarith)
        have hge2 : (2 : ℝ) ≤ res := by
          have : 2 ≤ res := by omega
          exact_mod_cast this
        have hs : 2 / π * (π / res) ≤ sin (π / (res : ℝ)) := by
          apply mul_le_sin (by positivity)
          rw [div_le_div_iff_of_pos_left (by linarith) hr' (by norm_num)]; exact hge2
        have e : 2 / π * (π / (res : ℝ)) = 2 / res := by field_simp
        have : 1e-4 < 2 / (res : ℝ) := by rw [lt_div_iff₀ hr']; norm_num; linarith
        nlinarith [sq_nonneg ((dfltView 180).pixel2ray res ((a : ℝ), (b : ℝ))).x]
      · obtain rfl : b = res := by omega
        have : (dfltView 180).pixel2ray b ((a : ℝ), (b : ℝ)) = ⟨0, 0, 1⟩ := by
          rw [dflt_ray]; simp only
          rw [eo, e1, div_self hr'.ne', show (1 : ℝ) - 1 / 2 = 1 / 2 by norm_num, abs_of_pos (by norm_num)]
          have := polFactor_eq (r := 1 / 2) (by norm_num) (by norm_num)
          rw [show π * (1 / 2) = π / 2 by ring, sin_pi_div_two] at this
          rw [show π * (1 / 2) = π / 2 by ring, cos_pi_div_two]
          apply V3.ext <;> simp only
          · ring
          · linarith
        rw [this] at hu ⊢
        exact ⟨unit_ne hu, Or.inr (Or.inl (norm_of_unit hu))⟩
  · -- off the line
    apply clear_of hu
    have hx : 1 / (2 * (res : ℝ)) ≤ |(a : ℝ) / res - 1 / 2| := by
      have e : (a : ℝ) / res - 1 / 2 = (2 * a - res) / (2 * res) := by field_simp
      rw [e, abs_div, abs_of_pos (show (0 : ℝ) < 2 * res by positivity)]
      gcongr
      have : (1 : ℤ) ≤ |2 * (a : ℤ) - res| := by
        apply Int.one_le_abs
        intro h; apply h2; omega
      exact_mod_cast this
    have ho : off ((a : ℝ) / res, (b : ℝ) / res) ^ 2 ≤ 1 / 2 := by
      unfold off
      rw [rad2_sq]
      simp only
      have k1 : (a : ℝ) / res ≤ 1 := by rw [div_le_one hr']; exact ha'
      have k2 : (b : ℝ) / res ≤ 1 := by rw [div_le_one hr']; exact hb'
      have k3 : 0 ≤ (a : ℝ) / res := by positivity
      have k4 : 0 ≤ (b : ℝ) / res := by positivity
      nlinarith
    have hpos : 0 < off ((a : ℝ) / res, (b : ℝ) / res) := by
      have h := rad2_sq ((a : ℝ) / res - 1 / 2, (b : ℝ) / res - 1 / 2)
      simp only at h
      have h0 := off_nonneg ((a : ℝ) / res, (b : ℝ) / res)
      rcases h0.lt_or_eq with h' | h'
      · exact h'
      · exfalso
        unfold off at h'
        simp only at h'
        rw [← h'] at h
        have : (a : ℝ) / res - 1 / 2 = 0 := by
          nlinarith [sq_nonneg ((a : ℝ) / res - 1 / 2), sq_nonneg ((b : ℝ) / res - 1 / 2)]
        rw [this, abs_zero] at hx
        have : 0 < 1 / (2 * (res : ℝ)) := by positivity
        linarith
    have hf := polFactor_ge hpos ho
    have hX : 3.2e-5 < |((dfltView 180).pixel2ray res ((a : ℝ), (b : ℝ))).x| := by
      rw [dflt_ray]; simp only
      rw [abs_mul, abs_of_nonneg (polFactor_nonneg _)]
      have q : 4e-5 ≤ 1 / (2 * (res : ℝ)) := by rw [le_div_iff₀ (by positivity)]; norm_num; linarith
      have : (4e-5 : ℝ) * 0.82 ≤ |(a : ℝ) / res - 1 / 2| * polFactor (off ((a : ℝ) / res, (b : ℝ) / res)) := by
        apply mul_le_mul (by linarith) hf (by norm_num) (by positivity)
      norm_num at this ⊢
      linarith
    have := mul_self_lt_mul_self (by norm_num) hX
    rw [abs_mul_abs_self] at this
    nlinarith [sq_nonneg ((dfltView 180).pixel2ray res ((a : ℝ), (b : ℝ))).y]

/-- **C113** for pixel numbers, as the command line takes them: in images of up to 12000 pixels a side the chosen
pixel is shown in the middle, for every angle and both orders, border included. -/
theorem C113_pixels (res : ℕ) (hr : 0 < res) (hm : res ≤ 12000) (a b : ℕ) (ha : a ≤ res) (hb : b ≤ res) (ang : ℝ)
    (first : Bool) : lookAt res ang (some [(a : ℝ), (b : ℝ)]) first (middle res) = .ok ((a : ℝ), (b : ℝ)) :=
  C113_centre_partial res hr ang a b first
    ⟨by positivity, by simp only; exact_mod_cast ha, by positivity, by simp only; exact_mod_cast hb⟩
    (pixel_clear res hr hm a b ha hb)

/-- **C114** for pixel numbers, in images of up to 12000 pixels a side. -/
theorem C114_pixels (res : ℕ) (hr : 0 < res) (hm : res ≤ 12000) (a b c d : ℕ) (ha : a ≤ res) (hb : b ≤ res)
    (hc : c ≤ res) (hd : d ≤ res) (first : Bool) :
    lookAt res 0 (some [(a : ℝ), (b : ℝ), (c : ℝ), (d : ℝ)]) first ((c : ℝ), (d : ℝ)) = .ok ((a : ℝ), (b : ℝ)) :=
  C114_move_partial res hr a b c d first
    ⟨by positivity, by simp only; exact_mod_cast ha, by positivity, by simp only; exact_mod_cast hb⟩
    (pixel_clear res hr hm a b ha hb) (pixel_clear res hr hm c d hc hd)

example : (0 : ℕ) < 1024 ∧ 1024 ≤ 12000 ∧ 300 ≤ 1024 := by norm_num

/-! #### the caps -/

theorem top_ray : (dfltView 180).pixel2ray 1 (1 / 2, 1) = ⟨0, 0, 1⟩ := by
  have hpi := pi_gt_three
  rw [dflt_ray]
  have : off ((1 / 2 : ℝ) / (1 : ℕ), (1 : ℝ) / (1 : ℕ)) = 1 / 2 := by
    unfold off rad2
    simp only [Nat.cast_one, div_one, sub_self]
    rw [show (0 : ℝ) ^ 2 + (1 - 1 / 2) ^ 2 = (1 / 2) ^ 2 by norm_num, sqrt_sq (by norm_num)]
  rw [this]
  have h := polFactor_eq (r := 1 / 2) (by norm_num) (by norm_num)
  rw [show π * (1 / 2) = π / 2 by ring, sin_pi_div_two] at h
  rw [show π * (1 / 2) = π / 2 by ring, cos_pi_div_two]
  apply V3.ext <;> simp only [Nat.cast_one, div_one]
  · ring
  · linarith

theorem cap_bwd (p : V3) : bwd ((dfltView 180).pixel2ray 1 ((1 / 2 + 1e-9 : ℝ), (1 : ℝ))) p = p := by
  have hpi := pi_gt_three
  have hpi4 := pi_lt_four
  have hu := ray_unit 1 ((1 / 2 + 1e-9 : ℝ), (1 : ℝ))
  have hr : ∃ r : ℝ, off ((1 / 2 + 1e-9 : ℝ) / (1 : ℕ), (1 : ℝ) / (1 : ℕ)) = r ∧ 1 / 2 ≤ r ∧ r ≤ 1 / 2 + 1e-17 := by
    refine ⟨_, rfl, ?_, ?_⟩
    · apply le_sqrt_of_sq_le; norm_num
    · apply sqrt_le_iff.mpr; norm_num
  obtain ⟨r, er, r0, r1⟩ := hr
  have hd : (dfltView 180).pixel2ray 1 ((1 / 2 + 1e-9 : ℝ), (1 : ℝ))
      = ⟨1e-9 * polFactor r, cos (π * r), 1 / 2 * polFactor r⟩ := by
    rw [dflt_ray, er]
    apply V3.ext <;> simp only [Nat.cast_one, div_one] <;> ring
  have hf := polFactor_eq (r := r) (by linarith) (by linarith)
  have hf0 := polFactor_nonneg r
  have hf2 : polFactor r ≤ 2 := by nlinarith [sin_le_one (π * r)]
  have hy : |cos (π * r)| ≤ 1e-8 := by
    rw [show π * r = π / 2 + π * (r - 1 / 2) by ring, cos_add, cos_pi_div_two, sin_pi_div_two]
    have a : 0 ≤ π * (r - 1 / 2) := by apply mul_nonneg <;> linarith
    have b : π * (r - 1 / 2) ≤ 4 * 1e-17 := by apply mul_le_mul <;> linarith
    have c : sin (π * (r - 1 / 2)) ≤ π * (r - 1 / 2) := sin_le a
    have d : 0 ≤ sin (π * (r - 1 / 2)) := sin_nonneg_of_nonneg_of_le_pi a (by linarith)
    rw [zero_mul, one_mul, zero_sub, abs_neg, abs_of_nonneg d]
    norm_num at b ⊢; linarith
  have hx : |1e-9 * polFactor r| ≤ 1e-8 := by rw [abs_of_nonneg (by positivity)]; linarith
  rw [hd] at hu
  have hz : |1 / 2 * polFactor r - 1| ≤ 1e-8 := by
    unfold V3.normSq at hu
    simp only at hu
    have a := pow_le_pow_left₀ (abs_nonneg _) hx 2
    have b := pow_le_pow_left₀ (abs_nonneg _) hy 2
    rw [sq_abs] at a b
    rw [abs_le]
    constructor <;> nlinarith
  have hup : allClose (Geo.norm ⟨1e-9 * polFactor r, cos (π * r), 1 / 2 * polFactor r⟩) ⟨0, 0, 1⟩ := by
    rw [norm_of_unit hu]
    unfold allClose isclose
    simp only [sub_zero, abs_zero, mul_zero, add_zero, abs_one, mul_one]
    exact ⟨hx, hy, by norm_num at hz ⊢; linarith⟩
  have hdn : ¬ allClose (Geo.norm ⟨1e-9 * polFactor r, cos (π * r), 1 / 2 * polFactor r⟩) ⟨0, 0, -1⟩ := by
    rw [norm_of_unit hu]
    unfold allClose isclose
    rintro ⟨_, _, h3⟩
    simp only [abs_neg, abs_one, mul_one, sub_neg_eq_add] at h3
    obtain ⟨z1, _⟩ := abs_le.mp hz
    obtain ⟨_, z2⟩ := abs_le.mp h3
    norm_num at z1 z2
    linarith
  rw [hd]
  unfold bwd ymtx pmtx
  rw [if_neg hdn, if_neg hdn, if_pos hup, if_pos hup]
  unfold M3.app; simp

theorem top_pos : (dfltView 180).ray2pixelF 1 ⟨0, 0, 1⟩ = (1 / 2, 1) := by
  have t := dflt_round 1 one_pos (1 / 2, 1) (off_lt_one one_pos ⟨by norm_num, by norm_num, by norm_num, by norm_num⟩)
  rw [top_ray] at t
  exact t

/-- **C113** is false in the caps: aiming a thousand-millionth of the image beside the zenith shows the zenith. -/
theorem C113_refuted : ¬ C113_statement := by
  intro h
  have h1 := (h 1 one_pos 0 (1 / 2 + 1e-9) 1 true ⟨by norm_num, by norm_num, by norm_num, by norm_num⟩).1
  unfold lookAt lookRay at h1
  rw [aim_two, cap_bwd, middle_ray (res := 1) one_pos] at h1
  simp only [turn_axis, if_true, Except.map] at h1
  rw [fwd_y] at h1
  simp only [neg_zero] at h1
  rw [top_pos] at h1
  injection h1 with h1
  have := congrArg Prod.fst h1
  norm_num at this

/-- the full claim of C114 -/
def C114_statement : Prop :=
  ∀ res : ℕ, 0 < res → ∀ (sx sy ex ey : ℝ) (first : Bool), InSquare res (sx, sy) → InSquare res (ex, ey) →
    lookAt res 0 (some [sx, sy, ex, ey]) first (ex, ey) = .ok (sx, sy)

/-- **C114** is false in the caps. -/
theorem C114_refuted : ¬ C114_statement := by
  intro h
  have e : (((1 : ℕ) : ℝ) / 2) = 1 / 2 := by norm_num
  have h1 := h 1 one_pos (1 / 2 + 1e-9) 1 (1 / 2) (1 / 2) true ⟨by norm_num, by norm_num, by norm_num, by norm_num⟩
    ⟨by norm_num, by norm_num, by norm_num, by norm_num⟩
  have hm := middle_ray (res := 1) one_pos
  unfold middle at hm
  rw [e] at hm
  unfold lookAt lookRay at h1
  rw [aim_four, cap_bwd, hm] at h1
  simp only [turn_axis, if_true, Except.map] at h1
  rw [fwd_y] at h1
  simp only [neg_zero] at h1
  rw [top_pos] at h1
  injection h1 with h1
  have := congrArg Prod.fst h1
  norm_num at this

/-! ### C115: the order of turning and centring -/

/-- what C115 asks: turning first means that the centred picture is a picture of the turned one -/
def C115_statement : Prop :=
  ∀ res : ℕ, 0 < res → ∀ (ang cx cy : ℝ) (q m : ℝ × ℝ), InSquare res (cx, cy) → InSquare res q →
    lookAt res 0 (some [cx, cy]) true q = .ok m → InSquare res m →
    lookAt res ang (some [cx, cy]) true q = lookAt res ang none true m

/-- **C115** `rotate_first` does not change where the image is read: turning the centred image in a second pass reads
the same place as the single pass of `rotate_first=True`, for every centre argument, angle and position. Both are centring first, turning second. -/
theorem C115_same_partial (res : ℕ) (hr : 0 < res) (ang : ℝ) (center : Option (List ℝ)) (q : ℝ × ℝ)
    (hq : InSquare res q) :
    (lookAt res ang none true q).bind (lookAt res ang center false) = lookAt res ang center true q := by
  rw [C110_turn res hr ang q hq]
  simp only [Except.bind]
  unfold lookAt lookRay
  simp only [Bool.false_eq_true, if_false, if_true]
  rw [turn_ray hr]

/-- **C115** is false: with `rotate_first=True` and a quarter turn the middle shows the chosen position, not the
position it turns to. -/
theorem C115_refuted : ¬ C115_statement := by
  intro h
  have hm : InSquare 2 (middle 2) := by unfold middle InSquare; norm_num
  have hc : InSquare 2 ((2 : ℝ), (1 : ℝ)) := by unfold InSquare; norm_num
  have p1 := fun ang => C113_pixels 2 (by norm_num) (by norm_num) 2 1 (by norm_num) (by norm_num) ang true
  simp only [Nat.cast_ofNat, Nat.cast_one] at p1
  have e := h 2 (by norm_num) 90 2 1 (middle 2) (2, 1) hc hm (p1 0) hc
  rw [p1 90, C110_turn 2 (by norm_num) 90 _ hc] at e
  injection e with e
  have := congrArg Prod.fst e
  unfold clockwise at this
  rw [show (90 : ℝ) * π / 180 = π / 2 by ring, sin_pi_div_two, cos_pi_div_two] at this
  norm_num at this

/-- **C113** a centre argument of fewer than two numbers raises `ValueError` for every image. -/
theorem C113_bad_centre (nearest : Bool) (fill : Option ℝ) (im : Img ℝ) (ang : ℝ) (l : List ℝ) (hl : l.length < 2)
    (first : Bool) : arrayRotate nearest fill im ang (some l) first = .error .ValueError := by
  unfold arrayRotate rotatePass
  by_cases h : im.n ≠ im.m
  · rw [if_pos h]; rfl
  · rw [if_neg h]
    match l, hl with
    | [], _ => rfl
    | [_], _ => rfl

end Verif.Map
