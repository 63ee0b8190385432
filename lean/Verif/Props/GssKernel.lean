import Verif.Model.GssKernel
import Verif.Props.PixelOmega
import Verif.Props.InitImg
import Verif.Props.GssOptics

/-! C150 (symmetry of the kernel of `apply_psf`), C151 (its scale). -/

namespace Verif.Gss
open Verif.Geo Verif.Map Verif.Init Verif.Py Real

/-! ### the kernel entry by entry -/

theorem putMask_map (g : ℕ × ℕ → ℝ) (l : List (ℕ × ℕ)) (im : ℕ → ℕ → ℝ) (i j : ℕ) :
    putMask im l (l.map g) i j = if (i, j) ∈ l then g (i, j) else im i j := by
  induction l generalizing im with
  | nil => rfl
  | cons e l ih =>
    have step : putMask im (e :: l) ((e :: l).map g) = putMask (fun i j => if (i, j) = e then g e else im i j) l (l.map g) := rfl
    rw [step, ih]
    by_cases h : (i, j) ∈ l
    · rw [if_pos h, if_pos (List.mem_cons_of_mem _ h)]
    · rw [if_neg h]
      by_cases he : (i, j) = e
      · rw [if_pos he, if_pos (by rw [he]; exact List.mem_cons_self), he]
      · rw [if_neg he, if_neg (by rw [List.mem_cons]; tauto)]

/-- distance of a pixel centre from the centre of the image, as a fraction of its width -/
noncomputable def cen (w i : ℕ) : ℝ := ((i : ℝ) + 1 / 2) / w - 1 / 2

theorem kmask_mem {fw : ℝ} (h0 : 0 < fw) (h1 : fw ≤ 180) {w i j : ℕ} (hi : i < w) (hj : j < w) :
    (i, j) ∈ kmask fw w ↔ cen w i ^ 2 + cen w j ^ 2 < (1 / 2) ^ 2 := by
  have hp : process "vta".toList = .ok .vta := by decide
  obtain ⟨l, b, r, r', e1, -, e3, -, hm⟩ := C143_circle_partial hp ⟨0, 1, 0⟩ clear_example.1 fw (Or.inl ⟨h0, h1⟩) w 1 id
  have hk : kmask fw w = l := by
    unfold kmask kview
    rw [e1]
    obtain ⟨s, v, m, m2, h⟩ := r
    simp only at e3
    rw [e3]
  rw [hk, hm.mem, if_neg (by linarith), Nat.mul_one]
  unfold InDisk cen
  rw [Nat.mod_eq_of_lt hi, disk_div (by omega)]
  tauto

theorem kvecs_at {fw : ℝ} (h1 : fw ≤ 180) (w i j : ℕ) :
    (kvecs fw w).at_ i j = (View.new ⟨0, 1, 0⟩ fw).vxy2xyz (((i : ℝ) + 1 / 2) / w, ((j : ℝ) + 1 / 2) / w) := by
  have hp : process "vta".toList = .ok .vta := by decide
  unfold kvecs kview
  rw [init_vta hp]
  simp only
  have ht : (View.new ⟨0, 1, 0⟩ fw).two = false := (new_sf (by linarith)).2.2.2.1
  unfold rays
  rw [if_neg (by simp [ht])]
  rfl

open Classical in
/-- every entry in closed form: the point spread at the angle of the pixel, times its solid angle, inside the circle -/
theorem raw_eq {fw : ℝ} (h0 : 0 < fw) (h1 : fw ≤ 180) (w : ℕ) (bcs : List (ℝ × ℝ)) (k : Fin w × Fin w) :
    rawKernel fw w bcs k = (if cen w k.1 ^ 2 + cen w k.2 ^ 2 < (1 / 2) ^ 2
      then mix fb bcs (√(cen w k.1 ^ 2 + cen w k.2 ^ 2) * (chordFactor fw * fw * π / 180)) else 0) * koga fw w k.1 k.2 := by
  obtain ⟨⟨i, hi⟩, ⟨j, hj⟩⟩ := k
  unfold rawKernel kphi
  rw [List.map_map, putMask_map]
  congr 1
  by_cases h : (i, j) ∈ kmask fw w
  · rw [if_pos h, if_pos ((kmask_mem h0 h1 hi hj).mp h)]
    simp only [Function.comp]
    rw [kvecs_at h1]
    obtain ⟨a0, a1⟩ := cell_unit hi
    obtain ⟨b0, b1⟩ := cell_unit hj
    norm_num at a0 a1 b0 b1
    unfold kview
    rw [C53_equiangular_partial _ clear_example.1 fw h0 h1 _ (by norm_num; linarith) (by norm_num; linarith) (by norm_num; linarith)
      (by norm_num; linarith)]
    rfl
  · rw [if_neg h, if_neg ((kmask_mem h0 h1 hi hj).not.mp h)]

/-! ### symmetry -/

theorem rad2_neg1 (x y : ℝ) : rad2 (-x, y) = rad2 (x, y) := by unfold rad2; simp
theorem rad2_neg2 (x y : ℝ) : rad2 (x, -y) = rad2 (x, y) := by unfold rad2; simp
theorem rad2_swap (x y : ℝ) : rad2 (y, x) = rad2 (x, y) := by unfold rad2; simp only; rw [add_comm]

/-- solid angle of a pixel of side `2 * e` centred on `(a, b)`, in units of the angle -/
noncomputable def om (e a b : ℝ) : ℝ :=
  (cross ((polar2view (a + e, b)).sub (polar2view (a - e, b))) ((polar2view (a, b + e)).sub (polar2view (a, b - e)))).len

theorem om_neg1 (e a b : ℝ) : om e (-a) b = om e a b := by
  unfold om V3.len
  congr 1
  rw [show -a + e = -(a - e) by ring, show -a - e = -(a + e) by ring]
  unfold polar2view cross V3.sub V3.normSq
  simp only [rad2_neg1]
  ring

theorem om_swap (e a b : ℝ) : om e b a = om e a b := by
  unfold om V3.len
  congr 1
  unfold polar2view cross V3.sub V3.normSq
  rw [rad2_swap a (b + e), rad2_swap a (b - e), rad2_swap (a + e) b, rad2_swap (a - e) b]
  ring

theorem om_neg2 (e a b : ℝ) : om e a (-b) = om e a b := by
  rw [← om_swap, om_neg1, om_swap]

theorem koga_om {fw : ℝ} (h1 : fw ≤ 180) {w : ℕ} (hw : 0 < w) (i j : ℕ) :
    koga fw w i j = om (1 / (2 * w) * (fw * chordFactor fw / 180)) (cen w i * (fw * chordFactor fw / 180))
      (cen w j * (fw * chordFactor fw / 180)) := by
  have hR : (0 : ℝ) < w := by exact_mod_cast hw
  obtain ⟨_, _, e1, e2, e3⟩ := new_sf (d := ⟨0, 1, 0⟩) (va := fw) (by linarith)
  have hcv : (View.new ⟨0, 1, 0⟩ fw).centred
      = fun q : ℝ × ℝ => (-((q.1 - 1 / 2) * (fw * chordFactor fw / 180)), (q.2 - 1 / 2) * (fw * chordFactor fw / 180)) := by
    funext q
    unfold View.centred
    rw [e1, e3]
    apply Prod.ext <;> simp only <;> ring
  set K := fw * chordFactor fw / 180
  rw [← om_neg1]
  unfold koga kview
  rw [pixel2omega_view clear_example.1.1]
  simp only [hcv]
  unfold pixelCentre om
  simp only
  have q1 : ∀ n : ℕ, ((n : ℝ) + 1 / 2 + 1 / 2) / (w : ℝ) - 1 / 2 = cen w n + 1 / (2 * w) := by
    intro n; unfold cen; field_simp; ring
  have q2 : ∀ n : ℕ, ((n : ℝ) + 1 / 2 - 1 / 2) / (w : ℝ) - 1 / 2 = cen w n - 1 / (2 * w) := by
    intro n; unfold cen; field_simp; ring
  have q3 : ∀ n : ℕ, ((n : ℝ) + 1 / 2) / (w : ℝ) - 1 / 2 = cen w n := fun n => rfl
  rw [q1, q2, q1, q2, q3, q3]
  rw [show -((cen w i + 1 / (2 * w)) * K) = -(cen w i * K) - 1 / (2 * w) * K by ring,
    show -((cen w i - 1 / (2 * w)) * K) = -(cen w i * K) + 1 / (2 * w) * K by ring,
    show (cen w j + 1 / (2 * w)) * K = cen w j * K + 1 / (2 * w) * K by ring,
    show (cen w j - 1 / (2 * w)) * K = cen w j * K - 1 / (2 * w) * K by ring]
  have hflip : ∀ A B Y : V3, (cross (A.sub B) Y).len = (cross (B.sub A) Y).len := by
    intro A B Y
    unfold V3.len cross V3.sub V3.normSq
    congr 1
    ring
  rw [hflip]

theorem cen_rev {w : ℕ} (i : Fin w) : cen w i.rev = -cen w i := by
  have hw : (0 : ℝ) < w := by exact_mod_cast i.pos
  unfold cen
  rw [Fin.val_rev, Nat.cast_sub (by omega)]
  push_cast
  field_simp
  ring

/-- a square array is unchanged when mirrored left to right, top to bottom or along the diagonal -/
def Symmetric {w : ℕ} (ker : Fin w × Fin w → ℝ) : Prop :=
  ∀ i j, ker (i.rev, j) = ker (i, j) ∧ ker (i, j.rev) = ker (i, j) ∧ ker (j, i) = ker (i, j)

theorem raw_symmetric {fw : ℝ} (h0 : 0 < fw) (h1 : fw ≤ 180) (w : ℕ) (bcs : List (ℝ × ℝ)) : Symmetric (rawKernel fw w bcs) := by
  intro i j
  have hw := i.pos
  refine ⟨?_, ?_, ?_⟩ <;> rw [raw_eq h0 h1, raw_eq h0 h1] <;> simp only <;> rw [koga_om h1 hw, koga_om h1 hw]
  · rw [cen_rev, neg_mul, om_neg1, neg_sq]
  · rw [cen_rev, neg_mul, om_neg2, neg_sq]
  · rw [om_swap, add_comm (cen w j ^ 2)]

/-! ### the peak -/

theorem fb_anti {b c x y : ℝ} (hb : 0 < b) (hb1 : b ≤ 1) (hc : 0 < c) (hx : 0 ≤ x) (hxy : x < y) (hy : y ≤ π / 2) :
    fb b c y ≤ fb b c x ∧ (b < 1 → fb b c y < fb b c x) := by
  have hpi := pi_pos
  have hsx : 0 ≤ sin x := sin_nonneg_of_nonneg_of_le_pi hx (by linarith)
  have hs : sin x < sin y := sin_lt_sin_of_lt_of_le_pi_div_two (by linarith) hy hxy
  have dx := den_pos hb x
  have dy := den_pos hb y
  have ex := sin_sq_add_cos_sq x
  have ey := sin_sq_add_cos_sq y
  have hb2 : b ^ 2 ≤ 1 := by nlinarith
  have hD : sin x ^ 2 + b ^ 2 * cos x ^ 2 ≤ sin y ^ 2 + b ^ 2 * cos y ^ 2 := by
    have e1 : cos x ^ 2 = 1 - sin x ^ 2 := by linarith
    have e2 : cos y ^ 2 = 1 - sin y ^ 2 := by linarith
    rw [e1, e2]
    have : sin x ^ 2 ≤ sin y ^ 2 := by nlinarith
    nlinarith
  have px : 0 < (sin x ^ 2 + b ^ 2 * cos x ^ 2) ^ (1.5 : ℝ) := rpow_pos_of_pos dx _
  unfold fb
  constructor
  · apply div_le_div_of_nonneg_left (by positivity) (by positivity)
    exact mul_le_mul_of_nonneg_left (rpow_le_rpow dx.le hD (by norm_num)) (by positivity)
  · intro hb3
    have hb4 : b ^ 2 < 1 := by nlinarith
    have hD' : sin x ^ 2 + b ^ 2 * cos x ^ 2 < sin y ^ 2 + b ^ 2 * cos y ^ 2 := by
      have e1 : cos x ^ 2 = 1 - sin x ^ 2 := by linarith
      have e2 : cos y ^ 2 = 1 - sin y ^ 2 := by linarith
      rw [e1, e2]
      have : sin x ^ 2 < sin y ^ 2 := by nlinarith
      nlinarith
    apply div_lt_div_of_pos_left (by positivity) (by positivity)
    exact mul_lt_mul_of_pos_left (rpow_lt_rpow dx.le hD' (by norm_num)) (by positivity)

/-- widths between 0 and 1, not all 1, with positive shares -/
structure Eye (bcs : List (ℝ × ℝ)) : Prop where
  pos : ∀ bc ∈ bcs, 0 < bc.1 ∧ bc.1 ≤ 1 ∧ 0 < bc.2
  sharp : ∃ bc ∈ bcs, bc.1 < 1

theorem mix_anti {bcs : List (ℝ × ℝ)} (h : Eye bcs) {x y : ℝ} (hx : 0 ≤ x) (hxy : x < y) (hy : y ≤ π / 2) :
    mix fb bcs y < mix fb bcs x := by
  obtain ⟨bc, hm, hlt⟩ := h.sharp
  unfold mix
  refine List.sum_lt_sum _ _ (fun bc hm => ?_) ⟨bc, hm, ?_⟩
  · obtain ⟨a, b, c⟩ := h.pos bc hm
    exact (fb_anti a b c hx hxy hy).1
  · obtain ⟨a, b, c⟩ := h.pos bc hm
    exact (fb_anti a b c hx hxy hy).2 hlt

theorem mix_pos {bcs : List (ℝ × ℝ)} (h : Eye bcs) (x : ℝ) : 0 < mix fb bcs x := by
  obtain ⟨bc, hm, -⟩ := h.sharp
  unfold mix
  have hp : ∀ bc ∈ bcs, 0 < fb bc.1 bc.2 x := by
    intro bc hm
    obtain ⟨a, b, c⟩ := h.pos bc hm
    have := den_pos a x
    unfold fb
    have := rpow_pos_of_pos this (1.5 : ℝ)
    positivity
  apply List.sum_pos
  · intro y hy
    simp only [List.mem_map] at hy
    obtain ⟨bc, hm, rfl⟩ := hy
    exact hp bc hm
  · intro h0
    rw [List.map_eq_nil_iff] at h0
    rw [h0] at hm
    simp at hm

theorem koga_nonneg (fw : ℝ) (w i j : ℕ) : 0 ≤ koga fw w i j := by
  unfold koga View.pixel2omega V3.len; positivity

theorem cen_mid {n : ℕ} : cen (2 * n + 1) n = 0 := by
  unfold cen
  push_cast
  have : (0 : ℝ) < 2 * n + 1 := by positivity
  field_simp
  ring

theorem cen_zero {w i : ℕ} (hw : 0 < w) (h : cen w i = 0) : 2 * i + 1 = w := by
  have hR : (0 : ℝ) < w := by exact_mod_cast hw
  unfold cen at h
  have h2 : ((i : ℝ) + 1 / 2) / w = 1 / 2 := by linarith
  rw [div_eq_iff hR.ne'] at h2
  have h3 : ((2 * i + 1 : ℕ) : ℝ) = w := by push_cast; linarith
  exact_mod_cast h3

theorem pitch_pos {fw : ℝ} (h0 : 0 < fw) (h1 : fw ≤ 90) {w : ℕ} (hw : 0 < w) : 0 < pitch fw w ∧ pitch fw w ≤ π / 2 := by
  have hR : (1 : ℝ) ≤ w := by exact_mod_cast hw
  obtain ⟨c1, c2, c3, c4⟩ := cf_bounds h0 (by linarith : fw ≤ 180)
  have hpi := pi_pos
  have e : pitch fw w = chordFactor fw * fw / 180 * π / w := by unfold pitch; ring
  constructor
  · unfold pitch; positivity
  · rw [e, div_le_iff₀ (by linarith)]
    have : chordFactor fw * fw / 180 ≤ 1 / 2 := by rw [div_le_iff₀ (by norm_num)]; nlinarith
    nlinarith

/-- the middle entry of a kernel of odd width is larger than every other -/
theorem middle_largest {fw : ℝ} (h0 : 0 < fw) (h1 : fw ≤ 90) {n : ℕ} {bcs : List (ℝ × ℝ)} (he : Eye bcs)
    (k : Fin (2 * n + 1) × Fin (2 * n + 1)) (mid : Fin (2 * n + 1)) (hm : (mid : ℕ) = n) (hk : k ≠ (mid, mid)) :
    rawKernel fw (2 * n + 1) bcs k < rawKernel fw (2 * n + 1) bcs (mid, mid) := by
  have hpi := pi_pos
  have h2 : fw ≤ 180 := by linarith
  have hw : 0 < 2 * n + 1 := by omega
  obtain ⟨p0, p1⟩ := pitch_pos h0 h1 hw
  have hsin : 0 < sin (pitch fw (2 * n + 1) / 2) := sin_pos_of_pos_of_lt_pi (by linarith) (by linarith)
  have hc : koga fw (2 * n + 1) n n = (2 * sin (pitch fw (2 * n + 1) / 2)) ^ 2 := by
    rw [← C149_centre ⟨0, 1, 0⟩ clear_example.1.1 fw h0 h2 _ hw]
    unfold koga kview pixelCentre
    congr 1
    push_cast
    apply Prod.ext <;> simp only <;> ring
  have hmid : rawKernel fw (2 * n + 1) bcs (mid, mid) = mix fb bcs 0 * (2 * sin (pitch fw (2 * n + 1) / 2)) ^ 2 := by
    rw [raw_eq h0 h2]
    simp only
    rw [hm, cen_mid, if_pos (by norm_num), hc]
    norm_num
  rw [hmid, raw_eq h0 h2]
  have hM := mix_pos he 0
  split_ifs with hin
  · have hle := C149_bound ⟨0, 1, 0⟩ clear_example.1.1 fw h0 h2 (2 * n + 1) hw (Or.inr h1) ((k.1 : ℝ) + 1 / 2) ((k.2 : ℝ) + 1 / 2)
      (by unfold cen at hin; norm_num at hin ⊢; exact hin)
    have hne : 0 < cen (2 * n + 1) k.1 ^ 2 + cen (2 * n + 1) k.2 ^ 2 := by
      by_contra hcon
      have a1 : cen (2 * n + 1) k.1 = 0 := by nlinarith [sq_nonneg (cen (2 * n + 1) k.1), sq_nonneg (cen (2 * n + 1) k.2)]
      have a2 : cen (2 * n + 1) k.2 = 0 := by nlinarith [sq_nonneg (cen (2 * n + 1) k.1), sq_nonneg (cen (2 * n + 1) k.2)]
      apply hk
      have b1 := cen_zero hw a1
      have b2 := cen_zero hw a2
      apply Prod.ext <;> apply Fin.ext <;> simp only <;> omega
    obtain ⟨c1, c2, c3, c4⟩ := cf_bounds h0 h2
    have hr0 := sqrt_pos.mpr hne
    have hr1 : √(cen (2 * n + 1) k.1 ^ 2 + cen (2 * n + 1) k.2 ^ 2) ≤ 1 / 2 := by
      apply sqrt_le_iff.mpr
      norm_num at hin ⊢
      exact hin.le
    have hmix := mix_anti he le_rfl
      (show 0 < √(cen (2 * n + 1) k.1 ^ 2 + cen (2 * n + 1) k.2 ^ 2) * (chordFactor fw * fw * π / 180) by positivity) (by
        have : chordFactor fw * fw * π / 180 ≤ π := by
          rw [div_le_iff₀ (by norm_num)]
          have : chordFactor fw * fw ≤ 180 := by nlinarith
          nlinarith
        nlinarith)
    have ho := koga_nonneg fw (2 * n + 1) k.1 k.2
    have hle' : koga fw (2 * n + 1) k.1 k.2 ≤ (2 * sin (pitch fw (2 * n + 1) / 2)) ^ 2 := hle
    have hq : 0 < (2 * sin (pitch fw (2 * n + 1) / 2)) ^ 2 := by positivity
    calc _ ≤ mix fb bcs (√(cen (2 * n + 1) k.1 ^ 2 + cen (2 * n + 1) k.2 ^ 2) * (chordFactor fw * fw * π / 180)) *
          (2 * sin (pitch fw (2 * n + 1) / 2)) ^ 2 := mul_le_mul_of_nonneg_left hle' (mix_pos he _).le
      _ < _ := mul_lt_mul_of_pos_right hmix hq
  · rw [zero_mul]; positivity

theorem peak_middle {fw : ℝ} (h0 : 0 < fw) (h1 : fw ≤ 90) {n : ℕ} {bcs : List (ℝ × ℝ)} (he : Eye bcs)
    (mid : Fin (2 * n + 1)) (hm : (mid : ℕ) = n) : peak (rawKernel fw (2 * n + 1) bcs) = some (mid, mid) := by
  unfold peak
  rw [List.argmax_eq_some_iff]
  refine ⟨by simp, ?_, ?_⟩
  · intro a _
    by_cases h : a = (mid, mid)
    · rw [h]
    · exact (middle_largest h0 h1 he a mid hm h).le
  · intro a _ hle
    by_cases h : a = (mid, mid)
    · rw [h]
    · exact absurd (middle_largest h0 h1 he a mid hm h) (not_lt.mpr hle)

theorem fix_apply {κ : Type} [Fintype κ] [DecidableEq κ] (ker : κ → ℝ) (pk : κ) (cap : ℝ) (k : κ) :
    fixPeak ker pk cap k = if k = pk then cap - (∑ k, ker k - ker pk) else ker k := by
  by_cases h : k = pk
  · rw [if_pos h, h]
    obtain ⟨a, b⟩ := C76_kernel ker pk cap
    have e1 : ∑ k, fixPeak ker pk cap k = fixPeak ker pk cap pk + ∑ k ∈ Finset.univ.erase pk, ker k := by
      rw [← Finset.add_sum_erase _ _ (Finset.mem_univ pk)]
      congr 1
      exact Finset.sum_congr rfl fun x hx => b x (Finset.ne_of_mem_erase hx)
    have e2 : ∑ k, ker k = ker pk + ∑ k ∈ Finset.univ.erase pk, ker k :=
      (Finset.add_sum_erase _ _ (Finset.mem_univ pk)).symm
    linarith
  · rw [if_neg h]
    exact (C76_kernel ker pk cap).2 k h

/-- the point spread of every eye is of this kind -/
theorem eye_ok {age pig pd : ℝ} (ha0 : 0 ≤ age) (ha : age ≤ 100) (h0 : 0 < pig) (h1 : pig < 1) (hp : 1 ≤ pd) (hp2 : pd ≤ 8) :
    Eye ((bs age pig pd).zip (cs age pig pd)) := by
  have hA := ageFactor_ge age
  have hA2 : ageFactor age ≤ 6 := by
    unfold ageFactor
    have : age / 70 ≤ 10 / 7 := by linarith
    have : (age / 70) ^ 4 ≤ (10 / 7) ^ 4 := pow_le_pow_left₀ (by positivity) this 4
    norm_num at this ⊢
    linarith
  have hs1 : 1 ≤ √(ageFactor age) := by rw [one_le_sqrt]; exact hA
  have hs2 : √(ageFactor age) ≤ 3 := by rw [sqrt_le_left (by norm_num)]; linarith
  have hb : 6000 ≤ bcoef age := by unfold bcoef; linarith
  have hbp : 6000 ≤ bcoef age * pd := by nlinarith
  have he2 : ecoef age ≤ 3 / 2000 := by unfold ecoef; linarith
  have e1 : pdC pd ≤ 8 := by unfold pdC; norm_num; nlinarith
  have e0 : 0 < dpC pd := by unfold dpC; positivity
  have e2 : dpC pd ≤ 12 := by
    unfold dpC
    have : (3.2 : ℝ) / pd ≤ 3.2 := div_le_self (by norm_num) hp
    have h3 : (0 : ℝ) ≤ 3.2 / pd := by positivity
    norm_num at this h3 ⊢
    nlinarith
  have b1 : pdC pd / (bcoef age * pd) ≤ 8 / 6000 := div_le_div₀ (by norm_num) e1 (by norm_num) hbp
  have b2 : dpC pd * (ecoef age - 1 / (bcoef age * pd)) ≤ 12 * (3 / 2000) := by
    have : 0 < 1 / (bcoef age * pd) := by positivity
    nlinarith
  have b3 : 1 / (10 + 60 * pig - 5 / ageFactor age) ≤ 1 / 5 := by
    have : 5 / ageFactor age ≤ 5 := div_le_self (by norm_num) hA
    exact one_div_le_one_div_of_le (by norm_num) (by linarith)
  have hle : ∀ b ∈ bs age pig pd, b ≤ 1 := by
    intro b hm
    simp only [bs, List.mem_cons, List.not_mem_nil, or_false] at hm
    rcases hm with rfl | rfl | rfl | rfl <;> linarith
  refine ⟨fun bc hm => ?_, ?_⟩
  · obtain ⟨m1, m2⟩ := List.of_mem_zip hm
    exact ⟨bs_pos ha0 ha h0 hp _ m1, hle _ m1, C76_pos age h0 h1 _ m2⟩
  · refine ⟨(pdC pd / (bcoef age * pd), csa age pig / pdC pd), by simp [bs, cs], ?_⟩
    simp only
    linarith

/-- what C150 asks: the blur of a point is the same on its left and right, above and below -/
def C150_statement : Prop :=
  ∀ (age pig pd : ℝ), 0 ≤ age → age ≤ 100 → 0 < pig → pig < 1 → 1 ≤ pd → pd ≤ 8 → ∀ (fw va : ℝ), 0 < fw → fw ≤ 90 → 0 < va → va ≤ 180 →
    ∀ (res : ℕ) ker, kernel fw (window fw (pparcmin res va)) ((bs age pig pd).zip (cs age pig pd)) = some ker → Symmetric ker

/-- **C150** holds for windows with an odd number of pixels: the peak is the middle pixel. -/
theorem C150_odd_partial {fw : ℝ} (h0 : 0 < fw) (h1 : fw ≤ 90) (n : ℕ) {bcs : List (ℝ × ℝ)} (he : Eye bcs) :
    ∃ ker, kernel fw (2 * n + 1) bcs = some ker ∧ Symmetric ker ∧ ∑ k, ker k = capEg fw bcs := by
  have hp := peak_middle h0 h1 he ⟨n, by omega⟩ rfl
  refine ⟨fixPeak (rawKernel fw (2 * n + 1) bcs) (⟨n, by omega⟩, ⟨n, by omega⟩) (capEg fw bcs), ?_, ?_, ?_⟩
  · unfold kernel; rw [hp]; rfl
  · intro i j
    obtain ⟨s1, s2, s3⟩ := raw_symmetric h0 (by linarith : fw ≤ 180) (2 * n + 1) bcs i j
    have hrev : ∀ i : Fin (2 * n + 1), i.rev = ⟨n, by omega⟩ ↔ i = ⟨n, by omega⟩ := by
      intro i
      rw [Fin.ext_iff, Fin.ext_iff, Fin.val_rev]
      simp only
      omega
    refine ⟨?_, ?_, ?_⟩ <;> rw [fix_apply, fix_apply]
    · rw [s1]; simp only [Prod.mk.injEq, hrev]
    · rw [s2]; simp only [Prod.mk.injEq, hrev]
    · rw [s3]; simp only [Prod.mk.injEq, and_comm]
  · exact (C76_kernel _ _ _).1

/-- **C150** for windows with an even number of pixels the kernel is symmetric only if nothing has to be added to its peak. -/
theorem C150_even_partial {fw : ℝ} (h0 : 0 < fw) (h1 : fw ≤ 180) (n : ℕ) (bcs : List (ℝ × ℝ)) (ker)
    (hk : kernel fw (2 * n) bcs = some ker) : Symmetric ker ↔ ∑ k, rawKernel fw (2 * n) bcs k = capEg fw bcs := by
  unfold kernel at hk
  cases hp : peak (rawKernel fw (2 * n) bcs) with
  | none => rw [hp] at hk; simp at hk
  | some pk =>
    rw [hp] at hk
    simp only [Option.map_some, Option.some.injEq] at hk
    subst hk
    have hs := raw_symmetric h0 h1 (2 * n) bcs
    constructor
    · intro h
      have := (h pk.1 pk.2).1
      rw [fix_apply, fix_apply, if_neg, if_pos rfl, (hs pk.1 pk.2).1] at this
      · simp only [Prod.mk.eta] at this; linarith
      · intro hh
        have := congrArg (fun q => (q.1 : ℕ)) hh
        simp only [Fin.val_rev] at this
        omega
    · intro h
      have : fixPeak (rawKernel fw (2 * n) bcs) pk (capEg fw bcs) = rawKernel fw (2 * n) bcs := by
        funext k
        rw [fix_apply, h]
        split_ifs with hh
        · rw [hh]; ring
        · rfl
      rw [this]
      exact hs

theorem capEg_ge (b c : ℝ) (l : List (ℝ × ℝ)) (h : ∀ bc ∈ (b, c) :: l, 0 < bc.1 ∧ 0 < bc.2) : c / b / 90000 ≤ capEg 10 ((b, c) :: l) := by
  have hpi := pi_pos
  have hn : lphiN 10 = 2500 := by
    unfold lphiN
    rw [Nat.floor_eq_iff (by norm_num)]
    norm_num
  have hstep : lphi 10 2500 1 - lphi 10 2500 0 = π / 90000 := by unfold lphi; push_cast; ring
  have hpos : ∀ l : List (ℝ × ℝ), (∀ bc ∈ l, 0 < bc.1 ∧ 0 < bc.2) → ∀ x, 0 ≤ mix lb l x := by
    intro l hl x
    unfold mix
    apply List.sum_nonneg
    intro y hy
    simp only [List.mem_map] at hy
    obtain ⟨bc, hm, rfl⟩ := hy
    obtain ⟨h1, h2⟩ := hl bc hm
    have := den_pos h1 x
    unfold lb
    positivity
  unfold capEg
  rw [hn, hstep]
  have hmem : mix lb ((b, c) :: l) (lphi 10 2500 2500) * (π / 90000) ∈
      (List.range (2 * 2500 + 1)).map fun k => mix lb ((b, c) :: l) (lphi 10 2500 k) * (π / 90000) :=
    List.mem_map.mpr ⟨2500, List.mem_range.mpr (by norm_num), rfl⟩
  refine le_trans ?_ (List.single_le_sum (fun y hy => ?_) _ hmem)
  · have hz : lphi 10 2500 2500 = 0 := by unfold lphi; push_cast; ring
    rw [hz]
    have h2 := hpos l (fun bc hm => h bc (List.mem_cons_of_mem _ hm)) 0
    obtain ⟨hb, hc⟩ := h (b, c) List.mem_cons_self
    have e : mix lb ((b, c) :: l) 0 = lb b c 0 + mix lb l 0 := by simp [mix]
    have e2 : lb b c 0 * (π / 90000) = c / b / 90000 := by
      unfold lb
      simp only at hb
      rw [sin_zero, cos_zero]
      field_simp
      ring
    rw [e, add_mul, e2]
    have : 0 ≤ mix lb l 0 * (π / 90000) := by positivity
    linarith
  · simp only [List.mem_map] at hy
    obtain ⟨k, -, rfl⟩ := hy
    have := hpos _ h (lphi 10 2500 k)
    positivity

theorem fb_le {b c x s : ℝ} (hb : 0 < b) (hc : 0 < c) (hs : 0 < s) (h : s ≤ sin x) : fb b c x ≤ c * b / (2 * π * s ^ 3) := by
  have hpi := pi_pos
  unfold fb
  have hD : s ^ 2 ≤ sin x ^ 2 + b ^ 2 * cos x ^ 2 := by
    have : 0 ≤ b ^ 2 * cos x ^ 2 := by positivity
    nlinarith
  have h3 : s ^ 3 ≤ (sin x ^ 2 + b ^ 2 * cos x ^ 2) ^ (1.5 : ℝ) := by
    have h4 : (s ^ 2) ^ (1.5 : ℝ) = s ^ 3 := by
      rw [rpow_three_halves (by positivity), sqrt_sq hs.le]; ring
    rw [← h4]
    exact rpow_le_rpow (by positivity) hD (by norm_num)
  apply div_le_div_of_nonneg_left (by positivity) (by positivity)
  exact mul_le_mul_of_nonneg_left h3 (by positivity)

theorem C150_refuted : ¬ C150_statement := by
  intro h
  have hpi := pi_pos
  have hpi3 := pi_gt_three
  have hpi4 := pi_lt_d2
  have he := eye_ok (age := 0) (pig := 1 / 2) (pd := 3.2) le_rfl (by norm_num) (by norm_num) (by norm_num) (by norm_num) (by norm_num)
  have hw : window 10 (pparcmin 36 180) = 2 * 1 := by
    unfold window pparcmin
    norm_num
  have hbc : (bs 0 (1 / 2) 3.2).zip (cs 0 (1 / 2) 3.2) =
      [(5 / 64512, 1 / 4), (1 / 1000 - 5 / 64512, 1 / 4), (1 / 35, 1 / 54), (1, 13 / 27)] := by
    have ea : ageFactor 0 = 1 := by unfold ageFactor; norm_num
    have eb : bcoef 0 = 8064 := by unfold bcoef; rw [ea, sqrt_one]; norm_num
    have ee : ecoef 0 = 1 / 2000 := by unfold ecoef; rw [ea, sqrt_one]
    unfold bs cs
    rw [eb, ee]
    unfold csa cla c3 cla pf pdC dpC
    rw [ea]
    norm_num
  have h0 : (0 : ℝ) < 10 := by norm_num
  have hs := h 0 (1 / 2) 3.2 le_rfl (by norm_num) (by norm_num) (by norm_num) (by norm_num) (by norm_num) 10 180 h0 (by norm_num)
    (by norm_num) le_rfl 36
  rw [hw, hbc] at hs
  rw [hbc] at he
  set bcs : List (ℝ × ℝ) := [(5 / 64512, 1 / 4), (1 / 1000 - 5 / 64512, 1 / 4), (1 / 35, 1 / 54), (1, 13 / 27)] with hbcs
  cases hp : peak (rawKernel 10 (2 * 1) bcs) with
  | none =>
    unfold peak at hp
    rw [List.argmax_eq_none] at hp
    exact absurd hp (by decide)
  | some pk =>
    have hk : kernel 10 (2 * 1) bcs = some (fixPeak (rawKernel 10 (2 * 1) bcs) pk (capEg 10 bcs)) := by
      unfold kernel; rw [hp]; rfl
    have hsum := (C150_even_partial h0 (by norm_num) 1 bcs _ hk).mp (hs _ hk)
    have hcap := capEg_ge (5 / 64512) (1 / 4) [(1 / 1000 - 5 / 64512, 1 / 4), (1 / 35, 1 / 54), (1, 13 / 27)]
      (fun bc hm => ⟨(he.pos bc hm).1, (he.pos bc hm).2.2⟩)
    rw [← hbcs, ← hsum] at hcap
    obtain ⟨c1, c2, c3, c4⟩ := cf_bounds h0 (by norm_num : (10 : ℝ) ≤ 180)
    have hent : ∀ k, rawKernel 10 (2 * 1) bcs k ≤ 0.008 := by
      intro k
      have hcen : ∀ i : Fin (2 * 1), cen (2 * 1) i ^ 2 = 1 / 16 := by
        intro i
        unfold cen
        fin_cases i <;> norm_num
      rw [raw_eq h0 (by norm_num), hcen, hcen, if_pos (by norm_num)]
      set x := √((1 : ℝ) / 16 + 1 / 16) * (chordFactor 10 * 10 * π / 180) with hx
      have hx0 : 1 / 18 ≤ x := by
        have e1 : √((1 : ℝ) / 16 + 1 / 16) = √2 / 4 := by
          rw [show (1 : ℝ) / 16 + 1 / 16 = 2 / 4 ^ 2 by norm_num, sqrt_div (by norm_num), sqrt_sq (by norm_num)]
        rw [hx, e1]
        rw [div_le_iff₀ hpi] at c1
        have : √2 * √2 = 2 := mul_self_sqrt (by norm_num)
        have : 0 < √2 := by positivity
        nlinarith
      have hx1 : x ≤ 1 := by
        have e1 : √((1 : ℝ) / 16 + 1 / 16) ≤ 1 := by rw [sqrt_le_left (by norm_num)]; norm_num
        have e2 : 0 ≤ √((1 : ℝ) / 16 + 1 / 16) := sqrt_nonneg _
        have e3 : chordFactor 10 * 10 * π / 180 ≤ 1 := by rw [div_le_one (by norm_num)]; nlinarith
        have e4 : 0 ≤ chordFactor 10 * 10 * π / 180 := by positivity
        rw [hx]; nlinarith
      have hsn : 0.0555 ≤ sin x := by
        have := sin_gt_sub_cube (by norm_num : (0 : ℝ) < 1 / 18)
        have h2 : sin (1 / 18) ≤ sin x := sin_le_sin_of_le_of_le_pi_div_two (by linarith) (by linarith) hx0
        norm_num at this h2 ⊢
        linarith
      have hmix : mix fb bcs x * (2 * π) ≤ 5.08 := by
        have f1 := fb_le (b := 5 / 64512) (c := 1 / 4) (by norm_num) (by norm_num) (by norm_num) hsn
        have f2 := fb_le (b := 1 / 1000 - 5 / 64512) (c := 1 / 4) (by norm_num) (by norm_num) (by norm_num) hsn
        have f3 := fb_le (b := 1 / 35) (c := 1 / 54) (by norm_num) (by norm_num) (by norm_num) hsn
        have f4 : fb 1 (13 / 27) x = 13 / 27 / (2 * π) := by
          unfold fb
          rw [one_pow, one_mul, sin_sq_add_cos_sq, one_rpow, mul_one, mul_one]
        have e : mix fb bcs x = fb (5 / 64512) (1 / 4) x + (fb (1 / 1000 - 5 / 64512) (1 / 4) x + (fb (1 / 35) (1 / 54) x
            + fb 1 (13 / 27) x)) := by simp [mix, hbcs]
        have g : ∀ c b : ℝ, c * b / (2 * π * 0.0555 ^ 3) = c * b / 0.0555 ^ 3 / (2 * π) := by
          intro c b; field_simp
        rw [g] at f1 f2 f3
        have hh : mix fb bcs x ≤ 5.08 / (2 * π) := by
          rw [e, f4]
          refine le_trans (add_le_add f1 (add_le_add f2 (add_le_add f3 le_rfl))) ?_
          rw [← add_div, ← add_div, ← add_div]
          apply div_le_div_of_nonneg_right _ (by positivity)
          norm_num
        rw [le_div_iff₀ (by positivity)] at hh
        exact hh
      have hom : koga 10 (2 * 1) k.1 k.2 ≤ (π / 36) ^ 2 := by
        have hb := C149_bound ⟨0, 1, 0⟩ clear_example.1.1 10 h0 (by norm_num) (2 * 1) (by norm_num) (Or.inr (by norm_num))
          ((k.1 : ℝ) + 1 / 2) ((k.2 : ℝ) + 1 / 2) (by
            have a1 := hcen k.1
            have a2 := hcen k.2
            unfold cen at a1 a2
            push_cast at a1 a2 ⊢
            rw [a1, a2]; norm_num)
        refine le_trans hb ?_
        have hpt : pitch 10 (2 * 1) ≤ π / 36 := by
          unfold pitch
          push_cast
          nlinarith
        have hpt0 : 0 < pitch 10 (2 * 1) := by unfold pitch; positivity
        have hs1 := sin_le (show 0 ≤ pitch 10 (2 * 1) / 2 by linarith)
        have hs0 : 0 ≤ sin (pitch 10 (2 * 1) / 2) := sin_nonneg_of_nonneg_of_le_pi (by linarith) (by linarith)
        apply pow_le_pow_left₀ (by linarith)
        linarith
      have hm0 := (mix_pos he x).le
      calc _ ≤ mix fb bcs x * (π / 36) ^ 2 := mul_le_mul_of_nonneg_left hom hm0
        _ = mix fb bcs x * (2 * π) * π / 2592 := by ring
        _ ≤ 5.08 * 3.15 / 2592 := by
            apply div_le_div_of_nonneg_right _ (by norm_num)
            apply mul_le_mul hmix (by norm_num at hpi4 ⊢; linarith) hpi.le (by norm_num)
        _ ≤ 0.008 := by norm_num
    have hle : ∑ k, rawKernel 10 (2 * 1) bcs k ≤ ∑ k : Fin (2 * 1) × Fin (2 * 1), (0.008 : ℝ) := Finset.sum_le_sum fun k _ => hent k
    simp only [Finset.sum_const, Finset.card_univ, Fintype.card_prod, Fintype.card_fin] at hle
    norm_num at hle hcap
    linarith

/-! ### C151 scale -/

/-- the angle from the view direction at `x`, `y` pixels from the centre of an image of `res` pixels -/
noncomputable def angleAt (d : V3) (va : ℝ) (res : ℕ) (x y : ℝ) : ℝ :=
  (View.new d va).radians ((View.new d va).vxy2xyz (((res : ℝ) / 2 + x) / res, ((res : ℝ) / 2 + y) / res))

theorem angleAt_eq (d : V3) (hd : Clear d) (va : ℝ) (h0 : 0 < va) (h1 : va ≤ 180) (res : ℕ) (hr : 0 < res) (x y : ℝ)
    (hx : |x| ≤ (res : ℝ) / 2) (hy : |y| ≤ (res : ℝ) / 2) : angleAt d va res x y = √(x ^ 2 + y ^ 2) * pitch va res := by
  have hR : (0 : ℝ) < res := by exact_mod_cast hr
  rw [abs_le] at hx hy
  unfold angleAt
  rw [C53_equiangular_partial d hd va h0 h1 _ (div_nonneg (by linarith [hx.1]) hR.le) (by rw [div_le_one hR]; linarith [hx.2])
    (div_nonneg (by linarith [hy.1]) hR.le) (by rw [div_le_one hR]; linarith [hy.2])]
  have e : (((res : ℝ) / 2 + x) / res - 1 / 2) ^ 2 + (((res : ℝ) / 2 + y) / res - 1 / 2) ^ 2 = (x ^ 2 + y ^ 2) / (res : ℝ) ^ 2 := by
    field_simp; ring
  simp only
  rw [e, sqrt_div (by positivity), sqrt_sq hR.le]
  unfold pitch
  ring

/-- what C151 asks: the kernel has the scale of the image, as far as whole pixels allow -/
def C151_statement : Prop :=
  ∀ (d : V3), Clear d → ∀ (va fw : ℝ), 0 < va → va ≤ 180 → 0 < fw → fw ≤ 180 → ∀ (res : ℕ), 0 < res → ∀ (w : ℕ),
    fw * res / va = w → window fw (pparcmin res va) = w ∧
    ∀ x y : ℝ, |x| ≤ (w : ℝ) / 2 → |y| ≤ (w : ℝ) / 2 → |x| ≤ (res : ℝ) / 2 → |y| ≤ (res : ℝ) / 2 →
      angleAt ⟨0, 1, 0⟩ fw w x y = angleAt d va res x y

/-- **C151** the window holds `fwidth` at the image's pixels per degree, rounded up; with no rounding, angles in the kernel
are those of the image times the ratio of the two chord factors — equal only when `fwidth` is the view angle. -/
theorem C151_scale_partial (d : V3) (hd : Clear d) (va fw : ℝ) (h0 : 0 < va) (h1 : va ≤ 180) (f0 : 0 < fw) (f1 : fw ≤ 180) (res : ℕ)
    (hr : 0 < res) :
    fw * res / va ≤ window fw (pparcmin res va) ∧ (window fw (pparcmin res va) : ℝ) < fw * res / va + 1 ∧
    ∀ w : ℕ, fw * res / va = w → window fw (pparcmin res va) = w ∧
      ∀ x y : ℝ, |x| ≤ (w : ℝ) / 2 → |y| ≤ (w : ℝ) / 2 → |x| ≤ (res : ℝ) / 2 → |y| ≤ (res : ℝ) / 2 →
        angleAt ⟨0, 1, 0⟩ fw w x y = chordFactor fw / chordFactor va * angleAt d va res x y := by
  have hR : (0 : ℝ) < res := by exact_mod_cast hr
  have e : fw * 60 * pparcmin res va = fw * res / va := by unfold pparcmin; field_simp
  have hp : 0 < fw * res / va := by positivity
  unfold window
  rw [e]
  refine ⟨Nat.le_ceil _, Nat.ceil_lt_add_one hp.le, ?_⟩
  intro w hw
  rw [hw, Nat.ceil_natCast]
  refine ⟨rfl, fun x y a b c e => ?_⟩
  have hw0 : 0 < w := by
    have : (0 : ℝ) < w := by rw [← hw]; exact hp
    exact_mod_cast this
  have hW : (0 : ℝ) < w := by exact_mod_cast hw0
  rw [angleAt_eq _ clear_example.1 fw f0 f1 w hw0 x y a b, angleAt_eq d hd va h0 h1 res hr x y c e]
  obtain ⟨c1, c2, c3, c4⟩ := cf_bounds h0 h1
  unfold pitch
  rw [← hw]
  field_simp

theorem C151_refuted : ¬ C151_statement := by
  intro h
  have hpi := pi_pos
  have hc := clear_example.1
  have h1 := (h ⟨0, 1, 0⟩ hc 180 90 (by norm_num) le_rfl (by norm_num) (by norm_num) 4 (by norm_num) 2 (by norm_num)).2 1 0
    (by norm_num) (by norm_num) (by norm_num) (by norm_num)
  have h2 := ((C151_scale_partial ⟨0, 1, 0⟩ hc 180 90 (by norm_num) le_rfl (by norm_num) (by norm_num) 4 (by norm_num)).2.2 2 (by norm_num)).2
    1 0 (by norm_num) (by norm_num) (by norm_num) (by norm_num)
  rw [h1, cf_180, div_one] at h2
  have h3 : angleAt ⟨0, 1, 0⟩ 180 4 1 0 = π / 4 := by
    rw [angleAt_eq _ hc 180 (by norm_num) le_rfl 4 (by norm_num) 1 0 (by norm_num) (by norm_num)]
    unfold pitch
    rw [cf_180]
    norm_num
  rw [h3] at h2
  have h4 := (cf_bounds (by norm_num : (0 : ℝ) < 90) (by norm_num)).2.2.1 (by norm_num)
  nlinarith

end Verif.Gss
