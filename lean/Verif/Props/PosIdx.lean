import Verif.Model.PosIdx
import Verif.Props.ViewMapper

/-! C73 (position index range and symmetry) and C92 (growth with eccentricity). -/

namespace Verif.Pos
open Verif.Geo Verif.Map Real

/-- coefficient of `sigma` -/
theorem coefA_pos {t : ℝ} (h0 : 0 ≤ t) (h1 : t ≤ 90) : 0 < 35.2 - 0.31889 * t - 1.22 * exp (-2 * t / 9) := by
  have : exp (-2 * t / 9) ≤ 1 := exp_le_one_iff.mpr (by linarith)
  generalize exp (-2 * t / 9) = e at *
  norm_num
  linarith

/-- coefficient of `sigma^2` -/
theorem coefB_pos {t : ℝ} (h0 : 0 ≤ t) (h1 : t ≤ 90) : 0 < 21 + 0.26667 * t - 0.002963 * t * t := by
  norm_num
  nlinarith

/-- with `tau` in the upper quadrant the index grows with `sigma` -/
theorem guth_mono {t a b : ℝ} (h0 : 0 ≤ t) (h1 : t ≤ 90) (ha : 0 ≤ a) (hab : a ≤ b) :
    pidxGuth a t ≤ pidxGuth b t := by
  unfold pidxGuth
  apply exp_le_exp.mpr
  have hA := coefA_pos h0 h1
  have hB := coefB_pos h0 h1
  generalize 35.2 - 0.31889 * t - 1.22 * exp (-2 * t / 9) = A at *
  generalize 21 + 0.26667 * t - 0.002963 * t * t = B at *
  have e1 : A / 1000 * a ≤ A / 1000 * b := mul_le_mul_of_nonneg_left hab (by positivity)
  have e2 : B / 100000 * a * a ≤ B / 100000 * b * b := by
    rw [mul_assoc, mul_assoc]
    exact mul_le_mul_of_nonneg_left (mul_le_mul hab hab ha (ha.trans hab)) (by positivity)
  linarith

theorem guth_zero (t : ℝ) : pidxGuth 0 t = 1 := by unfold pidxGuth; simp

theorem guth_one_le {t s : ℝ} (h0 : 0 ≤ t) (h1 : t ≤ 90) (hs : 0 ≤ s) : 1 ≤ pidxGuth s t := by
  rw [← guth_zero t]; exact guth_mono h0 h1 le_rfl hs

/-- the angle from vertical is within the upper quadrant for directions not below the horizon -/
theorem tau_range {v : V3} {t : ℝ} (h : tau v = some t) : 0 ≤ t ∧ t ≤ 180 ∧ (0 ≤ v.y → t ≤ 90) := by
  unfold tau at h
  split_ifs at h with hc
  simp only [Option.some.injEq] at h
  subst h
  have hpi := pi_pos
  refine ⟨?_, ?_, ?_⟩
  · have := arccos_nonneg (v.y / √(v.x ^ 2 + v.y ^ 2 + 0 ^ 2)); positivity
  · rw [div_le_iff₀ hpi]
    nlinarith [arccos_le_pi (v.y / √(v.x ^ 2 + v.y ^ 2 + 0 ^ 2))]
  · intro hy
    rw [div_le_iff₀ hpi]
    have := (arccos_le_pi_div_two (x := v.y / √(v.x ^ 2 + v.y ^ 2 + 0 ^ 2))).mpr (by positivity)
    linarith

theorem tauOf_range {v : V3} {t : ℝ} (h : tauOf v = some t) : 0 ≤ t ∧ t ≤ 90 := by
  unfold tauOf at h
  split_ifs at h with hc
  · simp only [Option.some.injEq] at h
    subst h; norm_num
  · obtain ⟨a, -, b⟩ := tau_range h
    exact ⟨a, b (by linarith)⟩

theorem beta_nonneg {v : V3} (hz : 0 ≤ v.z) : 0 ≤ betaDeg v := by
  unfold betaDeg
  have hpi := pi_pos
  apply mul_nonneg (by positivity)
  split_ifs
  · positivity
  · apply arctan_nonneg.mpr; positivity

theorem sigmaOf_nonneg {v : V3} {s : ℝ} (hz : 0 ≤ v.z) (hs : 0 ≤ s) : 0 ≤ sigmaOf v s := by
  unfold sigmaOf; split_ifs
  · exact beta_nonneg hz
  · exact hs

theorem degrees_range (m : View) (p : V3) : 0 ≤ m.degrees p ∧ m.degrees p ≤ 180 := by
  have hpi := pi_pos
  have h0 := arccos_nonneg (ctheta m.dxyz p)
  have h1 := arccos_le_pi (ctheta m.dxyz p)
  unfold View.degrees View.radians Geo.radians
  refine ⟨by positivity, ?_⟩
  rw [div_le_iff₀ hpi]; nlinarith

/-- the denominator of the Kim formula never vanishes, so its division is the real one -/
theorem kimDen_pos {t : ℝ} (h0 : 0 ≤ t) (h1 : t ≤ 180) : 0 < kimDen t := by
  unfold kimDen
  have : t ^ 3 ≤ 180 * t ^ 2 := by nlinarith [sq_nonneg t, mul_nonneg (sq_nonneg t) (sub_nonneg.mpr h1)]
  norm_num at *
  nlinarith [mul_nonneg h0 (sub_nonneg.mpr h1)]

/-- **C73** Guth/Iwata indices are in `[1, 16]`, for every view and direction, and Kim indices are positive. -/
theorem C73_range (m : View) (p : V3) :
    (1 ≤ positions true m p ∧ positions true m p ≤ 16) ∧ 0 < positions false m p := by
  unfold positions
  have hd := degrees_range m (Geo.norm p)
  generalize m.w2v (Geo.norm p) = v
  generalize m.degrees (Geo.norm p) = s at *
  refine ⟨?_, ?_⟩
  · unfold positionsV
    simp only [if_true]
    split_ifs with hz
    · norm_num
    · cases ht : tauOf v with
      | none => norm_num
      | some t =>
        obtain ⟨a, b⟩ := tauOf_range ht
        simp only [Option.elim_some]
        exact ⟨le_min (by norm_num) (guth_one_le a b (sigmaOf_nonneg (by linarith) hd.1)), min_le_left _ _⟩
  · unfold positionsV
    simp only [Bool.false_eq_true, if_false]
    cases tau v with
    | none => norm_num
    | some t => simp only [Option.elim_some]; exact exp_pos _

/-- **C73** every direction behind the viewer (in the sense of the code's view coordinates) has Guth index 16 -/
theorem C73_behind (m : View) (p : V3) (h : (m.w2v (Geo.norm p)).z < 0) : positions true m p = 16 := by
  unfold positions positionsV
  simp only [if_true, if_pos h, min_self]

/-- behind in terms of directions: more than 90 degrees from the view direction -/
theorem view_z (d : V3) (h : Clear d) (va : ℝ) (p : V3) :
    ((View.new d va).w2v p).z = (View.new d va).dxyz.dot p := by
  have h1 := (C50_isometry d h.1 va (View.new d va).dxyz p).2.2.1
  rw [(C50_look_partial d h va).1] at h1
  rw [← h1]; unfold V3.dot; simp

theorem dxyz_unit {d : V3} (h : d ≠ V3.zero) (va : ℝ) : (View.new d va).dxyz.normSq = 1 := by
  show (norm1 d).normSq = 1
  rw [norm1_norm h]; exact normSq_norm h

/-- **C73** directions more than 90 degrees off the view direction have Guth index 16. Missing for every view
direction: those within 3.2e-5 radians of vertical but not vertical. -/
theorem C73_behind_partial (d : V3) (h : Clear d) (va : ℝ) (p : V3) (hp : p ≠ V3.zero)
    (hb : 90 < (View.new d va).degrees p) : positions true (View.new d va) p = 16 := by
  apply C73_behind
  rw [view_z d h]
  have hpi := pi_pos
  unfold View.degrees View.radians Geo.radians at hb
  rw [lt_div_iff₀ hpi] at hb
  have h1 : π / 2 < arccos (ctheta (View.new d va).dxyz p) := by linarith
  have h2 : ctheta (View.new d va).dxyz p < 0 := by
    by_contra h0
    push Not at h0
    linarith [(arccos_le_pi_div_two (x := ctheta (View.new d va).dxyz p)).mpr h0]
  have h3 : (View.new d va).dxyz.dot p < 0 := by
    unfold ctheta clip1 at h2
    rcases min_lt_iff.mp h2 with h4 | h4
    · exact (max_lt_iff.mp h4).1
    · linarith
  have hl : 0 < p.len := by
    unfold V3.len
    apply sqrt_pos.mpr
    rcases lt_or_eq_of_le (show 0 ≤ p.normSq by unfold V3.normSq; positivity) with h5 | h5
    · exact h5
    · exact absurd (normSq_eq_zero h5.symm) hp
  have : (View.new d va).dxyz.dot (Geo.norm p) = (View.new d va).dxyz.dot p / p.len := by
    unfold Geo.norm V3.divS V3.dot; ring
  rw [this]
  exact div_neg_of_neg_of_pos h3 hl

/-- **C73** the index on the line of sight is 1 in both models. Missing for every view direction: those within
3.2e-5 radians of vertical but not vertical (`C73_refuted`). -/
theorem C73_sight_partial (d : V3) (h : Clear d) (va : ℝ) (guth : Bool) :
    positions guth (View.new d va) (View.new d va).dxyz = 1 := by
  unfold positions
  rw [norm_of_unit (dxyz_unit h.1 va), (C50_look_partial d h va).1]
  cases guth <;> simp [positionsV, tauOf, tau]

/-- exchange left and right in view coordinates -/
def mirror (v : V3) : V3 := ⟨-v.x, v.y, v.z⟩

theorem positionsV_mirror (guth : Bool) (v : V3) (s : ℝ) : positionsV guth (mirror v) s = positionsV guth v s := by
  have e1 : tau (mirror v) = tau v := by unfold tau mirror; simp
  have e2 : betaDeg (mirror v) = betaDeg v := by unfold betaDeg mirror; simp
  unfold positionsV tauOf sigmaOf
  rw [e1, e2]
  rfl

/-- **C73** a direction and its mirror image in the vertical plane through the view direction have the same index.
Missing for every view direction: those within 3.2e-5 radians of vertical but not vertical. -/
theorem C73_mirror_partial (d : V3) (h : Clear d) (va : ℝ) (guth : Bool) (p q : V3) (hp : p.normSq = 1)
    (hq : (View.new d va).w2v q = mirror ((View.new d va).w2v p)) :
    positions guth (View.new d va) q = positions guth (View.new d va) p := by
  have hqn : q.normSq = 1 := by
    have e : ∀ a : V3, a.normSq = a.dot a := fun a => by unfold V3.normSq V3.dot; ring
    rw [e, ← (C50_isometry d h.1 va q q).2.2.1, hq]
    rw [e, ← (C50_isometry d h.1 va p p).2.2.1] at hp
    rw [← hp]; unfold mirror V3.dot; ring
  have hdeg : (View.new d va).degrees q = (View.new d va).degrees p := by
    unfold View.degrees View.radians Geo.radians ctheta
    rw [← view_z d h va q, ← view_z d h va p, hq]; rfl
  unfold positions
  rw [norm_of_unit hp, norm_of_unit hqn, hq, hdeg, positionsV_mirror]

/-- The full statement of C73. -/
def C73_statement : Prop :=
  ∀ (d : V3), d ≠ V3.zero → ∀ (va : ℝ) (p : V3),
    (1 ≤ positions true (View.new d va) p ∧ positions true (View.new d va) p ≤ 16) ∧
    0 < positions false (View.new d va) p ∧
    (p ≠ V3.zero → 90 < (View.new d va).degrees p → positions true (View.new d va) p = 16) ∧
    (∀ guth, positions guth (View.new d va) (View.new d va).dxyz = 1) ∧
    ∀ guth q, p.normSq = 1 → (View.new d va).w2v q = mirror ((View.new d va).w2v p) →
      positions guth (View.new d va) q = positions guth (View.new d va) p

/-- **C73** as a whole is false: looking along a direction `2e-9` off straight up, the Kim index of the line of
sight itself is not 1. -/
theorem C73_refuted : ¬ C73_statement := by
  intro hst
  set v : V3 := ⟨2e-9 / (1 + 1e-18), 0, (1 - 1e-18) / (1 + 1e-18)⟩ with hvdef
  have hn : v.normSq = 1 := by unfold V3.normSq; norm_num [hvdef]
  have hv : v ≠ V3.zero := by
    intro h0; rw [h0] at hn; norm_num [V3.normSq, V3.zero] at hn
  have h3 := (hst v hv 180 v).2.2.2.1 false
  have hu : allClose v ⟨0, 0, 1⟩ := by
    unfold allClose isclose
    refine ⟨?_, ?_, ?_⟩ <;> simp only [hvdef] <;> rw [abs_le] <;> norm_num
  have hd : ¬ allClose v ⟨0, 0, -1⟩ := by
    unfold allClose isclose
    rintro ⟨_, _, h⟩
    simp only [hvdef] at h
    rw [abs_le] at h
    norm_num at h
  have hdx : (View.new v 180).dxyz = v := by
    show norm1 v = v
    rw [norm1_norm hv, norm_of_unit hn]
  have hw : (View.new v 180).w2v v = v := by
    rw [new_w2v hv]
    unfold fwd ymtx pmtx
    rw [norm_of_unit hn, if_neg hd, if_neg hd, if_pos hu, if_pos hu]
    unfold M3.app; simp
  have hdeg : (View.new v 180).degrees v = 0 := by
    unfold View.degrees View.radians
    rw [hdx]
    have : Geo.radians v v = 0 := by
      unfold Geo.radians
      rw [ctheta_unit hn hn, arccos_eq_zero]
      have : v.dot v = v.normSq := by unfold V3.dot V3.normSq; ring
      rw [this, hn]
    rw [this]; ring
  unfold positions at h3
  rw [hdx, norm_of_unit hn, hw, hdeg] at h3
  have ht : tau v = some 90 := by
    unfold tau
    have : ¬ (v.x = 0 ∧ v.y = 0) := by rintro ⟨h, -⟩; norm_num [hvdef] at h
    rw [if_neg this]
    have : v.y = 0 := rfl
    rw [this]
    simp
    field_simp; norm_num
  unfold positionsV at h3
  rw [ht] at h3
  simp only [Bool.false_eq_true, if_false, Option.elim_some, pidxKim, kimDen] at h3
  rw [exp_eq_one_iff] at h3
  norm_num at h3

example : Clear ⟨0, 1, 0⟩ := clear_example.1

/-- a direction at angle `s` from the view axis, at angle `a` around it, in view coordinates -/
noncomputable def around (a s : ℝ) : V3 := ⟨sin s * cos a, sin s * sin a, cos s⟩

theorem around_normSq (a s : ℝ) : (around a s).normSq = 1 := by
  unfold around V3.normSq
  have h1 := sin_sq_add_cos_sq a
  have h2 := sin_sq_add_cos_sq s
  linear_combination (sin s) ^ 2 * h1 + h2

theorem around_tau {a s : ℝ} (h0 : 0 < s) (h1 : s < π) : tau (around a s) = some (arccos (sin a) * 180 / π) := by
  have hs := sin_pos_of_pos_of_lt_pi h0 h1
  have hsq : (sin s * cos a) ^ 2 + (sin s * sin a) ^ 2 + 0 ^ 2 = sin s ^ 2 := by
    have := sin_sq_add_cos_sq a
    linear_combination (sin s) ^ 2 * this
  unfold tau around
  rw [if_neg]
  · simp only
    rw [hsq, sqrt_sq hs.le, mul_div_cancel_left₀ _ hs.ne']
  · rintro ⟨hx, hy⟩
    simp only at hx hy
    rw [hx, hy] at hsq
    nlinarith [sq_pos_of_pos hs]

theorem arctan_ratio {c : ℝ} (hc : 0 ≤ c) {s t : ℝ} (h0 : 0 ≤ s) (hst : s ≤ t) (ht : t < π / 2) :
    arctan (sin s * c / cos s) ≤ arctan (sin t * c / cos t) := by
  apply arctan_strictMono.monotone
  have e : ∀ u : ℝ, sin u * c / cos u = tan u * c := fun u => by rw [tan_eq_sin_div_cos]; ring
  rw [e, e]
  apply mul_le_mul_of_nonneg_right _ hc
  rcases eq_or_lt_of_le hst with h | h
  · rw [h]
  · exact (tan_lt_tan_of_nonneg_of_lt_pi_div_two h0 ht h).le

/-- the law in view coordinates -/
theorem growth_view (d : V3) (h : Clear d) (va a s t : ℝ) (h0 : 0 < s) (hst : s ≤ t) (ht : t ≤ π) :
    positions true (View.new d va) ((View.new d va).v2w (around a s)) ≤
      positions true (View.new d va) ((View.new d va).v2w (around a t)) := by
  have hpi := pi_pos
  have hunit : ∀ u, ((View.new d va).v2w (around a u)).normSq = 1 := by
    intro u
    have e : ∀ a : V3, a.normSq = a.dot a := fun a => by unfold V3.normSq V3.dot; ring
    rw [e, (C50_isometry d h.1 va _ _).2.2.2, ← e, around_normSq]
  have hpos : ∀ u, 0 ≤ u → u ≤ π → positions true (View.new d va) ((View.new d va).v2w (around a u))
      = positionsV true (around a u) (u * 180 / π) := by
    intro u hu0 hu1
    unfold positions
    rw [norm_of_unit (hunit u), (C50_isometry d h.1 va (around a u) (around a u)).2.1]
    congr 1
    unfold View.degrees View.radians Geo.radians
    rw [ctheta_unit (dxyz_unit h.1 va) (hunit u), ← view_z d h, (C50_isometry d h.1 va (around a u) (around a u)).2.1]
    show arccos (cos u) * 180 / π = _
    rw [arccos_cos hu0 hu1]
  by_cases hb : (around a t).z < 0
  · have : positions true (View.new d va) ((View.new d va).v2w (around a t)) = 16 := by
      apply C73_behind
      rw [norm_of_unit (hunit t), (C50_isometry d h.1 va (around a t) (around a t)).2.1]
      exact hb
    rw [this]
    exact (C73_range _ _).1.2
  rw [hpos s h0.le (by linarith), hpos t (by linarith) ht]
  push Not at hb
  have hct : 0 ≤ cos t := hb
  have ht2 : t ≤ π / 2 := by
    by_contra hc
    push Not at hc
    have := cos_neg_of_pi_div_two_lt_of_lt hc (by linarith)
    linarith
  have hcs : 0 ≤ cos s := cos_nonneg_of_mem_Icc ⟨by linarith, by linarith⟩
  have hss := sin_pos_of_pos_of_lt_pi h0 (by linarith)
  have hts := sin_pos_of_pos_of_lt_pi (h0.trans_le hst) (by linarith)
  have hzs : ¬ (around a s).z < 0 := not_lt.mpr hcs
  have hzt : ¬ (around a t).z < 0 := not_lt.mpr hct
  unfold positionsV
  simp only [if_true, if_neg hzs, if_neg hzt]
  have hys : ∀ u, 0 < sin u → ((around a u).y < 0 ↔ sin a < 0) := by
    intro u hu
    show sin u * sin a < 0 ↔ _
    constructor
    · intro hh; by_contra hc; push Not at hc; nlinarith [mul_nonneg hu.le hc]
    · intro hh; exact mul_neg_of_pos_of_neg hu hh
  by_cases ha : sin a < 0
  · have e1 := (hys s hss).mpr ha
    have e2 := (hys t hts).mpr ha
    unfold tauOf sigmaOf
    simp only [if_pos e1, if_pos e2, Option.elim_some]
    apply min_le_min le_rfl
    apply guth_mono (by norm_num) (by norm_num) (beta_nonneg hcs)
    unfold betaDeg
    apply mul_le_mul_of_nonneg_left _ (by positivity)
    have hsqrt : ∀ u, 0 < sin u → √((around a u).x ^ 2 + ((around a u).y * 1.15) ^ 2)
        = sin u * √((cos a) ^ 2 + (sin a * 1.15) ^ 2) := by
      intro u hu
      have : (around a u).x ^ 2 + ((around a u).y * 1.15) ^ 2
          = sin u ^ 2 * ((cos a) ^ 2 + (sin a * 1.15) ^ 2) := by
        unfold around; ring
      rw [this, sqrt_mul (sq_nonneg _), sqrt_sq hu.le]
    rw [hsqrt s hss, hsqrt t hts]
    by_cases hz : (around a t).z = 0
    · rw [if_pos hz]
      split_ifs
      · exact le_rfl
      · exact (arctan_lt_pi_div_two _).le
    · have hct' : 0 < cos t := lt_of_le_of_ne hct (Ne.symm hz)
      have ht3 : t < π / 2 := by
        rcases lt_or_eq_of_le ht2 with h5 | h5
        · exact h5
        · rw [h5, cos_pi_div_two] at hct'; exact absurd hct' (lt_irrefl _)
      have hcs' : 0 < cos s := cos_pos_of_mem_Ioo ⟨by linarith, by linarith⟩
      have hzs' : (around a s).z ≠ 0 := hcs'.ne'
      rw [if_neg hz, if_neg hzs']
      exact arctan_ratio (sqrt_nonneg _) h0.le hst ht3
  · have e1 := mt (hys s hss).mp ha
    have e2 := mt (hys t hts).mp ha
    unfold tauOf sigmaOf
    simp only [if_neg e1, if_neg e2]
    rw [around_tau h0 (by linarith), around_tau (h0.trans_le hst) (by linarith)]
    simp only [Option.elim_some]
    push Not at ha
    apply min_le_min le_rfl
    apply guth_mono
    · have := arccos_nonneg (sin a); positivity
    · rw [div_le_iff₀ hpi]
      linarith [(arccos_le_pi_div_two (x := sin a)).mpr ha]
    · positivity
    · apply div_le_div_of_nonneg_right _ hpi.le
      linarith

/-- the direction at angle `s` from the line of sight, towards `w` -/
noncomputable def away (d w : V3) (s : ℝ) : V3 :=
  ⟨cos s * (norm d).x + sin s * w.x, cos s * (norm d).y + sin s * w.y, cos s * (norm d).z + sin s * w.z⟩

/-- **C92**, the full claim: moving a source away from the line of sight never lowers its Guth/Iwata index. -/
def C92_statement : Prop :=
  ∀ (d : V3), d ≠ V3.zero → ∀ (va : ℝ) (w : V3), w.normSq = 1 → w.dot (norm d) = 0 → ∀ s t : ℝ, 0 < s → s ≤ t → t ≤ π →
    positions true (View.new d va) (away d w s) ≤ positions true (View.new d va) (away d w t)

theorem fwd_away (d e w : V3) (s : ℝ) : fwd e (away d w s) =
    ⟨cos s * (fwd e (norm d)).x + sin s * (fwd e w).x, cos s * (fwd e (norm d)).y + sin s * (fwd e w).y,
      cos s * (fwd e (norm d)).z + sin s * (fwd e w).z⟩ := by
  unfold fwd away M3.app
  apply V3.ext <;> simp only <;> ring

/-- **C92** moving a source away from the line of sight, in any direction around it, never lowers its Guth/Iwata
index. Missing: view directions that are not vertical but within 0.002 degrees of it, see `C92_refuted`. -/
theorem C92_growth_partial (d : V3) (h : Clear d) (va : ℝ) (w : V3) (hw : w.normSq = 1) (hwd : w.dot (norm d) = 0) (s t : ℝ)
    (h0 : 0 < s) (hst : s ≤ t) (ht : t ≤ π) :
    positions true (View.new d va) (away d w s) ≤ positions true (View.new d va) (away d w t) := by
  have hlook : fwd d (norm d) = ⟨0, 0, 1⟩ := h.look.1
  have hz : (fwd d w).z = 0 := by
    have := (C36_inverse d w (norm d)).2.2.1
    rw [hlook, hwd] at this
    simpa [V3.dot] using this
  have hn : (fwd d w).x ^ 2 + (fwd d w).y ^ 2 = 1 := by
    have := fwd_normSq d w
    rw [hw] at this
    unfold V3.normSq at this
    rw [hz] at this
    linarith
  obtain ⟨a, ha⟩ : ∃ a : ℝ, (fwd d w).x = cos a ∧ (fwd d w).y = sin a := by
    refine ⟨Complex.arg ⟨(fwd d w).x, (fwd d w).y⟩, ?_⟩
    have hnorm : ‖(⟨(fwd d w).x, (fwd d w).y⟩ : ℂ)‖ = 1 := by
      rw [Complex.norm_def, Complex.normSq_mk, show (fwd d w).x * (fwd d w).x + (fwd d w).y * (fwd d w).y = 1 by linarith, sqrt_one]
    have hne : (⟨(fwd d w).x, (fwd d w).y⟩ : ℂ) ≠ 0 := by
      intro h0
      rw [h0] at hnorm
      simp at hnorm
    rw [Complex.cos_arg hne, Complex.sin_arg, hnorm]
    simp
  have key : ∀ u, away d w u = (View.new d va).v2w (around a u) := by
    intro u
    have e : (View.new d va).w2v (away d w u) = around a u := by
      rw [new_w2v h.1, fwd_away, hlook, ha.1, ha.2, hz]
      unfold around
      apply V3.ext <;> simp
    rw [← e, (C50_isometry d h.1 va (away d w u) (away d w u)).1]
  rw [key, key]
  exact growth_view d h va a s t h0 hst ht

/-- The claim is false in the caps: the view coordinates turn about another axis than the line of sight, and a source on that axis
gets the index 1 of the line of sight. -/
theorem C92_refuted : ¬ C92_statement := by
  intro h
  have hdx : ∀ va, (View.new tilted va).dxyz = tilted := by
    intro va
    show norm1 tilted = tilted
    rw [norm1_norm tilted_ne, norm_of_unit tilted_unit]
  have hwv : ∀ va p, (View.new tilted va).w2v p = p := by
    intro va p
    rw [new_w2v tilted_ne]
    have := (C36_inverse tilted p p).2.1
    rwa [tilted_bwd] at this
  have hX : 0 < tilted.x := by unfold tilted; norm_num
  have hZ : 0 < tilted.z := by unfold tilted; norm_num
  have hy : tilted.y = 0 := rfl
  have hXZ : tilted.x ^ 2 + tilted.z ^ 2 = 1 := by
    have := tilted_unit
    unfold V3.normSq at this
    rw [hy] at this
    linarith
  have hz1 : tilted.z < 1 := by nlinarith
  obtain ⟨s0, hs0⟩ : ∃ s0, s0 = arccos tilted.z := ⟨_, rfl⟩
  have hc : cos s0 = tilted.z := by rw [hs0, cos_arccos (by linarith) hz1.le]
  have hsn : sin s0 = tilted.x := by
    rw [hs0, sin_arccos, show 1 - tilted.z ^ 2 = tilted.x ^ 2 by linarith, sqrt_sq hX.le]
  have hpos : 0 < s0 := by rw [hs0]; exact arccos_pos.mpr hz1
  have hlt : s0 < π / 2 := by rw [hs0]; exact arccos_lt_pi_div_two.mpr hZ
  have hpi := pi_pos
  have hd : norm tilted = tilted := norm_of_unit tilted_unit
  have haw : ∀ u, away tilted ⟨-tilted.z, 0, tilted.x⟩ u = ⟨sin (s0 - u), 0, cos (s0 - u)⟩ := by
    intro u
    unfold away
    rw [hd, sin_sub, cos_sub, hc, hsn, hy]
    apply V3.ext <;> simp only <;> ring
  have hunit : ∀ u, (⟨sin u, 0, cos u⟩ : V3).normSq = 1 := by
    intro u
    unfold V3.normSq
    have := sin_sq_add_cos_sq u
    simp only
    linarith
  have h1 := h tilted tilted_ne 180 ⟨-tilted.z, 0, tilted.x⟩ (by unfold V3.normSq; simp only; linarith)
    (by rw [hd]; unfold V3.dot; simp only; ring) (s0 / 2) s0 (by linarith) (by linarith) (by linarith)
  rw [haw, haw, sub_self, show s0 - s0 / 2 = s0 / 2 by ring] at h1
  have hdeg : (View.new tilted 180).degrees ⟨sin (s0 / 2), 0, cos (s0 / 2)⟩ = s0 / 2 * 180 / π := by
    unfold View.degrees View.radians Geo.radians
    rw [hdx, ctheta_unit tilted_unit (hunit _)]
    have : tilted.dot ⟨sin (s0 / 2), 0, cos (s0 / 2)⟩ = cos (s0 / 2) := by
      unfold V3.dot
      simp only
      have e := cos_sub s0 (s0 / 2)
      rw [show s0 - s0 / 2 = s0 / 2 by ring] at e
      rw [← hc, ← hsn]
      linarith
    rw [this, arccos_cos (by linarith) (by linarith)]
  unfold positions at h1
  rw [norm_of_unit (hunit _), norm_of_unit (hunit _), hwv, hwv, hdeg] at h1
  have hs2 : 0 < sin (s0 / 2) := sin_pos_of_pos_of_lt_pi (by linarith) (by linarith)
  have hc2 : 0 < cos (s0 / 2) := cos_pos_of_mem_Ioo ⟨by linarith, by linarith⟩
  have ht1 : tauOf ⟨sin (s0 / 2), 0, cos (s0 / 2)⟩ = some 90 := by
    unfold tauOf tau
    rw [if_neg (by simp), if_neg (by rintro ⟨h, -⟩; exact hs2.ne' h)]
    simp only [zero_div, arccos_zero]
    congr 1
    field_simp
    norm_num
  have ht2 : tauOf ⟨sin 0, 0, cos 0⟩ = none := by
    unfold tauOf tau
    rw [if_neg (by simp), if_pos (by simp)]
  have hsig : sigmaOf ⟨sin (s0 / 2), 0, cos (s0 / 2)⟩ (s0 / 2 * 180 / π) = s0 / 2 * 180 / π := by
    unfold sigmaOf
    rw [if_neg (by simp)]
  unfold positionsV at h1
  rw [if_pos rfl, if_pos rfl, if_neg (by simpa using hc2.le), if_neg (by simp), ht1, ht2, hsig] at h1
  simp only [Option.elim_some, Option.elim_none] at h1
  have hg : 1 < pidxGuth (s0 / 2 * 180 / π) 90 := by
    unfold pidxGuth
    rw [one_lt_exp_iff]
    have hσ : 0 < s0 / 2 * 180 / π := by positivity
    have he : exp (-2 * 90 / 9) ≤ 1 := exp_le_one_iff.mpr (by norm_num)
    have h2 : 0 < (35.2 - 0.31889 * 90 - 1.22 * exp (-2 * 90 / 9)) / 1000 * (s0 / 2 * 180 / π) := by
      apply mul_pos _ hσ
      apply div_pos _ (by norm_num)
      linarith
    have h3 : 0 < (21 + 0.26667 * 90 - 0.002963 * 90 * 90 : ℝ) / 100000 * (s0 / 2 * 180 / π) * (s0 / 2 * 180 / π) := by
      apply mul_pos (mul_pos (by norm_num) hσ) hσ
    linarith
  rcases min_le_iff.mp h1 with h2 | h2 <;> linarith

example : (0 : ℝ) < 1 / 2 ∧ (1 / 2 : ℝ) ≤ 1 ∧ (1 : ℝ) ≤ π := ⟨by norm_num, by norm_num, by linarith [pi_gt_three]⟩

/-! ### the Kim index on the axes of the field of view -/

/-- **C73, Kim's formula.** `s` radians above, beside and below the line of sight, in view coordinates: the index is one at
21.633 degrees above, 34.206 beside, 30.093 below, grows exponentially from there, by a factor `e` every 8.772, 20.418 and
13.758 degrees. -/
theorem C73_kim (m : View) (p : V3) (s : ℝ) (h0 : 0 < s) (h1 : s < π) (hs : m.degrees (Geo.norm p) = s * 180 / π) :
    (m.w2v (Geo.norm p) = ⟨0, sin s, cos s⟩ → positions false m p = exp ((s * 180 / π - 21.633) / 8.772)) ∧
    (m.w2v (Geo.norm p) = ⟨sin s, 0, cos s⟩ ∨ m.w2v (Geo.norm p) = ⟨-sin s, 0, cos s⟩ →
      positions false m p = exp ((s * 180 / π - 34.206) / 20.418)) ∧
    (m.w2v (Geo.norm p) = ⟨0, -sin s, cos s⟩ → positions false m p = exp ((s * 180 / π - 30.093) / 13.758)) := by
  have hp := sin_pos_of_pos_of_lt_pi h0 h1
  have hpi := pi_pos
  have hr : √(sin s ^ 2) = sin s := sqrt_sq hp.le
  refine ⟨fun h => ?_, fun h => ?_, fun h => ?_⟩
  · unfold positions
    rw [h, hs]
    unfold positionsV tau
    simp only [Bool.false_eq_true, if_false, hp.ne', and_false]
    rw [show (0 : ℝ) ^ 2 + sin s ^ 2 + 0 ^ 2 = sin s ^ 2 by ring, hr, div_self hp.ne', arccos_one]
    simp only [Option.elim_some, pidxKim, kimDen]
    congr 1; norm_num
  · have ht : tau (m.w2v (Geo.norm p)) = some 90 := by
      unfold tau
      rcases h with h | h <;> rw [h]
      · simp only [hp.ne', false_and, if_false]
        rw [zero_div, arccos_zero]
        congr 1; field_simp; norm_num
      · simp only [neg_eq_zero, hp.ne', false_and, if_false]
        rw [zero_div, arccos_zero]
        congr 1; field_simp; norm_num
    unfold positions positionsV
    rw [ht, hs]
    simp only [Bool.false_eq_true, if_false, Option.elim_some, pidxKim, kimDen]
    congr 1; norm_num
  · unfold positions
    rw [h, hs]
    unfold positionsV tau
    simp only [Bool.false_eq_true, if_false, neg_eq_zero, hp.ne', and_false]
    rw [show (0 : ℝ) ^ 2 + (-sin s) ^ 2 + 0 ^ 2 = sin s ^ 2 by ring, hr, neg_div, div_self hp.ne', arccos_neg_one]
    rw [show π * 180 / π = 180 by field_simp]
    simp only [Option.elim_some, pidxKim, kimDen]
    congr 1; norm_num

end Verif.Pos
