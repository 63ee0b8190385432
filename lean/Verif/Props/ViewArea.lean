import Verif.Props.ViewMapper
import Mathlib.Analysis.SpecialFunctions.Integrals.Basic

/-! C90: the solid angle of a view. -/

namespace Verif.Map
open Verif.Geo Real

/-! ### C90 the view area -/

/-- solid angle of a circular cone with half angle `h` -/
noncomputable def coneSolid (h : ℝ) : ℝ := ∫ t in (0 : ℝ)..h, 2 * π * sin t

theorem coneSolid_eq (h : ℝ) : coneSolid h = 2 * π * (1 - cos h) := by
  unfold coneSolid
  rw [intervalIntegral.integral_const_mul, integral_sin, cos_zero]

/-- what C90 asks: the area is the solid angle of the cone of rays `in_view` accepts -/
def C90_statement : Prop :=
  ∀ d : V3, d ≠ V3.zero → ∀ va : ℝ, 0 < va → va ≤ 180 → ∀ h : ℝ,
    (∀ p : V3, (View.new d va).inView 0 p ↔ (View.new d va).radians p < h) → 0 < h → h ≤ π →
    (View.new d va).area = coneSolid h

/-- **C90** the area is the solid angle of the cone with half the nominal view angle, the whole sphere for 360
degree views; the cone `in_view` accepts is strictly smaller below 180 degrees. Missing for the full claim: views
below 180 degrees (`C90_refuted`). -/
theorem C90_area_partial (d : V3) (va : ℝ) :
    (va ≠ 360 → (View.new d va).area = coneSolid (va / 2 * π / 180)) ∧
    ((View.new d 360).area = coneSolid π) ∧
    (0 < va → va < 180 → coneSolid ((View.new d va).cf * (View.new d va).va * π / 360) < (View.new d va).area) := by
  have hpi := pi_pos
  have h1 : va ≠ 360 → (View.new d va).area = coneSolid (va / 2 * π / 180) := by
    intro h
    rw [coneSolid_eq]
    unfold View.new vangle vaspect
    simp only [if_neg h]
    congr 3; ring
  refine ⟨h1, ?_, ?_⟩
  · rw [coneSolid_eq]
    unfold View.new vangle vaspect
    simp only [if_true]
    congr 3; ring
  · intro h0 h2
    rw [h1 (by linarith), coneSolid_eq, coneSolid_eq]
    have e1 : (View.new d va).cf = chordFactor va := by
      unfold View.new vangle; simp only [if_neg (show va ≠ 360 by linarith)]
    have e2 : (View.new d va).va = va := by
      unfold View.new vangle; simp only [if_neg (show va ≠ 360 by linarith)]
    rw [e1, e2]
    have hc := cf_bounds h0 h2.le
    have hlt := hc.2.2.1 h2
    have hc0 := hc.2.2.2
    have hcos : cos (va / 2 * π / 180) < cos (chordFactor va * va * π / 360) := by
      apply cos_lt_cos_of_nonneg_of_le_pi
      · positivity
      · nlinarith
      · have : chordFactor va * va * π < va * π := by
          have : 0 < va * π := by positivity
          nlinarith
        linarith
    nlinarith

theorem C90_refuted : ¬ C90_statement := by
  intro h
  have hz0 : (⟨0, 0, 1⟩ : V3) ≠ V3.zero := by simp [V3.zero]
  have hpi := pi_pos
  obtain ⟨_, _, e1, e2, e3⟩ := new_sf (d := ⟨0, 0, 1⟩) (va := 120) (by norm_num)
  have hc := cf_bounds (va := 120) (by norm_num) (by norm_num)
  have h1 := h ⟨0, 0, 1⟩ hz0 120 (by norm_num) (by norm_num)
    ((View.new ⟨0, 0, 1⟩ 120).cf * (View.new ⟨0, 0, 1⟩ 120).va * π / 360)
    (by intro p; unfold View.inView; rw [sub_zero])
    (by rw [e1, e3]; have := hc.2.2.2; positivity)
    (by rw [e1, e3]; nlinarith [hc.2.1])
  exact absurd h1 ((C90_area_partial ⟨0, 0, 1⟩ 120).2.2 (by norm_num) (by norm_num)).ne'

end Verif.Map
