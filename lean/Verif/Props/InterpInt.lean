import Verif.Props.Interp

/-! C193: images of whole numbers moved between views. -/

namespace Verif.Map
open Verif.Geo Verif.Py

/-- the same numbers as floats -/
def Img.real (im : Img ℤ) : Img ℝ := ⟨im.n, im.m, fun a b => (im.at_ a b : ℝ)⟩

/-- **C193**, the full claim: an image of whole numbers is moved like the image of the same numbers as floats -/
def C193_statement : Prop :=
  ∀ (nearest : Bool) (d d' : V3), Clear d → Clear d' → ∀ va va' : ℝ, 0 < va → va ≤ 180 → 0 < va' → va' ≤ 180 →
    ∀ (im : Img ℤ), im.n = im.m → 2 ≤ im.m → ∀ i j v, i < im.m → j < im.m →
      (View.new d va).transformTo (View.new d' va') (centreInterp nearest) im.real i j = .ok v →
      ∃ k : ℤ, (View.new d va).transformToInt (View.new d' va') nearest im i j = .ok k ∧ (k : ℝ) = v

theorem trunc_int (k : ℤ) : trunc (k : ℝ) = k := by unfold trunc; simp

/-- **C193** holds with `nearest=True` and for an image moved to its own view. Missing: linear interpolation. -/
theorem C193_partial (im : Img ℤ) :
    (∀ (m other : View) (i j : ℕ) (v : ℝ), 2 ≤ im.m → m.transformTo other (centreInterp true) im.real i j = .ok v →
      ∃ k : ℤ, m.transformToInt other true im i j = .ok k ∧ (k : ℝ) = v) ∧
    (∀ (nearest : Bool) (d : V3) (va : ℝ) (i j : ℕ), d ≠ V3.zero → 0 < va → va ≤ 180 → im.n = im.m → i < im.m → j < im.m →
      (View.new d va).transformToInt (View.new d va) nearest im i j = .ok (im.at_ i j) ∨
      (View.new d va).transformToInt (View.new d va) nearest im i j = .ok 0 ∧
        ¬ (View.new d va).inView 0 ((View.new d va).pixel2ray im.m (pixelCentre i j))) := by
  refine ⟨fun m other i j v h2 h => ?_, fun nearest d va i j hd h0 h1 hsq hi hj => ?_⟩
  · have hv : ∃ k : ℤ, (k : ℝ) = v := by
      rcases C184_nearest_partial m other im.real h2 i j v h with rfl | ⟨a, b, -, -, rfl⟩
      · exact ⟨0, by simp⟩
      · exact ⟨im.at_ a b, rfl⟩
    obtain ⟨k, rfl⟩ := hv
    refine ⟨k, ?_, rfl⟩
    show (m.transformTo other (centreInterp true) im.real i j).map trunc = _
    rw [h]
    show Except.ok (trunc (k : ℝ)) = _
    rw [trunc_int]
  · obtain ⟨a, b⟩ := C184_self nearest d hd va h0 h1 im.real hsq i j hi hj
    by_cases hin : (View.new d va).inView 0 ((View.new d va).pixel2ray im.m (pixelCentre i j))
    · left
      show ((View.new d va).transformTo (View.new d va) (centreInterp nearest) im.real i j).map trunc = _
      rw [a hin]
      show Except.ok (trunc ((im.at_ i j : ℤ) : ℝ)) = _
      rw [trunc_int]
    · right
      refine ⟨?_, hin⟩
      show ((View.new d va).transformTo (View.new d va) (centreInterp nearest) im.real i j).map trunc = _
      rw [b hin]
      show Except.ok (trunc (0 : ℝ)) = _
      rw [show (0 : ℝ) = ((0 : ℤ) : ℝ) by simp, trunc_int]

/-- **C193** what happens in general: the same exceptions, and values cut towards zero, less than one off -/
theorem C193_cut (m other : View) (nearest : Bool) (im : Img ℤ) (i j : ℕ) :
    (∀ e, m.transformTo other (centreInterp nearest) im.real i j = .error e ↔ m.transformToInt other nearest im i j = .error e) ∧
    ∀ v k, m.transformTo other (centreInterp nearest) im.real i j = .ok v → m.transformToInt other nearest im i j = .ok k →
      |(k : ℝ)| ≤ |v| ∧ |v - k| < 1 ∧ 0 ≤ v * k := by
  have e1 : m.transformToInt other nearest im i j = (m.transformTo other (centreInterp nearest) im.real i j).map trunc := rfl
  rw [e1]
  refine ⟨fun e => ?_, fun v k hv hk => ?_⟩
  · cases m.transformTo other (centreInterp nearest) im.real i j with
    | error e' => exact ⟨fun h => by cases h; rfl, fun h => by cases h; rfl⟩
    | ok v => exact ⟨fun h => (by cases h), fun h => (by cases h)⟩
  · rw [hv] at hk
    have hk' : trunc v = k := by simpa [Except.map] using hk
    rw [← hk']
    unfold trunc
    split
    · rename_i h
      have h1 := Int.floor_le v
      have h2 := Int.lt_floor_add_one v
      have h3 : (0 : ℝ) ≤ ⌊v⌋ := by exact_mod_cast Int.floor_nonneg.mpr h
      refine ⟨by rw [abs_of_nonneg h3, abs_of_nonneg h]; exact h1, ?_, mul_nonneg h h3⟩
      rw [abs_lt]; constructor <;> linarith
    · rename_i h
      have hv0 : v ≤ 0 := by linarith
      have h1 := Int.le_ceil v
      have h2 := Int.ceil_lt_add_one v
      have h3 : ((⌈v⌉ : ℤ) : ℝ) ≤ 0 := by exact_mod_cast Int.ceil_le.mpr (by simpa using hv0)
      refine ⟨by rw [abs_of_nonpos h3, abs_of_nonpos hv0]; linarith, ?_, mul_nonneg_of_nonpos_of_nonpos hv0 h3⟩
      rw [abs_lt]; constructor <;> linarith

/-- the image of `C184_refuted` in whole numbers -/
def oneDarkInt : Img ℤ := ⟨2, 2, fun a b => if a = 0 ∧ b = 0 then 0 else 1⟩

/-- **C193** is false with linear interpolation: the fraction of a blended pixel is lost. -/
theorem C193_refuted : ¬ C193_statement := by
  intro h
  obtain ⟨va', h0, h1, hv⟩ := oneDark_moved
  have hr : oneDarkInt.real = oneDark := by
    unfold Img.real oneDarkInt oneDark
    congr 1
    funext a b
    split <;> simp_all
  obtain ⟨k, -, hk⟩ := h false ⟨0, 1, 0⟩ ⟨0, 1, 0⟩ dflt_clear dflt_clear 180 va' (by norm_num) le_rfl h0 h1 oneDarkInt rfl le_rfl
    0 0 _ (by decide) (by decide) (by rw [hr]; exact hv)
  have h3 : (36 : ℝ) * k = -13 := by rw [hk]; norm_num
  have h4 : 36 * k = -13 := by exact_mod_cast h3
  omega

end Verif.Map
