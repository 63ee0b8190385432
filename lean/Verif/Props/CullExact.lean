import Verif.Props.RoundedCull
import Verif.Props.ReflectExact

/-! Property C230: what does not change which vectors are culled in double precision. -/

namespace Verif.Fp
open Verif.Geo Verif.Cull Real

/-- a map that keeps the comparisons keeps the mask -/
theorem cull_image (f : V3 → V3) (s t : ℝ) (f0 : f ⟨0, 0, 0⟩ = ⟨0, 0, 0⟩) (h : ∀ u v, NearF binary64 s (f u) (f v) ↔ NearF binary64 t u v) (vecs : List V3) :
    cullF binary64 (vecs.map f) s = cullF binary64 vecs t := by
  have g : ∀ i, (vecs.map f).getD i ⟨0, 0, 0⟩ = f (vecs.getD i ⟨0, 0, 0⟩) := by
    intro i
    rw [List.getD_eq_getElem?_getD, List.getD_eq_getElem?_getD, List.getElem?_map]
    cases vecs[i]? <;> simp [f0]
  have b : ballF binary64 (vecs.map f) s = ballF binary64 vecs t := by
    funext j
    unfold ballF
    rw [List.length_map]
    refine List.filter_congr fun i _ => ?_
    rw [g, g]
    exact decide_eq_decide.mpr (h _ _)
  unfold cullF
  rw [List.length_map, b]

theorem dist2F_eq (u v : V3) : dist2F binary64 u v = rnd (rnd (rnd (rnd (u.x - v.x) * rnd (u.x - v.x)) + rnd (rnd (u.y - v.y) * rnd (u.y - v.y))) +
    rnd (rnd (u.z - v.z) * rnd (u.z - v.z))) := rfl

/-- C230: culling mirrored vectors culls the same ones -/
theorem C230_mirror (axis : Fin 3) (vecs : List V3) (tol : ℝ) : cullF binary64 (vecs.map (mirrored axis)) tol = cullF binary64 vecs tol := by
  have n : ∀ a b : ℝ, rnd (-a - -b) = -rnd (a - b) := fun a b => by rw [← rnd_neg]; congr 1; ring
  refine cull_image _ _ _ (by fin_cases axis <;> simp [mirrored]) (fun u v => ?_) vecs
  unfold NearF
  have : dist2F binary64 (mirrored axis u) (mirrored axis v) = dist2F binary64 u v := by
    rw [dist2F_eq, dist2F_eq]
    fin_cases axis <;> simp only [mirrored, n, neg_mul_neg]
  rw [this]

/-- C230: culling opposite vectors culls the same ones -/
theorem C230_opposite (vecs : List V3) (tol : ℝ) : cullF binary64 (vecs.map flip3) tol = cullF binary64 vecs tol := by
  have n : ∀ a b : ℝ, rnd (-a - -b) = -rnd (a - b) := fun a b => by rw [← rnd_neg]; congr 1; ring
  refine cull_image _ _ _ (by simp [flip3]) (fun u v => ?_) vecs
  unfold NearF
  rw [dist2F_eq, dist2F_eq]
  simp only [flip3, n, neg_mul_neg]

/-- C230: vectors and tolerance multiplied by one power of two: the same ones are culled -/
theorem C230_binary_scale (vecs : List V3) (tol : ℝ) (j : ℤ) :
    cullF binary64 (vecs.map fun v => ⟨v.x * 2 ^ j, v.y * 2 ^ j, v.z * 2 ^ j⟩) (tol * 2 ^ j) = cullF binary64 vecs tol := by
  have p : (0 : ℝ) < 2 ^ (j + j) := by positivity
  have q : ∀ x : ℝ, rnd (x * 2 ^ j * (x * 2 ^ j)) = rnd (x * x) * 2 ^ (j + j) := by
    intro x
    rw [← rnd_scale, zpow_add₀ (by norm_num)]
    congr 1
    ring
  refine cull_image _ _ _ (by simp) (fun u v => ?_) vecs
  unfold NearF
  change _ ≤ rnd (tol * 2 ^ j * (tol * 2 ^ j)) ↔ _ ≤ rnd (tol * tol)
  rw [dist2F_eq, dist2F_eq]
  simp only [← sub_mul, rnd_scale, q, ← add_mul]
  exact mul_le_mul_iff_left₀ p

/-- the maps move vectors: a concrete case -/
example : [(⟨1, 2, 3⟩ : V3), ⟨0, 1, 0⟩].map (mirrored 2) = [⟨1, 2, -3⟩, ⟨0, 1, 0⟩] := by simp [mirrored]

end Verif.Fp
