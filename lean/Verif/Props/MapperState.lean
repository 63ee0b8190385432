import Verif.Model.MapperState
import Verif.Props.ViewHeader

/-! C175: a mapper follows the direction and the aspect assigned to it. -/

namespace Verif.Map
open Verif.Geo Real

/-- the direction after a history of assignments to a mapper that was made with `d` -/
def Spec.lastDxyz (d : V3) : List VOp → V3
  | [] => d
  | .dxyz d' :: h => Spec.lastDxyz d' h
  | .aspect _ :: h => Spec.lastDxyz d h

/-- the aspect after a history -/
def Spec.lastAspect (a : ℝ) : List VOp → ℝ
  | [] => a
  | .dxyz _ :: h => Spec.lastAspect a h
  | .aspect a' :: h => Spec.lastAspect a' h

/-- only directions are assigned -/
def Spec.Directions (h : List VOp) : Prop := ∀ op ∈ h, ∃ d, op = .dxyz d

/-- a new mapper has the attributes of the model of new mappers, and the opposite view when it needs one -/
theorem create_view (d : V3) (va : ℝ) : (VSt.create d va).v = View.new d va ∧ (VSt.create d va).asp = vaspect va ∧
    (VSt.create d va).ivm = if va = 360 then some (View.new d va).ivm else none := by
  refine ⟨?_, rfl, ?_⟩
  · simp only [VSt.create, VSt.setDxyz, VSt.setAspect, VSt.blank, View.new, View.mk.injEq, true_and, and_true]
    by_cases h : va = 360 <;> simp [vaspect, h]
  · simp only [VSt.create, VSt.setDxyz, VSt.setAspect, View.ivm]
    by_cases h : va = 360 <;> simp [vaspect, h, View.new]

/-- The methods of a new mapper are those of the model of new mappers. -/
theorem C175_new (d : V3) (va : ℝ) (p : V3) (res : ℕ) :
    (VSt.create d va).xyz2vxy p = .ok ((View.new d va).xyz2vxy p) ∧
      (VSt.create d va).pixelrays res = .ok ((View.new d va).pixelrays res) := by
  obtain ⟨h1, h2, h3⟩ := create_view d va
  unfold VSt.xyz2vxy VSt.pixelrays VSt.opposite View.xyz2vxy View.pixelrays
  rw [h1, h2, h3]
  by_cases h : va = 360
  · simp [h, vaspect, View.new, Except.map]
  · simp [h, vaspect, View.new]

theorem setDxyz_create (d d' : V3) (va : ℝ) : (VSt.create d va).setDxyz d' = VSt.create d' va := rfl

/-- C175 for directions. Whatever directions were assigned before, the object is exactly the one made with the last of
them: every attribute, so every method. -/
theorem C175_directions (d : V3) (va : ℝ) (h : List VOp) (hd : Spec.Directions h) :
    (VSt.create d va).run h = VSt.create (Spec.lastDxyz d h) va := by
  induction h generalizing d with
  | nil => rfl
  | cons op h ih =>
    obtain ⟨d', rfl⟩ := hd op (by simp)
    have := ih d' fun op hop => hd op (by simp [hop])
    simpa [VSt.run, VSt.step, setDxyz_create, Spec.lastDxyz] using this

/-- assigning the mapper its own direction changes nothing -/
theorem C175_own_direction (d : V3) (va : ℝ) :
    (VSt.create d va).setDxyz (VSt.create d va).v.dxyz = VSt.create d va := by
  rw [setDxyz_create]
  have e : (VSt.create d va).v.dxyz = norm1 d := rfl
  rw [e]
  have h1 : norm1 (norm1 d) = norm1 d := ViewHdr.norm1_norm1 d
  simp only [VSt.create, VSt.setDxyz, h1]

open Classical in
/-- whether the mapper has an opposite view after a history: whether the aspect was 2 when a direction was last assigned -/
noncomputable def Spec.hasOpposite (a : ℝ) (b : Bool) : List VOp → Bool
  | [] => b
  | .dxyz _ :: h => Spec.hasOpposite a (decide (a = 2)) h
  | .aspect a' :: h => Spec.hasOpposite a' b h

open Classical in
/-- what is left behind by any history: everything but the opposite view and the box is as for a new hemisphere -/
theorem run_hemisphere (d : V3) (h : List VOp) (s : VSt) (a : ℝ) (b : Bool)
    (hs : s.v = { View.new d 180 with area := 2 * π * (1 - cos (180 * π * a / 360)), two := decide (a = 2) } ∧
      s.asp = a ∧ s.ivm = if b then some (View.new (norm1 d).neg 180) else none) :
    (s.run h).v = { View.new (Spec.lastDxyz d h) 180 with
        area := 2 * π * (1 - cos (180 * π * Spec.lastAspect a h / 360)), two := decide (Spec.lastAspect a h = 2) } ∧
      (s.run h).asp = Spec.lastAspect a h ∧
      (s.run h).ivm = if Spec.hasOpposite a b h then some (View.new (norm1 (Spec.lastDxyz d h)).neg 180) else none := by
  induction h generalizing d s a b with
  | nil => exact hs
  | cons op h ih =>
    obtain ⟨h1, h2, h3⟩ := hs
    cases op with
    | dxyz d' =>
      refine ih d' (s.step (.dxyz d')) a (decide (a = 2)) ⟨?_, h2, ?_⟩
      · simp only [VSt.step, VSt.setDxyz, h1]; rfl
      · simp only [VSt.step, VSt.setDxyz, h2, decide_eq_true_eq]
    | aspect a' =>
      refine ih d (s.step (.aspect a')) a' b ⟨?_, rfl, h3⟩
      simp [VSt.step, VSt.setAspect, h1, View.new, vangle]

open Classical in
theorem create_hemisphere (d : V3) (va : ℝ) (hva : va = 180 ∨ va = 360) :
    (VSt.create d va).v = { View.new d 180 with
      area := 2 * π * (1 - cos (180 * π * vaspect va / 360)), two := decide (vaspect va = 2) } ∧
    (VSt.create d va).asp = vaspect va ∧
    (VSt.create d va).ivm = if decide (vaspect va = 2) then some (View.new (norm1 d).neg 180) else none := by
  obtain ⟨h1, h2, h3⟩ := create_view d va
  rw [h1, h2, h3]
  rcases hva with rfl | rfl
  · refine ⟨?_, rfl, ?_⟩
    · norm_num [View.new, vangle, vaspect]
    · norm_num [vaspect]
  · refine ⟨?_, rfl, ?_⟩
    · norm_num [View.new, vangle, vaspect, vscale, vlow]
    · simp [vaspect, View.ivm, View.new]

open Classical in
/-- C175 for directions and aspects, exactly. Take a mapper made as a hemisphere or as a full view, and any history of
assignments of directions and of the aspects 1 and 2. Direction, angle, area, rotation and scales are those of a new mapper
for the last direction with the view angle that belongs to the last aspect. `xyz2vxy` and `pixelrays` agree with that new
mapper too, except when the last aspect is 2 and it was 1 when a direction was last assigned: then both raise
an AttributeError. -/
theorem C175_exact_partial (d : V3) (va : ℝ) (hva : va = 180 ∨ va = 360) (h : List VOp)
    (ha : Spec.lastAspect (vaspect va) h = 1 ∨ Spec.lastAspect (vaspect va) h = 2) (w : ℝ)
    (hw : w = if Spec.lastAspect (vaspect va) h = 2 then 360 else 180) :
    ((VSt.create d va).run h).v = View.new (Spec.lastDxyz d h) w ∧
    (Spec.lastAspect (vaspect va) h = 1 ∨ Spec.hasOpposite (vaspect va) (decide (vaspect va = 2)) h = true →
      (∀ p, ((VSt.create d va).run h).xyz2vxy p = .ok ((View.new (Spec.lastDxyz d h) w).xyz2vxy p)) ∧
      ∀ res, ((VSt.create d va).run h).pixelrays res = .ok ((View.new (Spec.lastDxyz d h) w).pixelrays res)) ∧
    (Spec.lastAspect (vaspect va) h = 2 → Spec.hasOpposite (vaspect va) (decide (vaspect va = 2)) h = false →
      (∀ p, ((VSt.create d va).run h).xyz2vxy p = .error .AttributeError) ∧
      ∀ res, ((VSt.create d va).run h).pixelrays res = .error .AttributeError) := by
  obtain ⟨h1, h2, h3⟩ := run_hemisphere d h _ _ _ (create_hemisphere d va hva)
  have hv : ((VSt.create d va).run h).v = View.new (Spec.lastDxyz d h) w := by
    rcases ha with e | e
    · have e2 : w = 180 := by rw [hw, e]; norm_num
      rw [h1, e, e2]
      norm_num [View.new, vangle, vaspect]
    · have e2 : w = 360 := by rw [hw, e]; norm_num
      rw [h1, e, e2]
      norm_num [View.new, vangle, vaspect, vscale, vlow]
  refine ⟨hv, ?_, ?_⟩
  · intro hor
    unfold VSt.xyz2vxy VSt.pixelrays VSt.opposite View.xyz2vxy View.pixelrays
    rw [h2, h3, hv]
    rcases ha with e | e
    · have e2 : w = 180 := by rw [hw, e]; norm_num
      rw [e, e2]
      norm_num [View.new]
    · have e2 : w = 360 := by rw [hw, e]; norm_num
      rcases hor with e3 | e3
      · rw [e] at e3; norm_num at e3
      · rw [e, e2, e3]
        simp [View.new, View.ivm, Except.map]
  · intro e e3
    unfold VSt.xyz2vxy VSt.pixelrays VSt.opposite
    rw [h2, h3, e, e3]
    simp [Except.map]

/-- C175 as a user would have it: after any assignments the mapper answers like a new one. -/
def C175_statement : Prop :=
  ∀ (d : V3) (va : ℝ), va = 180 ∨ va = 360 → ∀ h : List VOp,
    Spec.lastAspect (vaspect va) h = 1 ∨ Spec.lastAspect (vaspect va) h = 2 → ∀ res,
    ((VSt.create d va).run h).pixelrays res =
      .ok ((View.new (Spec.lastDxyz d h) (if Spec.lastAspect (vaspect va) h = 2 then 360 else 180)).pixelrays res)

/-- C175 fails: a hemisphere that is given the aspect 2 has no opposite view until a direction is assigned. -/
theorem C175_refuted : ¬ C175_statement := by
  intro H
  have ha : vaspect 180 = 1 := by norm_num [vaspect]
  have e : Spec.lastAspect (vaspect 180) [.aspect 2] = 2 := rfl
  have h1 := H ⟨0, 1, 0⟩ 180 (Or.inl rfl) [.aspect 2] (Or.inr e) 1
  have h2 := ((C175_exact_partial ⟨0, 1, 0⟩ 180 (Or.inl rfl) [.aspect 2] (Or.inr e) _ rfl).2.2 e (by
    simp only [Spec.hasOpposite, ha]; norm_num)).2 1
  rw [h2] at h1
  cases h1

-- aspect 2, then a direction: a full view
example : Spec.lastAspect 1 [.aspect 2, .dxyz ⟨1, 0, 0⟩] = 2 ∧ Spec.lastDxyz ⟨0, 1, 0⟩ [.aspect 2, .dxyz ⟨1, 0, 0⟩] = ⟨1, 0, 0⟩ ∧
    Spec.hasOpposite 1 false [.aspect 2, .dxyz ⟨1, 0, 0⟩] = true := by
  refine ⟨rfl, rfl, ?_⟩
  simp [Spec.hasOpposite]

-- back and forth without a new direction keeps the opposite view of a full view
example : Spec.hasOpposite 2 true [.aspect 1, .aspect 2] = true := rfl

example : Spec.Directions [.dxyz ⟨1, 0, 0⟩, .dxyz ⟨0, 0, 5⟩] := by
  intro op hop
  simp only [List.mem_cons, List.not_mem_nil, or_false] at hop
  rcases hop with rfl | rfl <;> exact ⟨_, rfl⟩

end Verif.Map
