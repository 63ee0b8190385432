import Verif.Props.Cull
import Mathlib.Analysis.Complex.Norm
import Mathlib.Tactic.Linarith

/-! Properties C217 and C218: the vectors kept by cull_vectors when the input or the tolerance changes. -/

namespace Verif.Cull
open Classical

section
variable {α β : Type} [PseudoMetricSpace α] [PseudoMetricSpace β]

/-- specification: go through the vectors in order, keep a vector when it is farther than `tol` from all kept so far -/
noncomputable def firstCome (tol : ℝ) : List α → List α → List Bool
  | _, [] => []
  | kept, v :: vs => if ∀ u ∈ kept, tol < dist u v then true :: firstCome tol (v :: kept) vs else false :: firstCome tol kept vs

/-- boolean indexing, `vecs[mask]` -/
def select : List α → List Bool → List α
  | v :: vs, b :: bs => if b then v :: select vs bs else select vs bs
  | _, _ => []

theorem firstCome_length (tol : ℝ) (kept vs : List α) : (firstCome tol kept vs).length = vs.length := by
  induction vs generalizing kept with
  | nil => rfl
  | cons v vs ih => unfold firstCome; split <;> simp [ih]

/-- a mask with one entry per vector which is set where all earlier set vectors are farther than `tol` is `firstCome` -/
theorem firstCome_unique [Inhabited α] (tol : ℝ) (vs kept : List α) (m : List Bool) (hl : m.length = vs.length)
    (hm : ∀ k < vs.length, m.getD k false = true ↔ (∀ u ∈ kept, tol < dist u (vs.getD k default)) ∧
      ∀ i < k, m.getD i false = true → tol < dist (vs.getD i default) (vs.getD k default)) : m = firstCome tol kept vs := by
  induction vs generalizing kept m with
  | nil => simpa [firstCome] using hl
  | cons v vs ih =>
    obtain ⟨b, m, rfl⟩ : ∃ b m', m = b :: m' := by
      cases m with
      | nil => simp at hl
      | cons b m => exact ⟨b, m, rfl⟩
    have h0 := hm 0 (by simp)
    simp only [List.getD_cons_zero, not_lt_zero, false_imp_iff, implies_true, and_true] at h0
    have hs : ∀ k < vs.length, m.getD k false = true ↔ (∀ u ∈ kept, tol < dist u (vs.getD k default)) ∧
        (b = true → tol < dist v (vs.getD k default)) ∧
        ∀ i < k, m.getD i false = true → tol < dist (vs.getD i default) (vs.getD k default) := by
      intro k hk
      have := hm (k + 1) (by simpa using hk)
      simp only [List.getD_cons_succ] at this
      rw [this]
      refine and_congr_right fun _ => ⟨fun h => ⟨fun hb => by simpa using h 0 (by omega) (by simpa using hb), fun i hi hmi => by
        simpa using h (i + 1) (by omega) (by simpa using hmi)⟩, fun h i hi hmi => ?_⟩
      cases i with
      | zero => simpa using h.1 (by simpa using hmi)
      | succ i => simpa using h.2 i (by omega) (by simpa using hmi)
    unfold firstCome
    by_cases hb : ∀ u ∈ kept, tol < dist u v
    · rw [if_pos hb]
      have bt : b = true := h0.mpr hb
      subst bt
      congr 1
      refine ih (v :: kept) m (by simpa using hl) fun k hk => ?_
      rw [hs k hk]
      simp only [List.mem_cons, forall_eq_or_imp, true_imp_iff]
      tauto
    · rw [if_neg hb]
      have bf : b = false := by
        cases b with
        | false => rfl
        | true => exact absurd (h0.mp rfl) hb
      subst bf
      congr 1
      refine ih kept m (by simpa using hl) fun k hk => ?_
      rw [hs k hk]
      simp

/-- **C217** culling goes through the vectors in order and keeps those farther than the tolerance from all kept before -/
theorem C217_first_come [Inhabited α] (vecs : List α) (tol : ℝ) : cullVectors vecs tol = firstCome tol [] vecs := by
  by_cases hn : vecs = []
  · subst hn
    rfl
  obtain ⟨hl, hor, -, hfar, hnear, -⟩ := C38_cull vecs tol hn
  have key : ∀ k < vecs.length, ((cullVectors vecs tol).getD k false = true ↔ Kept vecs tol k) := by
    intro k hk
    unfold Kept
    rw [List.getD_eq_getElem?_getD, List.getElem?_eq_getElem (by omega)]
    simp
  refine firstCome_unique tol vecs [] _ hl fun k hk => ?_
  rw [key k hk]
  simp only [List.not_mem_nil, false_imp_iff, implies_true, true_and]
  constructor
  · intro h i hi hki
    exact hfar i (by omega) k hk (by omega) ((key i (by omega)).mp hki) h
  · intro h
    rcases hor k hk with h' | h'
    · exact h'
    · obtain ⟨i, hi, hki, hd⟩ := hnear k hk h'
      exact absurd hd (not_le.mpr (h i hi ((key i (by omega)).mpr hki)))

theorem firstCome_append (tol : ℝ) (kept a b : List α) :
    firstCome tol kept (a ++ b) = firstCome tol kept a ++ firstCome tol ((select a (firstCome tol kept a)).reverse ++ kept) b := by
  induction a generalizing kept with
  | nil => rfl
  | cons v a ih =>
    rw [List.cons_append]
    by_cases h : ∀ u ∈ kept, tol < dist u v
    · simp only [firstCome, if_pos h, List.cons_append, ih, select, if_true, List.reverse_cons, List.append_assoc, List.cons_append, List.nil_append]
    · simp only [firstCome, if_neg h, List.cons_append, ih, select, Bool.false_eq_true, if_false]

/-- **C217** vectors that come later do not change what is said about earlier ones -/
theorem C217_later [Inhabited α] (a b : List α) (tol : ℝ) :
    (cullVectors (a ++ b) tol).take a.length = cullVectors a tol := by
  rw [C217_first_come, C217_first_come, firstCome_append, List.take_left' (firstCome_length tol [] a)]

theorem firstCome_again (tol : ℝ) (kept vs : List α) : ∀ b ∈ firstCome tol kept (select vs (firstCome tol kept vs)), b = true := by
  induction vs generalizing kept with
  | nil => simp [firstCome, select]
  | cons v vs ih =>
    by_cases h : ∀ u ∈ kept, tol < dist u v
    · simp only [firstCome, if_pos h, select, if_true, List.mem_cons, forall_eq_or_imp, true_and]
      exact ih _
    · simp only [firstCome, if_neg h, select, Bool.false_eq_true, if_false]
      exact ih _

/-- **C217** culling what was culled removes nothing -/
theorem C217_again [Inhabited α] (vecs : List α) (tol : ℝ) :
    ∀ b ∈ cullVectors (select vecs (cullVectors vecs tol)) tol, b = true := by
  rw [C217_first_come, C217_first_come]
  exact firstCome_again tol [] vecs

/-- **C217** culling two batches is culling the kept vectors of the first with the second -/
theorem C217_batches [Inhabited α] (a b : List α) (tol : ℝ) :
    select (select a (cullVectors a tol) ++ b) (cullVectors (select a (cullVectors a tol) ++ b) tol) =
      select (a ++ b) (cullVectors (a ++ b) tol) := by
  have sel : ∀ (a b : List α) (m n : List Bool), m.length = a.length → select (a ++ b) (m ++ n) = select a m ++ select b n := by
    intro a b
    induction a with
    | nil => intro m n h; simp at h; simp [h, select]
    | cons v a ih =>
      intro m n h
      cases m with
      | nil => simp at h
      | cons c m =>
        have := ih m n (by simpa using h)
        cases c <;> simp [select, this]
  have all : ∀ (a : List α) (m : List Bool), m.length = a.length → (∀ b ∈ m, b = true) → select a m = a := by
    intro a
    induction a with
    | nil => intro m _ _; cases m <;> rfl
    | cons v a ih =>
      intro m h hm
      cases m with
      | nil => simp at h
      | cons c m =>
        have c1 := hm c (by simp)
        simp [select, c1, ih m (by simpa using h) fun b hb => hm b (by simp [hb])]
  simp only [C217_first_come, firstCome_append]
  rw [sel _ _ _ _ (firstCome_length _ _ _), sel _ _ _ _ (firstCome_length _ _ _),
    all _ _ (firstCome_length _ _ _) (firstCome_again tol [] a)]

/-- **C217** moving all vectors without changing their distances, e.g. turning them, does not change the mask -/
theorem C217_moved [Inhabited α] [Inhabited β] (f : α → β) (hf : ∀ u v, dist (f u) (f v) = dist u v) (vecs : List α) (tol : ℝ) :
    cullVectors (vecs.map f) tol = cullVectors vecs tol := by
  rw [C217_first_come, C217_first_come]
  have : ∀ kept : List α, firstCome tol (kept.map f) (vecs.map f) = firstCome tol kept vecs := by
    induction vecs with
    | nil => intro; rfl
    | cons v vs ih =>
      intro kept
      have e : (∀ u ∈ kept.map f, tol < dist u (f v)) ↔ ∀ u ∈ kept, tol < dist u v := by simp [hf]
      simp only [List.map_cons, firstCome, e]
      rw [← ih kept, ← ih (v :: kept), List.map_cons]
  simpa using this []

end

theorem firstCome_select {α : Type} [PseudoMetricSpace α] (tol : ℝ) (kept vs : List α) :
    (select vs (firstCome tol kept vs)).Pairwise (fun u v => tol < dist u v) ∧
      (∀ v ∈ select vs (firstCome tol kept vs), v ∈ vs ∧ ∀ u ∈ kept, tol < dist u v) ∧
      ∀ v ∈ vs, (∃ u ∈ kept, dist u v ≤ tol) ∨ (v ∈ select vs (firstCome tol kept vs)) ∨
        ∃ u ∈ select vs (firstCome tol kept vs), dist u v ≤ tol := by
  induction vs generalizing kept with
  | nil => simp [firstCome, select]
  | cons v vs ih =>
    by_cases h : ∀ u ∈ kept, tol < dist u v
    · obtain ⟨p, q, r⟩ := ih (v :: kept)
      simp only [firstCome, if_pos h, select, if_true]
      refine ⟨List.pairwise_cons.mpr ⟨fun w hw => (q w hw).2 v (by simp), p⟩, ?_, ?_⟩
      · intro w hw
        rcases List.mem_cons.mp hw with rfl | hw
        · exact ⟨by simp, h⟩
        · exact ⟨List.mem_cons_of_mem _ (q w hw).1, fun u hu => (q w hw).2 u (List.mem_cons_of_mem _ hu)⟩
      · intro w hw
        rcases List.mem_cons.mp hw with rfl | hw
        · exact .inr (.inl (by simp))
        · rcases r w hw with ⟨u, hu, hd⟩ | hk | ⟨u, hu, hd⟩
          · rcases List.mem_cons.mp hu with rfl | hu
            · exact .inr (.inr ⟨u, by simp, hd⟩)
            · exact .inl ⟨u, hu, hd⟩
          · exact .inr (.inl (List.mem_cons_of_mem _ hk))
          · exact .inr (.inr ⟨u, List.mem_cons_of_mem _ hu, hd⟩)
    · obtain ⟨p, q, r⟩ := ih kept
      simp only [firstCome, if_neg h, select, Bool.false_eq_true, if_false]
      refine ⟨p, fun w hw => ⟨List.mem_cons_of_mem _ (q w hw).1, (q w hw).2⟩, ?_⟩
      intro w hw
      rcases List.mem_cons.mp hw with rfl | hw
      · push Not at h
        exact .inl h
      · exact r w hw

/-- **C217** with the tolerance zero the kept vectors are the different vectors of the input, each once -/
theorem C217_duplicates {α : Type} [MetricSpace α] [Inhabited α] (vecs : List α) :
    (select vecs (cullVectors vecs 0)).Nodup ∧ ∀ v, v ∈ select vecs (cullVectors vecs 0) ↔ v ∈ vecs := by
  rw [C217_first_come]
  obtain ⟨p, q, r⟩ := firstCome_select 0 [] vecs
  refine ⟨p.imp fun h e => by simp [e] at h, fun v => ⟨fun h => (q v h).1, fun h => ?_⟩⟩
  rcases r v h with ⟨u, hu, -⟩ | hk | ⟨u, hu, hd⟩
  · simp at hu
  · exact hk
  · have := dist_le_zero.mp hd
    rwa [← this]

/-- **C218** for tolerances that differ by a factor of two or more: the larger one keeps no more vectors -/
theorem C218_double_partial {α : Type} [PseudoMetricSpace α] [Inhabited α] (vecs : List α) {t t' : ℝ} (h0 : 0 ≤ t) (ht : 2 * t ≤ t') :
    (select vecs (cullVectors vecs t')).length ≤ (select vecs (cullVectors vecs t)).length := by
  rw [C217_first_come, C217_first_come]
  obtain ⟨p, q, -⟩ := firstCome_select t' [] vecs
  obtain ⟨-, -, r⟩ := firstCome_select t [] vecs
  generalize select vecs (firstCome t' [] vecs) = big at *
  generalize select vecs (firstCome t [] vecs) = small at *
  have near : ∀ v ∈ big, ∃ u ∈ small, dist u v ≤ t := by
    intro v hv
    rcases r v (q v hv).1 with ⟨u, hu, -⟩ | hk | h
    · simp at hu
    · exact ⟨v, hk, by simpa using h0⟩
    · exact h
  clear q r
  induction big generalizing small with
  | nil => simp
  | cons v big ih =>
    obtain ⟨pv, p⟩ := List.pairwise_cons.mp p
    obtain ⟨u, hu, hd⟩ := near v (by simp)
    have := ih p (small.erase u) fun w hw => by
      obtain ⟨x, hx, hxd⟩ := near w (List.mem_cons_of_mem _ hw)
      refine ⟨x, (List.mem_erase_of_ne ?_).mpr hx, hxd⟩
      rintro rfl
      have := dist_triangle_left v w x
      have := pv w hw
      linarith
    rw [List.length_erase_of_mem hu] at this
    have := List.length_pos_of_mem hu
    simp only [List.length_cons]
    omega

/-- **C218** the property: a larger tolerance keeps no more vectors, here for vectors in a plane -/
def C218_statement : Prop :=
  ∀ (vecs : List ℂ) (t t' : ℝ), 0 ≤ t → t ≤ t' →
    (select vecs (cullVectors vecs t')).length ≤ (select vecs (cullVectors vecs t)).length

/-- **C218** is false: of (1, 0), (0, 0), (-0.54, 0.72), (-0.54, -0.72) two are kept with 0.95 and three with 1 -/
theorem C218_refuted : ¬ C218_statement := by
  intro h
  have := h [⟨1, 0⟩, ⟨0, 0⟩, ⟨-54 / 100, 72 / 100⟩, ⟨-54 / 100, -72 / 100⟩] (95 / 100) 1 (by norm_num) (by norm_num)
  rw [C217_first_come, C217_first_come] at this
  have lt : ∀ (a b c d t : ℝ), 0 ≤ t → (t < dist (⟨a, b⟩ : ℂ) ⟨c, d⟩ ↔ t ^ 2 < (a - c) ^ 2 + (b - d) ^ 2) := by
    intro a b c d t h0
    rw [Complex.dist_eq_re_im, Real.lt_sqrt h0]
  have e1 : firstCome (1 : ℝ) [] [(⟨1, 0⟩ : ℂ), ⟨0, 0⟩, ⟨-54 / 100, 72 / 100⟩, ⟨-54 / 100, -72 / 100⟩] = [true, false, true, true] := by
    norm_num [firstCome, lt]
  have e2 : firstCome (95 / 100 : ℝ) [] [(⟨1, 0⟩ : ℂ), ⟨0, 0⟩, ⟨-54 / 100, 72 / 100⟩, ⟨-54 / 100, -72 / 100⟩] = [true, true, false, false] := by
    norm_num [firstCome, lt]
  rw [e1, e2] at this
  simp [select] at this

/-- the hypotheses of `C217_moved` are met by a shift of the line -/
example : ∀ u v : ℝ, dist (u + 3) (v + 3) = dist u v := fun u v => by simp [Real.dist_eq]

end Verif.Cull
