import Verif.Model.Curcio
import Verif.Props.Retina
import Mathlib.Topology.Order.Lattice
import Mathlib.Topology.Instances.Real.Lemmas

/-! C185: the measured cell density. -/

namespace Verif.Retina

/-! ### `np.interp` -/

/-- the table is in increasing order -/
def Increasing (l : List (ℚ × ℚ)) : Prop := l.Pairwise fun p q => p.1 < q.1

instance (l : List (ℚ × ℚ)) : Decidable (Increasing l) := by unfold Increasing; infer_instance

theorem interp_low (p : ℚ × ℚ) (l : List (ℚ × ℚ)) {x : ℝ} (h : x ≤ p.1) : npInterp (p :: l) x = p.2 := by
  cases l with
  | nil => rfl
  | cons q l => unfold npInterp; rw [if_pos h]

theorem interp_bounds (l : List (ℚ × ℚ)) (h0 : l ≠ []) (lo hi : ℚ) (hl : Increasing l) (h : ∀ p ∈ l, lo ≤ p.2 ∧ p.2 ≤ hi) (x : ℝ) :
    lo ≤ npInterp l x ∧ npInterp l x ≤ hi := by
  induction l with
  | nil => exact absurd rfl h0
  | cons p l ih =>
    obtain ⟨a, b⟩ := h p (by simp)
    have a' : (lo : ℝ) ≤ p.2 := by exact_mod_cast a
    have b' : (p.2 : ℝ) ≤ hi := by exact_mod_cast b
    cases l with
    | nil => exact ⟨a', b'⟩
    | cons q l =>
      obtain ⟨c, d⟩ := h q (by simp)
      have c' : (lo : ℝ) ≤ q.2 := by exact_mod_cast c
      have d' : (q.2 : ℝ) ≤ hi := by exact_mod_cast d
      have hpq : (p.1 : ℝ) < q.1 := by
        have := (List.pairwise_cons.mp hl).1 q (by simp)
        exact_mod_cast this
      unfold npInterp
      split_ifs with h1 h2
      · exact ⟨a', b'⟩
      · push Not at h1
        have hd : (0 : ℝ) < q.1 - p.1 := by linarith
        have e : ((q.2 : ℝ) - p.2) / (q.1 - p.1) * (x - p.1) + p.2 =
            p.2 * (1 - (x - p.1) / (q.1 - p.1)) + q.2 * ((x - p.1) / (q.1 - p.1)) := by field_simp; ring
        have t0 : 0 ≤ (x - p.1) / ((q.1 : ℝ) - p.1) := div_nonneg (by linarith) hd.le
        have t1 : (x - p.1) / ((q.1 : ℝ) - p.1) ≤ 1 := by rw [div_le_one hd]; linarith
        rw [e]
        constructor <;> nlinarith
      · exact ih (by simp) (List.pairwise_cons.mp hl).2 (fun r hr => h r (by simp [hr]))

theorem interp_node (l : List (ℚ × ℚ)) (hl : Increasing l) (p : ℚ × ℚ) (hp : p ∈ l) : npInterp l p.1 = p.2 := by
  induction l with
  | nil => simp at hp
  | cons r l ih =>
    rcases List.mem_cons.mp hp with rfl | hm
    · exact interp_low _ _ le_rfl
    · cases l with
      | nil => simp at hm
      | cons q l =>
        have h1 : (r.1 : ℝ) < p.1 := by exact_mod_cast (List.pairwise_cons.mp hl).1 p hm
        have h2 : (q.1 : ℝ) ≤ p.1 := by
          rcases List.mem_cons.mp hm with rfl | hm'
          · exact le_rfl
          · exact le_of_lt (by exact_mod_cast (List.pairwise_cons.mp (List.pairwise_cons.mp hl).2).1 p hm')
        unfold npInterp
        rw [if_neg (not_le.mpr h1), if_neg (not_lt.mpr h2)]
        exact ih (List.pairwise_cons.mp hl).2 hm

/-- beyond a point of the table only the rest of the table counts, before it only what is before -/
theorem interp_split (l : List (ℚ × ℚ)) (p : ℚ × ℚ) (r : List (ℚ × ℚ)) (hl : Increasing (l ++ p :: r)) (x : ℝ) :
    (p.1 ≤ x → npInterp (l ++ p :: r) x = npInterp (p :: r) x) ∧ (x ≤ p.1 → npInterp (l ++ p :: r) x = npInterp (l ++ [p]) x) := by
  induction l with
  | nil =>
    refine ⟨fun _ => rfl, fun h => ?_⟩
    simp only [List.nil_append]
    rw [interp_low p r h, interp_low p [] h]
  | cons q l ih =>
    rw [List.cons_append] at hl
    have hq := (List.pairwise_cons.mp hl).1
    obtain ⟨i1, i2⟩ := ih (List.pairwise_cons.mp hl).2
    have hp : (q.1 : ℝ) < p.1 := by exact_mod_cast hq p (by simp)
    obtain ⟨s, t, hst⟩ : ∃ s t, l ++ p :: r = s :: t := by cases l <;> exact ⟨_, _, rfl⟩
    obtain ⟨t', hst'⟩ : ∃ t', l ++ [p] = s :: t' := by
      cases l with
      | nil => simp only [List.nil_append, List.cons.injEq] at hst; exact ⟨[], by rw [← hst.1]; rfl⟩
      | cons a l => simp only [List.cons_append, List.cons.injEq] at hst; exact ⟨_, by rw [← hst.1]; rfl⟩
    have hs : (s.1 : ℝ) ≤ p.1 := by
      cases l with
      | nil => simp only [List.nil_append, List.cons.injEq] at hst; rw [← hst.1]
      | cons a l =>
        simp only [List.cons_append, List.cons.injEq] at hst
        rw [← hst.1]
        have := (List.pairwise_cons.mp (List.pairwise_cons.mp hl).2).1 p (by simp)
        exact le_of_lt (by exact_mod_cast this)
    constructor
    · intro h
      rw [← i1 h, List.cons_append, hst]
      conv_lhs => unfold npInterp
      rw [if_neg (by linarith), if_neg (by linarith)]
    · intro h
      have := i2 h
      rw [hst, hst'] at this
      rw [List.cons_append, hst, List.cons_append, hst']
      unfold npInterp
      split_ifs
      · rfl
      · rfl
      · exact this

/-- the interpolation as a sum over the intervals -/
theorem interp_step (p q : ℚ × ℚ) (l : List (ℚ × ℚ)) (h : p.1 < q.1) (x : ℝ) :
    npInterp (p :: q :: l) x =
      (q.2 - p.2) / (q.1 - p.1) * (max (p.1 : ℝ) (min x (q.1 : ℝ)) - p.1) + (p.2 - q.2) + npInterp (q :: l) x := by
  have h' : (p.1 : ℝ) < q.1 := by exact_mod_cast h
  have hd : (q.1 : ℝ) - p.1 ≠ 0 := by linarith
  conv_lhs => unfold npInterp
  split_ifs with h1 h2
  · rw [interp_low q l (by linarith), min_eq_left (by linarith), max_eq_left h1]; ring
  · push Not at h1
    rw [interp_low q l h2.le, min_eq_left h2.le, max_eq_right h1.le]; ring
  · push Not at h2
    rw [min_eq_right h2, max_eq_right h'.le, div_mul_cancel₀ _ hd]; ring

theorem interp_continuous (l : List (ℚ × ℚ)) (hl : Increasing l) : Continuous (npInterp l) := by
  induction l with
  | nil => exact continuous_const
  | cons p l ih =>
    cases l with
    | nil => exact continuous_const
    | cons q l =>
      have h := (List.pairwise_cons.mp hl).1 q (by simp)
      have e : npInterp (p :: q :: l) = fun x =>
          ((q.2 : ℝ) - p.2) / (q.1 - p.1) * (max (p.1 : ℝ) (min x (q.1 : ℝ)) - p.1) + (p.2 - q.2) + npInterp (q :: l) x :=
        funext fun x => interp_step p q l h x
      rw [e]
      exact ((continuous_const.mul ((continuous_const.max (continuous_id.min continuous_const)).sub continuous_const)).add
        continuous_const).add (ih (List.pairwise_cons.mp hl).2)

theorem interp_monotone (l : List (ℚ × ℚ)) (hl : Increasing l) (hm : l.Pairwise fun p q => p.2 ≤ q.2) : Monotone (npInterp l) := by
  induction l with
  | nil => exact monotone_const
  | cons p l ih =>
    cases l with
    | nil => exact monotone_const
    | cons q l =>
      have h := (List.pairwise_cons.mp hl).1 q (by simp)
      have h' : (p.1 : ℝ) < q.1 := by exact_mod_cast h
      have hy : (p.2 : ℝ) ≤ q.2 := by exact_mod_cast (List.pairwise_cons.mp hm).1 q (by simp)
      intro x y hxy
      rw [interp_step p q l h, interp_step p q l h]
      have := ih (List.pairwise_cons.mp hl).2 (List.pairwise_cons.mp hm).2 hxy
      have hs : 0 ≤ ((q.2 : ℝ) - p.2) / (q.1 - p.1) := div_nonneg (by linarith) (by linarith)
      have := mul_le_mul_of_nonneg_left (sub_le_sub_right (max_le_max_left (p.1 : ℝ) (min_le_min_right (q.1 : ℝ) hxy)) (p.1 : ℝ)) hs
      linarith

theorem interp_antitone (l : List (ℚ × ℚ)) (hl : Increasing l) (hm : l.Pairwise fun p q => q.2 ≤ p.2) : Antitone (npInterp l) := by
  induction l with
  | nil => exact antitone_const
  | cons p l ih =>
    cases l with
    | nil => exact antitone_const
    | cons q l =>
      have h := (List.pairwise_cons.mp hl).1 q (by simp)
      have h' : (p.1 : ℝ) < q.1 := by exact_mod_cast h
      have hy : (q.2 : ℝ) ≤ p.2 := by exact_mod_cast (List.pairwise_cons.mp hm).1 q (by simp)
      intro x y hxy
      rw [interp_step p q l h, interp_step p q l h]
      have := ih (List.pairwise_cons.mp hl).2 (List.pairwise_cons.mp hm).2 hxy
      have hs : ((q.2 : ℝ) - p.2) / (q.1 - p.1) ≤ 0 := div_nonpos_of_nonpos_of_nonneg (by linarith) (by linarith)
      have := mul_le_mul_of_nonpos_left (sub_le_sub_right (max_le_max_left (p.1 : ℝ) (min_le_min_right (q.1 : ℝ) hxy)) (p.1 : ℝ)) hs
      linarith

/-! ### the tables -/

theorem curcio_increasing (mi : Fin 4) : Increasing (curcio mi) := by
  fin_cases mi <;> decide +kernel

/-- the number of the largest measurement of every meridian -/
def peakOf (mi : Fin 4) : ℕ := match mi with | 0 => 11 | 1 => 8 | 2 => 11 | 3 => 9

theorem curcio_shape (mi : Fin 4) :
    ((curcio mi).take (peakOf mi + 1)).Pairwise (fun p q => p.2 ≤ q.2) ∧
    ((curcio mi).drop (peakOf mi)).Pairwise (fun p q => q.2 ≤ p.2) ∧ peakOf mi < (curcio mi).length := by
  fin_cases mi <;> decide +kernel

theorem curcio_range (mi : Fin 4) : ∀ p ∈ curcio mi, (0.6 : ℚ) ≤ p.2 ∧ p.2 ≤ 2375 := by
  fin_cases mi <;> decide +kernel

/-! ### the density along a meridian -/

/-- The claim: at a measured eccentricity the density is the measurement. -/
def C185_statement : Prop := ∀ (mi : Fin 4), ∀ p ∈ curcio mi, curcioMeridian p.1 mi = p.2

/-- **C185** it is wherever at least one cell was measured -/
theorem C185_measured_partial (mi : Fin 4) (p : ℚ × ℚ) (hp : p ∈ curcio mi) (h1 : 1 ≤ p.2) : curcioMeridian p.1 mi = p.2 := by
  unfold curcioMeridian rgcMeridian
  beta_reduce
  rw [interp_node _ (curcio_increasing mi) p hp]
  exact max_eq_left (by exact_mod_cast h1)

theorem curcio_below : ∀ p ∈ inferior, ¬ 1 ≤ p.2 → p = (80.7186634582328, 0.6778900972815473) := by decide +kernel

/-- **C185** false for the outermost measurement below the fovea: 0.68 cells become one -/
theorem C185_refuted : ¬ C185_statement := by
  intro h
  have := h 3 (80.7186634582328, 0.6778900972815473) (by decide +kernel)
  unfold curcioMeridian rgcMeridian at this
  have h1 := le_max_right (npInterp (curcio 3) ((80.7186634582328 : ℚ) : ℝ)) 1
  simp only at this
  rw [this] at h1
  have h2 : (1 : ℚ) ≤ 0.6778900972815473 := by exact_mod_cast h1
  norm_num at h2

/-- **C185** densities are between one and the largest measurement, also outside of the measured eccentricities -/
theorem C185_range (deg : ℝ) (mi : Fin 4) : 1 ≤ curcioMeridian deg mi ∧ curcioMeridian deg mi ≤ 2375 := by
  have hne : curcio mi ≠ [] := by fin_cases mi <;> simp [curcio, temporal, superior, nasal, inferior]
  obtain ⟨-, h⟩ := interp_bounds (curcio mi) hne 0.6 2375 (curcio_increasing mi) (curcio_range mi) deg
  refine ⟨le_max_right _ _, max_le ?_ (by norm_num)⟩
  push_cast at h
  exact h

/-- **C185** no jumps along a meridian -/
theorem C185_continuous (mi : Fin 4) : Continuous fun deg => curcioMeridian deg mi :=
  (interp_continuous _ (curcio_increasing mi)).max continuous_const

/-- **C185** from the fovea outwards the density rises to the largest measurement of the meridian and falls from there -/
theorem C185_peak (mi : Fin 4) : ∃ p ∈ curcio mi, (∀ q ∈ curcio mi, q.2 ≤ p.2) ∧
    MonotoneOn (fun deg => curcioMeridian deg mi) (Set.Iic p.1) ∧ AntitoneOn (fun deg => curcioMeridian deg mi) (Set.Ici p.1) := by
  obtain ⟨h1, h2, h3⟩ := curcio_shape mi
  set k := peakOf mi
  have hsplit : curcio mi = (curcio mi).take k ++ (curcio mi)[k] :: (curcio mi).drop (k + 1) := by
    rw [← List.drop_eq_getElem_cons h3, List.take_append_drop]
  have htake : (curcio mi).take (k + 1) = (curcio mi).take k ++ [(curcio mi)[k]] := by
    rw [List.take_succ_eq_append_getElem h3]
  have hdrop := List.drop_eq_getElem_cons h3
  rw [htake] at h1
  rw [hdrop] at h2
  have hinc := curcio_increasing mi
  rw [hsplit] at hinc
  have hI := interp_split _ _ _ hinc
  rw [← hsplit] at hI
  have hi1 : Increasing ((curcio mi).take k ++ [(curcio mi)[k]]) := by
    rw [← htake]; exact (curcio_increasing mi).sublist (List.take_sublist _ _)
  have hi2 : Increasing ((curcio mi)[k] :: (curcio mi).drop (k + 1)) := by
    rw [← hdrop]; exact (curcio_increasing mi).sublist (List.drop_sublist _ _)
  refine ⟨(curcio mi)[k], List.getElem_mem h3, ?_, ?_, ?_⟩
  · intro q hq
    rw [hsplit] at hq
    rcases List.mem_append.mp hq with hq | hq
    · exact (List.pairwise_append.mp h1).2.2 q hq _ (by simp)
    · rcases List.mem_cons.mp hq with rfl | hq
      · exact le_rfl
      · exact (List.pairwise_cons.mp h2).1 q hq
  · intro x hx y hy hxy
    have := interp_monotone _ hi1 h1 hxy
    unfold curcioMeridian rgcMeridian
    simp only
    rw [(hI x).2 hx, (hI y).2 hy]
    exact max_le_max_right _ this
  · intro x hx y hy hxy
    have := interp_antitone _ hi2 h2 hxy
    unfold curcioMeridian rgcMeridian
    simp only
    rw [(hI x).1 hx, (hI y).1 hy]
    exact max_le_max_right _ this

/-- what a user expects at the fovea: one density, whichever meridian leads there -/
def C185_fovea_statement : Prop := ∀ mi mj, curcioMeridian 0 mi = curcioMeridian 0 mj

/-- **C185** false: with the zeros of the measurements removed every meridian starts with its own first measurement -/
theorem C185_fovea_refuted : ¬ C185_fovea_statement := by
  intro h
  have e0 : curcioMeridian 0 0 = ((44.04486724637118 : ℚ) : ℝ) := by
    unfold curcioMeridian rgcMeridian
    simp only [curcio, temporal]
    rw [interp_low _ _ (by norm_num), max_eq_left]
    norm_num
  have e1 : curcioMeridian 0 1 = ((28.588082376804778 : ℚ) : ℝ) := by
    unfold curcioMeridian rgcMeridian
    simp only [curcio, superior]
    rw [interp_low _ _ (by norm_num), max_eq_left]
    norm_num
  have := h 0 1
  rw [e0, e1] at this
  norm_num at this

/-- **C185** the density of both eyes is at least one and at most the largest measurement -/
theorem C185_binocular (p : ℝ × ℝ) : 1 ≤ curcioDensity false p ∧ curcioDensity false p ≤ 2375 := by
  have hpos : ∀ r mi, 0 ≤ r → 0 < rgcMeridian (fun deg mi => npInterp (curcio mi) deg) r mi := fun r mi _ =>
    lt_of_lt_of_le one_pos (C185_range r mi).1
  have key : ∀ q : ℝ × ℝ, 1 ≤ densityXY false (rgcMeridian fun deg mi => npInterp (curcio mi) deg) q ∧
      densityXY false (rgcMeridian fun deg mi => npInterp (curcio mi) deg) q ≤ 2375 := by
    intro q
    obtain ⟨a, b⟩ := C75_between _ hpos q
    have h1 := C185_range (ecc q) (xmi q)
    have h2 := C185_range (ecc q) (ymi q)
    unfold curcioMeridian at h1 h2
    exact ⟨le_trans (le_min h1.1 h2.1) a, le_trans b (max_le h1.2 h2.2)⟩
  unfold curcioDensity rgcDensity binocular
  obtain ⟨a1, a2⟩ := key (90 * p.1, 90 * p.2)
  obtain ⟨b1, b2⟩ := key (-(90 * p.1), 90 * p.2)
  constructor <;> linarith

/-- half way between the first two measurements of the temporal meridian -/
example : 44 < curcioMeridian 0.27 0 ∧ curcioMeridian 0.27 0 < 94 := by
  unfold curcioMeridian rgcMeridian
  simp only [curcio, temporal]
  unfold npInterp
  norm_num

end Verif.Retina
