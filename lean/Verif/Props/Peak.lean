import Verif.Model.Peak
import Verif.Props.Retina
import Verif.Props.Angles
import Mathlib.Algebra.BigOperators.Field
import Mathlib.Analysis.Real.Pi.Bounds
import Mathlib.Tactic.IntervalCases

/-! Consolidation of bright pixels (C59, C60, C61, C62, C104-C106) -/

namespace Verif.Peak
open Verif.Geo Verif.Py Real

variable {k n : ℕ}

/-- What a sensible call looks like: unit directions, positive solid angles, a threshold that is not negative, a
positive solar area and a search cone that holds its own axis. -/
structure Good (p : Par k) (x : Fin n → Px k) : Prop where
  unit : ∀ i, (x i).v.normSq = 1
  o : ∀ i, 0 < (x i).o
  thr : 0 ≤ p.peakt / p.scale
  a : 0 < p.peaka
  cone : cosrad p < 1

theorem normSq_self (v : V3) : v.dot v = v.normSq := by unfold V3.dot V3.normSq; ring

theorem fixStop_pos {m s : ℕ} (hm : 0 < m) : 0 < fixStop m s := by
  unfold fixStop
  split_ifs with h
  · exact hm
  · omega

theorem stop_pos (p : Par k) (x : Fin n → Px k) (top : Fin n) {l : List (Fin n)} (h : l ≠ []) : 0 < stop p x top l := by
  have : 0 < l.length := List.length_pos_iff.mpr h
  unfold stop
  split_ifs <;> exact fixStop_pos this

/-- the bright rays in the order of the code -/
noncomputable def sorted (S : Sorter n) (p : Par k) (x : Fin n → Px k) : List (Fin n) :=
  S (fun i => lum p.w (x i)) (above (fun i => lum p.w (x i)) (p.peakt / p.scale) (List.finRange n))

theorem mem_sorted {S : Sorter n} (hS : SortOk S) (p : Par k) (x : Fin n → Px k) (i : Fin n) :
    i ∈ sorted S p x ↔ p.peakt / p.scale < lum p.w (x i) := by
  unfold sorted
  rw [(hS _ _).1.mem_iff]
  unfold above
  simp

theorem nodup_sorted {S : Sorter n} (hS : SortOk S) (p : Par k) (x : Fin n → Px k) : (sorted S p x).Nodup := by
  unfold sorted
  rw [(hS _ _).1.nodup_iff]
  unfold above
  exact (List.nodup_finRange n).filter _

theorem energy_pos {p : Par k} {x : Fin n → Px k} (h : Good p x) {l : List (Fin n)} (hl : l ≠ [])
    (hb : ∀ i ∈ l, p.peakt / p.scale < lum p.w (x i)) : 0 < energy p.w x l := by
  unfold energy
  refine List.sum_pos _ (fun y hy => ?_) (by simpa using hl)
  obtain ⟨i, hi, rfl⟩ := List.mem_map.mp hy
  exact mul_pos (h.o i) (lt_of_le_of_lt h.thr (hb i hi))

/-- the two outcomes of `find_peak` -/
theorem findPeak_cases {S : Sorter n} (hS : SortOk S) {p : Par k} {x : Fin n → Px k} (h : Good p x) :
    (sorted S p x = [] ∧ findPeak S p x = .ok (none, [])) ∨
    ∃ top rest l, sorted S p x = top :: rest ∧ inCone x top (cosrad p) (top :: rest) = top :: l ∧
      findPeak S p x = .ok (some (source p x top (top :: l)), taken p x top (top :: l)) := by
  unfold findPeak
  cases hs : sorted S p x with
  | nil =>
    have hs' : S _ _ = _ := hs
    exact Or.inl ⟨rfl, by rw [hs']⟩
  | cons top rest =>
    right
    have hc : inCone x top (cosrad p) (top :: rest) = top :: inCone x top (cosrad p) rest := by
      unfold inCone
      rw [List.filter_cons_of_pos]
      simp only [normSq_self, h.unit, decide_eq_true_eq]
      exact h.cone
    refine ⟨top, rest, _, rfl, hc, ?_⟩
    have hsub : ∀ i ∈ taken p x top (top :: inCone x top (cosrad p) rest), p.peakt / p.scale < lum p.w (x i) := by
      intro i hi
      rw [← mem_sorted hS, hs]
      have h1 : i ∈ top :: inCone x top (cosrad p) rest := List.mem_of_mem_take hi
      rw [← hc] at h1
      exact List.mem_of_mem_filter h1
    have hne : taken p x top (top :: inCone x top (cosrad p) rest) ≠ [] := by
      unfold taken
      have := stop_pos p x top (l := top :: inCone x top (cosrad p) rest) (by simp)
      intro hn
      rw [List.take_eq_nil_iff] at hn
      rcases hn with hn | hn
      · omega
      · simp at hn
    have he := (energy_pos h hne hsub).ne'
    have hs' : S _ _ = _ := hs
    rw [hs']
    simp only [hc]
    exact if_neg he

/-- what is known about the rays that are replaced -/
theorem taken_spec {S : Sorter n} (hS : SortOk S) {p : Par k} {x : Fin n → Px k} {top : Fin n} {rest l : List (Fin n)}
    (h1 : sorted S p x = top :: rest) (h2 : inCone x top (cosrad p) (top :: rest) = top :: l) :
    top ∈ taken p x top (top :: l) ∧ (taken p x top (top :: l)).Nodup ∧
    (∀ i ∈ taken p x top (top :: l), p.peakt / p.scale < lum p.w (x i) ∧ cosrad p < (x top).v.dot (x i).v) ∧
    (∀ j, lum p.w (x j) ≤ lum p.w (x top)) ∧
    ∀ i ∈ taken p x top (top :: l), ∀ j, j ∉ taken p x top (top :: l) → cosrad p < (x top).v.dot (x j).v →
      lum p.w (x j) ≤ lum p.w (x i) := by
  have hp := (hS (fun i => lum p.w (x i)) (above (fun i => lum p.w (x i)) (p.peakt / p.scale) (List.finRange n))).2
  change (sorted S p x).Pairwise _ at hp
  have hsub : (top :: l).Sublist (sorted S p x) := by rw [h1, ← h2]; exact List.filter_sublist
  have htk : (taken p x top (top :: l)).Sublist (sorted S p x) := (List.take_sublist _ _).trans hsub
  have htop : p.peakt / p.scale < lum p.w (x top) := by rw [← mem_sorted hS, h1]; simp
  refine ⟨?_, (nodup_sorted hS p x).sublist htk, fun i hi => ⟨(mem_sorted hS p x i).mp (htk.mem hi), ?_⟩, fun j => ?_,
    fun i hi j hj hc => ?_⟩
  · unfold taken
    obtain ⟨m, hm⟩ := Nat.exists_eq_succ_of_ne_zero (stop_pos p x top (l := top :: l) (by simp)).ne'
    rw [hm, List.take_succ_cons]
    simp
  · have hi' : i ∈ top :: l := List.mem_of_mem_take hi
    rw [← h2] at hi'
    simpa [inCone] using (List.mem_filter.mp hi').2
  · by_cases hj : j ∈ sorted S p x
    · rw [h1] at hj hp
      rcases List.mem_cons.mp hj with rfl | hj
      · exact le_rfl
      · exact (List.pairwise_cons.mp hp).1 j hj
    · rw [mem_sorted hS, not_lt] at hj
      linarith
  · by_cases hb : j ∈ sorted S p x
    · have hjl : j ∈ top :: l := by
        rw [← h2]
        refine List.mem_filter.mpr ⟨h1 ▸ hb, by simpa using hc⟩
      have hpl := hp.sublist hsub
      rw [← List.take_append_drop (stop p x top (top :: l)) (top :: l)] at hpl hjl
      rcases List.mem_append.mp hjl with h | h
      · exact absurd h hj
      · exact (List.pairwise_append.mp hpl).2.2 i hi j h
    · have hi' := (mem_sorted hS p x i).mp (htk.mem hi)
      rw [mem_sorted hS, not_lt] at hb
      linarith

/-- **C60** with no ray above the threshold the input comes back as it is; otherwise the rays removed are a set of bright
rays in the cone of the brightest one, with it, and none in the cone that stays is brighter than one that goes; the others
come back unchanged and in order, followed by one new ray. Nothing is raised. -/
theorem C60_replaced {S : Sorter n} (hS : SortOk S) {p : Par k} {x : Fin n → Px k} (h : Good p x) :
    ((∀ i, lum p.w (x i) ≤ p.peakt / p.scale) → ∀ z, normalizePeak S p z x = .ok ((List.finRange n).map x)) ∧
    (∀ j, p.peakt / p.scale < lum p.w (x j) → ∃ (s : Src k) (gone : Fin n → Prop) (_ : DecidablePred gone) (top : Fin n),
      normalizePeak S p false x = .ok (((List.finRange n).filter fun i => ¬ gone i).map x ++ [s]) ∧
      normalizePeak S p true x =
        .ok (((List.finRange n).map fun i => if gone i then ⟨(x i).v, 0, fun _ => 0⟩ else x i) ++ [s]) ∧
      gone top ∧ (∀ i, lum p.w (x i) ≤ lum p.w (x top)) ∧
      (∀ i, gone i → p.peakt / p.scale < lum p.w (x i) ∧ cosrad p < (x top).v.dot (x i).v) ∧
      ∀ i j, gone i → ¬ gone j → cosrad p < (x top).v.dot (x j).v → lum p.w (x j) ≤ lum p.w (x i)) := by
  rcases findPeak_cases hS h with ⟨h1, h2⟩ | ⟨top, rest, l, h1, h2, h3⟩
  · refine ⟨fun _ z => by unfold normalizePeak; rw [h2], fun j hj => ?_⟩
    rw [← mem_sorted hS, h1] at hj
    simp at hj
  · refine ⟨fun hb => ?_, fun j hj => ?_⟩
    · have : top ∈ sorted S p x := by rw [h1]; simp
      rw [mem_sorted hS] at this
      exact absurd this (not_lt.mpr (hb top))
    · obtain ⟨t1, -, t3, t4, t5⟩ := taken_spec hS h1 h2
      refine ⟨source p x top (top :: l), (· ∈ taken p x top (top :: l)), inferInstance, top, ?_, ?_, t1, t4, t3, fun i j hi hj => t5 i hi j hj⟩
      · unfold normalizePeak; rw [h3]; rfl
      · unfold normalizePeak; rw [h3]; rfl

/-! ### C59 -/

/-- total of `f` over rays -/
def total (f : Px k → ℝ) (l : List (Px k)) : ℝ := (l.map f).sum

theorem sum_filter_not {α : Type} [DecidableEq α] (f : α → ℝ) (pc : List α) : ∀ l : List α,
    (l.map f).sum = ((l.filter fun i => i ∉ pc).map f).sum + ((l.filter fun i => i ∈ pc).map f).sum := by
  intro l
  induction l with
  | nil => simp
  | cons a l ih =>
    by_cases ha : a ∈ pc
    · simp only [List.map_cons, List.sum_cons, ih, ha, not_true, decide_false, decide_true, Bool.false_eq_true,
        not_false_iff, List.filter_cons_of_neg, List.filter_cons_of_pos]
      ring
    · simp only [List.map_cons, List.sum_cons, ih, ha, not_false_iff, decide_false, decide_true, Bool.false_eq_true,
        List.filter_cons_of_neg, List.filter_cons_of_pos]
      ring

theorem filter_perm {pc : List (Fin n)} (h : pc.Nodup) : ((List.finRange n).filter fun i => i ∈ pc).Perm pc := by
  rw [List.perm_ext_iff_of_nodup ((List.nodup_finRange n).filter _) h]
  intro a
  simp

/-- totals before and after: the rays removed are exchanged for the source -/
theorem total_split (x : Fin n → Px k) (f : Px k → ℝ) {pc : List (Fin n)} (h : pc.Nodup) (s : Src k) :
    total f (((List.finRange n).filter fun i => i ∉ pc).map x ++ [s]) =
      total f ((List.finRange n).map x) - (pc.map fun i => f (x i)).sum + f s := by
  have h1 := sum_filter_not (fun i => f (x i)) pc (List.finRange n)
  have h2 := ((filter_perm h).map fun i => f (x i)).sum_eq
  unfold total
  rw [List.map_append, List.sum_append, List.map_map, List.map_map]
  simp only [List.map_cons, List.map_nil, List.sum_cons, List.sum_nil, add_zero]
  change ((List.finRange n).map fun i => f (x i)).sum = _ at h1
  change (List.map (fun i => f (x i)) _).sum + _ = (List.map (fun i => f (x i)) _).sum - _ + _
  rw [h1, h2]
  ring

theorem total_zeros (x : Fin n → Px k) (f : Px k → ℝ) (h0 : ∀ v, f ⟨v, 0, fun _ => 0⟩ = 0) {pc : List (Fin n)}
    (h : pc.Nodup) (s : Src k) :
    total f (((List.finRange n).map fun i => if i ∈ pc then ⟨(x i).v, 0, fun _ => 0⟩ else x i) ++ [s]) =
      total f ((List.finRange n).map x) - (pc.map fun i => f (x i)).sum + f s := by
  rw [← total_split x f h s]
  unfold total
  rw [List.map_append, List.map_append, List.sum_append, List.sum_append, List.map_map, List.map_map]
  congr 1
  induction (List.finRange n) with
  | nil => simp
  | cons a l ih =>
    by_cases ha : a ∈ pc
    · rw [List.filter_cons_of_neg (by simp [ha]), List.map_cons, List.sum_cons, ih]
      simp [ha, h0]
    · rw [List.filter_cons_of_pos (by simp [ha]), List.map_cons, List.sum_cons, ih, List.map_cons, List.sum_cons]
      simp [ha]

theorem sum_energyC (w : Fin k → ℝ) (x : Fin n → Px k) (l : List (Fin n)) :
    ∑ j, energyC x l j * w j = energy w x l := by
  unfold energyC energy lum
  induction l with
  | nil => simp
  | cons a l ih =>
    simp only [List.map_cons, List.sum_cons, add_mul, Finset.sum_add_distrib]
    rw [ih, Finset.mul_sum]
    congr 1
    exact Finset.sum_congr rfl fun j _ => by ring

theorem lum_scaled (w : Fin k → ℝ) (v : V3) (o : ℝ) (c : Fin k → ℝ) (d : ℝ) :
    lum w ⟨v, o, fun j => c j / d⟩ = (∑ j, c j * w j) / d := by
  unfold lum
  rw [Finset.sum_div]
  exact Finset.sum_congr rfl fun j _ => by ring

theorem sum_peakC (p : Par k) (x : Fin n → Px k) (top : Fin n) (l : List (Fin n)) :
    ∑ j, peakC p x top l j * p.w j = peakLum p x top l := by
  unfold peakC peakLum
  split_ifs
  · rw [← sum_energyC, Finset.sum_div]
    exact Finset.sum_congr rfl fun j _ => by ring
  · rfl

theorem area_mul (p : Par k) (x : Fin n → Px k) (top : Fin n) (l : List (Fin n)) (ha : p.peaka ≠ 0)
    (hl : lum p.w (x top) ≠ 0) : area p x top l * peakLum p x top l = energy p.w x (taken p x top l) := by
  unfold area peakLum
  split_ifs
  · field_simp
  · field_simp

theorem blurCf_ne {p : Par k} {a : ℝ} (ha : 0 < a) (pl : ℝ) : blurCf p a pl ≠ 0 := by
  unfold blurCf
  split_ifs
  · have := (Retina.C74_blur a 279.33 Retina.fwhm0 ha (by norm_num)).1 pl
    linarith
  · exact one_ne_zero

/-- luminance times solid angle of the source is that of the rays it replaces -/
theorem source_energy {p : Par k} {x : Fin n → Px k} {top : Fin n} {l : List (Fin n)} (ha : p.peaka ≠ 0)
    (hl : lum p.w (x top) ≠ 0) (hA : 0 < area p x top l) :
    (source p x top l).o * lum p.w (source p x top l) = energy p.w x (taken p x top l) := by
  unfold source
  rw [lum_scaled, sum_peakC]
  have hb := blurCf_ne hA (peakLum p x top l) (p := p)
  rw [← area_mul p x top l ha hl]
  generalize blurCf p (area p x top l) (peakLum p x top l) = b at hb ⊢
  field_simp

theorem area_pos {S : Sorter n} (hS : SortOk S) {p : Par k} {x : Fin n → Px k} (h : Good p x) {top : Fin n}
    {rest l : List (Fin n)} (h1 : sorted S p x = top :: rest)
    (h2 : inCone x top (cosrad p) (top :: rest) = top :: l) :
    0 < lum p.w (x top) ∧ 0 < energy p.w x (taken p x top (top :: l)) ∧ 0 < area p x top (top :: l) := by
  obtain ⟨t1, -, t3, -, -⟩ := taken_spec hS h1 h2
  have hl : 0 < lum p.w (x top) := lt_of_le_of_lt h.thr (t3 top t1).1
  have he := energy_pos h (List.ne_nil_of_mem t1) fun i hi => (t3 i hi).1
  refine ⟨hl, he, ?_⟩
  unfold area
  split_ifs
  · exact h.a
  · exact div_pos he hl

/-- **C59** the total of luminance times solid angle is conserved, for every parameter choice, with and without the
correction for blur, whether the replaced rays are dropped or zeroed -/
theorem C59_energy {S : Sorter n} (hS : SortOk S) {p : Par k} {x : Fin n → Px k} (h : Good p x) (z : Bool) :
    ∃ out, normalizePeak S p z x = .ok out ∧
      total (fun r => r.o * lum p.w r) out = total (fun r => r.o * lum p.w r) ((List.finRange n).map x) := by
  rcases findPeak_cases hS h with ⟨h1, h2⟩ | ⟨top, rest, l, h1, h2, h3⟩
  · exact ⟨_, by unfold normalizePeak; rw [h2], rfl⟩
  · obtain ⟨t1, t2, t3, -, -⟩ := taken_spec hS h1 h2
    obtain ⟨a1, -, a3⟩ := area_pos hS h h1 h2
    have hs := source_energy h.a.ne' a1.ne' a3
    cases z with
    | false =>
      refine ⟨_, by unfold normalizePeak; rw [h3]; rfl, ?_⟩
      rw [total_split x _ t2, hs]
      unfold energy
      ring
    | true =>
      refine ⟨_, by unfold normalizePeak; rw [h3]; rfl, ?_⟩
      rw [total_zeros x _ (fun v => by simp [lum]) t2, hs]
      unfold energy
      ring

/-! ### C61 -/

theorem wmean_dot (a : V3) (l : List (ℝ × V3)) :
    a.dot (wmean l) = (l.map fun q => q.1 * a.dot q.2).sum / (l.map Prod.fst).sum := by
  unfold wmean V3.divS V3.dot
  simp only
  have : (l.map fun q => q.1 * (a.x * q.2.x + a.y * q.2.y + a.z * q.2.z)).sum =
      a.x * (l.map fun q => q.1 * q.2.x).sum + a.y * (l.map fun q => q.1 * q.2.y).sum +
        a.z * (l.map fun q => q.1 * q.2.z).sum := by
    induction l with
    | nil => simp
    | cons q l ih => simp only [List.map_cons, List.sum_cons, ih]; ring
  rw [this]
  ring

theorem len_sq (v : V3) : v.len ^ 2 = v.normSq := sq_sqrt (by unfold V3.normSq; positivity)

theorem dot_le_len {a : V3} (ha : a.normSq = 1) (b : V3) : a.dot b ≤ b.len := by
  have h := dot_sq_le a b
  rw [ha, one_mul, ← len_sq] at h
  exact abs_le_of_sq_le_sq' h (sqrt_nonneg _) |>.2

theorem sum_le_mul {l : List (ℝ × V3)} (g : V3 → ℝ) (b : ℝ) (h : ∀ q ∈ l, 0 ≤ q.1 ∧ g q.2 ≤ b) :
    (l.map fun q => q.1 * g q.2).sum ≤ b * (l.map Prod.fst).sum := by
  induction l with
  | nil => simp
  | cons q l ih =>
    simp only [List.map_cons, List.sum_cons]
    have h1 := h q (by simp)
    have h2 := ih fun r hr => h r (List.mem_cons_of_mem _ hr)
    nlinarith [mul_le_mul_of_nonneg_left h1.2 h1.1]

theorem mul_lt_sum {l : List (ℝ × V3)} (hl : l ≠ []) (g : V3 → ℝ) (b : ℝ) (h : ∀ q ∈ l, 0 < q.1 ∧ b < g q.2) :
    b * (l.map Prod.fst).sum < (l.map fun q => q.1 * g q.2).sum := by
  induction l with
  | nil => exact absurd rfl hl
  | cons q l ih =>
    simp only [List.map_cons, List.sum_cons]
    have h1 := h q (by simp)
    have h2 := mul_lt_mul_of_pos_left h1.2 h1.1
    rcases eq_or_ne l [] with rfl | hne
    · simp; linarith
    · have h3 := ih hne fun r hr => h r (List.mem_cons_of_mem _ hr)
      nlinarith

theorem sum_fst_pos {l : List (ℝ × V3)} (hl : l ≠ []) (h : ∀ q ∈ l, 0 < q.1) : 0 < (l.map Prod.fst).sum := by
  refine List.sum_pos _ (fun y hy => ?_) (by simpa using hl)
  obtain ⟨q, hq, rfl⟩ := List.mem_map.mp hy
  exact h q hq

/-- length of a weighted mean of directions in a cone -/
theorem wmean_len {l : List (ℝ × V3)} (hl : l ≠ []) (h : ∀ q ∈ l, 0 < q.1 ∧ q.2.normSq = 1) {a : V3} (ha : a.normSq = 1)
    {c : ℝ} (hc : ∀ q ∈ l, c < a.dot q.2) : c < a.dot (wmean l) ∧ a.dot (wmean l) ≤ (wmean l).len ∧ (wmean l).len ≤ 1 := by
  have hW := sum_fst_pos hl fun q hq => (h q hq).1
  refine ⟨?_, dot_le_len ha _, ?_⟩
  · rw [wmean_dot, lt_div_iff₀ hW]
    exact mul_lt_sum hl _ _ fun q hq => ⟨(h q hq).1, hc q hq⟩
  · have h1 : (wmean l).len ^ 2 ≤ (wmean l).len := by
      rw [len_sq, ← normSq_self, wmean_dot, div_le_iff₀ hW]
      refine sum_le_mul _ _ fun q hq => ⟨(h q hq).1.le, ?_⟩
      have := dot_le_len (h q hq).2 (wmean l)
      have e : (wmean l).dot q.2 = q.2.dot (wmean l) := by unfold V3.dot; ring
      rw [e]; exact this
    by_contra hcon
    push Not at hcon
    nlinarith

theorem norm_dot (a b : V3) : a.dot (Geo.norm b) = a.dot b / b.len := by
  unfold Geo.norm V3.divS V3.dot
  simp only
  ring

theorem norm_unit {b : V3} (h : 0 < b.len) : (Geo.norm b).normSq = 1 := by
  have h1 := len_sq b
  unfold Geo.norm V3.divS
  unfold V3.normSq at h1 ⊢
  simp only
  field_simp
  linarith

/-- facts about the direction of the source -/
theorem dir_spec {S : Sorter n} (hS : SortOk S) {p : Par k} {x : Fin n → Px k} (h : Good p x) {top : Fin n}
    {rest l : List (Fin n)} (h1 : sorted S p x = top :: rest)
    (h2 : inCone x top (cosrad p) (top :: rest) = top :: l) :
    cosrad p < (x top).v.dot (meanDir p x top (top :: l)) ∧
    (x top).v.dot (meanDir p x top (top :: l)) ≤ (meanDir p x top (top :: l)).len ∧
      (meanDir p x top (top :: l)).len ≤ 1 := by
  obtain ⟨t1, -, t3, -, -⟩ := taken_spec hS h1 h2
  unfold meanDir
  refine wmean_len ?_ ?_ (h.unit top) ?_
  · simpa using List.ne_nil_of_mem t1
  · intro q hq
    obtain ⟨i, hi, rfl⟩ := List.mem_map.mp hq
    exact ⟨mul_pos (h.o i) (lt_of_le_of_lt h.thr (t3 i hi).1), h.unit i⟩
  · intro q hq
    obtain ⟨i, hi, rfl⟩ := List.mem_map.mp hq
    exact (t3 i hi).2

/-- illuminance of one ray on a sensor facing `nrm` -/
noncomputable def onSensor (w : Fin k → ℝ) (nrm : V3) (r : Px k) : ℝ := r.o * lum w r * max 0 (nrm.dot r.v)

/-- **C61** the direction of the new ray is a unit vector in the search cone of the brightest ray -/
theorem C61_unit {S : Sorter n} (hS : SortOk S) {p : Par k} {x : Fin n → Px k} (h : Good p x) (hc : 0 ≤ cosrad p)
    {s : Src k} {pc : List (Fin n)} (hf : findPeak S p x = .ok (some s, pc)) :
    s.v.normSq = 1 ∧ ∃ top ∈ pc, (∀ j, lum p.w (x j) ≤ lum p.w (x top)) ∧ cosrad p < (x top).v.dot s.v := by
  rcases findPeak_cases hS h with ⟨h1, h2⟩ | ⟨top, rest, l, h1, h2, h3⟩
  · rw [h2] at hf; simp at hf
  · rw [h3] at hf
    obtain ⟨rfl, rfl⟩ : source p x top (top :: l) = s ∧ taken p x top (top :: l) = pc := by simpa using hf
    obtain ⟨t1, -, -, t4, -⟩ := taken_spec hS h1 h2
    obtain ⟨d1, d2, d3⟩ := dir_spec hS h h1 h2
    have hl : 0 < (meanDir p x top (top :: l)).len := by linarith
    refine ⟨norm_unit hl, top, t1, t4, ?_⟩
    change cosrad p < (x top).v.dot (Geo.norm _)
    rw [norm_dot, lt_div_iff₀ hl]
    nlinarith

theorem onSensor_source {S : Sorter n} (hS : SortOk S) {p : Par k} {x : Fin n → Px k} (h : Good p x) (hc : 0 ≤ cosrad p)
    {top : Fin n} {rest l : List (Fin n)} (h1 : sorted S p x = top :: rest)
    (h2 : inCone x top (cosrad p) (top :: rest) = top :: l) (nrm : V3)
    (hn : ∀ i ∈ taken p x top (top :: l), 0 ≤ nrm.dot (x i).v) :
    onSensor p.w nrm (source p x top (top :: l)) * (meanDir p x top (top :: l)).len =
      ((taken p x top (top :: l)).map fun i => onSensor p.w nrm (x i)).sum := by
  obtain ⟨t1, -, t3, -, -⟩ := taken_spec hS h1 h2
  obtain ⟨d1, d2, d3⟩ := dir_spec hS h h1 h2
  obtain ⟨a1, a2, a3⟩ := area_pos hS h h1 h2
  have hl : 0 < (meanDir p x top (top :: l)).len := by linarith
  have hs := source_energy h.a.ne' a1.ne' a3
  have hd : nrm.dot (meanDir p x top (top :: l)) =
      ((taken p x top (top :: l)).map fun i => onSensor p.w nrm (x i)).sum /
        energy p.w x (taken p x top (top :: l)) := by
    unfold meanDir
    rw [wmean_dot, List.map_map, List.map_map]
    congr 1
    refine congrArg List.sum (List.map_congr_left fun i hi => ?_)
    unfold onSensor
    rw [max_eq_right (hn i hi)]
    rfl
  have hnn : 0 ≤ ((taken p x top (top :: l)).map fun i => onSensor p.w nrm (x i)).sum := by
    refine List.sum_nonneg fun y hy => ?_
    obtain ⟨i, hi, rfl⟩ := List.mem_map.mp hy
    exact mul_nonneg (mul_nonneg (h.o i).le (lt_of_le_of_lt h.thr (t3 i hi).1).le) (le_max_left _ _)
  unfold onSensor at *
  rw [hs]
  change _ * max 0 (nrm.dot (Geo.norm _)) * _ = _
  rw [norm_dot, max_eq_right, hd]
  · field_simp
  · rw [hd]; positivity

/-- **C61** a sensor that faces every ray in the cone of a brightest ray sees no less light than before, and more by no
more than the cosine of the search cone accounts for -/
theorem C61_sensor_partial {S : Sorter n} (hS : SortOk S) {p : Par k} {x : Fin n → Px k} (h : Good p x) (hc : 0 < cosrad p)
    (hl0 : ∀ i, 0 ≤ lum p.w (x i)) (nrm : V3)
    (hn : ∀ top, (∀ j, lum p.w (x j) ≤ lum p.w (x top)) → ∀ i, cosrad p < (x top).v.dot (x i).v → 0 ≤ nrm.dot (x i).v) :
    ∃ out, normalizePeak S p false x = .ok out ∧
      total (onSensor p.w nrm) ((List.finRange n).map x) ≤ total (onSensor p.w nrm) out ∧
      total (onSensor p.w nrm) out ≤ total (onSensor p.w nrm) ((List.finRange n).map x) / cosrad p := by
  have hnn : ∀ i, 0 ≤ onSensor p.w nrm (x i) := fun i =>
    mul_nonneg (mul_nonneg (h.o i).le (hl0 i)) (le_max_left _ _)
  have htot : 0 ≤ total (onSensor p.w nrm) ((List.finRange n).map x) := by
    unfold total
    refine List.sum_nonneg fun y hy => ?_
    rw [List.map_map] at hy
    obtain ⟨i, -, rfl⟩ := List.mem_map.mp hy
    exact hnn i
  rcases findPeak_cases hS h with ⟨h1, h2⟩ | ⟨top, rest, l, h1, h2, h3⟩
  · refine ⟨_, by unfold normalizePeak; rw [h2], le_rfl, ?_⟩
    rw [le_div_iff₀ hc]
    nlinarith [h.cone]
  · obtain ⟨t1, t2, t3, t4, -⟩ := taken_spec hS h1 h2
    obtain ⟨d1, d2, d3⟩ := dir_spec hS h h1 h2
    refine ⟨_, by unfold normalizePeak; rw [h3]; rfl, ?_⟩
    have e := onSensor_source hS h hc.le h1 h2 nrm fun i hi => hn top t4 i (t3 i hi).2
    have hsplit := sum_filter_not (fun i => onSensor p.w nrm (x i)) (taken p x top (top :: l)) (List.finRange n)
    rw [((filter_perm t2).map fun i => onSensor p.w nrm (x i)).sum_eq] at hsplit
    have hk : 0 ≤ (((List.finRange n).filter fun i => i ∉ taken p x top (top :: l)).map
        fun i => onSensor p.w nrm (x i)).sum := List.sum_nonneg fun y hy => by
      obtain ⟨i, -, rfl⟩ := List.mem_map.mp hy
      exact hnn i
    have hr : 0 ≤ ((taken p x top (top :: l)).map fun i => onSensor p.w nrm (x i)).sum := List.sum_nonneg fun y hy => by
      obtain ⟨i, -, rfl⟩ := List.mem_map.mp hy
      exact hnn i
    rw [total_split x _ t2]
    have ht : total (onSensor p.w nrm) ((List.finRange n).map x) =
      ((List.finRange n).map fun i => onSensor p.w nrm (x i)).sum := by
        unfold total; rw [List.map_map]; rfl
    rw [ht] at htot ⊢
    rw [hsplit] at htot ⊢
    generalize ((taken p x top (top :: l)).map fun i => onSensor p.w nrm (x i)).sum = R at *
    generalize (((List.finRange n).filter fun i => i ∉ taken p x top (top :: l)).map
        fun i => onSensor p.w nrm (x i)).sum = K at *
    generalize onSensor p.w nrm (source p x top (top :: l)) = N at *
    generalize (meanDir p x top (top :: l)).len = L at *
    have hL : cosrad p < L := by linarith
    have hN : 0 ≤ N := by
      by_contra hneg
      push Not at hneg
      nlinarith
    refine ⟨by nlinarith, ?_⟩
    rw [le_div_iff₀ hc]
    have hcone := h.cone
    nlinarith [mul_le_mul_of_nonneg_left hL.le hN, mul_le_mul_of_nonneg_left hcone.le hk]

/-! ### A concrete call -/

/-- parameters with a solar area of `π` and a cone of one radian -/
noncomputable def wp {k : ℕ} (w : Fin k → ℝ) (blurtol : ℝ) : Par k := ⟨1, π, 0, 4, blurtol, 1, 1, false, w⟩

/-- two rays of two channels, 37 degrees apart -/
noncomputable def wx : Fin 2 → Px 2 := ![⟨⟨0, 1, 0⟩, 1, ![2, 0]⟩, ⟨⟨3 / 5, 4 / 5, 0⟩, 1, ![0, 1]⟩]

theorem wp_cone {k : ℕ} (w : Fin k → ℝ) (b : ℝ) : cosrad (wp w b) = cos 1 := by
  unfold cosrad wp
  simp only
  rw [div_self pi_pos.ne', sqrt_one, one_mul]

theorem wx_lum : lum ![1, 1] (wx 0) = 2 ∧ lum ![1, 1] (wx 1) = 1 := by
  constructor <;> simp [lum, wx, Fin.sum_univ_two]

theorem wx_good : Good (wp ![1, 1] 1) wx where
  unit i := by fin_cases i <;> norm_num [wx, V3.normSq]
  o i := by fin_cases i <;> norm_num [wx]
  thr := by norm_num [wp]
  a := pi_pos
  cone := by rw [wp_cone]; linarith [cos_one_le]

/-- sorters exist -/
theorem sorter_exists : ∃ S : Sorter n, SortOk S := by
  classical
  refine ⟨fun key l => l.mergeSort fun i j => decide (key j ≤ key i), fun key l => ⟨List.mergeSort_perm _ _, ?_⟩⟩
  have := List.pairwise_mergeSort (le := fun i j => decide (key j ≤ key i))
    (fun a b c h1 h2 => by simp only [decide_eq_true_eq] at *; exact le_trans h2 h1)
    (fun a b => by simp only [Bool.or_eq_true, decide_eq_true_eq]; exact le_total _ _) l
  exact this.imp fun h => by simpa using h

theorem wx_sorted {S : Sorter 2} (hS : SortOk S) : sorted S (wp ![1, 1] 1) wx = [0, 1] := by
  have hm : ∀ i, i ∈ sorted S (wp ![1, 1] 1) wx := fun i => by
    rw [mem_sorted hS]
    fin_cases i
    · simp [wp, wx_lum.1]
    · simp [wp, wx_lum.2]
  have hnd := nodup_sorted hS (wp ![1, 1] 1) wx
  have hp : (sorted S (wp ![1, 1] 1) wx).Perm [0, 1] := by
    rw [List.perm_ext_iff_of_nodup hnd (by decide)]
    intro a
    simp only [hm a, true_iff]
    fin_cases a <;> simp
  have hs := (hS (fun i => lum (wp ![1, 1] 1).w (wx i)) (above (fun i => lum (wp ![1, 1] 1).w (wx i))
    ((wp ![1, 1] 1).peakt / (wp ![1, 1] 1).scale) (List.finRange 2))).2
  change (sorted S (wp ![1, 1] 1) wx).Pairwise _ at hs
  refine hp.eq_of_pairwise (le := fun i j => lum ![1, 1] (wx j) ≤ lum ![1, 1] (wx i)) ?_ hs ?_
  · intro a b _ _ h1 h2
    fin_cases a <;> fin_cases b
    · rfl
    · norm_num [wx_lum.1, wx_lum.2] at h2
    · norm_num [wx_lum.1, wx_lum.2] at h1
    · rfl
  · simp [wx_lum.1, wx_lum.2]

theorem wx_inCone : inCone wx 0 (cosrad (wp ![1, 1] 1)) [0, 1] = [0, 1] := by
  unfold inCone
  rw [List.filter_eq_self]
  intro i _
  have := cos_one_le
  rw [wp_cone, decide_eq_true_eq]
  fin_cases i
  · norm_num [wx, V3.dot]; linarith
  · norm_num [wx, V3.dot]; linarith

theorem wx_energy : energy ![1, 1] wx [0, 1] = 3 := by
  simp only [energy, List.map_cons, List.map_nil, List.sum_cons, List.sum_nil, wx_lum.1, wx_lum.2]
  norm_num [wx]

theorem wx_esun : esun (wp ![1, 1] 1) wx 0 [0, 1] = 2 * π := by
  have : nearPeak (wp ![1, 1] 1) wx 0 [0, 1] = [0] := by
    unfold nearPeak
    simp only [wp]
    rw [List.filter_cons_of_pos, List.filter_cons_of_neg, List.filter_nil]
    · simp [wx_lum.1, wx_lum.2]
    · simp
  unfold esun
  rw [this]
  simp [wp, wx_lum.1]

theorem wx_full : isFull (wp ![1, 1] 1) wx 0 [0, 1] = false := by
  unfold isFull
  rw [wx_esun, decide_eq_false_iff_not]
  change ¬ energy ![1, 1] wx [0, 1] > _
  rw [wx_energy]
  linarith [pi_gt_three]

theorem wx_taken : taken (wp ![1, 1] 1) wx 0 [0, 1] = [0, 1] := by
  have : stop (wp ![1, 1] 1) wx 0 [0, 1] = 2 := by
    unfold stop
    rw [wx_full]
    simp only [Bool.false_eq_true, if_false]
    have : argmaxB [(0 : Fin 2), 1].length (fun j => decide (lum (wp ![1, 1] 1).w (wx ([(0 : Fin 2), 1].getD j 0)) <
        lum (wp ![1, 1] 1).w (wx 0) / (wp ![1, 1] 1).peakr)) = 0 := by
      unfold argmaxB
      rw [List.find?_eq_none.mpr]
      · rfl
      · intro j hj
        have : j < 2 := by simpa using hj
        interval_cases j
        · simp [wp, wx_lum.1]; norm_num
        · simp [wp, wx_lum.1, wx_lum.2]; norm_num
    rw [this]
    rfl
  unfold taken
  rw [this]
  rfl

theorem wx_find {S : Sorter 2} (hS : SortOk S) :
    findPeak S (wp ![1, 1] 1) wx = .ok (some (source (wp ![1, 1] 1) wx 0 [0, 1]), [0, 1]) := by
  rcases findPeak_cases hS wx_good with ⟨h1, -⟩ | ⟨top, rest, l, h1, h2, h3⟩
  · rw [wx_sorted hS] at h1; simp at h1
  · rw [wx_sorted hS] at h1
    obtain ⟨rfl, rfl⟩ : 0 = top ∧ [1] = rest := by simpa using h1
    rw [wx_inCone] at h2
    obtain rfl : [1] = l := by simpa using h2
    rw [h3, wx_taken]

theorem wx_normalize {S : Sorter 2} (hS : SortOk S) :
    normalizePeak S (wp ![1, 1] 1) false wx = .ok [source (wp ![1, 1] 1) wx 0 [0, 1]] := by
  unfold normalizePeak
  rw [wx_find hS]
  simp only [Bool.false_eq_true, if_false]
  congr 1

theorem wx_source : (source (wp ![1, 1] 1) wx 0 [0, 1]).o = 3 / 2 ∧ (source (wp ![1, 1] 1) wx 0 [0, 1]).c = ![2, 0] := by
  have hc : ¬ (isFull (wp ![1, 1] 1) wx 0 [0, 1] = true ∨ (wp ![1, 1] 1).peakc > 1) := by
    rw [wx_full]; simp [wp]
  constructor
  · simp only [source, area, if_neg hc, wx_taken, blurCf]
    change energy ![1, 1] wx [0, 1] / lum ![1, 1] (wx 0) * _ = _
    rw [wx_energy, wx_lum.1]
    simp [wp]
  · funext j
    simp only [source, peakC, if_neg hc, blurCf]
    fin_cases j <;> simp [wp, wx]

theorem wx_dir : (source (wp ![1, 1] 1) wx 0 [0, 1]).v = Geo.norm ⟨1 / 5, 14 / 15, 0⟩ := by
  unfold source meanDir
  simp only [wx_taken]
  congr 1
  change wmean ([0, 1].map fun i => ((wx i).o * lum ![1, 1] (wx i), (wx i).v)) = _
  simp only [List.map_cons, List.map_nil, wx_lum.1, wx_lum.2, wmean, V3.divS, List.sum_cons, List.sum_nil]
  ext <;> norm_num [wx]

/-- **C61** for every sensor facing the side of the merged direction -/
def C61_statement : Prop :=
  ∀ (k n : ℕ) (S : Sorter n) (p : Par k) (x : Fin n → Px k) (nrm : V3) (s : Src k) (pc : List (Fin n)) (out : List (Px k)),
    SortOk S → Good p x → (∀ i, 0 ≤ lum p.w (x i)) → findPeak S p x = .ok (some s, pc) →
    normalizePeak S p false x = .ok out → 0 ≤ nrm.dot s.v →
      total (onSensor p.w nrm) ((List.finRange n).map x) ≤ total (onSensor p.w nrm) out

/-- a sensor with the merged direction in its plane loses the rays it could see -/
theorem C61_refuted : ¬ C61_statement := by
  intro h
  obtain ⟨S, hS⟩ := sorter_exists (n := 2)
  have h0 : (⟨-14, 3, 0⟩ : V3).dot (source (wp ![1, 1] 1) wx 0 [0, 1]).v = 0 := by
    rw [wx_dir, norm_dot]
    norm_num [V3.dot]
  have h1 := h 2 2 S (wp ![1, 1] 1) wx ⟨-14, 3, 0⟩ _ _ _ hS wx_good (fun i => by
    change 0 ≤ lum ![1, 1] (wx i)
    fin_cases i
    · simp [wx_lum.1]
    · simp [wx_lum.2]) (wx_find hS) (wx_normalize hS) h0.ge
  have e1 : total (onSensor (wp ![1, 1] 1).w ⟨-14, 3, 0⟩) [source (wp ![1, 1] 1) wx 0 [0, 1]] = 0 := by
    simp [total, onSensor, h0]
  have e2 : total (onSensor (wp ![1, 1] 1).w ⟨-14, 3, 0⟩) ((List.finRange 2).map wx) = 6 := by
    change ((List.map wx [0, 1]).map (onSensor ![1, 1] ⟨-14, 3, 0⟩)).sum = 6
    simp only [List.map_cons, List.map_nil, List.sum_cons, List.sum_nil, onSensor, wx_lum.1, wx_lum.2]
    norm_num [wx, V3.dot]
  rw [e1, e2] at h1
  norm_num at h1

/-! ### C104 -/

/-- **C104** the total of every channel times solid angle is conserved -/
def C104_statement : Prop :=
  ∀ (k n : ℕ) (S : Sorter n) (p : Par k) (x : Fin n → Px k) (out : List (Px k)), SortOk S → Good p x →
    normalizePeak S p false x = .ok out →
      ∀ j, total (fun r => r.o * r.c j) out = total (fun r => r.o * r.c j) ((List.finRange n).map x)

/-- a partial sun takes the colour of its brightest ray -/
theorem C104_refuted : ¬ C104_statement := by
  intro h
  obtain ⟨S, hS⟩ := sorter_exists (n := 2)
  have := h 2 2 S (wp ![1, 1] 1) wx _ hS wx_good (wx_normalize hS) 0
  change ([source (wp ![1, 1] 1) wx 0 [0, 1]].map fun r => r.o * r.c 0).sum =
    ((List.map wx [0, 1]).map fun r => r.o * r.c 0).sum at this
  simp only [List.map_cons, List.map_nil, List.sum_cons, List.sum_nil, wx_source.1, wx_source.2] at this
  norm_num [wx] at this

/-- **C104** true with `peakc` above 1, and for a full sun: the bright rays in the cone of the brightest one have more
energy than expected -/
theorem C104_partial {S : Sorter n} (hS : SortOk S) {p : Par k} {x : Fin n → Px k} (h : Good p x)
    (hfull : 1 < p.peakc ∨ ∀ top rest, sorted S p x = top :: rest →
      esun p x top (inCone x top (cosrad p) (top :: rest)) < energy p.w x (inCone x top (cosrad p) (top :: rest))) :
    ∃ out, normalizePeak S p false x = .ok out ∧
      ∀ j, total (fun r => r.o * r.c j) out = total (fun r => r.o * r.c j) ((List.finRange n).map x) := by
  rcases findPeak_cases hS h with ⟨h1, h2⟩ | ⟨top, rest, l, h1, h2, h3⟩
  · exact ⟨_, by unfold normalizePeak; rw [h2], fun _ => rfl⟩
  · obtain ⟨t1, t2, t3, -, -⟩ := taken_spec hS h1 h2
    refine ⟨_, by unfold normalizePeak; rw [h3]; rfl, fun j => ?_⟩
    rw [total_split x _ t2]
    have hc : isFull p x top (top :: l) = true ∨ p.peakc > 1 := by
      rcases hfull with h | h
      · exact Or.inr h
      · have := h top rest h1
        rw [h2] at this
        exact Or.inl (by unfold isFull; exact decide_eq_true this)
    obtain ⟨a1, -, a3⟩ := area_pos hS h h1 h2
    have hb := blurCf_ne a3 (peakLum p x top (top :: l)) (p := p)
    have : (source p x top (top :: l)).o * (source p x top (top :: l)).c j = energyC x (taken p x top (top :: l)) j := by
      have ha := h.a.ne'
      simp only [source, area, peakC, if_pos hc] at hb ⊢
      generalize blurCf p p.peaka (peakLum p x top (top :: l)) = b at hb ⊢
      field_simp
    rw [this]
    unfold energyC
    ring

/-- the hue of the source: whatever the branch, luminance and channels are in step -/
theorem C104_luminance {S : Sorter n} (hS : SortOk S) {p : Par k} {x : Fin n → Px k} (h : Good p x) {s : Src k}
    {pc : List (Fin n)} (hf : findPeak S p x = .ok (some s, pc)) : s.o * lum p.w s = energy p.w x pc := by
  rcases findPeak_cases hS h with ⟨h1, h2⟩ | ⟨top, rest, l, h1, h2, h3⟩
  · rw [h2] at hf; simp at hf
  · rw [h3] at hf
    obtain ⟨rfl, rfl⟩ : source p x top (top :: l) = s ∧ taken p x top (top :: l) = pc := by simpa using hf
    obtain ⟨a1, -, a3⟩ := area_pos hS h h1 h2
    exact source_energy h.a.ne' a1.ne' a3

/-! ### C105 -/

/-- **C105** without a correction of the peak the consolidated source is not brighter than the brightest ray -/
def C105_statement : Prop :=
  ∀ (k n : ℕ) (S : Sorter n) (p : Par k) (x : Fin n → Px k) (s : Src k) (pc : List (Fin n)), SortOk S → Good p x →
    0 < p.blurtol → p.blurtol ≤ 1 → 0 < p.peakc → p.peakc ≤ 1 → findPeak S p x = .ok (some s, pc) →
      ∃ i, lum p.w s ≤ lum p.w (x i)

theorem avg_le {l : List (Fin n)} (g : Fin n → ℝ) {b : ℝ} (hb : 0 ≤ b) (h : ∀ i ∈ l, g i ≤ b) :
    (l.map g).sum / l.length ≤ b := by
  rcases l.eq_nil_or_concat with rfl | ⟨l', a, rfl⟩
  · simpa using hb
  · have hpos : (0 : ℝ) < (l'.concat a).length := by
      have : 0 < (l'.concat a).length := by simp
      exact_mod_cast this
    rw [div_le_iff₀ hpos]
    have := List.sum_le_card_nsmul ((l'.concat a).map g) b (fun y hy => by
      obtain ⟨i, hi, rfl⟩ := List.mem_map.mp hy
      exact h i hi)
    rw [List.length_map, nsmul_eq_mul] at this
    linarith

theorem le_avg {l : List (Fin n)} (hl : l ≠ []) (g : Fin n → ℝ) {b : ℝ} (h : ∀ i ∈ l, b ≤ g i) :
    b ≤ (l.map g).sum / l.length := by
  have hpos : (0 : ℝ) < l.length := by exact_mod_cast List.length_pos_iff.mpr hl
  rw [le_div_iff₀ hpos]
  have := List.card_nsmul_le_sum (l.map g) b (fun y hy => by
    obtain ⟨i, hi, rfl⟩ := List.mem_map.mp hy
    exact h i hi)
  rw [List.length_map, nsmul_eq_mul] at this
  linarith

/-- the first index at which a condition holds -/
theorem argmaxB_first {m : ℕ} {f : ℕ → Bool} {j : ℕ} (hj : j < m) (hf : f j = true) :
    argmaxB m f < m ∧ f (argmaxB m f) = true ∧ ∀ i < argmaxB m f, f i = false := by
  have hsome : ((List.range m).find? f).isSome := by
    rw [List.find?_isSome]
    exact ⟨j, by simpa using hj, hf⟩
  obtain ⟨a, ha⟩ := Option.isSome_iff_exists.mp hsome
  have e : argmaxB m f = a := by unfold argmaxB; rw [ha]; rfl
  rw [e]
  rw [List.find?_range_eq_some] at ha
  exact ⟨by simpa using ha.2.1, ha.1, fun i hi => by simpa using ha.2.2 i hi⟩

theorem full_stop {p : Par k} {x : Fin n → Px k} {top : Fin n} {l : List (Fin n)}
    (hf : isFull p x top (top :: l) = true) (h0 : (x top).o * lum p.w (x top) ≤ esun p x top (top :: l)) :
    energy p.w x (taken p x top (top :: l)) ≤ esun p x top (top :: l) := by
  have hlast : energy p.w x ((top :: l).take (l.length + 1)) > esun p x top (top :: l) := by
    rw [List.take_of_length_le (by simp)]
    simpa [isFull] using hf
  have hm := argmaxB_first (m := (top :: l).length) (j := l.length)
    (f := fun j => decide (energy p.w x ((top :: l).take (j + 1)) > esun p x top (top :: l))) (by simp)
    (by simpa using hlast)
  unfold taken stop
  rw [if_pos hf]
  generalize hg : argmaxB (top :: l).length
    (fun j => decide (energy p.w x ((top :: l).take (j + 1)) > esun p x top (top :: l))) = a at hm ⊢
  have ha : a ≠ 0 := by
    rintro rfl
    have := hm.2.1
    simp only [zero_add, decide_eq_true_eq] at this
    have e : energy p.w x ((top :: l).take 1) = (x top).o * lum p.w (x top) := by simp [energy]
    rw [e] at this
    linarith
  unfold fixStop
  rw [if_neg ha]
  have := hm.2.2 (a - 1) (by omega)
  rw [Nat.sub_add_cancel (by omega)] at this
  simpa using this

/-- **C105** true when no pixel is larger than the expected source, allowing for the tolerance: the brightest pixel is
then not enough on its own -/
theorem C105_partial {S : Sorter n} (hS : SortOk S) {p : Par k} {x : Fin n → Px k} (h : Good p x) (hb0 : 0 < p.blurtol)
    (hb : p.blurtol ≤ 1) (hc0 : 0 < p.peakc) (hc : p.peakc ≤ 1) (ho : ∀ i, (x i).o ≤ p.blurtol * p.peaka * p.peakc)
    {s : Src k} {pc : List (Fin n)} (hf : findPeak S p x = .ok (some s, pc)) :
    ∃ i, (∀ j, lum p.w (x j) ≤ lum p.w (x i)) ∧ lum p.w s ≤ lum p.w (x i) := by
  rcases findPeak_cases hS h with ⟨h1, h2⟩ | ⟨top, rest, l, h1, h2, h3⟩
  · rw [h2] at hf; simp at hf
  · rw [h3] at hf
    obtain ⟨rfl, rfl⟩ : source p x top (top :: l) = s ∧ taken p x top (top :: l) = pc := by simpa using hf
    obtain ⟨t1, t2, t3, t4, -⟩ := taken_spec hS h1 h2
    obtain ⟨a1, -, a3⟩ := area_pos hS h h1 h2
    refine ⟨top, t4, ?_⟩
    have hcf : 1 ≤ blurCf p (area p x top (top :: l)) (peakLum p x top (top :: l)) := by
      unfold blurCf
      split_ifs
      · exact (Retina.C74_blur _ 279.33 Retina.fwhm0 a3 (by norm_num)).1 _
      · exact le_rfl
    unfold source
    rw [lum_scaled, sum_peakC]
    have hpl : peakLum p x top (top :: l) ≤ lum p.w (x top) := by
      unfold peakLum
      split_ifs with hif
      · have hful : isFull p x top (top :: l) = true := hif.resolve_right (by linarith)
        have hnear : top ∈ nearPeak p x top (top :: l) := by
          unfold nearPeak
          refine List.mem_filter.mpr ⟨by simp, ?_⟩
          rw [decide_eq_true_eq]
          nlinarith
        have havg : ((nearPeak p x top (top :: l)).map fun i => lum p.w (x i)).sum /
            (nearPeak p x top (top :: l)).length ≤ lum p.w (x top) := avg_le _ a1.le fun i _ => t4 i
        have havg' : lum p.w (x top) * p.blurtol ≤ ((nearPeak p x top (top :: l)).map fun i => lum p.w (x i)).sum /
            (nearPeak p x top (top :: l)).length := le_avg (List.ne_nil_of_mem hnear) _ fun i hi => by
          have := (List.mem_filter.mp hi).2
          simpa using this
        have hstop := full_stop hful (by
          have h5 := ho top
          unfold esun
          have hpa : 0 ≤ p.peaka * p.peakc := mul_nonneg h.a.le hc0.le
          have := mul_le_mul_of_nonneg_right havg' hpa
          nlinarith)
        have ha := h.a
        rw [div_le_iff₀ ha]
        refine hstop.trans ?_
        unfold esun
        generalize ((nearPeak p x top (top :: l)).map fun i => lum p.w (x i)).sum /
            (nearPeak p x top (top :: l)).length = A at *
        have h6 : A * p.peaka ≤ lum p.w (x top) * p.peaka := mul_le_mul_of_nonneg_right havg ha.le
        have h7 : 0 ≤ lum p.w (x top) * p.peaka := by positivity
        nlinarith
      · exact le_rfl
    have hbp : 0 < blurCf p (area p x top (top :: l)) (peakLum p x top (top :: l)) := by linarith
    rw [div_le_iff₀ hbp]
    nlinarith

/-- one ray of solid angle `2π`, twice the expected area -/
noncomputable def bigPx : Fin 1 → Px 1 := fun _ => ⟨⟨0, 1, 0⟩, 2 * π, fun _ => 1⟩

theorem bigPx_good : Good (wp (fun _ : Fin 1 => 1) 1) bigPx where
  unit i := by norm_num [bigPx, V3.normSq]
  o i := by have := pi_pos; simp only [bigPx]; positivity
  thr := by norm_num [wp]
  a := pi_pos
  cone := by rw [wp_cone]; linarith [cos_one_le]

/-- a pixel larger than the sun is enough on its own, and everything in the cone is then put into the area of the sun -/
theorem C105_refuted : ¬ C105_statement := by
  intro h
  obtain ⟨S, hS⟩ := sorter_exists (n := 1)
  have hlum : ∀ i, lum (fun _ => 1) (bigPx i) = 1 := fun i => by simp [lum, bigPx]
  have hpi := pi_pos
  rcases findPeak_cases hS bigPx_good with ⟨h1, -⟩ | ⟨top, rest, l, h1, h2, h3⟩
  · have : (0 : Fin 1) ∈ sorted S (wp (fun _ : Fin 1 => 1) 1) bigPx := by
      rw [mem_sorted hS]
      change _ < lum (fun _ => 1) _
      rw [hlum]
      norm_num [wp]
    rw [h1] at this
    simp at this
  · have hnd := nodup_sorted hS (wp (fun _ : Fin 1 => 1) 1) bigPx
    have hlen : (top :: rest).length ≤ 1 := by
      rw [← h1]
      exact hnd.length_le_card.trans (by simp)
    obtain rfl : rest = [] := by
      rcases rest with _ | ⟨a, b⟩
      · rfl
      · simp at hlen
    have hl : l = [] := by
      have : (top :: l).length ≤ 1 := by
        rw [← h2]
        exact (List.length_filter_le _ _).trans hlen
      rcases l with _ | ⟨a, b⟩
      · rfl
      · simp at this
    subst hl
    obtain ⟨i, hi⟩ := h 1 1 S _ _ _ _ hS bigPx_good one_pos le_rfl one_pos le_rfl h3
    change lum (fun _ => 1) _ ≤ lum (fun _ => 1) _ at hi
    rw [hlum] at hi
    have hnear : nearPeak (wp (fun _ : Fin 1 => 1) 1) bigPx top [top] = [top] := by
      unfold nearPeak
      rw [List.filter_cons_of_pos, List.filter_nil]
      simp [wp]
    have hes : esun (wp (fun _ : Fin 1 => 1) 1) bigPx top [top] = π := by
      unfold esun
      rw [hnear]
      simp only [wp, List.map_cons, List.map_nil, hlum]
      simp
    have hen : energy (fun _ => 1) bigPx [top] = 2 * π := by
      simp only [energy, List.map_cons, List.map_nil, hlum]
      simp [bigPx]
    have hfull : isFull (wp (fun _ : Fin 1 => 1) 1) bigPx top [top] = true := by
      unfold isFull
      rw [hes, decide_eq_true_eq]
      change energy (fun _ => 1) _ _ > _
      rw [hen]
      linarith
    have htk : taken (wp (fun _ : Fin 1 => 1) 1) bigPx top [top] = [top] := by
      unfold taken
      obtain ⟨m, hm⟩ := Nat.exists_eq_succ_of_ne_zero (stop_pos (wp (fun _ : Fin 1 => 1) 1) bigPx top (l := [top])
        (by simp)).ne'
      rw [hm, List.take_succ_cons, List.take_nil]
    unfold source at hi
    have := sum_peakC (wp (fun _ : Fin 1 => 1) 1) bigPx top [top]
    rw [lum_scaled] at hi
    change ∑ j, peakC (wp (fun _ : Fin 1 => 1) 1) bigPx top [top] j * (fun _ => 1) j = _ at this
    rw [this] at hi
    unfold peakLum at hi
    rw [if_pos (Or.inl hfull), htk] at hi
    change energy (fun _ => 1) bigPx [top] / π / blurCf _ _ _ ≤ 1 at hi
    rw [hen] at hi
    unfold blurCf at hi
    simp only [wp, Bool.false_eq_true, if_false, div_one] at hi
    rw [div_le_iff₀ hpi] at hi
    linarith

end Verif.Peak
