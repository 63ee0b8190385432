import Verif.Props.Quantile
import Mathlib.Data.List.Perm.Basic

/-! C212: a weighted quantile follows the data. C213: turning the data over.
C214: several quantiles at once. C216: neighbouring quantiles. -/

namespace Verif.Quant
open Verif.Py

variable {K : Type} [Field K] [LinearOrder K] [IsStrictOrderedRing K] [FloorRing K]

/-- the same weights, and values that differ by at most `δ` -/
def Near (δ : K) (l l' : List (K × K)) : Prop := List.Forall₂ (fun p p' => p'.2 = p.2 ∧ |p'.1 - p.1| ≤ δ) l l'

theorem near_included {δ t : K} {l l' : List (K × K)} (h : Near δ l l') : Near δ (included t l) (included t l') := by
  unfold included Near at *
  induction h with
  | nil => exact .nil
  | cons a _ ih =>
    rw [List.filter_cons, List.filter_cons, a.1]
    split
    · exact .cons a ih
    · exact ih

theorem near_snd {δ : K} {l l' : List (K × K)} (h : Near δ l l') : l'.map Prod.snd = l.map Prod.snd := by
  unfold Near at h
  induction h with
  | nil => rfl
  | cons a _ ih => rw [List.map_cons, List.map_cons, ih, a.1]

theorem near_fst {δ : K} {l l' : List (K × K)} (h : Near δ l l') :
    List.Forall₂ (fun a b => |b - a| ≤ δ) (l.map Prod.fst) (l'.map Prod.fst) := by
  rw [List.forall₂_map_left_iff, List.forall₂_map_right_iff]
  exact h.imp fun _ _ a => a.2

theorem near_get {δ : K} {s s' : List K} (h : List.Forall₂ (fun a b => |b - a| ≤ δ) s s') (i : ℕ) (hi : i < s.length) :
    |s'.getD i 0 - s.getD i 0| ≤ δ := by
  rw [List.getD_eq_getElem _ _ hi, List.getD_eq_getElem _ _ (h.length_eq ▸ hi)]
  exact h.get hi (h.length_eq ▸ hi)

/-- the computation on sorted data: values that differ by at most `δ`, with the same weights in the same order -/
theorem core_steady {δ q x x' : K} {ds ds' ws : List K} (hl : ds.length = ws.length) (hl' : ds'.length = ws.length)
    (hd : ∀ i < ds.length, |ds'.getD i 0 - ds.getD i 0| ≤ δ) (h : ∀ w ∈ ws, 0 < w) (h0 : 0 ≤ q) (h1 : q ≤ 1)
    (hx : core ds ws q = .ok x) (hx' : core ds' ws q = .ok x') : |x' - x| ≤ δ := by
  have hne : ws ≠ [] := by
    rintro rfl
    simp [core] at hx
  have L := left_facts ws hne h q h0
  rcases core_cases ds ws hl hne h q h0 h1 with ⟨c, e⟩ | ⟨c, k, f, f0, f1, ef, e⟩ | ⟨c, k, e⟩ <;>
  rcases core_cases ds' ws hl' hne h q h0 h1 with ⟨c', e'⟩ | ⟨c', k', f', f0', f1', ef', e'⟩ | ⟨c', k', e'⟩ <;>
  first
  | exact absurd c c'
  | exact absurd c' c
  | omega
  | skip
  all_goals
    rw [hx] at e
    rw [hx'] at e'
    simp only [Except.ok.injEq] at e e'
  · rw [e, e']
    exact hd _ (by rw [hl]; exact L.lt)
  · rw [← ef] at ef'
    subst ef'
    have a := abs_le.mp (hd (leftIdx ws q) (by rw [hl]; exact L.lt))
    have b := abs_le.mp (hd (leftIdx ws q + 1) (by rw [hl]; exact k))
    rw [e, e', abs_le]
    constructor <;> nlinarith
  · rw [e, e']
    exact hd _ (by omega)

theorem count_ge {L : List K} {p : K → Bool} {i : ℕ} (hi : i < L.length) (h : ∀ j ≤ i, p (L.getD j 0) = true) :
    i + 1 ≤ L.countP p := by
  have e : L.countP p = (L.take (i + 1)).countP p + (L.drop (i + 1)).countP p := by
    rw [← List.countP_append, List.take_append_drop]
  have f : (L.take (i + 1)).countP p = (L.take (i + 1)).length := by
    rw [List.countP_eq_length]
    intro a ha
    obtain ⟨j, hj, rfl⟩ := List.getElem_of_mem ha
    rw [List.length_take] at hj
    have := h j (by omega)
    rw [List.getD_eq_getElem _ _ (by omega)] at this
    rwa [List.getElem_take]
  rw [List.length_take] at f
  omega

theorem count_le {L : List K} {p : K → Bool} {i : ℕ} (h : ∀ j, i ≤ j → j < L.length → p (L.getD j 0) = false) :
    L.countP p ≤ i := by
  have e : L.countP p = (L.take i).countP p + (L.drop i).countP p := by
    rw [← List.countP_append, List.take_append_drop]
  have f : (L.drop i).countP p = 0 := by
    rw [List.countP_eq_zero]
    intro a ha
    obtain ⟨j, hj, rfl⟩ := List.getElem_of_mem ha
    rw [List.length_drop] at hj
    have := h (i + j) (by omega) (by omega)
    rw [List.getD_eq_getElem _ _ (by omega)] at this
    rw [List.getElem_drop, this]
    simp
  have := List.countP_le_length (p := p) (l := L.take i)
  rw [List.length_take] at this
  omega

/-- sorting keeps lists near one another -/
theorem sort_steady {δ : K} {s u s' : List K} (hs : s.Pairwise (· ≤ ·)) (h : List.Forall₂ (fun a b => |b - a| ≤ δ) s u)
    (hp : s'.Perm u) (hs' : s'.Pairwise (· ≤ ·)) (i : ℕ) (hi : i < s.length) : |s'.getD i 0 - s.getD i 0| ≤ δ := by
  have lu : u.length = s.length := h.length_eq.symm
  have ls : s'.length = s.length := hp.length_eq.trans lu
  rw [abs_le]
  constructor
  · by_contra c
    push Not at c
    have a : i + 1 ≤ s'.countP fun v => decide (v < s.getD i 0 - δ) := count_ge (by omega) fun j hj => by
      have := getD_mono hs' hj (by omega)
      rw [decide_eq_true_eq]
      linarith
    have b : (u.countP fun v => decide (v < s.getD i 0 - δ)) ≤ i := count_le fun j hj hl => by
      have := getD_mono hs hj (by omega)
      have := (abs_le.mp (near_get h j (by omega))).1
      rw [decide_eq_false_iff_not]
      linarith
    rw [hp.countP_eq] at a
    omega
  · by_contra c
    push Not at c
    have a : i + 1 ≤ u.countP fun v => decide (v ≤ s.getD i 0 + δ) := count_ge (by omega) fun j hj => by
      have := getD_mono hs hj hi
      have := (abs_le.mp (near_get h j (by omega))).2
      rw [decide_eq_true_eq]
      linarith
    have b : (s'.countP fun v => decide (v ≤ s.getD i 0 + δ)) ≤ i := count_le fun j hj hl => by
      have := getD_mono hs' hj hl
      rw [decide_eq_false_iff_not]
      linarith
    rw [hp.countP_eq] at b
    omega

/-- **C212** with equal weights: data that change by at most `δ` change every quantile by at most `δ` -/
theorem C212_equal_partial {δ q t x x' w : K} {l l' : List (K × K)} (h : Near δ l l') (ht : 0 ≤ t) (h0 : 0 ≤ q) (h1 : q ≤ 1)
    (hw : ∀ p ∈ l, t < p.2 → p.2 = w) (hx : Outcome l q t (.ok x)) (hx' : Outcome l' q t (.ok x')) : |x' - x| ≤ δ := by
  obtain ⟨s, hs, e⟩ := hx
  obtain ⟨s', hs', e'⟩ := hx'
  unfold onSorted at e e'
  obtain ⟨u, hu, pu⟩ : Relation.Comp (Near δ) List.Perm s l' := List.perm_comp_forall₂ hs.1 h
  have ni := near_included (t := t) hu
  have pi : (included t s').Perm (included t u) := (hs'.1.trans pu.symm).filter _
  have len : (included t s').length = (included t s).length := pi.length_eq.trans ni.length_eq.symm
  have ew : (included t s).map Prod.snd = List.replicate (included t s).length w := by
    rw [List.eq_replicate_iff]
    refine ⟨List.length_map .., fun b hb => ?_⟩
    obtain ⟨p, hp, rfl⟩ := List.mem_map.mp hb
    obtain ⟨m, g⟩ := mem_included.mp hp
    exact hw p (hs.1.mem_iff.mp m) g
  have ew' : (included t s').map Prod.snd = List.replicate (included t s).length w := by
    have := pi.map Prod.snd
    rw [near_snd ni, ew] at this
    exact List.perm_replicate.mp this
  have pos : ∀ v ∈ (included t s).map Prod.snd, 0 < v := fun v hv => by
    obtain ⟨p, hp, rfl⟩ := List.mem_map.mp hv
    exact ht.trans_lt (mem_included.mp hp).2
  rw [ew'] at e'
  rw [← ew] at e'
  refine core_steady (by simp) (by simp [len]) (fun i hi => ?_) pos h0 h1 e e'
  exact sort_steady (included_sorted hs t) (near_fst ni) (pi.map _) (included_sorted hs' t) i hi

/-- **C212** with values that are further apart than they may move together: every quantile changes by at most `δ` -/
theorem C212_apart_partial {δ q t x x' : K} {l l' : List (K × K)} (h : Near δ l l') (ht : 0 ≤ t) (h0 : 0 ≤ q) (h1 : q ≤ 1)
    (hd : (included t l).Pairwise fun p r => 2 * δ < |p.1 - r.1|) (hx : Outcome l q t (.ok x))
    (hx' : Outcome l' q t (.ok x')) : |x' - x| ≤ δ := by
  obtain ⟨s, hs, e⟩ := hx
  obtain ⟨s', hs', e'⟩ := hx'
  unfold onSorted at e e'
  obtain ⟨u, hu, pu⟩ : Relation.Comp (Near δ) List.Perm s l' := List.perm_comp_forall₂ hs.1 h
  have ni := near_included (t := t) hu
  have pi : (included t s').Perm (included t u) := (hs'.1.trans pu.symm).filter _
  have hd' : (included t s).Pairwise fun p r => 2 * δ < |p.1 - r.1| :=
    ((hs.1.filter _).pairwise_iff (by intro a b hab; rwa [abs_sub_comm])).mpr hd
  have hsort : (included t s).Pairwise fun p r => p.1 ≤ r.1 := hs.2.filter _
  have hboth := hd'.and hsort
  have hu' : (included t u).Pairwise fun p r => p.1 < r.1 := by
    rw [List.pairwise_iff_getElem] at hboth ⊢
    intro i j hi hj hij
    have li := ni.length_eq
    obtain ⟨k1, k2⟩ := hboth i j (by omega) (by omega) hij
    have a := abs_le.mp (ni.get (by omega : i < (included t s).length) hi).2
    have b := abs_le.mp (ni.get (by omega : j < (included t s).length) hj).2
    simp only [List.get_eq_getElem] at a b
    rw [abs_of_nonpos (by linarith)] at k1
    linarith
  have es : included t s' = included t u := by
    have hs2 : (included t s').Pairwise fun p r => p.1 ≤ r.1 := hs'.2.filter _
    have inj : ∀ p ∈ included t u, ∀ r ∈ included t u, p.1 = r.1 → p = r := by
      have nd : ((included t u).map Prod.fst).Nodup := by
        unfold List.Nodup
        rw [List.pairwise_map]
        exact hu'.imp fun h => ne_of_lt h
      exact fun p hp r hr => List.inj_on_of_nodup_map nd hp hr
    exact pi.eq_of_pairwise (fun a b ha hb h1 h2 => inj a (pi.mem_iff.mp ha) b hb (le_antisymm h1 h2)) hs2 (hu'.imp le_of_lt)
  rw [es, near_snd ni] at e'
  refine core_steady (by simp) (by simp [ni.length_eq]) (fun i hi => near_get (near_fst ni) i hi) ?_ h0 h1 e e'
  intro v hv
  obtain ⟨p, hp, rfl⟩ := List.mem_map.mp hv
  exact ht.trans_lt (mem_included.mp hp).2

/-- **C212** another origin and another unit of the values: the quantile is shifted and scaled alike -/
theorem C212_affine {a b q t x : K} {l : List (K × K)} (ha : 0 < a) (ht : 0 ≤ t) (h0 : 0 ≤ q) (h1 : q ≤ 1)
    (hx : Outcome l q t (.ok x)) : Outcome (l.map fun p => (a * p.1 + b, p.2)) q t (.ok (a * x + b)) := by
  obtain ⟨s, hs, e⟩ := hx
  refine ⟨s.map fun p => (a * p.1 + b, p.2), ⟨hs.1.map _, ?_⟩, ?_⟩
  · rw [List.pairwise_map]
    exact hs.2.imp fun h => by nlinarith
  unfold onSorted at e ⊢
  have ei : included t (s.map fun p => (a * p.1 + b, p.2)) = (included t s).map fun p => (a * p.1 + b, p.2) := by
    unfold included
    rw [List.filter_map]
    rfl
  rw [ei]
  have e2 : ((included t s).map fun p => (a * p.1 + b, p.2)).map Prod.snd = (included t s).map Prod.snd := by
    rw [List.map_map]; rfl
  have e1 : ((included t s).map fun p => (a * p.1 + b, p.2)).map Prod.fst =
      ((included t s).map Prod.fst).map fun v => a * v + b := by
    rw [List.map_map, List.map_map]; rfl
  rw [e2, e1]
  have pos : ∀ v ∈ (included t s).map Prod.snd, 0 < v := fun v hv => by
    obtain ⟨p, hp, rfl⟩ := List.mem_map.mp hv
    exact ht.trans_lt (mem_included.mp hp).2
  have hl : ((included t s).map Prod.fst).length = ((included t s).map Prod.snd).length := by simp
  generalize (included t s).map Prod.fst = ds at e hl ⊢
  generalize (included t s).map Prod.snd = ws at e hl pos ⊢
  have hne : ws ≠ [] := by
    rintro rfl
    simp [core] at e
  have L := left_facts ws hne pos q h0
  have g : ∀ i < ws.length, (ds.map fun v => a * v + b).getD i 0 = a * ds.getD i 0 + b := fun i hi => by
    rw [List.getD_eq_getElem _ _ (by simpa [hl] using hi), List.getElem_map, List.getD_eq_getElem _ _ (by omega)]
  rcases core_cases ds ws hl hne pos q h0 h1 with ⟨c, k⟩ | ⟨c, j, f, f0, f1, ef, k⟩ | ⟨c, j, k⟩ <;>
  rcases core_cases (ds.map fun v => a * v + b) ws (by simpa using hl) hne pos q h0 h1 with
    ⟨c', k'⟩ | ⟨c', j', f', f0', f1', ef', k'⟩ | ⟨c', j', k'⟩ <;>
  first
  | exact absurd c c'
  | exact absurd c' c
  | omega
  | skip
  all_goals
    rw [e] at k
    simp only [Except.ok.injEq] at k
    rw [k', k]
  · rw [g _ L.lt]
  · rw [g _ L.lt, g _ j, ef', ← ef]
    congr 1
    ring
  · rw [g _ (by omega)]

/-- **C212** the property: near data have near quantiles, even for distinct values and whatever tolerance is allowed -/
def C212_statement : Prop :=
  ∃ δ : ℚ, 0 < δ ∧ ∀ (l l' : List (ℚ × ℚ)) (x x' : ℚ), (∀ p ∈ l, 0 < p.2) → (l.map Prod.fst).Nodup → (l'.map Prod.fst).Nodup →
    Near δ l l' → Outcome l (1 / 2) 0 (.ok x) → Outcome l' (1 / 2) 0 (.ok x') → |x' - x| ≤ 1 / 4

theorem run3 (a b w w' : ℚ) (hw : 0 < w) (hw' : 0 < w') (x : ℚ) (k : ℕ)
    (hl : leftIdx [(1 : ℚ), w, w'] (1 / 2) = k) (hk : k + 1 < 3)
    (hx : interp [(0 : ℚ), a, b] [(1 : ℚ), w, w'] (midPoint [(1 : ℚ), w, w'] (1 / 2)) k (k + 1)
      ((cweights [(1 : ℚ), w, w']).getD (k + 1) 0 - (cweights [(1 : ℚ), w, w']).getD k 0) = x) :
    onSorted [((0 : ℚ), (1 : ℚ)), (a, w), (b, w')] (1 / 2) 0 = .ok x := by
  have hc : ¬ close1 (1 / 2 : ℚ) := by unfold close1; norm_num [abs_of_neg]
  simp only [onSorted, included]
  simp only [List.filter, gt_iff_lt, zero_lt_one, hw, hw', decide_true, List.map_cons, List.map_nil, core]
  rw [if_neg (by simp), if_neg hc, hl, if_pos (by simpa using hk), hx]

/-- 0, 1 and `1 + d` with the weights 1, 1 and 3 have the median `1 + d / 3` -/
theorem passed (d : ℚ) : onSorted [((0 : ℚ), (1 : ℚ)), (1, 1), (1 + d, 3)] (1 / 2) 0 = .ok (1 + d / 3) := by
  refine run3 1 (1 + d) 1 3 (by norm_num) (by norm_num) _ 1 (by decide +kernel) (by norm_num) ?_
  unfold interp
  have e1 : midPoint [(1 : ℚ), 1, 3] (1 / 2) = 2 := by decide +kernel
  have e2 : (cweights [(1 : ℚ), 1, 3]).getD 1 0 = 1 := by decide +kernel
  have e3 : (cweights [(1 : ℚ), 1, 3]).getD (1 + 1) 0 = 4 := by decide +kernel
  rw [e1, e2, e3]
  simp
  ring

/-- with the weights 1, 3 and 1 the median is 2/3 -/
theorem unpassed (d : ℚ) : onSorted [((0 : ℚ), (1 : ℚ)), (1, 3), (1 + d, 1)] (1 / 2) 0 = .ok (2 / 3) := by
  refine run3 1 (1 + d) 3 1 (by norm_num) (by norm_num) _ 0 (by decide +kernel) (by norm_num) ?_
  unfold interp
  have e1 : midPoint [(1 : ℚ), 3, 1] (1 / 2) = 2 := by decide +kernel
  have e2 : (cweights [(1 : ℚ), 3, 1]).getD 0 0 = 0 := by decide +kernel
  have e3 : (cweights [(1 : ℚ), 3, 1]).getD (0 + 1) 0 = 3 := by decide +kernel
  rw [e1, e2, e3]
  simp

/-- **C212** is false: two values that pass one another exchange their weights, and the median jumps -/
theorem C212_refuted : ¬ C212_statement := by
  rintro ⟨δ, d0, h⟩
  have k := h [(0, 1), (1, 1), (1 + δ, 3)] [(0, 1), (1 + δ, 1), (1, 3)] (1 + δ / 3) (2 / 3) (by simp)
    (by simp [d0.ne']; linarith) (by simp [d0.ne']; linarith)
    (.cons ⟨rfl, by simpa using d0.le⟩ (.cons ⟨rfl, by simp [abs_of_pos d0]⟩ (.cons ⟨rfl, by simp [abs_of_pos d0]⟩ .nil)))
    ⟨_, ⟨List.Perm.refl _, by simp [d0.le]; linarith⟩, passed δ⟩
    ⟨[(0, 1), (1, 3), (1 + δ, 1)], ⟨.cons _ (.swap _ _ _), by simp [d0.le]; linarith⟩, unpassed δ⟩
  rw [abs_le] at k
  linarith [k.1]

/-- the hypotheses are met: values that move by 1/10 and are 1 apart, with different weights -/
example : Near (1 / 10 : ℚ) [(0, 1), (1, 1), (2, 3)] [(0, 1), (11 / 10, 1), (19 / 10, 3)] ∧
    ((included 0 [((0 : ℚ), (1 : ℚ)), (1, 1), (2, 3)]).Pairwise fun p r => 2 * (1 / 10) < |p.1 - r.1|) ∧
    Outcome [((0 : ℚ), (1 : ℚ)), (1, 1), (1 + 1, 3)] (1 / 2) 0 (.ok (1 + 1 / 3)) := by
  refine ⟨.cons ⟨rfl, by norm_num⟩ (.cons ⟨rfl, by norm_num⟩ (.cons ⟨rfl, by norm_num [abs_of_neg]⟩ .nil)), ?_,
    _, ⟨List.Perm.refl _, by simp⟩, passed 1⟩
  simp [included]
  norm_num [abs_of_neg]

/-! ### C213 -/

/-- the values with the opposite sign -/
def mirror (l : List (K × K)) : List (K × K) := l.map fun p => (-p.1, p.2)

/-- **C213** the property: the median of the mirrored data is the mirrored median -/
def C213_statement : Prop :=
  ∀ (l : List (ℚ × ℚ)) (x x' : ℚ), (∀ p ∈ l, 0 < p.2) → (l.map Prod.fst).Nodup → MedianOutcome l 0 (.ok x) →
    MedianOutcome (mirror l) 0 (.ok x') → x' = -x

/-- **C213** is false: 0, 1, 2 with the weights 1, 1, 3 have the median 4/3, mirrored they have -1 -/
theorem C213_refuted : ¬ C213_statement := by
  intro h
  have hc : ¬ close1 (1 / 2 : ℚ) := by unfold close1; norm_num [abs_of_neg]
  have r : onSorted [((-2 : ℚ), (3 : ℚ)), (-1, 1), (0, 1)] (1 / 2) 0 = .ok (-1) := by
    have hl : leftIdx [(3 : ℚ), 1, 1] (1 / 2) = 1 := by decide +kernel
    simp only [onSorted, included]
    simp only [List.filter, gt_iff_lt, zero_lt_one, decide_true, List.map_cons, List.map_nil, core,
      show (0 : ℚ) < 3 by norm_num]
    rw [if_neg (by simp), if_neg hc, hl, if_pos (by simp)]
    congr 1
    decide +kernel
  have := h [(0, 1), (1, 1), (1 + 1, 3)] (1 + 1 / 3) (-1) (by simp) (by norm_num)
    ⟨_, ⟨List.Perm.refl _, by simp⟩, passed 1⟩
    ⟨_, ⟨by unfold mirror; norm_num; decide, by norm_num⟩, r⟩
  norm_num at this

/-- **C213** linear quantiles of sorted data and of the mirrored data -/
theorem linear_mirror {s : List K} {q x x' : K} (hx : IsLinearQuantile s q x)
    (hx' : IsLinearQuantile (s.map fun v => -v).reverse (1 - q) x') : x' = -x := by
  obtain ⟨i, f, e, f0, f1, hi, rfl⟩ := hx
  obtain ⟨j, g, e', g0, g1, hj, rfl⟩ := hx'
  have hlen : (s.map fun v => -v).reverse.length = s.length := by simp
  have rv : ∀ k < s.length, (s.map fun v => -v).reverse.getD k 0 = -s.getD (s.length - 1 - k) 0 := fun k hk => by
    rw [List.getD_eq_getElem _ _ (by rw [hlen]; exact hk), List.getElem_reverse, List.getElem_map,
      List.getD_eq_getElem _ _ (by omega)]
    simp
  rw [hlen] at hj e' ⊢
  have sum : (i : K) + j + (f + g) = (s.length - 1 : ℕ) := by
    rw [sub_mul, one_mul, e] at e'
    linarith
  have n1 : i + j ≤ s.length - 1 := by
    have : ((i + j : ℕ) : K) ≤ (s.length - 1 : ℕ) := by push_cast; linarith
    exact_mod_cast this
  have n2 : s.length - 1 < i + j + 2 := by
    have : ((s.length - 1 : ℕ) : K) < (i + j + 2 : ℕ) := by push_cast; linarith
    exact_mod_cast this
  rcases (by omega : s.length - 1 = i + j ∨ s.length - 1 = i + j + 1) with c | c
  · rw [c] at sum
    push_cast at sum
    have hf : f = 0 := by linarith
    have hg : g = 0 := by linarith
    rw [rv j hj, hf, hg, show s.length - 1 - j = i by omega]
    ring
  · rw [c] at sum
    push_cast at sum
    have hg : g = 1 - f := by linarith
    rw [if_pos (by omega), if_pos (by omega), rv j hj, rv (j + 1) (by omega), show s.length - 1 - j = i + 1 by omega,
      show s.length - 1 - (j + 1) = i by omega, hg]
    ring

/-- **C213** with equal weights: the quantile `1 - q` of the mirrored data is the mirrored quantile `q` -/
theorem C213_equal_partial (ds : List K) (w t q x x' : K) (ht : 0 ≤ t) (hw : t < w) (h0 : 0 ≤ q) (h1 : q ≤ 1)
    (hc : q = 1 ∨ ¬ close1 q) (hc' : q = 0 ∨ ¬ close1 (1 - q)) (hx : Outcome (ds.map fun d => (d, w)) q t (.ok x))
    (hx' : Outcome (mirror (ds.map fun d => (d, w))) (1 - q) t (.ok x')) : x' = -x := by
  obtain ⟨s, hs, e⟩ := hx
  have hp : (s.map Prod.fst).Perm ds := by
    have := hs.1.map Prod.fst
    rw [List.map_map] at this
    simpa [Function.comp_def] using this
  have hsort : (s.map Prod.fst).Pairwise (· ≤ ·) := by
    rw [List.pairwise_map]; exact hs.2
  have a := C44_equal_weights_partial ds (s.map Prod.fst) w t q x ht hw h0 h1 hc hp hsort ⟨s, hs, e⟩
  have em : mirror (ds.map fun d => (d, w)) = (ds.map fun d => -d).map fun d => (d, w) := by
    unfold mirror
    rw [List.map_map, List.map_map]
    rfl
  rw [em] at hx'
  have b := C44_equal_weights_partial (ds.map fun d => -d) ((s.map Prod.fst).map fun v => -v).reverse w t (1 - q) x' ht hw
    (by linarith) (by linarith) (hc'.imp (fun h => by rw [h, sub_zero]) id) ((List.reverse_perm _).trans (hp.map _))
    (by
      rw [List.pairwise_reverse, List.pairwise_map]
      exact hsort.imp fun h => neg_le_neg h) hx'
  exact linear_mirror a b

/-- the hypotheses are met by the median of 0, 1 -/
example : ¬ close1 (1 / 2 : ℚ) ∧ ¬ close1 (1 - 1 / 2 : ℚ) := by
  constructor <;> (unfold close1; norm_num [abs_of_neg])

/-! ### C214 -/

/-- **C214** the quantiles of an array are those of its entries, one at a time: the fallback to the unweighted formula,
which one of them triggers for all, is only taken for a single value -/
theorem C214_together {s : List (K × K)} {qs : List K} {t : K} (ht : 0 ≤ t) (hq : ∀ q ∈ qs, 0 ≤ q ∧ q ≤ 1) (hne : qs ≠ [])
    (xs : List K) :
    onSortedV s qs t = .ok xs ↔ List.Forall₂ (fun q x => onSorted s q t = .ok x) qs xs := by
  unfold onSortedV onSorted
  have pos : ∀ v ∈ (included t s).map Prod.snd, 0 < v := fun v hv => by
    obtain ⟨p, hp, rfl⟩ := List.mem_map.mp hv
    exact ht.trans_lt (mem_included.mp hp).2
  have hl : ((included t s).map Prod.fst).length = ((included t s).map Prod.snd).length := by simp
  generalize (included t s).map Prod.fst = ds at hl ⊢
  generalize (included t s).map Prod.snd = ws at hl pos ⊢
  by_cases hw : ws = []
  · unfold coreV core
    rw [if_pos hw]
    constructor
    · intro h; simp at h
    · intro h
      cases h with
      | nil => exact absurd rfl hne
      | cons a _ => rw [if_pos hw] at a; simp at a
  have key : ∃ g : K → K, coreV ds ws qs = .ok (qs.map g) ∧ ∀ q ∈ qs, core ds ws q = .ok (g q) := by
    unfold coreV
    rw [if_neg hw]
    split
    · rename_i h
      obtain ⟨q, hm, hc⟩ := List.any_eq_true.mp h
      rw [decide_eq_true_eq] at hc
      have h1 : q < 1 := lt_of_le_of_ne (hq q hm).2 fun e => hc.1 (e ▸ close_one)
      have len : ws.length = 1 := by
        by_contra c
        have := List.length_pos_of_ne_nil hw
        exact hc.2 (left_last ws hw pos q (hq q hm).1 h1 (by omega))
      refine ⟨npQuantile ds, rfl, fun r hr => ?_⟩
      have e0 : npQuantile ds r = ds.getD 0 0 := by
        unfold npQuantile
        rw [hl, len]
        simp
      rw [e0]
      have L := (left_facts ws hw pos r (hq r hr).1).lt
      rcases core_cases ds ws hl hw pos r (hq r hr).1 (hq r hr).2 with ⟨_, k⟩ | ⟨_, j, _⟩ | ⟨_, _, k⟩
      · rw [k, show leftIdx ws r = 0 by omega]
      · omega
      · exact k
    · rename_i h
      refine ⟨_, rfl, fun q hm => ?_⟩
      have hn : ¬ (¬ close1 q ∧ ¬ leftIdx ws q + 1 < ws.length) := fun c => h (List.any_eq_true.mpr ⟨q, hm, by simpa using c⟩)
      unfold core
      rw [if_neg hw]
      by_cases c : close1 q
      · rw [if_pos c, if_pos c]
      · rw [if_neg c, if_neg c, if_pos (by by_contra k; exact hn ⟨c, k⟩)]
  obtain ⟨g, e, hg⟩ := key
  rw [e]
  simp only [Except.ok.injEq]
  constructor
  · rintro rfl
    rw [List.forall₂_map_right_iff, List.forall₂_same]
    exact hg
  · intro h
    clear e hq hne
    induction h with
    | nil => rfl
    | @cons q x _ _ a _ ih =>
      have := hg q List.mem_cons_self
      rw [a] at this
      simp only [Except.ok.injEq] at this
      rw [List.map_cons, ih fun r hr => hg r (List.mem_cons_of_mem _ hr), this]

/-- the quartiles of 0, 1, 2 with the weights 1, 1, 3 -/
example : onSortedV [((0 : ℚ), (1 : ℚ)), (1, 1), (2, 3)] [1 / 4, 1 / 2, 1] 0 = .ok [1, 4 / 3, 2] := by
  decide +kernel

/-! ### C216 -/

/-- two points on the graph of a nondecreasing piecewise linear function of slope at most `S` -/
theorem graph_lip {W d : ℕ → K} {n : ℕ} {S : K} (hd : ∀ i, i + 1 < n → d i ≤ d (i + 1)) (hW : ∀ i, i + 1 < n → W i ≤ W (i + 1))
    (hS : ∀ i, i + 1 < n → d (i + 1) - d i ≤ S * (W (i + 1) - W i)) {l k : ℕ} (hl : l + 1 < n) (hk : k + 1 < n) {t f : K}
    (t0 : 0 ≤ t) (t1 : t ≤ 1) (f0 : 0 ≤ f) (f1 : f ≤ 1) :
    |(d l + (d (l + 1) - d l) * t) - (d k + (d (k + 1) - d k) * f)| ≤
      S * |(W l + (W (l + 1) - W l) * t) - (W k + (W (k + 1) - W k) * f)| := by
  have chain : ∀ i j, i ≤ j → j < n → 0 ≤ d j - d i ∧ 0 ≤ W j - W i ∧ d j - d i ≤ S * (W j - W i) := by
    intro i j hij
    induction j, hij using Nat.le_induction with
    | base => intro _; simp
    | succ j hij ih =>
      intro hj
      obtain ⟨a, b, c⟩ := ih (by omega)
      have := hd j hj
      have := hW j hj
      have := hS j hj
      exact ⟨by linarith, by linarith, by linarith⟩
  have lt : ∀ l k : ℕ, l < k → k + 1 < n → ∀ t f : K, 0 ≤ t → t ≤ 1 → 0 ≤ f → f ≤ 1 →
      |(d l + (d (l + 1) - d l) * t) - (d k + (d (k + 1) - d k) * f)| ≤
      S * |(W l + (W (l + 1) - W l) * t) - (W k + (W (k + 1) - W k) * f)| := by
    intro l k hlk hk t f t0 t1 f0 f1
    obtain ⟨a1, a2, a3⟩ := chain (l + 1) k (by omega) (by omega)
    have b1 := hd l (by omega)
    have b2 := hW l (by omega)
    have b3 := mul_le_mul_of_nonneg_right (hS l (by omega)) (sub_nonneg.mpr t1)
    have c1 := hd k hk
    have c2 := hW k hk
    have c3 := mul_le_mul_of_nonneg_right (hS k hk) f0
    have p1 := mul_nonneg (sub_nonneg.mpr b1) (sub_nonneg.mpr t1)
    have p2 := mul_nonneg (sub_nonneg.mpr b2) (sub_nonneg.mpr t1)
    have q1 := mul_nonneg (sub_nonneg.mpr c1) f0
    have q2 := mul_nonneg (sub_nonneg.mpr c2) f0
    rw [abs_of_nonpos (by linarith), abs_of_nonpos (by linarith)]
    linarith
  rcases lt_trichotomy l k with c | c | c
  · exact lt l k c hk t f t0 t1 f0 f1
  · subst c
    have b1 := hd l hl
    have b2 := hW l hl
    rw [show (d l + (d (l + 1) - d l) * t) - (d l + (d (l + 1) - d l) * f) = (d (l + 1) - d l) * (t - f) by ring,
      show (W l + (W (l + 1) - W l) * t) - (W l + (W (l + 1) - W l) * f) = (W (l + 1) - W l) * (t - f) by ring,
      abs_mul, abs_mul, abs_of_nonneg (sub_nonneg.mpr b1), abs_of_nonneg (sub_nonneg.mpr b2), ← mul_assoc]
    exact mul_le_mul_of_nonneg_right (hS l hl) (abs_nonneg _)
  · rw [abs_sub_comm, abs_sub_comm (W l + _)]
    exact lt k l c hl f t f0 f1 t0 t1

theorem cweights_step (ws : List K) (i : ℕ) (hi : i + 1 < ws.length) :
    (cweights ws).getD (i + 1) 0 - (cweights ws).getD i 0 = ws.getD (i + 1) 0 := by
  have gen : ∀ (ws : List K) (acc : K) (i : ℕ), i < ws.length →
      (acc :: cumsumFrom acc ws).getD (i + 1) 0 - (acc :: cumsumFrom acc ws).getD i 0 = ws.getD i 0 := by
    intro ws
    induction ws with
    | nil => intro _ i hi; simp at hi
    | cons w ws ih =>
      intro acc i hi
      cases i with
      | zero => simp [cumsumFrom]
      | succ i =>
        have := ih (acc + w) i (by simpa using hi)
        show ((acc + w) :: cumsumFrom (acc + w) ws).getD (i + 1) 0 - ((acc + w) :: cumsumFrom (acc + w) ws).getD i 0 = _
        rw [this]
        rfl
  cases ws with
  | nil => simp at hi
  | cons w ws =>
    have e2 : ∀ i, i < ws.length + 1 → (cweights (w :: ws)).getD i 0 = (w :: cumsumFrom w ws).getD i 0 - w := fun i hi => by
      unfold cweights
      rw [show cumsumFrom 0 (w :: ws) = w :: cumsumFrom w ws by simp [cumsumFrom]]
      rw [List.getD_eq_getElem _ _ (by simpa [cumsum_length] using hi), List.getElem_map,
        List.getD_eq_getElem _ _ (by simpa [cumsum_length] using hi)]
      rfl
    rw [List.length_cons] at hi
    rw [e2 _ hi, e2 _ (by omega), sub_sub_sub_cancel_right, gen ws w i (by omega)]
    rfl

/-- **C216** for quantiles that are not within 1.001e-5 of 1: when the steps between neighbouring values are at most `S`
per weight, quantiles differ by at most `S` times the sum of the weights times the difference of `q` -/
theorem C216_lipschitz_partial {s : List (K × K)} {t q q' x x' S : K} (hs : s.Pairwise fun a b => a.1 ≤ b.1) (ht : 0 ≤ t) (h0 : 0 ≤ q) (h1 : q ≤ 1)
    (h0' : 0 ≤ q') (h1' : q' ≤ 1) (hc : ¬ close1 q) (hc' : ¬ close1 q') (S0 : 0 ≤ S)
    (hS : ∀ i, i + 1 < (included t s).length → ((included t s).map Prod.fst).getD (i + 1) 0 - ((included t s).map Prod.fst).getD i 0 ≤
      S * ((included t s).map Prod.snd).getD (i + 1) 0)
    (hx : onSorted s q t = .ok x) (hx' : onSorted s q' t = .ok x') :
    |x' - x| ≤ S * (((included t s).map Prod.snd).sum * |q' - q|) := by
  unfold onSorted at hx hx'
  have pos : ∀ v ∈ (included t s).map Prod.snd, 0 < v := fun v hv => by
    obtain ⟨p, hp, rfl⟩ := List.mem_map.mp hv
    exact ht.trans_lt (mem_included.mp hp).2
  have hsort : ((included t s).map Prod.fst).Pairwise (· ≤ ·) := by
    rw [List.pairwise_map]; exact hs.filter _
  have hl : ((included t s).map Prod.fst).length = ((included t s).map Prod.snd).length := by simp
  have hl2 : (included t s).length = ((included t s).map Prod.snd).length := by simp
  rw [hl2] at hS
  generalize (included t s).map Prod.fst = ds at *
  generalize (included t s).map Prod.snd = ws at *
  have hne : ws ≠ [] := by
    rintro rfl
    simp [core] at hx
  have lip := fun {l k : ℕ} (hl') (hk) {t f : K} => graph_lip (W := fun i => (cweights ws).getD i 0) (d := fun i => ds.getD i 0) (S := S)
    (fun i hi => getD_mono hsort (Nat.le_succ i) (by omega)) (fun i hi => (cweights_strict ws pos (Nat.lt_succ_self i) hi).le)
    (fun i hi => by rw [cweights_step ws i hi]; exact hS i hi) (l := l) (k := k) hl' hk (t := t) (f := f)
  have mid : ∀ q : K, ∀ f, f = (midPoint ws q - (cweights ws).getD (leftIdx ws q) 0) /
        ((cweights ws).getD (leftIdx ws q + 1) 0 - (cweights ws).getD (leftIdx ws q) 0) → leftIdx ws q + 1 < ws.length →
      (cweights ws).getD (leftIdx ws q) 0 + ((cweights ws).getD (leftIdx ws q + 1) 0 - (cweights ws).getD (leftIdx ws q) 0) * f =
        midPoint ws q := by
    intro q f ef k
    have := cweights_strict ws pos (Nat.lt_succ_self (leftIdx ws q)) k
    have : (cweights ws).getD (leftIdx ws q + 1) 0 - (cweights ws).getD (leftIdx ws q) 0 ≠ 0 := (sub_pos.mpr this).ne'
    rw [ef]
    field_simp
    ring
  rcases core_cases ds ws hl hne pos q h0 h1 with ⟨c, e⟩ | ⟨c, k, f, f0, f1, ef, e⟩ | ⟨c, k, e⟩
  · exact absurd c hc
  · rcases core_cases ds ws hl hne pos q' h0' h1' with ⟨c, e'⟩ | ⟨c, k', f', f0', f1', ef', e'⟩ | ⟨c, k', e'⟩
    · exact absurd c hc'
    · rw [hx] at e
      rw [hx'] at e'
      simp only [Except.ok.injEq] at e e'
      have L := lip k' k f0' f1'.le f0 f1.le
      simp only [mid q f ef k, mid q' f' ef' k', ← e, ← e'] at L
      refine L.trans (mul_le_mul_of_nonneg_left ?_ S0)
      rw [midPoint_eq ws hne, midPoint_eq ws hne, ← sub_mul, abs_mul, mul_comm]
      refine mul_le_mul_of_nonneg_right ?_ (abs_nonneg _)
      have T0 : 0 ≤ (cweights ws).getD (ws.length - 1) 0 := by
        have hne' : cweights ws ≠ [] := fun h => by
          have := cweights_length ws; rw [h] at this; simp at this; omega
        have := total_nonneg ws hne pos
        rwa [getLastD_eq _ hne', cweights_length] at this
      rw [abs_of_nonneg T0]
      have gen : ∀ (ws : List K) (acc : K), (∀ x ∈ ws, 0 < x) → ∀ i, i < ws.length → (cumsumFrom acc ws).getD i 0 ≤ acc + ws.sum := by
        intro ws
        induction ws with
        | nil => intro acc _ i hi; simp at hi
        | cons w ws ih =>
          intro acc hw i hi
          have r0 : 0 ≤ ws.sum := List.sum_nonneg fun y hy => (hw y (List.mem_cons_of_mem _ hy)).le
          rw [List.sum_cons, cumsumFrom]
          cases i with
          | zero => simp only [List.getD_cons_zero]; linarith
          | succ i =>
            have := ih (acc + w) (fun y hy => hw y (List.mem_cons_of_mem _ hy)) i (by simpa using hi)
            simp only [List.getD_cons_succ]
            linarith
      obtain ⟨w, ws', rfl⟩ := List.exists_cons_of_ne_nil hne
      have w0 := pos w List.mem_cons_self
      have G := gen (w :: ws') 0 pos ((w :: ws').length - 1) (by simp)
      have : (cweights (w :: ws')).getD ((w :: ws').length - 1) 0 = (cumsumFrom 0 (w :: ws')).getD ((w :: ws').length - 1) 0 - w := by
        unfold cweights
        have hlen : (w :: ws').length - 1 < (cumsumFrom 0 (w :: ws')).length := by rw [cumsum_length]; simp
        rw [List.getD_eq_getElem _ _ (by simpa using hlen), List.getElem_map, List.getD_eq_getElem _ _ hlen]
        simp [cumsumFrom]
      linarith
    · omega
  · have he : x' = x := by
      rcases core_cases ds ws hl hne pos q' h0' h1' with ⟨c, e'⟩ | ⟨c, k', f', f0', f1', ef', e'⟩ | ⟨c, k', e'⟩
      · exact absurd c hc'
      · omega
      · rw [hx] at e
        rw [hx'] at e'
        simp only [Except.ok.injEq] at e e'
        rw [e, e']
    rw [he, sub_self, abs_zero]
    have : 0 ≤ ws.sum := List.sum_nonneg fun y hy => (pos y hy).le
    positivity

/-- **C216** the property: when the steps between neighbouring values are at most `S` per weight, quantiles differ by at
most `S` times the sum of the weights times the difference of `q`, for all `q` -/
def C216_statement : Prop :=
  ∀ (s : List (ℚ × ℚ)) (t q q' x x' S : ℚ), (s.Pairwise fun a b => a.1 ≤ b.1) → 0 ≤ t → 0 ≤ q → q ≤ 1 → 0 ≤ q' → q' ≤ 1 → 0 ≤ S →
    (∀ i, i + 1 < (included t s).length → ((included t s).map Prod.fst).getD (i + 1) 0 - ((included t s).map Prod.fst).getD i 0 ≤
      S * ((included t s).map Prod.snd).getD (i + 1) 0) →
    onSorted s q t = .ok x → onSorted s q' t = .ok x' → |x' - x| ≤ S * (((included t s).map Prod.snd).sum * |q' - q|)

/-- **C216** is false: for 0 and 1 with equal weights the quantile falls from 0.99998 to 0 just below 1 -/
theorem C216_refuted : ¬ C216_statement := by
  intro h
  have h1 : onSorted [((0 : ℚ), (1 : ℚ)), (1, 1)] (99998 / 100000) 0 = .ok (99998 / 100000) := by decide +kernel
  have h2 : onSorted [((0 : ℚ), (1 : ℚ)), (1, 1)] (999995 / 1000000) 0 = .ok 0 := by decide +kernel
  have e : included 0 [((0 : ℚ), (1 : ℚ)), (1, 1)] = [(0, 1), (1, 1)] := by decide +kernel
  have := h [(0, 1), (1, 1)] 0 _ _ _ _ 1 (by simp) le_rfl (by norm_num) (by norm_num) (by norm_num) (by norm_num) zero_le_one
    (by
      rw [e]
      intro i hi
      have : i = 0 := by simp at hi; omega
      subst this
      norm_num) h1 h2
  rw [e] at this
  norm_num [abs_of_neg, abs_of_pos] at this

/-- the hypotheses are met by 0, 1, 2 with the weights 1, 1, 3 and steps of at most 1 per weight -/
example : ∀ i, i + 1 < (included 0 [((0 : ℚ), (1 : ℚ)), (1, 1), (2, 3)]).length →
    ((included 0 [((0 : ℚ), (1 : ℚ)), (1, 1), (2, 3)]).map Prod.fst).getD (i + 1) 0 -
      ((included 0 [((0 : ℚ), (1 : ℚ)), (1, 1), (2, 3)]).map Prod.fst).getD i 0 ≤
      1 * ((included 0 [((0 : ℚ), (1 : ℚ)), (1, 1), (2, 3)]).map Prod.snd).getD (i + 1) 0 := by
  have e : included 0 [((0 : ℚ), (1 : ℚ)), (1, 1), (2, 3)] = [(0, 1), (1, 1), (2, 3)] := by decide +kernel
  rw [e]
  intro i hi
  have : i = 0 ∨ i = 1 := by simp at hi; omega
  rcases this with rfl | rfl <;> norm_num

end Verif.Quant
