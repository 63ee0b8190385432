import Verif.Props.Quantile
import Mathlib.Algebra.BigOperators.Group.List.Basic
import Mathlib.Algebra.Order.BigOperators.Group.List

/-! Property C197: what a weighted quantile does with the weights; the unweighted quantile and the median of C44. -/

namespace Verif.Quant
open Verif.Py

variable {K : Type} [Field K] [LinearOrder K] [IsStrictOrderedRing K] [FloorRing K]

theorem cumsum_shift (a : K) (ws : List K) : (cumsumFrom a ws).map (· - a) = cumsumFrom 0 ws := by
  have key : ∀ (ws : List K) (b : K), (cumsumFrom (a + b) ws).map (· - a) = cumsumFrom b ws := by
    intro ws
    induction ws with
    | nil => intro b; rfl
    | cons w ws ih =>
      intro b
      simp only [cumsumFrom, List.map_cons]
      rw [show a + b + w = a + (b + w) by ring, ih (b + w)]
      congr 1
      ring
  simpa using key ws 0

theorem cweights_cons (w : K) (ws : List K) : cweights (w :: ws) = 0 :: cumsumFrom 0 ws := by
  unfold cweights
  simp only [cumsumFrom, zero_add, List.headD_cons, List.map_cons, sub_self, cumsum_shift]

theorem cumsum_getD (a : K) (ws : List K) (i : ℕ) (hi : i < ws.length) :
    (cumsumFrom a ws).getD i 0 = a + (ws.take (i + 1)).sum := by
  induction ws generalizing a i with
  | nil => simp at hi
  | cons w ws ih =>
    cases i with
    | zero => simp [cumsumFrom]
    | succ i =>
      simp only [cumsumFrom, List.getD_cons_succ]
      rw [ih _ i (by simpa using hi)]
      simp [add_assoc]

theorem cweights_getD (w : K) (ws : List K) (i : ℕ) (hi : i ≤ ws.length) :
    (cweights (w :: ws)).getD i 0 = (ws.take i).sum := by
  rw [cweights_cons]
  cases i with
  | zero => simp
  | succ i => rw [List.getD_cons_succ, cumsum_getD 0 ws i (by omega), zero_add]

/-- nothing in the computation reads the first weight -/
theorem core_first (ds ws : List K) (a b q : K) : core ds (a :: ws) q = core ds (b :: ws) q := by
  unfold core leftIdx midPoint interp
  simp only [cweights_cons]
  simp

/-- The claim: the value splits the weights in proportion: what lies below it has at most the part `q` of the counted
weight, what lies above it at most the part `1 - q`. -/
def C197_statement : Prop :=
  ∀ (l : List (ℚ × ℚ)) (q t x : ℚ), 0 ≤ t → 0 ≤ q → q ≤ 1 → Outcome l q t (.ok x) →
    (((included t l).filter fun p => p.1 < x).map Prod.snd).sum ≤ q * ((included t l).map Prod.snd).sum ∧
    (((included t l).filter fun p => x < p.1).map Prod.snd).sum ≤ (1 - q) * ((included t l).map Prod.snd).sum

/-- 0 with weight 1000 and 1 and 2 with weight 1 have the median 1: the weight of the smallest value is not read -/
theorem C197_refuted : ¬ C197_statement := by
  intro h
  have hc : ¬ close1 (1 / 2 : ℚ) := by unfold close1; norm_num [abs_of_neg]
  have h1 : onSorted [((0 : ℚ), (1000 : ℚ)), (1, 1), (2, 1)] (1 / 2) 0 = .ok 1 := by
    have hl : leftIdx [(1000 : ℚ), 1, 1] (1 / 2) = 1 := by decide +kernel
    simp only [onSorted, included]
    simp only [List.filter, gt_iff_lt, zero_lt_one, decide_true, List.map_cons, List.map_nil, core,
      show (0 : ℚ) < 1000 by norm_num]
    rw [if_neg (by simp), if_neg hc, hl, if_pos (by simp)]
    congr 1
    decide +kernel
  have h2 := (h [(0, 1000), (1, 1), (2, 1)] (1 / 2) 0 1 le_rfl (by norm_num) (by norm_num)
    ⟨_, ⟨List.Perm.refl _, by simp⟩, h1⟩).1
  revert h2
  decide +kernel

/-- **C197** the weight of the smallest value has no influence as long as it is above the threshold -/
theorem C197_first (l : List (K × K)) (v a b q t : K) (ha : t < a) (hb : t < b) (hv : ∀ p ∈ l, t < p.2 → v < p.1)
    (r : Except PyErr K) (hr : Outcome ((v, a) :: l) q t r) : Outcome ((v, b) :: l) q t r := by
  obtain ⟨s, hs, rfl⟩ := hr
  classical
  let f : K × K → K × K := fun p => if p = (v, a) then (v, b) else p
  have f1 : ∀ p, (f p).1 = p.1 := fun p => by
    by_cases hp : p = (v, a)
    · simp [f, hp]
    · simp [f, hp]
  have f2 : ∀ p, (t < (f p).2) ↔ t < p.2 := fun p => by
    by_cases hp : p = (v, a)
    · simp [f, hp, ha, hb]
    · simp [f, hp]
  have hl : ∀ p ∈ l, p ≠ (v, a) := fun p hp e => by
    have := hv p hp (by rw [e]; exact ha)
    rw [e] at this
    exact lt_irrefl _ this
  have hlf : l.map f = l := (List.map_congr_left fun p hp => if_neg (hl p hp)).trans (List.map_id l)
  have hinc : included t (s.map f) = (included t s).map f := by
    unfold included
    rw [List.filter_map]
    congr 1
    apply List.filter_congr
    intro p _
    simp only [Function.comp_apply, gt_iff_lt, f2]
  have hperm : (included t s).Perm ((v, a) :: included t l) := by
    have := hs.1.filter (fun p => decide (p.2 > t))
    simpa [included, ha] using this
  have hsort : (included t s).Pairwise (fun a b => a.1 ≤ b.1) := hs.2.filter _
  have hhead : ∃ rest, included t s = (v, a) :: rest ∧ ∀ p ∈ rest, p ≠ (v, a) := by
    cases he : included t s with
    | nil => rw [he] at hperm; exact absurd hperm.symm.eq_nil (by simp)
    | cons e rest =>
      rw [he] at hperm hsort
      have hm : e ∈ (v, a) :: included t l := hperm.mem_iff.mp (by simp)
      have he' : e = (v, a) := by
        rcases List.mem_cons.mp hm with h | h
        · exact h
        · obtain ⟨h1, h2⟩ := mem_included.mp h
          have hlt := hv e h1 h2
          have hm' : (v, a) ∈ e :: rest := hperm.mem_iff.mpr (by simp)
          rcases List.mem_cons.mp hm' with h3 | h3
          · exact h3.symm
          · exact absurd ((List.pairwise_cons.mp hsort).1 _ h3) (not_le.mpr hlt)
      refine ⟨rest, by rw [he'], fun p hp => ?_⟩
      rw [he'] at hperm
      exact hl p (mem_included.mp ((List.perm_cons _).mp hperm |>.mem_iff.mp hp)).1
  obtain ⟨rest, he, hrest⟩ := hhead
  refine ⟨s.map f, ⟨?_, ?_⟩, ?_⟩
  · have := hs.1.map f
    simpa [hlf, f] using this
  · rw [List.pairwise_map]
    exact hs.2.imp fun h => by rw [f1, f1]; exact h
  · have hr' : rest.map f = rest := (List.map_congr_left fun p hp => if_neg (hrest p hp)).trans (List.map_id rest)
    unfold onSorted
    rw [hinc, he]
    simp only [List.map_cons, hr', f, if_true]
    exact core_first _ _ _ _ _

/-- **C197** (part) what the value does split is the weight of the values other than the smallest: those below it have at
most the part `q`, those beyond any counted value above it at most the part `1 - q`. Missing: the smallest value and the
nearest value above. -/
theorem C197_split_partial (l : List (K × K)) (q t x : K) (ht : 0 ≤ t) (h0 : 0 ≤ q) (h1 : q ≤ 1) (hr : Outcome l q t (.ok x)) :
    ∃ e rest, (e :: rest).Perm (included t l) ∧ (∀ p ∈ rest, e.1 ≤ p.1) ∧
      ((rest.filter fun p => p.1 < x).map Prod.snd).sum ≤ q * (rest.map Prod.snd).sum ∧
      ∀ y, Counts l t y → x < y → ((rest.filter fun p => y < p.1).map Prod.snd).sum ≤ (1 - q) * (rest.map Prod.snd).sum := by
  obtain ⟨s, hs, hx⟩ := hr
  have hperm : (included t s).Perm (included t l) := hs.1.filter _
  have hsort : (included t s).Pairwise (fun a b => a.1 ≤ b.1) := hs.2.filter _
  unfold onSorted at hx
  cases he : included t s with
  | nil => rw [he] at hx; simp [core] at hx
  | cons e rest =>
    rw [he] at hx hperm hsort
    have hpos : ∀ p ∈ e :: rest, 0 < p.2 := fun p hp => lt_of_le_of_lt ht (mem_included.mp (hperm.mem_iff.mp hp)).2
    refine ⟨e, rest, hperm, (List.pairwise_cons.mp hsort).1, ?_⟩
    set ds := (e :: rest).map Prod.fst with hds
    set ws := (e :: rest).map Prod.snd with hws
    have hwc : ws = e.2 :: rest.map Prod.snd := rfl
    have hlen : ws.length = rest.length + 1 := by simp [hws]
    have hdl : ds.length = rest.length + 1 := by simp [hds]
    have hne : ws ≠ [] := by simp [hws]
    have hp : ∀ w ∈ ws, 0 < w := fun w hw => by
      obtain ⟨p, h, rfl⟩ := List.mem_map.mp hw
      exact hpos p h
    have hdsort : ds.Pairwise (· ≤ ·) := by rw [hds, List.pairwise_map]; exact hsort
    obtain ⟨x', hx', hb1, hb2, hb3⟩ := core_between ds ws (by omega) hne hp hdsort q h0 h1
    rw [hx] at hx'
    obtain rfl : x = x' := by simpa using hx'
    have L := left_facts ws hne hp q h0
    have hcw : ∀ i ≤ rest.length, (cweights ws).getD i 0 = ((rest.take i).map Prod.snd).sum := fun i hi => by
      rw [hwc, cweights_getD _ _ _ (by simpa using hi), List.map_take]
    have hmid : midPoint ws q = q * (rest.map Prod.snd).sum := by
      rw [midPoint_eq ws hne, hlen, Nat.add_sub_cancel, hcw _ le_rfl, List.take_of_length_le le_rfl]
    have hget : ∀ i (h : i < rest.length), ds.getD (i + 1) 0 = (rest[i]).1 := fun i h => by
      rw [List.getD_eq_getElem _ _ (by omega)]
      simp [hds]
    set k := leftIdx ws q with hk
    have hklt := L.lt
    have nonneg : ∀ m : List (K × K), m.Sublist rest → ∀ f : K × K → Bool, ((m.filter f).map Prod.snd).sum ≤ (m.map Prod.snd).sum := by
      intro m hm f
      induction m with
      | nil => simp
      | cons p m ih =>
        have ih' := ih ((List.sublist_cons_self p m).trans hm)
        have hp0 : 0 < p.2 := hpos p (List.mem_cons_of_mem _ (hm.subset (by simp)))
        rw [List.filter_cons]
        split
        · simp only [List.map_cons, List.sum_cons]; linarith
        · simp only [List.map_cons, List.sum_cons]; linarith
    constructor
    · have hle := L.le
      rw [hmid, hcw _ (by omega)] at hle
      refine le_trans ?_ hle
      have hdrop : (rest.drop k).filter (fun p => decide (p.1 < x)) = [] := by
        rw [List.filter_eq_nil_iff]
        intro p hpm
        obtain ⟨i, hi, rfl⟩ := List.getElem_of_mem hpm
        rw [List.length_drop] at hi
        rw [List.getElem_drop]
        simp only [decide_eq_true_eq, not_lt]
        rw [← hget (k + i) (by omega)]
        exact (hb2 (by omega)).trans (getD_mono hdsort (by omega) (by omega))
      calc ((rest.filter fun p => p.1 < x).map Prod.snd).sum
          = (((rest.take k ++ rest.drop k).filter fun p => p.1 < x).map Prod.snd).sum := by rw [List.take_append_drop]
        _ = (((rest.take k).filter fun p => p.1 < x).map Prod.snd).sum := by rw [List.filter_append, hdrop, List.append_nil]
        _ ≤ _ := nonneg _ (List.take_sublist _ _) _
    · rintro y ⟨w, hyl, hyw⟩ hxy
      have hym : (y, w) ∈ e :: rest := hperm.mem_iff.mpr (mem_included.mpr ⟨hyl, hyw⟩)
      have hyd : y ∈ ds := List.mem_map.mpr ⟨_, hym, rfl⟩
      obtain ⟨j, hj, hjy⟩ := List.getElem_of_mem hyd
      rw [← List.getD_eq_getElem _ 0 hj] at hjy
      have hkj : k < j := by
        by_contra hcon
        have := getD_mono hdsort (not_lt.mp hcon) (by omega)
        rw [hjy] at this
        linarith
      have hgt := L.gt (by omega)
      rw [hmid, hcw _ (by omega)] at hgt
      have hsplit : (rest.map Prod.snd).sum = ((rest.take (k + 1)).map Prod.snd).sum + ((rest.drop (k + 1)).map Prod.snd).sum := by
        rw [← List.sum_append, ← List.map_append, List.take_append_drop]
      have htake : (rest.take (k + 1)).filter (fun p => decide (y < p.1)) = [] := by
        rw [List.filter_eq_nil_iff]
        intro p hpm
        obtain ⟨i, hi, rfl⟩ := List.getElem_of_mem hpm
        rw [List.length_take] at hi
        rw [List.getElem_take]
        simp only [decide_eq_true_eq, not_lt]
        rw [← hget i (by omega), ← hjy]
        exact getD_mono hdsort (by omega) (by omega)
      have h2 : ((rest.filter fun p => y < p.1).map Prod.snd).sum ≤ ((rest.drop (k + 1)).map Prod.snd).sum := by
        calc ((rest.filter fun p => y < p.1).map Prod.snd).sum
            = (((rest.take (k + 1) ++ rest.drop (k + 1)).filter fun p => y < p.1).map Prod.snd).sum := by rw [List.take_append_drop]
          _ = (((rest.drop (k + 1)).filter fun p => y < p.1).map Prod.snd).sum := by rw [List.filter_append, htake, List.nil_append]
          _ ≤ _ := nonneg _ (List.drop_sublist _ _) _
      linarith

/-- the unweighted quantile the code falls back to is the one NumPy documents -/
theorem C44_numpy (ds : List K) (hne : ds ≠ []) (q : K) (h0 : 0 ≤ q) (h1 : q ≤ 1) : IsLinearQuantile ds q (npQuantile ds q) := by
  have hlen := List.length_pos_of_ne_nil hne
  set v := q * (ds.length - 1 : ℕ) with hv
  have hv0 : 0 ≤ v := mul_nonneg h0 (Nat.cast_nonneg _)
  have hv1 : v ≤ (ds.length - 1 : ℕ) := by
    rw [hv]; exact mul_le_of_le_one_left (Nat.cast_nonneg _) h1
  have hfl : ⌊v⌋₊ ≤ ds.length - 1 := by
    have := Nat.floor_mono hv1
    rwa [Nat.floor_natCast] at this
  have f0 := Nat.floor_le hv0
  have f1 := Nat.lt_floor_add_one v
  refine ⟨⌊v⌋₊, v - ⌊v⌋₊, by ring, by linarith, by linarith, by omega, ?_⟩
  unfold npQuantile
  rw [← hv]
  by_cases hl : ⌊v⌋₊ + 1 < ds.length
  · rw [if_pos hl, min_eq_left (by omega)]; ring
  · rw [if_neg hl, show min (⌊v⌋₊ + 1) (ds.length - 1) = ⌊v⌋₊ by omega]; ring

theorem not_close_half : ¬ close1 (1 / 2 : K) := by
  unfold close1
  rw [show (1 / 2 : K) - 1 = -(1 / 2) by ring, abs_neg, abs_of_nonneg (by norm_num)]
  norm_num

/-- **C44** the weighted median of equally weighted values is the ordinary one: the middle value of an odd number, the mean
of the two middle ones of an even number -/
theorem C44_median (ds s : List K) (w t x : K) (ht : 0 ≤ t) (hw : t < w) (hp : s.Perm ds) (hs : s.Pairwise (· ≤ ·))
    (hx : MedianOutcome (ds.map (fun d => (d, w))) t (.ok x)) (k : ℕ) :
    (ds.length = 2 * k + 1 → x = s.getD k 0) ∧ (ds.length = 2 * k + 2 → x = (s.getD k 0 + s.getD (k + 1) 0) / 2) := by
  obtain ⟨i, f, e, g0, g1, hi, ex⟩ := C44_equal_weights_partial ds s w t (1 / 2) x ht hw (by norm_num) (by norm_num)
    (Or.inr not_close_half) hp hs hx
  have key : ∀ m : ℕ, ∀ c : K, (m : K) + c = i + f → 0 ≤ c → c < 1 → i = m ∧ f = c := fun m c h c0 c1 => by
    have hm : i = m := by
      rcases lt_trichotomy i m with h' | h' | h'
      · have : (i : K) + 1 ≤ m := by exact_mod_cast h'
        linarith
      · exact h'
      · have : (m : K) + 1 ≤ i := by exact_mod_cast h'
        linarith
    refine ⟨hm, ?_⟩
    rw [hm] at h
    linarith
  constructor
  · intro hl
    rw [hp.length_eq, hl] at e
    obtain ⟨rfl, rfl⟩ := key k 0 (by rw [← e]; push_cast [Nat.add_sub_cancel]; ring) le_rfl zero_lt_one
    rw [ex]; ring
  · intro hl
    rw [hp.length_eq, hl, show 2 * k + 2 - 1 = 2 * k + 1 by omega] at e
    obtain ⟨rfl, rfl⟩ := key k (1 / 2) (by rw [← e]; push_cast; ring) (by norm_num) (by norm_num)
    rw [ex, if_pos (by rw [hp.length_eq]; omega)]; ring

/-- three values with equal weights -/
example : ∃ x : ℚ, MedianOutcome ([3, 1, 2].map (fun d => (d, (1 : ℚ)))) 0 (.ok x) := by
  obtain ⟨r, hr⟩ := C41_total ([3, 1, 2].map (fun d => (d, (1 : ℚ)))) (1 / 2 : ℚ) 0
  obtain ⟨x, _, _, rfl, _⟩ := C41_range _ (1 / 2 : ℚ) 0 le_rfl (by norm_num) (by norm_num) ⟨3, 1, by simp⟩ r hr
  exact ⟨x, hr⟩

/-- weights 5 and 9 on the smallest of three values -/
example : ∀ p ∈ [((1 : ℚ), (1 : ℚ)), (2, 1)], (0 : ℚ) < p.2 → 0 < p.1 := by simp

end Verif.Quant
