import Verif.Model.Quantile
import Mathlib.Data.List.Sort
import Mathlib.Data.Rat.Floor
import Mathlib.Tactic.Linarith
import Mathlib.Tactic.Ring
import Mathlib.Tactic.FieldSimp
import Mathlib.Tactic.NormNum
import Mathlib.Tactic.Positivity

/-! Properties C41-C44: weighted quantiles. -/

namespace Verif.Quant
open Verif.Py

variable {K : Type} [Field K] [LinearOrder K] [IsStrictOrderedRing K] [FloorRing K]

/-! ### cumulative weights -/

theorem cumsum_length (acc : K) (ws : List K) : (cumsumFrom acc ws).length = ws.length := by
  induction ws generalizing acc with
  | nil => rfl
  | cons w ws ih => simp [cumsumFrom, ih]

theorem cumsum_gt (acc : K) (ws : List K) (h : ∀ w ∈ ws, 0 < w) : ∀ c ∈ cumsumFrom acc ws, acc < c := by
  induction ws generalizing acc with
  | nil => simp [cumsumFrom]
  | cons w ws ih =>
    intro c hc
    have hw := h w (by simp)
    rcases List.mem_cons.mp hc with rfl | hc
    · linarith
    · have := ih (acc + w) (fun x hx => h x (by simp [hx])) c hc
      linarith

theorem cumsum_sorted (acc : K) (ws : List K) (h : ∀ w ∈ ws, 0 < w) : (cumsumFrom acc ws).Pairwise (· < ·) := by
  induction ws generalizing acc with
  | nil => simp [cumsumFrom]
  | cons w ws ih =>
    have h' : ∀ x ∈ ws, 0 < x := fun x hx => h x (by simp [hx])
    exact List.pairwise_cons.mpr ⟨cumsum_gt _ _ h', ih _ h'⟩

theorem cweights_length (ws : List K) : (cweights ws).length = ws.length := by
  simp [cweights, cumsum_length]

theorem cweights_sorted (ws : List K) (h : ∀ w ∈ ws, 0 < w) : (cweights ws).Pairwise (· < ·) := by
  unfold cweights
  rw [List.pairwise_map]
  exact (cumsum_sorted 0 ws h).imp (fun hab => by linarith)

theorem cweights_zero (w : K) (ws : List K) : (cweights (w :: ws)).getD 0 0 = 0 := by
  simp [cweights, cumsumFrom]

/-! ### searching -/

theorem countP_sorted (L : List K) (h : L.Pairwise (· < ·)) (m : K) :
    (∀ i < L.countP (fun c => decide (c ≤ m)), L.getD i 0 ≤ m) ∧
    (∀ i < L.length, L.countP (fun c => decide (c ≤ m)) ≤ i → m < L.getD i 0) := by
  induction L with
  | nil => simp
  | cons c L ih =>
    rw [List.pairwise_cons] at h
    obtain ⟨ih1, ih2⟩ := ih h.2
    by_cases hc : c ≤ m
    · rw [List.countP_cons_of_pos (by simpa using hc)]
      constructor
      · intro i hi
        cases i with
        | zero => simpa using hc
        | succ i => simpa using ih1 i (by omega)
      · intro i hi hk
        cases i with
        | zero => omega
        | succ i => simpa using ih2 i (by simpa using hi) (by omega)
    · rw [List.countP_cons_of_neg (by simpa using hc)]
      have hz : L.countP (fun c => decide (c ≤ m)) = 0 := by
        rw [List.countP_eq_zero]
        intro x hx
        have := h.1 x hx
        simp only [decide_eq_true_eq, not_le]
        exact (not_le.mp hc).trans this
      rw [hz]
      refine ⟨by simp, fun i hi _ => ?_⟩
      cases i with
      | zero => simpa using hc
      | succ i => simpa using ih2 i (by simpa using hi) (by omega)

theorem getD_mono {L : List K} (h : L.Pairwise (· ≤ ·)) {i j : ℕ} (hij : i ≤ j) (hj : j < L.length) :
    L.getD i 0 ≤ L.getD j 0 := by
  rw [List.getD_eq_getElem _ _ (by omega), List.getD_eq_getElem _ _ hj]
  rcases Nat.lt_or_eq_of_le hij with h1 | h1
  · exact List.pairwise_iff_getElem.mp h i j (by omega) hj h1
  · subst h1; rfl

theorem getLastD_eq (L : List K) (h : L ≠ []) : L.getLastD 0 = L.getD (L.length - 1) 0 := by
  have : 0 < L.length := List.length_pos_of_ne_nil h
  rw [List.getLastD_eq_getLast?, List.getLast?_eq_getElem?, List.getD_eq_getElem?_getD]

/-- facts about the left index for positive weights and `q` in [0,1] -/
structure Left (ws : List K) (q : K) : Prop where
  lt : leftIdx ws q < ws.length
  le : (cweights ws).getD (leftIdx ws q) 0 ≤ midPoint ws q
  gt : leftIdx ws q + 1 < ws.length → midPoint ws q < (cweights ws).getD (leftIdx ws q + 1) 0

theorem total_nonneg (ws : List K) (hne : ws ≠ []) (h : ∀ w ∈ ws, 0 < w) : 0 ≤ (cweights ws).getLastD 0 := by
  obtain ⟨w, ws, rfl⟩ := List.exists_cons_of_ne_nil hne
  have hne' : cweights (w :: ws) ≠ [] := by
    intro h0; have := cweights_length (w :: ws); rw [h0] at this; simp at this
  rw [getLastD_eq _ hne']
  refine (cweights_zero w ws).symm.le.trans ?_
  exact getD_mono ((cweights_sorted _ h).imp le_of_lt) (Nat.zero_le _) (by
    have := List.length_pos_of_ne_nil hne'; omega)

theorem left_facts (ws : List K) (hne : ws ≠ []) (h : ∀ w ∈ ws, 0 < w) (q : K) (h0 : 0 ≤ q) : Left ws q := by
  have hs := cweights_sorted ws h
  obtain ⟨h1, h2⟩ := countP_sorted (cweights ws) hs (midPoint ws q)
  have hm : 0 ≤ midPoint ws q := mul_nonneg h0 (total_nonneg ws hne h)
  have hpos : 0 < ws.length := List.length_pos_of_ne_nil hne
  have hc : 0 < (cweights ws).countP (fun c => decide (c ≤ midPoint ws q)) := by
    by_contra hc
    have := h2 0 (by rw [cweights_length]; exact hpos) (by omega)
    obtain ⟨w, ws', rfl⟩ := List.exists_cons_of_ne_nil hne
    rw [cweights_zero] at this
    linarith
  have hle := List.countP_le_length (p := fun c => decide (c ≤ midPoint ws q)) (l := cweights ws)
  rw [cweights_length] at hle
  refine ⟨by unfold leftIdx; omega, h1 _ (by unfold leftIdx; omega), fun hlt => ?_⟩
  exact h2 _ (by rw [cweights_length]; exact hlt) (by unfold leftIdx; omega)

theorem midPoint_eq (ws : List K) (hne : ws ≠ []) (q : K) :
    midPoint ws q = q * (cweights ws).getD (ws.length - 1) 0 := by
  have hne' : cweights ws ≠ [] := by
    intro h0; have := cweights_length ws; rw [h0] at this
    exact hne (List.length_eq_zero_iff.mp this.symm)
  unfold midPoint; rw [getLastD_eq _ hne', cweights_length]

theorem cweights_strict (ws : List K) (h : ∀ w ∈ ws, 0 < w) {i j : ℕ} (hij : i < j) (hj : j < ws.length) :
    (cweights ws).getD i 0 < (cweights ws).getD j 0 := by
  have := cweights_length ws
  rw [List.getD_eq_getElem _ _ (by omega), List.getD_eq_getElem _ _ (by omega)]
  exact List.pairwise_iff_getElem.mp (cweights_sorted ws h) i j (by omega) (by omega) hij

theorem not_close_zero : ¬ close1 (0 : K) := by
  unfold close1
  rw [show |(0 : K) - 1| = 1 by simp]
  norm_num

theorem close_one : close1 (1 : K) := by
  unfold close1
  rw [show |(1 : K) - 1| = 0 by simp]
  positivity

/-- the interior of the last segment: with positive weights the index is the last one only for q = 1 or one entry -/
theorem left_last (ws : List K) (hne : ws ≠ []) (h : ∀ w ∈ ws, 0 < w) (q : K) (h0 : 0 ≤ q) (hq : q < 1)
    (hlen : 1 < ws.length) : leftIdx ws q + 1 < ws.length := by
  have L := left_facts ws hne h q h0
  by_contra hc
  have he : leftIdx ws q = ws.length - 1 := by have := L.lt; omega
  have hle := L.le
  rw [he, midPoint_eq ws hne] at hle
  have hT : 0 < (cweights ws).getD (ws.length - 1) 0 := by
    have := cweights_strict ws h (i := 0) (j := ws.length - 1) (by omega) (by omega)
    obtain ⟨w, ws', rfl⟩ := List.exists_cons_of_ne_nil hne
    rw [cweights_zero] at this; exact this
  nlinarith

theorem left_one (ws : List K) (hne : ws ≠ []) (h : ∀ w ∈ ws, 0 < w) : leftIdx ws (1 : K) = ws.length - 1 := by
  have L := left_facts ws hne h 1 zero_le_one
  by_contra hc
  have hlt : leftIdx ws (1 : K) + 1 < ws.length := by have := L.lt; omega
  have h1 := L.gt hlt
  rw [midPoint_eq ws hne, one_mul] at h1
  rcases Nat.lt_or_eq_of_le (Nat.le_sub_one_of_lt hlt) with h2 | h2
  · have := cweights_strict ws h h2 (by omega); linarith
  · rw [h2] at h1; exact lt_irrefl _ h1

theorem left_zero (ws : List K) (hne : ws ≠ []) (h : ∀ w ∈ ws, 0 < w) : leftIdx ws (0 : K) = 0 := by
  have L := left_facts ws hne h 0 le_rfl
  by_contra hc
  have hle := L.le
  rw [midPoint_eq ws hne, zero_mul] at hle
  have := cweights_strict ws h (i := 0) (Nat.pos_of_ne_zero hc) L.lt
  obtain ⟨w, ws', rfl⟩ := List.exists_cons_of_ne_nil hne
  rw [cweights_zero] at this; linarith

/-- the value of the computation, by cases -/
theorem core_cases (ds ws : List K) (hl : ds.length = ws.length) (hne : ws ≠ []) (h : ∀ w ∈ ws, 0 < w) (q : K)
    (h0 : 0 ≤ q) (h1 : q ≤ 1) :
    (close1 q ∧ core ds ws q = .ok (ds.getD (leftIdx ws q) 0)) ∨
    (¬ close1 q ∧ leftIdx ws q + 1 < ws.length ∧ ∃ f, 0 ≤ f ∧ f < 1 ∧
      f = (midPoint ws q - (cweights ws).getD (leftIdx ws q) 0) /
        ((cweights ws).getD (leftIdx ws q + 1) 0 - (cweights ws).getD (leftIdx ws q) 0) ∧
      core ds ws q = .ok (ds.getD (leftIdx ws q) 0 + (ds.getD (leftIdx ws q + 1) 0 - ds.getD (leftIdx ws q) 0) * f)) ∨
    (¬ close1 q ∧ ws.length = 1 ∧ core ds ws q = .ok (ds.getD 0 0)) := by
  unfold core
  rw [if_neg hne]
  by_cases hc : close1 q
  · left
    rw [if_pos hc]
    exact ⟨hc, by simp [interp]⟩
  · rw [if_neg hc]
    have L := left_facts ws hne h q h0
    by_cases hlt : leftIdx ws q + 1 < ws.length
    · right; left
      rw [if_pos hlt]
      have hd := cweights_strict ws h (Nat.lt_succ_self (leftIdx ws q)) hlt
      have hg := L.gt hlt
      have hle := L.le
      refine ⟨hc, hlt, _, div_nonneg (by linarith) (by linarith), ?_, rfl, ?_⟩
      · rw [div_lt_one (by linarith)]; linarith
      · unfold interp; rw [mul_div_assoc]
    · right; right
      rw [if_neg hlt]
      have hq : q < 1 := lt_of_le_of_ne h1 (fun he => hc (he ▸ close_one))
      have hlen : ws.length = 1 := by
        by_contra hlen
        have := List.length_pos_of_ne_nil hne
        exact hlt (left_last ws hne h q h0 hq (by omega))
      refine ⟨hc, hlen, ?_⟩
      unfold npQuantile
      rw [hl, hlen]
      simp

theorem core_between (ds ws : List K) (hl : ds.length = ws.length) (hne : ws ≠ []) (h : ∀ w ∈ ws, 0 < w)
    (hs : ds.Pairwise (· ≤ ·)) (q : K) (h0 : 0 ≤ q) (h1 : q ≤ 1) :
    ∃ r, core ds ws q = .ok r ∧ ds.getD (leftIdx ws q) 0 ≤ r ∧
      (leftIdx ws q + 1 < ws.length → r ≤ ds.getD (leftIdx ws q + 1) 0) ∧ r ≤ ds.getD (ws.length - 1) 0 := by
  have L := left_facts ws hne h q h0
  rcases core_cases ds ws hl hne h q h0 h1 with ⟨_, he⟩ | ⟨_, hlt, f, hf0, hf1, _, he⟩ | ⟨_, hlen, he⟩
  · refine ⟨_, he, le_rfl, fun hlt => getD_mono hs (Nat.le_succ _) (by omega), getD_mono hs ?_ ?_⟩
    · have := L.lt; omega
    · have := L.lt; omega
  · have hm := getD_mono hs (Nat.le_succ (leftIdx ws q)) (by omega)
    have hm2 := getD_mono (i := leftIdx ws q + 1) (j := ws.length - 1) hs (by omega) (by omega)
    refine ⟨_, he, by nlinarith, fun _ => by nlinarith, by nlinarith⟩
  · have := L.lt
    have h3 : leftIdx ws q = 0 := by omega
    refine ⟨_, he, by rw [h3], fun h => by omega, by rw [hlen]⟩

/-! ### C41 -/

/-- the values with weight above the threshold -/
def Counts (l : List (K × K)) (t v : K) : Prop := ∃ w, (v, w) ∈ l ∧ t < w

theorem mem_included {t : K} {s : List (K × K)} {p : K × K} : p ∈ included t s ↔ p ∈ s ∧ t < p.2 := by
  simp [included]

theorem included_sorted {l s : List (K × K)} (h : SortOf l s) (t : K) :
    ((included t s).map Prod.fst).Pairwise (· ≤ ·) := by
  rw [List.pairwise_map]; exact h.2.filter _

/-- **C41** with a nonnegative threshold and at least one weight above it, every outcome is a number between the
smallest and the largest included value; it is the smallest at `q = 0` and the largest at `q = 1`. -/
theorem C41_range (l : List (K × K)) (q t : K) (ht : 0 ≤ t) (h0 : 0 ≤ q) (h1 : q ≤ 1) (hex : ∃ v, Counts l t v)
    (r : Except PyErr K) (hr : Outcome l q t r) :
    ∃ x lo hi, r = .ok x ∧ Counts l t lo ∧ Counts l t hi ∧ (∀ v, Counts l t v → lo ≤ v ∧ v ≤ hi) ∧
      lo ≤ x ∧ x ≤ hi ∧ (q = 0 → x = lo) ∧ (q = 1 → x = hi) := by
  obtain ⟨s, hs, rfl⟩ := hr
  unfold onSorted
  have hsort := included_sorted hs t
  have hmem : ∀ v w, (v, w) ∈ included t s ↔ (v, w) ∈ l ∧ t < w := by
    intro v w; rw [mem_included, hs.1.mem_iff]
  have hCounts : ∀ v, Counts l t v ↔ v ∈ (included t s).map Prod.fst := by
    intro v
    constructor
    · rintro ⟨w, h⟩; exact List.mem_map.mpr ⟨(v, w), (hmem v w).mpr h, rfl⟩
    · intro h
      obtain ⟨⟨v', w⟩, h', rfl⟩ := List.mem_map.mp h
      exact ⟨w, (hmem _ _).mp h'⟩
  have hpos : ∀ w ∈ (included t s).map Prod.snd, 0 < w := by
    intro w hw
    obtain ⟨p, h, rfl⟩ := List.mem_map.mp hw
    exact lt_of_le_of_lt ht (mem_included.mp h).2
  have hne : (included t s).map Prod.snd ≠ [] := by
    obtain ⟨v, w, h⟩ := hex
    intro he
    have := (hmem v w).mpr h
    rw [List.map_eq_nil_iff] at he
    rw [he] at this; simp at this
  have hl : ((included t s).map Prod.fst).length = ((included t s).map Prod.snd).length := by simp
  generalize (included t s).map Prod.fst = ds at *
  generalize (included t s).map Prod.snd = ws at *
  have hlen := List.length_pos_of_ne_nil hne
  obtain ⟨x, hx, hx1, _, hx3⟩ := core_between ds ws hl hne hpos hsort q h0 h1
  have L := left_facts ws hne hpos q h0
  have hget : ∀ i < ws.length, ds.getD i 0 ∈ ds := by
    intro i hi; rw [List.getD_eq_getElem _ _ (by omega)]; exact List.getElem_mem _
  refine ⟨x, ds.getD 0 0, ds.getD (ws.length - 1) 0, hx, (hCounts _).mpr (hget 0 hlen),
    (hCounts _).mpr (hget _ (by omega)), ?_, ?_, hx3, ?_, ?_⟩
  · intro v hv
    obtain ⟨i, hi, rfl⟩ := List.getElem_of_mem ((hCounts v).mp hv)
    rw [← List.getD_eq_getElem _ 0 hi]
    exact ⟨getD_mono hsort (Nat.zero_le _) (by omega), getD_mono hsort (by omega) (by omega)⟩
  · exact (getD_mono hsort (Nat.zero_le _) (by have := L.lt; omega)).trans hx1
  · rintro rfl
    rcases core_cases ds ws hl hne hpos 0 le_rfl h1 with ⟨hc, _⟩ | ⟨_, hlt, f, _, _, hf, he⟩ | ⟨_, _, he⟩
    · exact absurd hc not_close_zero
    · rw [left_zero ws hne hpos] at hf he
      have hz : (cweights ws).getD 0 0 = 0 := by
        obtain ⟨w, ws', rfl⟩ := List.exists_cons_of_ne_nil hne
        exact cweights_zero _ _
      rw [hz, midPoint_eq ws hne] at hf
      simp only [zero_mul, sub_zero, zero_div] at hf
      rw [hf, hx] at he
      simpa using he
    · rw [hx] at he; simpa using he
  · rintro rfl
    rcases core_cases ds ws hl hne hpos 1 h0 le_rfl with ⟨_, he⟩ | ⟨hc, _⟩ | ⟨hc, _⟩
    · rw [left_one ws hne hpos, hx] at he; simpa using he
    · exact absurd close_one hc
    · exact absurd close_one hc

/-- **C41** with no weight above the threshold the call raises `IndexError` -/
theorem C41_raises (l : List (K × K)) (q t : K) (hex : ¬ ∃ v, Counts l t v) (r : Except PyErr K) (hr : Outcome l q t r) :
    r = .error .IndexError := by
  obtain ⟨s, hs, rfl⟩ := hr
  unfold onSorted core
  rw [if_pos]
  rw [List.map_eq_nil_iff, List.eq_nil_iff_forall_not_mem]
  rintro ⟨v, w⟩ h
  rw [mem_included, hs.1.mem_iff] at h
  exact hex ⟨v, w, h⟩

theorem exists_sort (l : List (K × K)) : ∃ s, SortOf l s := by
  refine ⟨l.mergeSort (fun a b => decide (a.1 ≤ b.1)), List.mergeSort_perm _ _, ?_⟩
  have := List.pairwise_mergeSort (le := fun a b : K × K => decide (a.1 ≤ b.1))
    (by intro a b c; simp only [decide_eq_true_eq]; exact le_trans)
    (by intro a b; simpa using le_total a.1 b.1) l
  exact this.imp (by simp)

/-- there is always an outcome (so the statements above are about something) -/
theorem C41_total (l : List (K × K)) (q t : K) : ∃ r, Outcome l q t r := by
  obtain ⟨s, hs⟩ := exists_sort l
  exact ⟨_, s, hs, rfl⟩

/-- **C41** entries with weight at most `t` have no influence: leaving them out gives the same outcomes -/
theorem C41_excluded (l : List (K × K)) (q t : K) (r : Except PyErr K) :
    Outcome l q t r ↔ Outcome (l.filter (fun p => decide (p.2 > t))) q t r := by
  have hidem : ∀ s : List (K × K), included t (included t s) = included t s := by
    intro s; unfold included; rw [List.filter_filter]; simp
  constructor
  · rintro ⟨s, hs, rfl⟩
    refine ⟨included t s, ⟨hs.1.filter _, hs.2.filter _⟩, ?_⟩
    unfold onSorted; rw [hidem]
  · rintro ⟨s', hs', rfl⟩
    have hall : included t s' = s' := by
      unfold included
      rw [List.filter_eq_self]
      intro p hp
      have := hs'.1.mem_iff.mp hp
      exact (List.mem_filter.mp this).2
    let le : K × K → K × K → Bool := fun a b => decide (a.1 ≤ b.1)
    let full := s' ++ l.filter (fun p => !decide (p.2 > t))
    have htrans : ∀ a b c : K × K, le a b → le b c → le a c := by
      intro a b c; simp only [le, decide_eq_true_eq]; exact le_trans
    have htot : ∀ a b : K × K, (le a b || le b a) := by
      intro a b; simpa [le] using le_total a.1 b.1
    have hperm : (full.mergeSort le).Perm l := by
      refine (List.mergeSort_perm _ _).trans ?_
      exact (hs'.1.append_right _).trans (List.filter_append_perm (fun p : K × K => decide (p.2 > t)) l)
    have hsub : s'.Sublist (full.mergeSort le) := by
      refine List.sublist_mergeSort htrans htot ?_ (List.sublist_append_left _ _)
      exact hs'.2.imp (by simp [le])
    have heq : included t (full.mergeSort le) = s' := by
      have h1 : (included t s').Sublist (included t (full.mergeSort le)) := hsub.filter _
      rw [hall] at h1
      refine (h1.eq_of_length ?_).symm
      rw [hs'.1.length_eq]
      exact ((hperm.filter _).length_eq).symm
    refine ⟨full.mergeSort le, ⟨hperm, ?_⟩, ?_⟩
    · exact (List.pairwise_mergeSort htrans htot full).imp (by simp [le])
    · unfold onSorted; rw [heq, hall]

/-! ### C42 -/

/-- The claim: for fixed data the quantile is nondecreasing in `q` on [0,1]. -/
def C42_statement : Prop :=
  ∀ (l s : List (ℚ × ℚ)) (t q q' x x' : ℚ), 0 ≤ t → SortOf l s → 0 ≤ q → q ≤ q' → q' ≤ 1 →
    onSorted s q t = .ok x → onSorted s q' t = .ok x' → x ≤ x'

theorem C42_refuted : ¬ C42_statement := by
  intro h
  have h1 : onSorted [((0 : ℚ), (1 : ℚ)), (1, 1)] (99998 / 100000) 0 = .ok (99998 / 100000) := by
    have hc : ¬ close1 (99998 / 100000 : ℚ) := by unfold close1; norm_num [abs_of_neg]
    have hl : leftIdx [(1 : ℚ), 1] (99998 / 100000) = 0 := by decide +kernel
    simp only [onSorted, included]
    simp only [List.filter, gt_iff_lt, zero_lt_one, decide_true, List.map_cons, List.map_nil, core]
    rw [if_neg (by simp), if_neg hc, hl, if_pos (by simp)]
    congr 1
    decide +kernel
  have h2 : onSorted [((0 : ℚ), (1 : ℚ)), (1, 1)] (999995 / 1000000) 0 = .ok 0 := by
    have hc : close1 (999995 / 1000000 : ℚ) := by unfold close1; norm_num [abs_of_neg]
    have hl : leftIdx [(1 : ℚ), 1] (999995 / 1000000) = 0 := by decide +kernel
    simp only [onSorted, included]
    simp only [List.filter, gt_iff_lt, zero_lt_one, decide_true, List.map_cons, List.map_nil, core]
    rw [if_neg (by simp), if_pos hc, hl]
    congr 1
    decide +kernel
  have := h [(0, 1), (1, 1)] [(0, 1), (1, 1)] 0 _ _ _ _ le_rfl ⟨List.Perm.refl _, by simp⟩ (by norm_num)
    (by norm_num) (by norm_num) h1 h2
  norm_num at this

theorem close_of_le {q q' : K} (h : q ≤ q') (h1 : q' ≤ 1) (hc : close1 q) : close1 q' := by
  unfold close1 at *
  rw [abs_of_nonpos (by linarith)] at *
  linarith

theorem leftIdx_mono (ws : List K) (hne : ws ≠ []) (h : ∀ w ∈ ws, 0 < w) {q q' : K} (hq : q ≤ q') :
    leftIdx ws q ≤ leftIdx ws q' := by
  unfold leftIdx
  have hm : midPoint ws q ≤ midPoint ws q' := mul_le_mul_of_nonneg_right hq (total_nonneg ws hne h)
  have := List.countP_mono_left (p := fun c => decide (c ≤ midPoint ws q)) (q := fun c => decide (c ≤ midPoint ws q'))
    (l := cweights ws) (fun x _ hx => by simp only [decide_eq_true_eq] at *; exact hx.trans hm)
  omega

/-- **C42** (part) `q ≤ q'` gives ordered results as long as `q'` is 1 or at least `1.001e-5` below 1. Missing: `q'` just
below 1, where the code drops the interpolation (`C42_refuted`). -/
theorem C42_monotone_partial (l s : List (K × K)) (t q q' x x' : K) (ht : 0 ≤ t) (hs : SortOf l s) (h0 : 0 ≤ q)
    (hq : q ≤ q') (h1 : q' ≤ 1) (hc : q' = 1 ∨ ¬ close1 q') (hx : onSorted s q t = .ok x)
    (hx' : onSorted s q' t = .ok x') : x ≤ x' := by
  unfold onSorted at hx hx'
  have hsort := included_sorted hs t
  have hpos : ∀ w ∈ (included t s).map Prod.snd, 0 < w := by
    intro w hw
    obtain ⟨p, h, rfl⟩ := List.mem_map.mp hw
    exact lt_of_le_of_lt ht (mem_included.mp h).2
  have hl : ((included t s).map Prod.fst).length = ((included t s).map Prod.snd).length := by simp
  generalize (included t s).map Prod.fst = ds at *
  generalize (included t s).map Prod.snd = ws at *
  have hne : ws ≠ [] := by rintro rfl; simp [core] at hx
  obtain ⟨y, hy, hy1, hy2, hy3⟩ := core_between ds ws hl hne hpos hsort q h0 (hq.trans h1)
  obtain ⟨y', hy', hy1', hy2', hy3'⟩ := core_between ds ws hl hne hpos hsort q' (h0.trans hq) h1
  rw [hx] at hy; rw [hx'] at hy'
  simp only [Except.ok.injEq] at hy hy'
  subst hy; subst hy'
  rcases hc with rfl | hc
  · rw [left_one ws hne hpos] at hy1'
    exact hy3.trans hy1'
  · have hc1 : ¬ close1 q := fun h => hc (close_of_le hq h1 h)
    have hmono := leftIdx_mono ws hne hpos hq
    have L' := left_facts ws hne hpos q' (h0.trans hq)
    rcases Nat.lt_or_eq_of_le hmono with hlt | heq
    · exact (hy2 (by have := L'.lt; omega)).trans
        ((getD_mono hsort hlt (by have := L'.lt; omega)).trans hy1')
    · rcases core_cases ds ws hl hne hpos q h0 (hq.trans h1) with ⟨h, _⟩ | ⟨_, ha, f, hf0, hf1, hf, he⟩ | ⟨_, hlen, he⟩
      · exact absurd h hc1
      · rcases core_cases ds ws hl hne hpos q' (h0.trans hq) h1 with ⟨h, _⟩ | ⟨_, ha', f', hf0', hf1', hf', he'⟩ | ⟨_, hlen, _⟩
        · exact absurd h hc
        · rw [hx] at he; rw [hx'] at he'
          simp only [Except.ok.injEq] at he he'
          rw [he, he', ← heq]
          have hm := getD_mono hsort (Nat.le_succ (leftIdx ws q)) (by omega)
          have hff : f ≤ f' := by
            rw [hf, hf', ← heq]
            have hd := cweights_strict ws hpos (Nat.lt_succ_self (leftIdx ws q)) ha
            apply div_le_div_of_nonneg_right _ (by linarith)
            have : midPoint ws q ≤ midPoint ws q' := mul_le_mul_of_nonneg_right hq (total_nonneg ws hne hpos)
            linarith
          nlinarith
        · omega
      · rcases core_cases ds ws hl hne hpos q' (h0.trans hq) h1 with ⟨h, _⟩ | ⟨_, ha', _⟩ | ⟨_, _, he'⟩
        · exact absurd h hc
        · omega
        · rw [hx] at he; rw [hx'] at he'
          simp only [Except.ok.injEq] at he he'
          rw [he, he']

/-! ### C43 -/

/-- The claim: the result does not depend on the order of the (value, weight) pairs. -/
def C43_statement : Prop :=
  ∀ (l l' : List (ℚ × ℚ)) (q t : ℚ) (r r' : Except PyErr ℚ), 0 ≤ t → 0 ≤ q → q ≤ 1 → l.Perm l' →
    Outcome l q t r → Outcome l' q t r' → r = r'

theorem C43_run (w : ℚ) (w' : ℚ) (hw : 0 < w) (hw' : 0 < w') (x : ℚ) (k : ℕ)
    (hl : leftIdx [(1 : ℚ), w, w'] (1 / 2) = k) (hk : k + 1 < 3)
    (hx : interp [(0 : ℚ), 1, 1] [(1 : ℚ), w, w'] (midPoint [(1 : ℚ), w, w'] (1 / 2)) k (k + 1)
      ((cweights [(1 : ℚ), w, w']).getD (k + 1) 0 - (cweights [(1 : ℚ), w, w']).getD k 0) = x) :
    onSorted [((0 : ℚ), (1 : ℚ)), (1, w), (1, w')] (1 / 2) 0 = .ok x := by
  have hc : ¬ close1 (1 / 2 : ℚ) := by unfold close1; norm_num [abs_of_neg]
  simp only [onSorted, included]
  simp only [List.filter, gt_iff_lt, zero_lt_one, hw, hw', decide_true, List.map_cons, List.map_nil, core]
  rw [if_neg (by simp), if_neg hc, hl, if_pos (by simpa using hk), hx]

theorem C43_refuted : ¬ C43_statement := by
  intro h
  have h1 := C43_run 1 3 (by norm_num) (by norm_num) 1 1 (by decide +kernel) (by norm_num) (by decide +kernel)
  have h2 := C43_run 3 1 (by norm_num) (by norm_num) (2 / 3) 0 (by decide +kernel) (by norm_num) (by decide +kernel)
  have := h [(0, 1), (1, 1), (1, 3)] [(0, 1), (1, 3), (1, 1)] (1 / 2) 0 _ _ le_rfl (by norm_num) (by norm_num)
    (.cons _ (.swap _ _ _)) ⟨_, ⟨List.Perm.refl _, by simp⟩, h1⟩ ⟨_, ⟨List.Perm.refl _, by simp⟩, h2⟩
  norm_num at this

/-- **C43** (part) the result does not depend on the order of the pairs (nor on how the sort treats equal values) when
included equal values carry equal weights. Missing: equal values with different weights (`C43_refuted`). -/
theorem C43_order_partial (l l' : List (K × K)) (q t : K) (r r' : Except PyErr K) (hp : l.Perm l')
    (hties : ∀ v w w', (v, w) ∈ l → (v, w') ∈ l → t < w → t < w' → w = w')
    (hr : Outcome l q t r) (hr' : Outcome l' q t r') : r = r' := by
  obtain ⟨s, hs, rfl⟩ := hr
  obtain ⟨s', hs', rfl⟩ := hr'
  unfold onSorted
  have hperm : (included t s).Perm (included t s') := ((hs.1.trans hp).trans hs'.1.symm).filter _
  have heq : included t s = included t s' := by
    refine List.Perm.eq_of_pairwise ?_ (hs.2.filter _) (hs'.2.filter _) hperm
    rintro ⟨v, w⟩ ⟨v', w'⟩ ha hb h1 h2
    have hv : v = v' := le_antisymm h1 h2
    subst hv
    obtain ⟨ha1, ha2⟩ := mem_included.mp ha
    obtain ⟨hb1, hb2⟩ := mem_included.mp hb
    rw [hties v w w' (hs.1.mem_iff.mp ha1) (hp.mem_iff.mpr (hs'.1.mem_iff.mp hb1)) ha2 hb2]
  rw [heq]

/-! ### C44 -/

theorem cumsum_scale (acc c : K) (ws : List K) :
    cumsumFrom (acc * c) (ws.map (· * c)) = (cumsumFrom acc ws).map (· * c) := by
  induction ws generalizing acc with
  | nil => rfl
  | cons w ws ih => simp only [List.map_cons, cumsumFrom]; rw [← add_mul, ih]

theorem cweights_scale (c : K) (ws : List K) : cweights (ws.map (· * c)) = (cweights ws).map (· * c) := by
  unfold cweights
  have := cumsum_scale 0 c ws
  rw [zero_mul] at this
  rw [this, List.map_map, List.map_map]
  have hh : ((cumsumFrom 0 ws).map (· * c)).headD 0 = (cumsumFrom 0 ws).headD 0 * c := by
    cases cumsumFrom 0 ws <;> simp
  rw [hh]
  apply List.map_congr_left
  intro x _
  simp only [Function.comp]
  ring

theorem getD_map_mul (L : List K) (c : K) (i : ℕ) : (L.map (· * c)).getD i 0 = L.getD i 0 * c := by
  rw [List.getD_eq_getElem?_getD, List.getD_eq_getElem?_getD, List.getElem?_map]
  cases L[i]? <;> simp

theorem midPoint_scale (c q : K) (ws : List K) : midPoint (ws.map (· * c)) q = midPoint ws q * c := by
  unfold midPoint
  rw [cweights_scale]
  have : ((cweights ws).map (· * c)).getLastD 0 = (cweights ws).getLastD 0 * c := by
    rw [List.getLastD_eq_getLast?, List.getLastD_eq_getLast?, List.getLast?_map]
    cases (cweights ws).getLast? <;> simp
  rw [this]; ring

theorem leftIdx_scale (c q : K) (hc : 0 < c) (ws : List K) : leftIdx (ws.map (· * c)) q = leftIdx ws q := by
  unfold leftIdx
  rw [midPoint_scale, cweights_scale, List.countP_map]
  congr 1
  apply List.countP_congr
  intro x _
  simp only [Function.comp, decide_eq_true_eq]
  rw [mul_le_mul_iff_of_pos_right hc]

theorem core_scale (ds ws : List K) (c q : K) (hc : 0 < c) : core ds (ws.map (· * c)) q = core ds ws q := by
  unfold core
  rw [leftIdx_scale c q hc, midPoint_scale, List.length_map]
  have hne : (ws.map (· * c) = []) ↔ ws = [] := List.map_eq_nil_iff
  simp only [hne]
  have h1 : interp ds (ws.map (· * c)) (midPoint ws q * c) (leftIdx ws q) (leftIdx ws q) 1 =
      interp ds ws (midPoint ws q) (leftIdx ws q) (leftIdx ws q) 1 := by
    unfold interp; simp
  have h2 : interp ds (ws.map (· * c)) (midPoint ws q * c) (leftIdx ws q) (leftIdx ws q + 1)
      ((cweights (ws.map (· * c))).getD (leftIdx ws q + 1) 0 - (cweights (ws.map (· * c))).getD (leftIdx ws q) 0) =
      interp ds ws (midPoint ws q) (leftIdx ws q) (leftIdx ws q + 1)
      ((cweights ws).getD (leftIdx ws q + 1) 0 - (cweights ws).getD (leftIdx ws q) 0) := by
    unfold interp
    rw [cweights_scale, getD_map_mul, getD_map_mul, ← sub_mul, ← sub_mul, ← mul_assoc, mul_div_mul_right _ _ hc.ne']
  rw [h1, h2]

/-- **C44** multiplying all weights and the threshold by a positive factor changes nothing -/
theorem C44_scale (l : List (K × K)) (q t c : K) (hc : 0 < c) (r : Except PyErr K) :
    Outcome l q t r ↔ Outcome (l.map (fun p => (p.1, p.2 * c))) q (t * c) r := by
  have key : ∀ s : List (K × K), onSorted (s.map (fun p => (p.1, p.2 * c))) q (t * c) = onSorted s q t := by
    intro s
    unfold onSorted
    have : included (t * c) (s.map (fun p => (p.1, p.2 * c))) = (included t s).map (fun p => (p.1, p.2 * c)) := by
      unfold included
      rw [List.filter_map]
      congr 1
      apply List.filter_congr
      intro p _
      simp only [Function.comp, gt_iff_lt, mul_lt_mul_iff_of_pos_right hc]
    rw [this, List.map_map, List.map_map]
    have h2 : (included t s).map (Prod.snd ∘ fun p : K × K => (p.1, p.2 * c)) = ((included t s).map Prod.snd).map (· * c) := by
      rw [List.map_map]; rfl
    rw [h2, core_scale _ _ _ _ hc]
    rfl
  constructor
  · rintro ⟨s, hs, rfl⟩
    exact ⟨_, ⟨hs.1.map _, by rw [List.pairwise_map]; exact hs.2⟩, key s⟩
  · rintro ⟨s, hs, rfl⟩
    have hback : ∀ l' : List (K × K), (l'.map (fun p => (p.1, p.2 * c))).map (fun p => (p.1, p.2 / c)) = l' := by
      intro l'
      rw [List.map_map]
      conv_rhs => rw [← List.map_id l']
      apply List.map_congr_left
      rintro ⟨a, b⟩ _
      simp only [Function.comp, id]
      rw [mul_div_cancel_right₀ _ hc.ne']
    have hforw : (s.map (fun p => (p.1, p.2 / c))).map (fun p => (p.1, p.2 * c)) = s := by
      rw [List.map_map]
      conv_rhs => rw [← List.map_id s]
      apply List.map_congr_left
      rintro ⟨a, b⟩ _
      simp only [Function.comp, id]
      rw [div_mul_cancel₀ _ hc.ne']
    refine ⟨s.map (fun p => (p.1, p.2 / c)), ⟨?_, ?_⟩, ?_⟩
    · have := hs.1.map (fun p : K × K => (p.1, p.2 / c))
      rwa [hback] at this
    · rw [List.pairwise_map]; exact hs.2
    · rw [← key, hforw]

/-- `np.quantile(d, q)`, linear interpolation, as NumPy documents it: with `v = q (n-1)`, the sorted value at `⌊v⌋` plus
the fraction of the way to the next one -/
def IsLinearQuantile (ds : List K) (q x : K) : Prop :=
  ∃ (i : ℕ) (f : K), q * (ds.length - 1 : ℕ) = i + f ∧ 0 ≤ f ∧ f < 1 ∧ i < ds.length ∧
    x = ds.getD i 0 + f * ((if i + 1 < ds.length then ds.getD (i + 1) 0 else ds.getD i 0) - ds.getD i 0)

theorem cumsum_const (acc w : K) (n i : ℕ) (hi : i < n) :
    (cumsumFrom acc (List.replicate n w)).getD i 0 = acc + (i + 1) * w := by
  induction n generalizing acc i with
  | zero => omega
  | succ n ih =>
    rw [List.replicate_succ, cumsumFrom]
    cases i with
    | zero => simp
    | succ i =>
      have := ih (acc + w) i (by omega)
      simp only [List.getD_cons_succ]
      rw [this]; push_cast; ring

theorem cweights_const (w : K) (n i : ℕ) (hi : i < n) : (cweights (List.replicate n w)).getD i 0 = i * w := by
  unfold cweights
  have h0 : (cumsumFrom 0 (List.replicate n w)).headD 0 = w := by
    cases n with
    | zero => omega
    | succ n => simp [List.replicate_succ, cumsumFrom]
  rw [h0]
  have hlen : i < (cumsumFrom 0 (List.replicate n w)).length := by rw [cumsum_length]; simpa using hi
  have := cumsum_const 0 w n i hi
  rw [List.getD_eq_getElem _ _ hlen] at this
  rw [List.getD_eq_getElem _ _ (by simpa using hlen), List.getElem_map, this]
  ring

/-- The claim: equal weights give the unweighted linear quantile. -/
def C44_statement : Prop :=
  ∀ (ds s : List ℚ) (w t q x : ℚ), 0 ≤ t → t < w → 0 ≤ q → q ≤ 1 → s.Perm ds → s.Pairwise (· ≤ ·) →
    Outcome (ds.map (fun d => (d, w))) q t (.ok x) → IsLinearQuantile s q x

theorem C44_refuted : ¬ C44_statement := by
  intro h
  have h2 : onSorted [((0 : ℚ), (1 : ℚ)), (1, 1)] (999995 / 1000000) 0 = .ok 0 := by
    have hc : close1 (999995 / 1000000 : ℚ) := by unfold close1; norm_num [abs_of_neg]
    have hl : leftIdx [(1 : ℚ), 1] (999995 / 1000000) = 0 := by decide +kernel
    simp only [onSorted, included]
    simp only [List.filter, gt_iff_lt, zero_lt_one, decide_true, List.map_cons, List.map_nil, core]
    rw [if_neg (by simp), if_pos hc, hl]
    congr 1
    decide +kernel
  obtain ⟨i, f, h3, h4, h5, h6, h7⟩ := h [0, 1] [0, 1] 1 0 (999995 / 1000000) 0 le_rfl (by norm_num) (by norm_num) (by norm_num)
    (List.Perm.refl _) (by simp) ⟨[(0, 1), (1, 1)], ⟨List.Perm.refl _, by simp⟩, h2⟩
  have hi : i = 0 := by
    have : (i : ℚ) < 1 := by norm_num at h3; linarith
    have : i < 1 := by exact_mod_cast this
    omega
  subst hi
  norm_num at h3 h7
  rw [← h3] at h7
  norm_num at h7

/-- **C44** (part) equal weights give the unweighted linear quantile, for `q = 1` and for every `q` at least `1.001e-5`
below 1. Missing: `q` just below 1 (`C44_refuted`). -/
theorem C44_equal_weights_partial (ds s : List K) (w t q x : K) (ht : 0 ≤ t) (hw : t < w) (h0 : 0 ≤ q) (h1 : q ≤ 1)
    (hc : q = 1 ∨ ¬ close1 q) (hp : s.Perm ds) (hs : s.Pairwise (· ≤ ·))
    (hx : Outcome (ds.map (fun d => (d, w))) q t (.ok x)) : IsLinearQuantile s q x := by
  obtain ⟨s', hs', hx⟩ := hx
  have hw0 : 0 < w := lt_of_le_of_lt ht hw
  -- the sorted pairs are the sorted values with the common weight
  have hsnd : ∀ p ∈ s', p.2 = w := by
    intro p hp'
    have := hs'.1.mem_iff.mp hp'
    obtain ⟨d, _, rfl⟩ := List.mem_map.mp this
    rfl
  have hinc : included t s' = s' := by
    unfold included
    rw [List.filter_eq_self]
    intro p hp'
    rw [hsnd p hp']; simpa using hw
  have hfst : s'.map Prod.fst = s := by
    refine List.Perm.eq_of_pairwise (le := (· ≤ ·)) (fun a b _ _ h1 h2 => le_antisymm h1 h2) ?_ hs ?_
    · rw [List.pairwise_map]; exact hs'.2
    · have := hs'.1.map Prod.fst
      rw [List.map_map] at this
      have h2 : ds.map (Prod.fst ∘ fun d => (d, w)) = ds := by
        conv_rhs => rw [← List.map_id ds]
        rfl
      rw [h2] at this
      exact this.trans hp.symm
  have hws : s'.map Prod.snd = List.replicate s.length w := by
    rw [List.eq_replicate_iff]
    refine ⟨by rw [← hfst]; simp, ?_⟩
    intro b hb
    obtain ⟨p, hp', rfl⟩ := List.mem_map.mp hb
    exact hsnd p hp'
  unfold onSorted at hx
  rw [hinc, hfst, hws] at hx
  have hne : List.replicate s.length w ≠ [] := by
    intro he; rw [he] at hx; simp [core] at hx
  have hn : 0 < s.length := by
    rw [Nat.pos_iff_ne_zero]; intro h; rw [h] at hne; simp at hne
  have hpos : ∀ v ∈ List.replicate s.length w, 0 < v := by
    intro v hv; rw [List.eq_of_mem_replicate hv]; exact hw0
  have L := left_facts _ hne hpos q h0
  have hmid : midPoint (List.replicate s.length w) q = q * ((s.length - 1 : ℕ) * w) := by
    rw [midPoint_eq _ hne, List.length_replicate, cweights_const w s.length _ (by omega)]
  generalize hi : leftIdx (List.replicate s.length w) q = i at L
  have hilt : i < s.length := by have := L.lt; rw [hi] at this; simpa using this
  have hle := L.le
  rw [hi, hmid, cweights_const w _ _ hilt, ← mul_assoc] at hle
  have hle' : (i : K) ≤ q * (s.length - 1 : ℕ) := le_of_mul_le_mul_right hle hw0
  rcases core_cases s (List.replicate s.length w) (by simp) hne hpos q h0 h1 with ⟨hcl, he⟩ | ⟨hcl, ha, f, hf0, hf1, hf, he⟩ | ⟨hcl, hlen, he⟩
  · -- q = 1
    have hq1 : q = 1 := hc.resolve_right (fun h => h hcl)
    subst hq1
    have hlast := left_one _ hne hpos
    rw [hi, List.length_replicate] at hlast
    refine ⟨i, 0, ?_, le_rfl, zero_lt_one, hilt, ?_⟩
    · rw [hlast]; simp
    · rw [hi, hx] at he
      simp only [Except.ok.injEq] at he
      rw [he]; simp
  · rw [hi] at ha hf he
    rw [List.length_replicate] at ha
    rw [hmid, cweights_const w _ _ hilt, cweights_const w _ _ ha] at hf
    refine ⟨i, f, ?_, hf0, hf1, hilt, ?_⟩
    · rw [hf]
      push_cast
      field_simp
      ring
    · rw [hx] at he
      simp only [Except.ok.injEq] at he
      rw [he, if_pos ha]; ring
  · rw [List.length_replicate] at hlen
    have hi0 : i = 0 := by omega
    subst hi0
    refine ⟨0, 0, by rw [hlen]; simp, le_rfl, zero_lt_one, hn, ?_⟩
    rw [hx] at he
    simp only [Except.ok.injEq] at he
    rw [he]; simp

/-- weights 1, 2, 0 on values 3, 1, 2 with threshold 0: the hypotheses of C41-C44 hold -/
example : (∃ v, Counts [((3 : ℚ), (1 : ℚ)), (1, 2), (2, 0)] 0 v) ∧ (1 / 2 : ℚ) ≤ 1 ∧ ¬ close1 (1 / 2 : ℚ) ∧
    SortOf [((3 : ℚ), (1 : ℚ)), (1, 2), (2, 0)] [(1, 2), (2, 0), (3, 1)] := by
  refine ⟨⟨3, 1, by simp, by norm_num⟩, by norm_num, by unfold close1; norm_num [abs_of_neg], ?_, by norm_num⟩
  decide

end Verif.Quant
