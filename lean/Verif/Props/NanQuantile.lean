import Verif.Model.NanQuantile
import Verif.Props.Quantile

/-! Property C220: weighted quantiles of data with missing entries. -/

namespace Verif.Quant
open Verif.Py

variable {K : Type} [Field K] [LinearOrder K] [IsStrictOrderedRing K] [FloorRing K]

/-- **C220** entries whose weight is NaN are left out -/
theorem C220_weights (s : List (Option K × Option K)) (q t : K) :
    onSortedN (s.filter fun p => p.2.isSome) q t = onSortedN s q t := by
  have : includedN t (s.filter fun p => p.2.isSome) = includedN t s := by
    unfold includedN
    induction s with
    | nil => rfl
    | cons p s ih =>
      obtain ⟨d, w⟩ := p
      cases w with
      | none => simpa using ih
      | some w => simp [List.filterMap_cons, ih]
  unfold onSortedN
  rw [this]

/-- **C220** without NaN the quantile is the one of the numbers -/
theorem C220_numbers (s : List (K × K)) (q t : K) :
    onSortedN (s.map fun p => (some p.1, some p.2)) q t = (onSorted s q t).map some := by
  have e : includedN t (s.map fun p => (some p.1, some p.2)) = (included t s).map fun p => (some p.1, p.2) := by
    unfold includedN included
    induction s with
    | nil => rfl
    | cons p s ih =>
      rw [List.map_cons, List.filterMap_cons, ih, List.filter_cons]
      by_cases h : p.2 > t
      · simp [h]
      · simp [h]
  unfold onSortedN onSorted
  rw [e, List.map_map, List.map_map]
  have h1 : (Prod.fst ∘ fun p : K × K => (some p.1, p.2)) = some ∘ Prod.fst := rfl
  have h2 : (Prod.snd ∘ fun p : K × K => (some p.1, p.2)) = Prod.snd := rfl
  rw [h1, h2, ← List.map_map]
  have hl : ((included t s).map Prod.fst).length = ((included t s).map Prod.snd).length := by simp
  generalize (included t s).map Prod.fst = ds at *
  generalize (included t s).map Prod.snd = ws at *
  have hg : ∀ i < ds.length, (ds.map some).getD i none = some (ds.getD i 0) := by
    intro i hi
    simp [List.getD_eq_getElem?_getD, hi]
  unfold coreN core
  by_cases hne : ws = []
  · simp [hne, Except.map]
  have pos := List.length_pos_of_ne_nil hne
  have hlt : leftIdx ws q < ws.length := by
    unfold leftIdx
    have := List.countP_le_length (p := fun c => decide (c ≤ midPoint ws q)) (l := cweights ws)
    rw [cweights_length] at this
    omega
  rw [if_neg hne, if_neg hne]
  by_cases hc : close1 q
  · rw [if_pos hc, if_pos hc]
    unfold interpN interp
    rw [hg _ (by omega)]
    rfl
  · rw [if_neg hc, if_neg hc]
    by_cases hk : leftIdx ws q + 1 < ws.length
    · rw [if_pos hk, if_pos hk]
      unfold interpN interp
      rw [hg _ (by omega), hg _ (by omega)]
      rfl
    · rw [if_neg hk, if_neg hk]
      unfold npQuantileN
      rw [if_pos (by simp), List.map_map]
      have : (fun d : Option K => d.getD 0) ∘ some = id := rfl
      rw [this, List.map_id]
      rfl

/-- after sorting and selecting, the numbers come before the missing values -/
theorem includedN_split {s : List (Option K × Option K)} (hs : SortedN s) (t : K) :
    ∃ (A : List (K × K)) (B : List K), includedN t s = A.map (fun p => (some p.1, p.2)) ++ B.map (fun w => (none, w)) ∧
      A.Pairwise (fun a b => a.1 ≤ b.1) := by
  have hp : (includedN t s).Pairwise fun a b => ∀ y, b.1 = some y → ∃ x, a.1 = some x ∧ x ≤ y := by
    unfold includedN
    refine List.Pairwise.filterMap _ (fun a b h c hc d hd => ?_) hs
    obtain ⟨a1, a2⟩ := a
    obtain ⟨b1, b2⟩ := b
    cases a2 <;> cases b2 <;> simp at hc hd
    obtain ⟨-, rfl⟩ := hc
    obtain ⟨-, rfl⟩ := hd
    exact h
  clear hs
  generalize includedN t s = L at *
  induction L with
  | nil => exact ⟨[], [], rfl, .nil⟩
  | cons p L ih =>
    obtain ⟨h1, h2⟩ := List.pairwise_cons.mp hp
    obtain ⟨A, B, e, hA⟩ := ih h2
    obtain ⟨d, w⟩ := p
    cases d with
    | some d =>
      refine ⟨(d, w) :: A, B, by simp [e], List.pairwise_cons.mpr ⟨fun a ha => ?_, hA⟩⟩
      obtain ⟨x, hx, hxy⟩ := h1 (some a.1, a.2) (by rw [e]; simp [ha]) a.1 rfl
      simp only [Option.some.injEq] at hx
      simpa [hx] using hxy
    | none =>
      cases A with
      | nil => exact ⟨[], w :: B, by simp [e], .nil⟩
      | cons a A =>
        obtain ⟨x, hx, -⟩ := h1 (some a.1, a.2) (by rw [e]; simp) a.1 rfl
        simp at hx

theorem includedN_pos {s : List (Option K × Option K)} {t : K} (ht : 0 ≤ t) : ∀ w ∈ (includedN t s).map Prod.snd, 0 < w := by
  intro w hw
  obtain ⟨p, hp, rfl⟩ := List.mem_map.mp hw
  obtain ⟨a, -, ha⟩ := List.mem_filterMap.mp hp
  obtain ⟨a1, a2⟩ := a
  cases a2 <;> simp at ha
  obtain ⟨h, rfl⟩ := ha
  exact ht.trans_lt h

theorem cweights_sum (w : K) (ws : List K) (i : ℕ) (hi : i < (w :: ws).length) :
    (cweights (w :: ws)).getD i 0 = ((w :: ws).take (i + 1)).sum - w := by
  have gen : ∀ (ws : List K) (acc : K) (i : ℕ), i < ws.length → (cumsumFrom acc ws).getD i 0 = acc + (ws.take (i + 1)).sum := by
    intro ws
    induction ws with
    | nil => intro acc i hi; simp at hi
    | cons v ws ih =>
      intro acc i hi
      cases i with
      | zero => simp [cumsumFrom]
      | succ i =>
        rw [cumsumFrom, List.getD_cons_succ, ih _ i (by simpa using hi), List.take_succ_cons, List.sum_cons, add_assoc]
  have hlen : i < (cumsumFrom 0 (w :: ws)).length := by rw [cumsum_length]; exact hi
  have := gen (w :: ws) 0 i hi
  unfold cweights
  rw [List.getD_eq_getElem _ _ hlen] at this
  rw [List.getD_eq_getElem _ _ (by simpa using hlen), List.getElem_map, this]
  simp [cumsumFrom]

/-- **C220** with missing values among at least two entries, the quantile is a number exactly when `q` times the weights
after the first is less than the weights of the numbers after the first: missing values count as the largest -/
theorem C220_number {s : List (Option K × Option K)} (hs : SortedN s) {q t : K} (ht : 0 ≤ t) (h0 : 0 ≤ q) (h1 : q ≤ 1) (hc : ¬ close1 q)
    (hlen : 1 < (includedN t s).length) (hmiss : ∃ p ∈ includedN t s, p.1 = none) :
    (∃ x, onSortedN s q t = .ok (some x)) ↔
      q * (((includedN t s).map Prod.snd).sum - ((includedN t s).map Prod.snd).headD 0) <
        (((includedN t s).filter fun p => p.1.isSome).map Prod.snd).sum - ((includedN t s).map Prod.snd).headD 0 := by
  have pos := includedN_pos (s := s) ht
  obtain ⟨A, B, e, -⟩ := includedN_split hs t
  have q1 : q < 1 := lt_of_le_of_ne h1 (by rintro rfl; exact hc close_one)
  have eN : (((includedN t s).filter fun p => p.1.isSome).map Prod.snd) = A.map Prod.snd := by
    rw [e, List.filter_append, List.filter_eq_self.mpr (fun p hp => by
      obtain ⟨a, -, rfl⟩ := List.mem_map.mp hp
      rfl), List.filter_eq_nil_iff.mpr (by simp)]
    simp
  have ew : (includedN t s).map Prod.snd = A.map Prod.snd ++ B := by
    rw [e]; simp [Function.comp_def]
  have ed : (includedN t s).map Prod.fst = (A.map fun p => some p.1) ++ B.map fun _ => none := by
    rw [e]; simp [Function.comp_def]
  have hB : B ≠ [] := by
    rintro rfl
    obtain ⟨p, hp, hn⟩ := hmiss
    rw [e] at hp
    simp only [List.map_nil, List.append_nil, List.mem_map] at hp
    obtain ⟨a, -, rfl⟩ := hp
    simp at hn
  rw [eN]
  unfold onSortedN
  have hlw : (A.map Prod.snd ++ B).length = (includedN t s).length := by rw [← ew]; simp
  rw [ew, ed]
  rw [ew] at pos
  have hk : ((A.map fun p => some p.1) ++ B.map fun _ => none : List (Option K)).length = (A.map Prod.snd ++ B).length := by simp
  have hget : ∀ i, (((A.map fun p => some p.1) ++ B.map fun _ => none : List (Option K)).getD i none).isSome ↔ i < A.length := by
    intro i
    rw [List.getD_eq_getElem?_getD, List.getElem?_append]
    split
    · rename_i hi
      simp at hi
      simp [hi]
    · rename_i hi
      simp at hi
      simp only [List.getElem?_map]
      cases B[i - (A.map fun p => some p.1).length]? <;> simpa using hi
  have hsum : (A.map Prod.snd).sum = ((A.map Prod.snd ++ B).take A.length).sum := by simp
  have hAl : A.length < (A.map Prod.snd ++ B).length := by
    have := List.length_pos_of_ne_nil hB
    rw [List.length_append, List.length_map]
    omega
  rw [hsum]
  generalize (A.map fun p => some p.1) ++ B.map (fun _ => none) = ds at *
  generalize A.map Prod.snd ++ B = ws at *
  have hlen' : 1 < ws.length := by omega
  have hne : ws ≠ [] := by rintro rfl; simp at hlen'
  have kk := left_last ws hne pos q h0 q1 hlen'
  have L := left_facts ws hne pos q h0
  have left : (∃ x, coreN ds ws q = .ok (some x)) ↔ leftIdx ws q + 1 < A.length := by
    unfold coreN
    rw [if_neg hne, if_neg hc, if_pos kk]
    unfold interpN
    have a := hget (leftIdx ws q)
    have b := hget (leftIdx ws q + 1)
    cases ha : ds.getD (leftIdx ws q) none with
    | none =>
      rw [ha] at a
      have : ¬ leftIdx ws q + 1 < A.length := fun h => by simp at a; omega
      simp [this]
    | some v =>
      rw [← b]
      cases hb : ds.getD (leftIdx ws q + 1) none <;> simp
  rw [left]
  obtain ⟨w, ws, rfl⟩ := List.exists_cons_of_ne_nil hne
  have hm : midPoint (w :: ws) q = q * ((w :: ws).sum - w) := by
    rw [midPoint_eq _ hne, cweights_sum w ws _ (by simp)]
    simp
  rw [List.headD_cons, ← hm]
  have m0 : 0 ≤ midPoint (w :: ws) q := mul_nonneg h0 (total_nonneg _ hne pos)
  rcases Nat.eq_zero_or_pos A.length with h | h
  · rw [h]
    have := pos w (by simp)
    simp only [not_lt_zero, List.take_zero, List.sum_nil, zero_sub, false_iff, not_lt]
    linarith
  · have cs := cweights_sum w ws (A.length - 1) (by omega)
    rw [Nat.sub_add_cancel h] at cs
    rw [← cs]
    constructor
    · intro hl
      refine (L.gt kk).trans_le ?_
      rcases Nat.lt_or_ge (leftIdx (w :: ws) q + 1) (A.length - 1) with h' | h'
      · exact (cweights_strict _ pos h' (by omega)).le
      · have : leftIdx (w :: ws) q + 1 = A.length - 1 := by omega
        rw [this]
    · intro hl
      by_contra hcon
      have := L.le
      rcases Nat.lt_or_ge (A.length - 1) (leftIdx (w :: ws) q) with h' | h'
      · have := cweights_strict _ pos h' L.lt
        linarith
      · have : A.length - 1 = leftIdx (w :: ws) q := by omega
        rw [this] at hl
        linarith

/-- **C220** a quantile that is a number lies between two included numbers -/
theorem C220_range {s : List (Option K × Option K)} (hs : SortedN s) {q t x : K} (ht : 0 ≤ t) (h0 : 0 ≤ q) (h1 : q ≤ 1)
    (hx : onSortedN s q t = .ok (some x)) :
    ∃ a b, (∃ w, (some a, w) ∈ includedN t s) ∧ (∃ w, (some b, w) ∈ includedN t s) ∧ a ≤ x ∧ x ≤ b := by
  have pos := includedN_pos (s := s) ht
  obtain ⟨A, B, e, hA⟩ := includedN_split hs t
  have hmem : ∀ i v, ((includedN t s).map Prod.fst).getD i none = some v → ∃ w, (some v, w) ∈ includedN t s := by
    intro i v h
    rw [List.getD_eq_getElem?_getD, List.getElem?_map] at h
    cases hg : (includedN t s)[i]? with
    | none => rw [hg] at h; simp at h
    | some p =>
      rw [hg] at h
      simp at h
      refine ⟨p.2, ?_⟩
      rw [← h]
      exact List.mem_of_getElem? hg
  have hord : ∀ i u v, ((includedN t s).map Prod.fst).getD i none = some u → ((includedN t s).map Prod.fst).getD (i + 1) none = some v → u ≤ v := by
    intro i u v hu hv
    rw [e] at hu hv
    have key : ∀ j z, ((A.map (fun p : K × K => ((some p.1 : Option K), p.2)) ++ B.map (fun w => (none, w))).map Prod.fst).getD j none = some z →
        ∃ h : j < A.length, A[j].1 = z := by
      intro j z h
      rw [List.getD_eq_getElem?_getD, List.getElem?_map, List.getElem?_append] at h
      split at h
      · rename_i hj
        have hj : j < A.length := by simpa using hj
        refine ⟨hj, ?_⟩
        simpa [hj] using h
      · simp only [List.getElem?_map] at h
        exfalso
        generalize B[(_ : ℕ)]? = o at h
        cases o <;> simp at h
    obtain ⟨hi, rfl⟩ := key i u hu
    obtain ⟨hi', rfl⟩ := key (i + 1) v hv
    exact List.pairwise_iff_getElem.mp hA i (i + 1) hi hi' (by omega)
  unfold onSortedN at hx
  have hdl : ((includedN t s).map Prod.fst).length = ((includedN t s).map Prod.snd).length := by simp
  generalize (includedN t s).map Prod.fst = ds at *
  have hwl : ((includedN t s).map Prod.snd).length = (includedN t s).length := by simp
  generalize hws : (includedN t s).map Prod.snd = ws at *
  unfold coreN at hx
  by_cases hne : ws = []
  · rw [if_pos hne] at hx; simp at hx
  have L := left_facts ws hne pos q h0
  rw [if_neg hne] at hx
  by_cases hc : close1 q
  · rw [if_pos hc] at hx
    unfold interpN at hx
    cases ha : ds.getD (leftIdx ws q) none with
    | none => rw [ha] at hx; simp at hx
    | some v =>
      rw [ha] at hx
      simp at hx
      exact ⟨v, v, hmem _ v ha, hmem _ v ha, hx.le, hx.ge⟩
  · rw [if_neg hc] at hx
    by_cases hk : leftIdx ws q + 1 < ws.length
    · rw [if_pos hk] at hx
      unfold interpN at hx
      cases ha : ds.getD (leftIdx ws q) none with
      | none => rw [ha] at hx; simp at hx
      | some u =>
        cases hb : ds.getD (leftIdx ws q + 1) none with
        | none => rw [ha, hb] at hx; simp at hx
        | some v =>
          rw [ha, hb] at hx
          simp at hx
          have uv := hord _ u v ha hb
          have g := cweights_strict ws pos (Nat.lt_succ_self (leftIdx ws q)) hk
          have g1 := L.le
          have g2 := L.gt hk
          refine ⟨u, v, hmem _ u ha, hmem _ v hb, ?_, ?_⟩
          · rw [← hx]
            have : 0 ≤ (v - u) * (midPoint ws q - (cweights ws).getD (leftIdx ws q) 0) /
                ((cweights ws).getD (leftIdx ws q + 1) 0 - (cweights ws).getD (leftIdx ws q) 0) :=
              div_nonneg (mul_nonneg (sub_nonneg.mpr uv) (sub_nonneg.mpr g1)) (sub_nonneg.mpr g.le)
            simp only [List.getD_eq_getElem?_getD] at this
            linarith
          · rw [← hx]
            have : (v - u) * (midPoint ws q - (cweights ws).getD (leftIdx ws q) 0) /
                ((cweights ws).getD (leftIdx ws q + 1) 0 - (cweights ws).getD (leftIdx ws q) 0) ≤ v - u := by
              rw [div_le_iff₀ (sub_pos.mpr g)]
              exact mul_le_mul_of_nonneg_left (by linarith) (sub_nonneg.mpr uv)
            simp only [List.getD_eq_getElem?_getD] at this
            linarith
    · rw [if_neg hk] at hx
      unfold npQuantileN at hx
      split at hx
      · rename_i hall
        have q1 : q < 1 := lt_of_le_of_ne h1 (by rintro rfl; exact hc close_one)
        have : ws.length = 1 := by
          by_contra hn
          have := List.length_pos_of_ne_nil hne
          exact hk (left_last ws hne pos q h0 q1 (by omega))
        obtain ⟨d, rfl⟩ : ∃ d, ds = [d] := List.length_eq_one_iff.mp (hdl.trans this)
        cases d with
        | none => simp at hall
        | some v =>
          simp [npQuantile] at hx
          exact ⟨v, v, hmem 0 v rfl, hmem 0 v rfl, hx.le, hx.ge⟩
      · simp at hx

/-- **C220** the property: a missing value is left out, like a missing weight -/
def C220_statement : Prop :=
  ∀ (s : List (Option ℚ × Option ℚ)) (q t : ℚ), SortedN s → 0 ≤ t → 0 ≤ q → q ≤ 1 → (∃ p ∈ s, p.1.isSome ∧ ∃ w, p.2 = some w ∧ t < w) →
    onSortedN (s.filter fun p => p.1.isSome) q t = onSortedN s q t

/-- **C220** is false: the median of 0, 1 and a missing value with equal weights is missing -/
theorem C220_refuted : ¬ C220_statement := by
  intro h
  have := h [(some 0, some 1), (some 1, some 1), (none, some 1)] (1 / 2) 0 (by
    unfold SortedN
    simp) le_rfl (by norm_num) (by norm_num)
    ⟨(some 0, some 1), by simp, rfl, 1, rfl, by norm_num⟩
  revert this
  decide +kernel

/-- the hypotheses are met by 0, 1, 2 and a missing value: the first third is a number, the median not -/
example : SortedN [((some 0 : Option ℚ), (some 1 : Option ℚ)), (some 1, some 1), (some 2, some 1), (none, some 2)] ∧
    onSortedN [((some 0 : Option ℚ), (some 1 : Option ℚ)), (some 1, some 1), (some 2, some 1), (none, some 2)] (1 / 3) 0 = .ok (some (4 / 3)) ∧
    onSortedN [((some 0 : Option ℚ), (some 1 : Option ℚ)), (some 1, some 1), (some 2, some 1), (none, some 2)] (1 / 2) 0 = .ok none := by
  refine ⟨?_, by decide +kernel, by decide +kernel⟩
  unfold SortedN
  simp

end Verif.Quant
