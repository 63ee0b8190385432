import Verif.Model.Cull
import Mathlib.Topology.Instances.Real.Lemmas
import Mathlib.Tactic.NormNum

/-! Property C38: cull_vectors. -/

namespace Verif.Cull
open Classical

section
variable {α : Type} [PseudoMetricSpace α] [Inhabited α] (vecs : List α) (tol : ℝ)

/-- points `i` and `j` are within the tolerance -/
def Near (i j : ℕ) : Prop := dist (vecs.getD i default) (vecs.getD j default) ≤ tol

theorem near_symm {i j : ℕ} (h : Near vecs tol i j) : Near vecs tol j i := by
  unfold Near at *; rwa [dist_comm]

theorem mem_ball {j i : ℕ} : i ∈ ball vecs tol j ↔ i < vecs.length ∧ Near vecs tol j i := by
  unfold ball Near; simp

theorem ball_sorted (j : ℕ) : (ball vecs tol j).Pairwise (· < ·) := by
  unfold ball; exact (List.pairwise_lt_range).filter _

/-- the loop invariant after `m` indices -/
structure Inv (n m : ℕ) (s : St) : Prop where
  len : s.flt.length = n
  flt : ∀ i (h : i < n), s.flt[i]? = some (decide (i ∉ s.flagged))
  sub : ∀ k ∈ s.flagged, k < n ∧ ∃ i < m, i ∉ s.flagged ∧ i < k ∧ Near vecs tol i k
  cov : ∀ i < m, i ∉ s.flagged → ∀ k < n, Near vecs tol i k → k ≠ i → k ∈ s.flagged

theorem clear_length (f : List Bool) (q : List ℕ) : (clear f q).length = f.length := by
  induction q generalizing f with
  | nil => rfl
  | cons a q ih => unfold clear at *; rw [List.foldl_cons, ih, List.length_set]

theorem clear_get (f : List Bool) (q : List ℕ) (i : ℕ) (h : i < f.length) :
    (clear f q)[i]? = if i ∈ q then some false else f[i]? := by
  induction q generalizing f with
  | nil => simp [clear]
  | cons a q ih =>
    unfold clear at *
    rw [List.foldl_cons, ih _ (by simpa using h)]
    by_cases h1 : i ∈ q
    · simp [h1]
    · by_cases h2 : i = a
      · subst h2; simp [h1, h]
      · simp [h1, h2, List.getElem?_set, Ne.symm h2]

theorem step_inv {m : ℕ} (hm : m < vecs.length) {s : St} (h : Inv vecs tol vecs.length m s) :
    Inv vecs tol vecs.length (m + 1) (step s m (ball vecs tol m)) := by
  unfold step
  by_cases hf : m ∈ s.flagged
  · rw [if_neg (by simp [hf])]
    refine ⟨h.len, h.flt, fun k hk => ?_, fun i hi hin k hk hn hne => ?_⟩
    · obtain ⟨a, i, hi, b⟩ := h.sub k hk; exact ⟨a, i, by omega, b⟩
    · rcases Nat.lt_succ_iff_lt_or_eq.mp hi with h1 | h1
      · exact h.cov i h1 hin k hk hn hne
      · subst h1; exact absurd hf hin
  · -- every smaller neighbour of m is already flagged
    have hsmall : ∀ i, i < m → Near vecs tol m i → i ∈ s.flagged := by
      intro i hi hn
      by_contra hin
      exact hf (h.cov i hi hin m hm (near_symm vecs tol hn) (by omega))
    by_cases hl : (ball vecs tol m).length > 1
    · rw [if_pos ⟨hf, hl⟩]
      have hq : ∀ k, k ∈ purge m (ball vecs tol m) → k < vecs.length ∧ Near vecs tol m k ∧ k ≠ m := by
        intro k hk
        unfold purge at hk
        rw [List.mem_filter, decide_eq_true_eq] at hk
        have := (mem_ball vecs tol).mp (List.mem_of_mem_tail hk.1)
        exact ⟨this.1, this.2, hk.2⟩
      have hmq : m ∉ purge m (ball vecs tol m) := fun hk => (hq m hk).2.2 rfl
      refine ⟨?_, fun i hi => ?_, fun k hk => ?_, fun i hi hin k hk hn hne => ?_⟩
      · simp only; rw [clear_length, h.len]
      · simp only
        rw [clear_get _ _ _ (by rw [h.len]; exact hi), h.flt i hi]
        by_cases h1 : i ∈ purge m (ball vecs tol m) <;> simp [h1]
      · simp only at hk ⊢
        rw [List.mem_append] at hk
        by_cases hks : k ∈ s.flagged
        · obtain ⟨a, i, hi, hin, hik, hn⟩ := h.sub k hks
          refine ⟨a, i, by omega, ?_, hik, hn⟩
          rw [List.mem_append, not_or]
          refine ⟨hin, fun hiq => ?_⟩
          exact hin (hsmall i hi (hq i hiq).2.1)
        · have hkq := hk.resolve_left hks
          obtain ⟨a, b, c⟩ := hq k hkq
          refine ⟨a, m, by omega, ?_, ?_, b⟩
          · rw [List.mem_append, not_or]; exact ⟨hf, hmq⟩
          · by_contra hkm
            exact hks (hsmall k (by omega) b)
      · simp only at hin ⊢
        rw [List.mem_append, not_or] at hin
        rw [List.mem_append]
        rcases Nat.lt_succ_iff_lt_or_eq.mp hi with h1 | h1
        · exact Or.inl (h.cov i h1 hin.1 k hk hn hne)
        · subst h1
          have hkb : k ∈ ball vecs tol i := (mem_ball vecs tol).mpr ⟨hk, hn⟩
          by_cases hkm : k < i
          · exact Or.inl (hsmall k hkm hn)
          · right
            unfold purge
            rw [List.mem_filter, decide_eq_true_eq]
            refine ⟨?_, hne⟩
            -- k is not the head: a smaller element (i itself) is in the sorted list
            obtain ⟨a, t, hat⟩ : ∃ a t, ball vecs tol i = a :: t := by
              cases hb : ball vecs tol i with
              | nil => rw [hb] at hkb; simp at hkb
              | cons a t => exact ⟨a, t, rfl⟩
            have hself : i ∈ ball vecs tol i := by
              rw [mem_ball]
              refine ⟨hm, ?_⟩
              unfold Near at *
              rw [dist_self]
              exact dist_nonneg.trans hn
            rw [hat] at hkb hself ⊢
            have hs := ball_sorted vecs tol i
            rw [hat, List.pairwise_cons] at hs
            rw [List.tail_cons]
            rcases List.mem_cons.mp hkb with e | e
            · subst e
              rcases List.mem_cons.mp hself with e2 | e2
              · exact absurd e2.symm hne
              · have := hs.1 i e2; omega
            · exact e
    · rw [if_neg (fun hh => hl hh.2)]
      refine ⟨h.len, h.flt, fun k hk => ?_, fun i hi hin k hk hn hne => ?_⟩
      · obtain ⟨a, i, hi, b⟩ := h.sub k hk; exact ⟨a, i, by omega, b⟩
      · rcases Nat.lt_succ_iff_lt_or_eq.mp hi with h1 | h1
        · exact h.cov i h1 hin k hk hn hne
        · subst h1
          exfalso
          apply hl
          have hself : i ∈ ball vecs tol i := by
            rw [mem_ball]
            refine ⟨hm, ?_⟩
            unfold Near at *
            rw [dist_self]
            exact dist_nonneg.trans hn
          have hkb : k ∈ ball vecs tol i := (mem_ball vecs tol).mpr ⟨hk, hn⟩
          match hb : ball vecs tol i with
          | [] => rw [hb] at hkb; simp at hkb
          | [a] =>
            rw [hb] at hkb hself
            simp at hkb hself
            exact absurd (hkb.trans hself.symm) hne
          | _ :: _ :: _ => simp

theorem loop_inv {m : ℕ} (hm : m ≤ vecs.length) {s : St} (h : Inv vecs tol vecs.length m s) :
    Inv vecs tol vecs.length vecs.length
      (loop s m ((List.range' m (vecs.length - m)).map (ball vecs tol))) := by
  generalize hd : vecs.length - m = d
  induction d generalizing m s with
  | zero =>
    have : m = vecs.length := by omega
    subst this
    simpa [loop] using h
  | succ d ih =>
    rw [List.range'_succ, List.map_cons, loop]
    exact ih (by omega) (step_inv vecs tol (by omega) h) (by omega)

theorem cull_inv : ∃ s : St, Inv vecs tol vecs.length vecs.length s ∧ cullVectors vecs tol = s.flt := by
  refine ⟨_, loop_inv vecs tol (m := 0) (s := ⟨List.replicate vecs.length true, []⟩) (Nat.zero_le _)
    ⟨by simp, ?_, by simp, by simp⟩, ?_⟩
  · intro i hi; simp [hi]
  · unfold cullVectors cullPairs balls
    rw [List.range_eq_range']
    simp

/-- `i` is kept by the returned mask -/
def Kept (i : ℕ) : Prop := (cullVectors vecs tol)[i]? = some true
def Removed (i : ℕ) : Prop := (cullVectors vecs tol)[i]? = some false

/-- **C38** the mask has one entry per vector and keeps a maximal well-spaced subset containing the first
vector: kept vectors are pairwise farther apart than `tol`, every removed vector is within `tol` of an *earlier*
kept one, and vectors without other neighbours are kept. -/
theorem C38_cull (hn : vecs ≠ []) :
    (cullVectors vecs tol).length = vecs.length ∧
    (∀ i < vecs.length, Kept vecs tol i ∨ Removed vecs tol i) ∧
    Kept vecs tol 0 ∧
    (∀ i < vecs.length, ∀ j < vecs.length, i ≠ j → Kept vecs tol i → Kept vecs tol j →
      tol < dist (vecs.getD i default) (vecs.getD j default)) ∧
    (∀ k < vecs.length, Removed vecs tol k → ∃ i < k, Kept vecs tol i ∧
      dist (vecs.getD i default) (vecs.getD k default) ≤ tol) ∧
    (∀ k < vecs.length, (∀ i < vecs.length, i ≠ k → tol < dist (vecs.getD i default) (vecs.getD k default)) →
      Kept vecs tol k) := by
  obtain ⟨s, hs, he⟩ := cull_inv vecs tol
  have hlen : 0 < vecs.length := List.length_pos_of_ne_nil hn
  have hk : ∀ i < vecs.length, (Kept vecs tol i ↔ i ∉ s.flagged) := by
    intro i hi; unfold Kept; rw [he, hs.flt i hi]; simp
  have hr : ∀ i < vecs.length, (Removed vecs tol i ↔ i ∈ s.flagged) := by
    intro i hi; unfold Removed; rw [he, hs.flt i hi]; simp
  refine ⟨by rw [he, hs.len], ?_, ?_, ?_, ?_, ?_⟩
  · intro i hi
    rw [hk i hi, hr i hi]; tauto
  · rw [hk 0 hlen]
    intro h0
    obtain ⟨_, i, _, _, hi, _⟩ := hs.sub 0 h0
    omega
  · intro i hi j hj hij hki hkj
    by_contra hc
    rw [hk i hi] at hki
    rw [hk j hj] at hkj
    exact hkj (hs.cov i hi hki j hj (not_lt.mp hc) (Ne.symm hij))
  · intro k hk' hrem
    rw [hr k hk'] at hrem
    obtain ⟨_, i, hi, hin, hik, hnear⟩ := hs.sub k hrem
    exact ⟨i, hik, (hk i hi).mpr hin, hnear⟩
  · intro k hk' hiso
    rw [hk k hk']
    intro hf
    obtain ⟨_, i, hi, _, hik, hnear⟩ := hs.sub k hf
    exact absurd hnear (not_le.mpr (hiso i hi (by omega)))

end

/-- **C38** relies on scipy returning each neighbour list in increasing order: with the same neighbours in
another order the first vector is culled although it should be kept. -/
theorem C38_order_matters :
    ∃ pairs pairs' : List (List ℕ), List.Forall₂ List.Perm pairs pairs' ∧
      cullPairs 3 pairs = [true, false, false] ∧ cullPairs 3 pairs' = [false, false, true] :=
  ⟨[[0, 1, 2], [0, 1], [0, 2]], [[2, 0, 1], [1, 0], [2, 0]],
    .cons (by decide) (.cons (by decide) (.cons (by decide) .nil)), by decide, by decide⟩

/-- concrete run: points 0, 1, 1.5, 4 on the line with tolerance 1 keep 0, 1.5 and 4 -/
example : ([0, 1, 1.5, 4] : List ℝ) ≠ [] ∧ cullPairs 4 [[0, 1], [0, 1, 2], [1, 2], [3]] = [true, false, true, true] := by
  exact ⟨by simp, by decide⟩

end Verif.Cull
