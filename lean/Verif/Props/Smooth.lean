import Verif.Model.Smooth
import Mathlib.Analysis.SpecialFunctions.Exp
import Mathlib.Analysis.Real.Sqrt
import Mathlib.Analysis.Real.Pi.Bounds
import Mathlib.Data.List.Forall2
import Mathlib.Tactic.Linarith
import Mathlib.Tactic.Ring
import Mathlib.Tactic.FieldSimp
import Mathlib.Tactic.NormNum
import Mathlib.Tactic.Positivity

/-! Properties C45 and C46: smoothing of unevenly spaced samples. -/

namespace Verif.Smooth
open Verif.Py

/-! ### averages -/

theorem wsum_bounds (ws : List ℝ) (win : Samples) (f : ℕ) (lo hi : ℝ) (hl : ws.length = win.length)
    (hw : ∀ w ∈ ws, 0 ≤ w) (hb : ∀ p ∈ win, lo ≤ p.2.getD f 0 ∧ p.2.getD f 0 ≤ hi) :
    lo * ws.sum ≤ (List.zipWith (fun w p => w * p.2.getD f 0) ws win).sum ∧
    (List.zipWith (fun w p => w * p.2.getD f 0) ws win).sum ≤ hi * ws.sum := by
  induction ws generalizing win with
  | nil => simp
  | cons w ws ih =>
    cases win with
    | nil => simp at hl
    | cons p win =>
      obtain ⟨h1, h2⟩ := ih win (by simpa using hl) (fun x hx => hw x (by simp [hx])) (fun x hx => hb x (by simp [hx]))
      obtain ⟨h3, h4⟩ := hb p (by simp)
      have hw0 := hw w (by simp)
      simp only [List.zipWith_cons_cons, List.sum_cons]
      constructor <;> nlinarith

theorem colAvg_bounds (ws : List ℝ) (win : Samples) (f : ℕ) (lo hi : ℝ) (hl : ws.length = win.length)
    (hw : ∀ w ∈ ws, 0 ≤ w) (hs : 0 < ws.sum) (hb : ∀ p ∈ win, lo ≤ p.2.getD f 0 ∧ p.2.getD f 0 ≤ hi) :
    lo ≤ colAvg ws win f ∧ colAvg ws win f ≤ hi := by
  obtain ⟨h1, h2⟩ := wsum_bounds ws win f lo hi hl hw hb
  unfold colAvg
  exact ⟨(le_div_iff₀ hs).mpr h1, (div_le_iff₀ hs).mpr h2⟩

/-- samples are in increasing order of x -/
def Ordered (s : Samples) : Prop := s.Pairwise (fun a b => a.1 ≤ b.1)

theorem search_spec (x0 : ℝ) (s : Samples) (h : Ordered s) :
    (∀ i < searchLeft x0 s, (s.getD i (0, [])).1 < x0) ∧
    (∀ i < s.length, searchLeft x0 s ≤ i → x0 ≤ (s.getD i (0, [])).1) := by
  induction s with
  | nil => simp [searchLeft]
  | cons p s ih =>
    unfold Ordered at h
    rw [List.pairwise_cons] at h
    obtain ⟨ih1, ih2⟩ := ih h.2
    unfold searchLeft at *
    by_cases hc : p.1 < x0
    · rw [List.countP_cons_of_pos (by simpa using hc)]
      constructor
      · intro i hi
        cases i with
        | zero => simpa using hc
        | succ i => simpa using ih1 i (by omega)
      · intro i hi hk
        cases i with
        | zero => omega
        | succ i => simpa using ih2 i (by simpa using hi) (by omega)
    · rw [List.countP_cons_of_neg (by simpa using hc)]
      have hz : s.countP (fun p => decide (p.1 < x0)) = 0 := by
        rw [List.countP_eq_zero]
        intro x hx
        have := h.1 x hx
        simp only [decide_eq_true_eq, not_lt]
        linarith
      rw [hz]
      refine ⟨by simp, fun i hi _ => ?_⟩
      cases i with
      | zero => simpa using hc
      | succ i => simpa using ih2 i (by simpa using hi) (by omega)

/-! ### specification of the fall back: linear interpolation with constant ends -/

/-- `v` is the value at `x0` of the piecewise linear curve through the (sorted) samples, for the first feature; before
the first and after the last sample the end values -/
def IsInterp (s : Samples) (x0 v : ℝ) : Prop :=
  ((∀ p ∈ s, x0 ≤ p.1) ∧ ∃ p, s.head? = some p ∧ v = p.2.getD 0 0) ∨
  ((∀ p ∈ s, p.1 < x0) ∧ ∃ p, s.getLast? = some p ∧ v = p.2.getD 0 0) ∨
  ∃ l a b r, s = l ++ a :: b :: r ∧ a.1 < x0 ∧ x0 ≤ b.1 ∧
    v = a.2.getD 0 0 + (x0 - a.1) / (b.1 - a.1) * (b.2.getD 0 0 - a.2.getD 0 0)

theorem getD_mem {s : Samples} {i : ℕ} (h : i < s.length) : s.getD i (0, []) ∈ s := by
  rw [List.getD_eq_getElem _ _ h]; exact List.getElem_mem _

theorem search_le (x0 : ℝ) (s : Samples) : searchLeft x0 s ≤ s.length := List.countP_le_length

theorem mem_getD {s : Samples} {p : ℝ × List ℝ} (h : p ∈ s) : ∃ i < s.length, s.getD i (0, []) = p := by
  obtain ⟨i, hi, rfl⟩ := List.getElem_of_mem h
  exact ⟨i, hi, List.getD_eq_getElem _ _ hi⟩

theorem lerp_eq (x0 : ℝ) (a b : ℝ × List ℝ) (h1 : a.1 < x0) (h2 : x0 ≤ b.1) :
    lerp x0 a b = a.2.getD 0 0 + (x0 - a.1) / (b.1 - a.1) * (b.2.getD 0 0 - a.2.getD 0 0) := by
  unfold lerp
  have h : x0 - a.1 + (b.1 - x0) = b.1 - a.1 := by ring
  have h0 : b.1 - a.1 ≠ 0 := by linarith
  rw [h]
  field_simp
  ring

/-- **C45** (part) with one feature, where all weights vanish, the result is the linear interpolation of the neighbouring
samples (of the window), and the end value outside -/
theorem C45_fallback_partial (pdf : ℝ → ℝ → ℝ → ℝ) (sp x0 : ℝ) (win : Samples) (hne : win ≠ []) (ho : Ordered win)
    (hM : ∀ p ∈ win, p.2.length = 1)
    (hz : ¬ (weights pdf x0 sp win).sum > 0) :
    ∃ v, smoothAt pdf 1 sp true x0 win = .ok [v] ∧ IsInterp win x0 v := by
  obtain ⟨h1, h2⟩ := search_spec x0 win ho
  have hlen : 0 < win.length := List.length_pos_of_ne_nil hne
  have hone : ∀ p ∈ win, p.2 = [p.2.getD 0 0] := by
    intro p hp
    obtain ⟨x, hx⟩ := List.length_eq_one_iff.mp (hM p hp)
    rw [hx]; simp
  unfold smoothAt
  rw [if_neg hz, if_pos rfl]
  unfold fallback
  by_cases hk : searchLeft x0 win = win.length
  · rw [if_pos hk]
    obtain ⟨p, hp⟩ : ∃ p, win.getLast? = some p := ⟨_, List.getLast?_eq_getLast_of_ne_nil hne⟩
    rw [hp]
    have hpm : p ∈ win := List.mem_of_getLast? hp
    refine ⟨p.2.getD 0 0, by simp only; rw [← hone p hpm], Or.inr (Or.inl ⟨?_, p, hp, rfl⟩)⟩
    intro q hq
    obtain ⟨i, hi, rfl⟩ := mem_getD hq
    exact h1 i (by omega)
  · rw [if_neg hk]
    by_cases hk0 : searchLeft x0 win = 0
    · rw [if_pos hk0]
      obtain ⟨p, rest, rfl⟩ := List.exists_cons_of_ne_nil hne
      refine ⟨p.2.getD 0 0, by simp only [List.headD_cons]; rw [← hone p (by simp)], Or.inl ⟨?_, p, rfl, rfl⟩⟩
      intro q hq
      obtain ⟨i, hi, rfl⟩ := mem_getD hq
      exact h2 i hi (by omega)
    · rw [if_neg hk0, if_pos rfl]
      have hlt : searchLeft x0 win < win.length := lt_of_le_of_ne (search_le x0 win) hk
      have ha := h1 (searchLeft x0 win - 1) (by omega)
      have hb := h2 (searchLeft x0 win) hlt le_rfl
      refine ⟨_, rfl, Or.inr (Or.inr ⟨win.take (searchLeft x0 win - 1), win.getD (searchLeft x0 win - 1) (0, []),
        win.getD (searchLeft x0 win) (0, []), win.drop (searchLeft x0 win + 1), ?_, ha, hb, lerp_eq x0 _ _ ha hb⟩)⟩
      rw [List.getD_eq_getElem _ _ (by omega), List.getD_eq_getElem _ _ hlt]
      obtain ⟨k, hk⟩ : ∃ k, searchLeft x0 win = k + 1 := ⟨searchLeft x0 win - 1, by omega⟩
      simp only [hk, Nat.add_sub_cancel]
      rw [← List.drop_eq_getElem_cons (by omega : k + 1 < win.length), ← List.drop_eq_getElem_cons (by omega : k < win.length),
        List.take_append_drop]

/-- With several features the fall back between samples raises instead of interpolating. -/
theorem C45_fallback_raises (pdf : ℝ → ℝ → ℝ → ℝ) (M : ℕ) (hM : M ≠ 1) (sp x0 : ℝ) (win : Samples)
    (hz : ¬ (weights pdf x0 sp win).sum > 0) (h0 : searchLeft x0 win ≠ 0) (h1 : searchLeft x0 win ≠ win.length) :
    smoothAt pdf M sp true x0 win = .error .TypeError := by
  unfold smoothAt fallback
  rw [if_neg hz, if_pos rfl, if_neg h1, if_neg h0, if_neg hM]

/-- the bounds `lo f`, `hi f` hold for the features of all samples -/
def Bounds (M : ℕ) (s : Samples) (lo hi : ℕ → ℝ) : Prop := ∀ p ∈ s, ∀ f < M, lo f ≤ p.2.getD f 0 ∧ p.2.getD f 0 ≤ hi f

/-- all samples have `M` features -/
def Features (M : ℕ) (s : Samples) : Prop := ∀ p ∈ s, p.2.length = M

theorem smoothAt_bounds (pdf : ℝ → ℝ → ℝ → ℝ) (hpdf : ∀ a b c, 0 ≤ pdf a b c) (M : ℕ) (sp x0 : ℝ) (arr : Bool)
    (win : Samples) (ho : Ordered win) (hM : Features M win) (lo hi : ℕ → ℝ) (hb : Bounds M win lo hi) (ys : List ℝ)
    (h : smoothAt pdf M sp arr x0 win = .ok ys) :
    ys.length = M ∧ ∀ f < M, lo f ≤ ys.getD f 0 ∧ ys.getD f 0 ≤ hi f := by
  unfold smoothAt at h
  by_cases hs : (weights pdf x0 sp win).sum > 0
  · rw [if_pos hs] at h
    simp only [Except.ok.injEq] at h
    subst h
    refine ⟨by simp, fun f hf => ?_⟩
    rw [List.getD_eq_getElem _ _ (by simpa using hf)]
    simp only [List.getElem_map, List.getElem_range]
    refine colAvg_bounds _ _ f _ _ (by simp [weights]) ?_ hs (fun p hp => hb p hp f hf)
    intro w hw
    obtain ⟨p, _, rfl⟩ := List.mem_map.mp hw
    exact hpdf _ _ _
  · rw [if_neg hs] at h
    split at h
    · unfold fallback at h
      obtain ⟨h1, h2⟩ := search_spec x0 win ho
      split at h
      · cases hl : win.getLast? with
        | none => rw [hl] at h; simp at h
        | some p =>
          rw [hl] at h
          simp only [Except.ok.injEq] at h
          subst h
          have hp := List.mem_of_getLast? hl
          exact ⟨hM p hp, hb p hp⟩
      · rename_i hk
        have hlt : searchLeft x0 win < win.length := lt_of_le_of_ne (search_le x0 win) hk
        split at h
        · simp only [Except.ok.injEq] at h
          subst h
          cases win with
          | nil => simp at hlt
          | cons p rest => exact ⟨hM p (by simp), hb p (by simp)⟩
        · rename_i hk0
          split at h
          · rename_i hM1
            subst hM1
            simp only [Except.ok.injEq] at h
            subst h
            refine ⟨rfl, fun f hf => ?_⟩
            have hf0 : f = 0 := by omega
            subst hf0
            have ha := h1 (searchLeft x0 win - 1) (by omega)
            have hb' := h2 (searchLeft x0 win) hlt le_rfl
            have hma := hb _ (getD_mem (s := win) (i := searchLeft x0 win - 1) (by omega)) 0 (by omega)
            have hmb := hb _ (getD_mem hlt) 0 (by omega)
            generalize win.getD (searchLeft x0 win - 1) (0, []) = a at *
            generalize win.getD (searchLeft x0 win) (0, []) = b at *
            simp only [List.getD_cons_zero]
            unfold lerp
            have hd : 0 < (x0 - a.1) + (b.1 - x0) := by linarith
            rw [le_div_iff₀ hd, div_le_iff₀ hd]
            constructor <;> nlinarith
          · simp at h
    · simp at h

theorem window_sub (s : Samples) (i b : ℕ) : (window s i b).Sublist s := by
  unfold window
  exact (List.drop_sublist _ _).trans (List.take_sublist _ _)

theorem sortX_perm (s : Samples) : (sortX s).Perm s := by
  unfold sortX; split
  · exact List.Perm.refl _
  · exact List.mergeSort_perm _ _

theorem sortX_ordered (s : Samples) : Ordered (sortX s) := by
  unfold sortX; split
  · assumption
  · have := List.pairwise_mergeSort (le := fun a b : ℝ × List ℝ => decide (a.1 ≤ b.1))
      (by intro a b c; simp only [decide_eq_true_eq]; exact le_trans)
      (by intro a b; simpa using le_total a.1 b.1) s
    exact this.imp (by simp)

theorem sortX_of_ordered {s : Samples} (h : Ordered s) : sortX s = s := by
  unfold Ordered at h
  unfold sortX; rw [if_pos h]

theorem mapM_spec {β γ : Type} (f : β → Except PyErr γ) (l : List β) (r : List γ) (h : l.mapM f = .ok r) :
    List.Forall₂ (fun a b => f a = .ok b) l r := by
  induction l generalizing r with
  | nil => simp [pure, Except.pure] at h; subst h; exact .nil
  | cons a l ih =>
    rw [List.mapM_cons] at h
    cases h1 : f a with
    | error e => rw [h1] at h; simp [bind, Except.bind] at h
    | ok b =>
      cases h2 : l.mapM f with
      | error e => rw [h1, h2] at h; simp [bind, Except.bind] at h
      | ok bs =>
        rw [h1, h2] at h
        simp only [bind, Except.bind, pure, Except.pure, Except.ok.injEq] at h
        subst h
        exact .cons h1 (ih bs h2)

theorem forall₂_mem {β γ : Type} {R : β → γ → Prop} {l : List β} {r : List γ} (h : List.Forall₂ R l r) {y : γ} (hy : y ∈ r) :
    ∃ x, x ∈ l ∧ R x y := by
  induction h with
  | nil => simp at hy
  | cons h1 h2 ih =>
    rcases List.mem_cons.mp hy with rfl | hy
    · exact ⟨_, by simp, h1⟩
    · obtain ⟨x, hx, hR⟩ := ih hy; exact ⟨x, by simp [hx], hR⟩

/-- every output point is one smoothing call on part of the sorted data -/
theorem smooth_calls (pdf : ℝ → ℝ → ℝ → ℝ) (M : ℕ) (sp : ℝ) (bw : Option ℕ) (xr : Option (List ℝ)) (s : Samples)
    (out : List (List ℝ)) (h : smooth pdf M sp bw xr s = .ok out) :
    ∀ ys ∈ out, ∃ arr x0 win, win.Sublist (sortX s) ∧ smoothAt pdf M sp arr x0 win = .ok ys := by
  unfold smooth at h
  intro ys hys
  cases xr with
  | none =>
    simp only at h
    obtain ⟨i, _, hi⟩ := forall₂_mem (mapM_spec _ _ _ h) hys
    unfold selfAt at hi
    cases bw with
    | none => exact ⟨_, _, _, List.Sublist.refl _, hi⟩
    | some b => exact ⟨_, _, _, window_sub _ _ _, hi⟩
  | some xs =>
    simp only at h
    obtain ⟨i, _, hi⟩ := forall₂_mem (mapM_spec _ _ _ h) hys
    unfold resampAt at hi
    cases bw with
    | none => exact ⟨_, _, _, List.Sublist.refl _, hi⟩
    | some b => exact ⟨_, _, _, window_sub _ _ _, hi⟩

/-- **C45** (part) whenever the call returns, every output value of every feature lies between any bounds that hold for that
feature of all samples -/
theorem C45_between_partial (pdf : ℝ → ℝ → ℝ → ℝ) (hpdf : ∀ a b c, 0 ≤ pdf a b c) (M : ℕ) (sp : ℝ) (bw : Option ℕ)
    (xr : Option (List ℝ)) (s : Samples) (hM : Features M s) (lo hi : ℕ → ℝ) (hb : Bounds M s lo hi)
    (out : List (List ℝ)) (h : smooth pdf M sp bw xr s = .ok out) :
    ∀ ys ∈ out, ys.length = M ∧ ∀ f < M, lo f ≤ ys.getD f 0 ∧ ys.getD f 0 ≤ hi f := by
  intro ys hys
  obtain ⟨arr, x0, win, hsub, hcall⟩ := smooth_calls pdf M sp bw xr s out h ys hys
  have hmem : ∀ p ∈ win, p ∈ s := fun p hp => (sortX_perm s).mem_iff.mp (hsub.subset hp)
  exact smoothAt_bounds pdf hpdf M sp x0 arr win ((sortX_ordered s).sublist hsub) (fun p hp => hM p (hmem p hp)) lo hi
    (fun p hp => hb p (hmem p hp)) ys hcall

/-- **C45** (part) constants are reproduced -/
theorem C45_constant_partial (pdf : ℝ → ℝ → ℝ → ℝ) (hpdf : ∀ a b c, 0 ≤ pdf a b c) (M : ℕ) (sp : ℝ) (bw : Option ℕ)
    (xr : Option (List ℝ)) (s : Samples) (hM : Features M s) (c : ℕ → ℝ) (hc : ∀ p ∈ s, ∀ f < M, p.2.getD f 0 = c f)
    (out : List (List ℝ)) (h : smooth pdf M sp bw xr s = .ok out) :
    ∀ ys ∈ out, ∀ f < M, ys.getD f 0 = c f := by
  intro ys hys f hf
  have := (C45_between_partial pdf hpdf M sp bw xr s hM c c (fun p hp f hf => by rw [hc p hp f hf]; exact ⟨le_rfl, le_rfl⟩)
    out h ys hys).2 f hf
  exact le_antisymm this.2 this.1

/-- the call succeeds when, for every output point, some sample used there has positive weight -/
theorem smoothAt_ok (pdf : ℝ → ℝ → ℝ → ℝ) (M : ℕ) (sp x0 : ℝ) (arr : Bool) (win : Samples)
    (h : 0 < (weights pdf x0 sp win).sum) :
    smoothAt pdf M sp arr x0 win = .ok ((List.range M).map (colAvg (weights pdf x0 sp win) win)) := by
  unfold smoothAt; rw [if_pos h]

/-- The full claim: for every output point the call succeeds with values within the range of the samples. -/
def C45_statement : Prop :=
  ∀ (pdf : ℝ → ℝ → ℝ → ℝ), (∀ a b c, 0 ≤ pdf a b c) → ∀ (M : ℕ) (sp : ℝ) (xs : List ℝ) (s : Samples), 0 < M → 0 < sp →
    s ≠ [] → Features M s → ∃ out, smooth pdf M sp none (some xs) s = .ok out

/-- two features, weights underflowing to zero away from the samples: raises `TypeError` -/
theorem C45_refuted : ¬ C45_statement := by
  intro h
  obtain ⟨out, h⟩ := h (fun _ _ _ => 0) (by simp) 2 1 [1] [(0, [0, 0]), (2, [1, 1])] (by norm_num) (by norm_num) (by simp)
    (by simp [Features])
  have ho : Ordered [((0 : ℝ), [(0 : ℝ), 0]), (2, [1, 1])] := by simp [Ordered]
  have hk : searchLeft 1 [((0 : ℝ), [(0 : ℝ), 0]), (2, [1, 1])] = 1 := by
    unfold searchLeft
    rw [List.countP_cons_of_pos (by norm_num), List.countP_cons_of_neg (by norm_num)]; simp
  unfold smooth at h
  rw [sortX_of_ordered ho] at h
  have := C45_fallback_raises (fun _ _ _ => 0) 2 (by norm_num) 1 1 [((0 : ℝ), [(0 : ℝ), 0]), (2, [1, 1])]
    (by simp [weights]) (by rw [hk]; norm_num) (by rw [hk]; norm_num)
  simp only [List.mapM_cons, resampAt, this, bind, Except.bind] at h
  simp at h

/-! ### C46 -/

/-- the kernel average of feature `f` at `x0` over all samples -/
noncomputable def kernelMean (pdf : ℝ → ℝ → ℝ → ℝ) (sp x0 : ℝ) (s : Samples) (f : ℕ) : ℝ :=
  (s.map fun p => pdf x0 sp p.1 * p.2.getD f 0).sum / (s.map fun p => pdf x0 sp p.1).sum

theorem colAvg_kernel (pdf : ℝ → ℝ → ℝ → ℝ) (sp x0 : ℝ) (s : Samples) (f : ℕ) :
    colAvg (weights pdf x0 sp s) s f = kernelMean pdf sp x0 s f := by
  unfold colAvg kernelMean weights
  rw [List.zipWith_map_left]
  congr 2
  induction s with
  | nil => rfl
  | cons p s ih => simp [ih]

theorem kernelMean_perm (pdf : ℝ → ℝ → ℝ → ℝ) (sp x0 : ℝ) {s s' : Samples} (h : s.Perm s') (f : ℕ) :
    kernelMean pdf sp x0 s f = kernelMean pdf sp x0 s' f := by
  unfold kernelMean
  rw [(h.map _).sum_eq, (h.map _).sum_eq]

/-- The claim: with `xr=None` and no bandwidth limit, output entry `i` is the kernel average at the `i`-th input sample. -/
def C46_statement : Prop :=
  ∀ (pdf : ℝ → ℝ → ℝ → ℝ), (∀ x0 sp x, 0 < sp → 0 < pdf x0 sp x) → ∀ (M : ℕ) (sp : ℝ) (s : Samples), 0 < sp →
    Features M s → ∀ out, smooth pdf M sp none none s = .ok out →
    ∀ i < s.length, ∀ f < M, (out.getD i []).getD f 0 = kernelMean pdf sp (s.getD i (0, [])).1 s f

/-- what the code computes: output entry `i` belongs to the `i`-th *smallest* sample position -/
theorem C46_sorted_order (pdf : ℝ → ℝ → ℝ → ℝ) (hpdf : ∀ x0 sp x, 0 < sp → 0 < pdf x0 sp x) (M : ℕ) (sp : ℝ) (hsp : 0 < sp)
    (s : Samples) :
    ∃ out, smooth pdf M sp none none s = .ok out ∧ out.length = s.length ∧
      ∀ i < s.length, ∀ f < M, (out.getD i []).getD f 0 = kernelMean pdf sp ((sortX s).getD i (0, [])).1 s f := by
  have hlen : (sortX s).length = s.length := (sortX_perm s).length_eq
  have hcall : ∀ i ∈ List.range (sortX s).length, selfAt pdf M sp none (sortX s) i =
      .ok ((List.range M).map (kernelMean pdf sp ((sortX s).getD i (0, [])).1 s)) := by
    intro i hi
    rw [List.mem_range] at hi
    unfold selfAt
    simp only
    rw [smoothAt_ok]
    · congr 1
      apply List.map_congr_left
      intro f _
      rw [colAvg_kernel, kernelMean_perm pdf sp _ (sortX_perm s)]
    · have hne : sortX s ≠ [] := by intro h; rw [h] at hi; simp at hi
      unfold weights
      obtain ⟨p, r, hpr⟩ := List.exists_cons_of_ne_nil hne
      apply List.sum_pos
      · intro w hw
        obtain ⟨p, _, rfl⟩ := List.mem_map.mp hw
        exact hpdf _ _ _ hsp
      · simpa using hne
  have hmap : ∀ l : List ℕ, (∀ i ∈ l, selfAt pdf M sp none (sortX s) i =
      .ok ((List.range M).map (kernelMean pdf sp ((sortX s).getD i (0, [])).1 s))) →
      l.mapM (selfAt pdf M sp none (sortX s)) = .ok (l.map fun i => (List.range M).map (kernelMean pdf sp ((sortX s).getD i (0, [])).1 s)) := by
    intro l hl
    induction l with
    | nil => rfl
    | cons i l ih =>
      rw [List.mapM_cons, hl i (by simp), ih (fun j hj => hl j (by simp [hj]))]
      rfl
  refine ⟨_, hmap _ hcall, by simp [hlen], ?_⟩
  intro i hi f hf
  rw [List.getD_eq_getElem _ [] (by simpa [hlen] using hi)]
  simp only [List.getElem_map, List.getElem_range]
  rw [List.getD_eq_getElem _ _ (by simpa using hf)]
  simp

/-- **C46** (part) for samples already in increasing order entry `i` is the kernel average at the `i`-th input sample.
Missing: unsorted samples (`C46_refuted`). -/
theorem C46_sorted_input_partial (pdf : ℝ → ℝ → ℝ → ℝ) (hpdf : ∀ x0 sp x, 0 < sp → 0 < pdf x0 sp x) (M : ℕ) (sp : ℝ)
    (hsp : 0 < sp) (s : Samples) (ho : Ordered s) :
    ∃ out, smooth pdf M sp none none s = .ok out ∧ out.length = s.length ∧
      ∀ i < s.length, ∀ f < M, (out.getD i []).getD f 0 = kernelMean pdf sp (s.getD i (0, [])).1 s f := by
  have := C46_sorted_order pdf hpdf M sp hsp s
  rwa [sortX_of_ordered ho] at this

/-- the normal density -/
noncomputable def normPdf (x0 sp x : ℝ) : ℝ := Real.exp (-((x - x0) / sp) ^ 2 / 2) / (sp * Real.sqrt (2 * Real.pi))

theorem normPdf_pos (x0 sp x : ℝ) (h : 0 < sp) : 0 < normPdf x0 sp x := by
  unfold normPdf
  have := Real.pi_pos
  positivity

/-- **C46** fails for unsorted samples, already for two samples and the normal density -/
theorem C46_refuted : ¬ C46_statement := by
  intro h
  obtain ⟨out, h1, _, h3⟩ := C46_sorted_order normPdf normPdf_pos 1 1 one_pos [(2, [1]), (1, [0])]
  have h4 := h normPdf normPdf_pos 1 1 [(2, [1]), (1, [0])] one_pos (by simp [Features]) out h1 0 (by simp) 0 (by simp)
  rw [h3 0 (by simp) 0 (by simp)] at h4
  have hnot : ¬ Ordered [((2 : ℝ), [(1 : ℝ)]), (1, [0])] := by simp [Ordered]
  have hs : sortX [((2 : ℝ), [(1 : ℝ)]), (1, [0])] = [(1, [0]), (2, [1])] := by
    have hp := sortX_perm [((2 : ℝ), [(1 : ℝ)]), (1, [0])]
    have ho := sortX_ordered [((2 : ℝ), [(1 : ℝ)]), (1, [0])]
    refine List.Perm.eq_of_pairwise (le := fun a b : ℝ × List ℝ => a.1 ≤ b.1) ?_ ho (by simp) (hp.trans (.swap _ _ _))
    intro a b ha hb h1 h2
    have ha' := hp.mem_iff.mp ha
    simp only [List.mem_cons, List.not_mem_nil, or_false] at ha' hb
    rcases ha' with rfl | rfl <;> rcases hb with rfl | rfl
    · exact absurd h1 (by norm_num)
    · rfl
    · rfl
    · exact absurd h2 (by norm_num)
  rw [hs] at h4
  simp only [kernelMean, List.getD_cons_zero, List.map_cons, List.map_nil, List.sum_cons, List.sum_nil, mul_one, mul_zero,
    add_zero] at h4
  have hlt : normPdf 1 1 2 < normPdf 2 1 2 := by
    unfold normPdf
    apply div_lt_div_of_pos_right
    · rw [Real.exp_lt_exp]; norm_num
    · have := Real.pi_pos; positivity
  have hsym : normPdf 2 1 1 = normPdf 1 1 2 := by unfold normPdf; norm_num
  have hsame : normPdf 1 1 1 = normPdf 2 1 2 := by unfold normPdf; norm_num
  have hp : 0 < normPdf 2 1 2 + normPdf 1 1 2 := add_pos (normPdf_pos _ _ _ one_pos) (normPdf_pos _ _ _ one_pos)
  rw [hsym, hsame, add_comm (normPdf 1 1 2)] at h4
  rw [div_eq_div_iff hp.ne' hp.ne'] at h4
  have := mul_right_cancel₀ hp.ne' h4
  linarith

/-- the hypotheses of C45/C46 for three ordered samples with two features -/
example : Ordered [((0 : ℝ), [(1 : ℝ), 5]), (1, [2, 5]), (1, [3, 5])] ∧
    Features 2 [((0 : ℝ), [(1 : ℝ), 5]), (1, [2, 5]), (1, [3, 5])] ∧
    (∀ a b c : ℝ, 0 < b → 0 < normPdf a b c) := by
  exact ⟨by simp [Ordered], by simp [Features], fun a b c h => normPdf_pos a b c h⟩

/-! ### when the filter answers -/

theorem mapM_total {β γ : Type} (f : β → Except PyErr γ) (l : List β) (h : ∀ a ∈ l, ∃ b, f a = .ok b) : ∃ r, l.mapM f = .ok r := by
  induction l with
  | nil => exact ⟨[], rfl⟩
  | cons a l ih =>
    obtain ⟨b, hb⟩ := h a (by simp)
    obtain ⟨r, hr⟩ := ih fun x hx => h x (by simp [hx])
    exact ⟨b :: r, by rw [List.mapM_cons, hb, hr]; rfl⟩

theorem smoothAt_total (pdf : ℝ → ℝ → ℝ → ℝ) (sp x0 : ℝ) (win : Samples) (hne : win ≠ []) :
    ∃ r, smoothAt pdf 1 sp true x0 win = .ok r := by
  unfold smoothAt
  split_ifs with h1 h2
  · exact ⟨_, rfl⟩
  · unfold fallback
    split_ifs with a b c
    · rw [List.getLast?_eq_getLast_of_ne_nil hne]; exact ⟨_, rfl⟩
    · exact ⟨_, rfl⟩
    · exact ⟨_, rfl⟩
    · exact absurd rfl c
  · exact absurd rfl h2

theorem window_some {s : Samples} {i b : ℕ} (hs : s ≠ []) (hi : i ≤ s.length) (hb : 1 ≤ b) : window s i b ≠ [] := by
  have := List.length_pos_of_ne_nil hs
  intro h
  have h2 := congrArg List.length h
  unfold window at h2
  rw [List.length_drop, List.length_take, List.length_nil] at h2
  omega

/-- **C45, answers with a bandwidth.** With one feature, a bandwidth of at least one and at least one sample the filter never
raises, whatever the weights: also where all of them underflow, and both for the samples' own places and for other places. -/
theorem C45_band (pdf : ℝ → ℝ → ℝ → ℝ) (sp : ℝ) (b : ℕ) (hb : 1 ≤ b) (xr : Option (List ℝ)) (s : Samples) (hs : s ≠ []) :
    ∃ out, smooth pdf 1 sp (some b) xr s = .ok out := by
  have hne : sortX s ≠ [] := fun h => hs (List.Perm.nil_eq (h ▸ (sortX_perm s))).symm
  unfold smooth
  cases xr with
  | none =>
    refine mapM_total _ _ fun i hi => ?_
    unfold selfAt
    exact smoothAt_total pdf sp _ _ (window_some hne (List.mem_range.mp hi).le hb)
  | some xs =>
    refine mapM_total _ _ fun x _ => ?_
    unfold resampAt
    exact smoothAt_total pdf sp _ _ (window_some hne (search_le _ _) hb)

/-- **C45, the case that raises.** Without a bandwidth and without new places, one sample all of whose weights underflow
makes the whole call raise. -/
theorem C45_self_raises (pdf : ℝ → ℝ → ℝ → ℝ) (M : ℕ) (sp : ℝ) (s : Samples) (i : ℕ) (hi : i < (sortX s).length)
    (h : ∀ p ∈ s, pdf ((sortX s).getD i (0, [])).1 sp p.1 ≤ 0) : ∃ e, smooth pdf M sp none none s = .error e := by
  cases hr : smooth pdf M sp none none s with
  | error e => exact ⟨e, rfl⟩
  | ok out =>
    exfalso
    unfold smooth at hr
    have h2 := mapM_spec _ _ _ hr
    have hlen := h2.length_eq
    rw [List.length_range] at hlen
    have h3 := List.forall₂_iff_get.mp h2
    have h4 := h3.2 i (by rw [List.length_range]; exact hi) (by omega)
    simp only [List.get_eq_getElem, List.getElem_range] at h4
    unfold selfAt smoothAt at h4
    simp only at h4
    rw [if_neg] at h4
    · simp at h4
    · apply not_lt.mpr
      have neg : ∀ l : List ℝ, (∀ w ∈ l, w ≤ 0) → l.sum ≤ 0 := by
        intro l hl
        induction l with
        | nil => simp
        | cons a l ih =>
          rw [List.sum_cons]
          linarith [hl a (by simp), ih fun w hw => hl w (by simp [hw])]
      refine neg _ fun w hw => ?_
      obtain ⟨p, hp, rfl⟩ := List.mem_map.mp hw
      exact h p ((sortX_perm s).mem_iff.mp hp)

example : ∃ out, smooth (fun _ _ _ => 0) 1 1 (some 2) none [(3, [1]), (1, [5])] = .ok out :=
  C45_band _ _ 2 (by norm_num) _ _ (by simp)

end Verif.Smooth
