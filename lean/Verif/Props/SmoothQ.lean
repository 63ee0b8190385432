import Verif.Model.SmoothQ
import Verif.Props.Quantile
import Verif.Props.Smooth

/-! Property C181: smoothing with a median or with quantiles, and several weighted quantiles in one call. -/

namespace Verif.Quant
open Verif.Py

variable {K : Type} [Field K] [LinearOrder K] [IsStrictOrderedRing K] [FloorRing K]

theorem core_past (ds ws : List K) (hl : ds.length = ws.length) (h : ∀ w ∈ ws, 0 < w) (hlen : ws.length = 1) (q : K)
    (h0 : 0 ≤ q) (h1 : q ≤ 1) : core ds ws q = .ok (ds.getD 0 0) ∧ npQuantile ds q = ds.getD 0 0 := by
  have hne : ws ≠ [] := by rintro rfl; simp at hlen
  refine ⟨?_, ?_⟩
  · have L := left_facts ws hne h q h0
    have hz : leftIdx ws q = 0 := by have := L.lt; omega
    rcases core_cases ds ws hl hne h q h0 h1 with ⟨_, he⟩ | ⟨_, hlt, _⟩ | ⟨_, _, he⟩
    · rw [he, hz]
    · omega
    · exact he
  · unfold npQuantile
    rw [hl, hlen]
    simp

theorem vec_forall (ds ws : List K) (hl : ds.length = ws.length) (hne : ws ≠ []) (h : ∀ w ∈ ws, 0 < w) (qs : List K)
    (hq : ∀ q ∈ qs, 0 ≤ q ∧ q ≤ 1) :
    ∃ xs, vecCore ds ws qs = .ok xs ∧ List.Forall₂ (fun q x => core ds ws q = .ok x) qs xs := by
  unfold vecCore
  rw [if_neg hne]
  by_cases hp : qs.any (fun q => decide (past ws q)) = true
  · rw [if_pos hp]
    obtain ⟨q, hqm, hpq⟩ := List.any_eq_true.mp hp
    have hpq : past ws q := by simpa using hpq
    have hlen : ws.length = 1 := by
      rcases core_cases ds ws hl hne h q (hq q hqm).1 (hq q hqm).2 with ⟨hc, _⟩ | ⟨_, hlt, _⟩ | ⟨_, he, _⟩
      · exact absurd hc hpq.1
      · exact absurd hlt hpq.2
      · exact he
    refine ⟨_, rfl, ?_⟩
    rw [List.forall₂_map_right_iff, List.forall₂_same]
    intro q' hq'
    obtain ⟨a, b⟩ := core_past ds ws hl h hlen q' (hq q' hq').1 (hq q' hq').2
    rw [a, b]
  · rw [if_neg hp]
    refine ⟨_, rfl, ?_⟩
    rw [List.forall₂_map_right_iff, List.forall₂_same]
    intro q' hq'
    have hn : ¬ past ws q' := fun hc => hp (List.any_eq_true.mpr ⟨q', hq', by simpa using hc⟩)
    unfold core interpAt
    rw [if_neg hne]
    by_cases hc : close1 q'
    · rw [if_pos hc, if_pos hc]
    · have : leftIdx ws q' + 1 < ws.length := by
        by_contra hlt; exact hn ⟨hc, hlt⟩
      rw [if_neg hc, if_pos this, if_neg hc]

/-- **C181** asking for several quantiles at once (nonnegative threshold, some weight above it) returns one number per
quantile, and each is what `weighted_quantile` returns for that quantile alone, all for the same order of ties -/
theorem C181_together (l : List (K × K)) (qs : List K) (t : K) (ht : 0 ≤ t) (hq : ∀ q ∈ qs, 0 ≤ q ∧ q ≤ 1)
    (hex : ∃ v, Counts l t v) (r : Except PyErr (List K)) (hr : VecOutcome l qs t r) :
    ∃ s xs, SortOf l s ∧ r = .ok xs ∧ List.Forall₂ (fun q x => onSorted s q t = .ok x) qs xs := by
  obtain ⟨s, hs, rfl⟩ := hr
  have hpos : ∀ w ∈ (included t s).map Prod.snd, 0 < w := by
    intro w hw
    obtain ⟨p, h, rfl⟩ := List.mem_map.mp hw
    exact lt_of_le_of_lt ht (mem_included.mp h).2
  have hne : (included t s).map Prod.snd ≠ [] := by
    obtain ⟨v, w, h⟩ := hex
    intro he
    have : (v, w) ∈ included t s := mem_included.mpr ⟨hs.1.mem_iff.mpr h.1, h.2⟩
    rw [List.map_eq_nil_iff] at he
    rw [he] at this; simp at this
  obtain ⟨xs, h1, h2⟩ := vec_forall ((included t s).map Prod.fst) _ (by simp) hne hpos qs hq
  exact ⟨s, xs, hs, h1, h2⟩

/-- **C181** with no weight above the threshold several quantiles at once raise `IndexError`, however many are asked for -/
theorem C181_empty (l : List (K × K)) (qs : List K) (t : K) (hex : ¬ ∃ v, Counts l t v) (r : Except PyErr (List K))
    (hr : VecOutcome l qs t r) : r = .error .IndexError := by
  obtain ⟨s, hs, rfl⟩ := hr
  unfold vecOnSorted vecCore
  rw [if_pos]
  rw [List.map_eq_nil_iff, List.eq_nil_iff_forall_not_mem]
  rintro ⟨v, w⟩ h
  rw [mem_included, hs.1.mem_iff] at h
  exact hex ⟨v, w, h⟩

theorem vec_total (l : List (K × K)) (qs : List K) (t : K) : ∃ r, VecOutcome l qs t r := by
  obtain ⟨s, hs⟩ := exists_sort l
  exact ⟨_, s, hs, rfl⟩

/-- The claim without the condition on the threshold: asking for several quantiles at once is asking for each alone. -/
def C181_any_statement : Prop :=
  ∀ (l s : List (ℚ × ℚ)) (qs : List ℚ) (t : ℚ) (xs : List ℚ), (∀ q ∈ qs, 0 ≤ q ∧ q ≤ 1) → SortOf l s →
    vecOnSorted s qs t = .ok xs → List.Forall₂ (fun q x => onSorted s q t = .ok x) qs xs

/-- With a negative threshold samples of weight zero count. With the weights 1, 0 on the values 0, 1 the neighbour of the
median is past the end, which switches *all* quantiles to the unweighted formula: 0.999995 alone gives 1, next to the
median it gives 0.999995. -/
theorem C181_any_refuted : ¬ C181_any_statement := by
  intro h
  have hf : ∀ q : ℚ, 0 ≤ q → q < 1 → npQuantile [0, 1] q = q := by
    intro q h0 h1
    unfold npQuantile
    have : ⌊q * (([0, 1] : List ℚ).length - 1 : ℕ)⌋₊ = 0 := by
      rw [Nat.floor_eq_zero]; simpa using h1
    rw [this]; simp
  have hc : close1 (999995 / 1000000 : ℚ) := by unfold close1; norm_num [abs_of_neg]
  have hn : ¬ close1 (1 / 2 : ℚ) := by unfold close1; norm_num [abs_of_neg]
  have hl : leftIdx [(1 : ℚ), 0] (1 / 2) = 1 := by decide +kernel
  have hl' : leftIdx [(1 : ℚ), 0] (999995 / 1000000) = 1 := by decide +kernel
  have hi : included (-1) [((0 : ℚ), (1 : ℚ)), (1, 0)] = [(0, 1), (1, 0)] := by simp [included]
  have hv : vecOnSorted [((0 : ℚ), (1 : ℚ)), (1, 0)] [1 / 2, 999995 / 1000000] (-1)
      = .ok [1 / 2, 999995 / 1000000] := by
    unfold vecOnSorted vecCore
    rw [hi]
    simp only [List.map_cons, List.map_nil]
    have hp : past [(1 : ℚ), 0] (1 / 2) := ⟨hn, by rw [hl]; simp⟩
    have ha : ([1 / 2, 999995 / 1000000].any fun q : ℚ => decide (past [1, 0] q)) = true :=
      List.any_eq_true.mpr ⟨1 / 2, by simp, decide_eq_true hp⟩
    rw [if_neg (by simp), if_pos ha]
    rw [hf _ (by norm_num) (by norm_num), hf _ (by norm_num) (by norm_num)]
  have h2 := h [(0, 1), (1, 0)] [(0, 1), (1, 0)] [1 / 2, 999995 / 1000000] (-1) _ (by
      intro q hq; simp only [List.mem_cons, List.not_mem_nil, or_false] at hq; rcases hq with rfl | rfl <;> norm_num)
    ⟨List.Perm.refl _, by simp⟩ hv
  rw [List.forall₂_cons, List.forall₂_cons] at h2
  have h3 := h2.2.1
  unfold onSorted core at h3
  rw [hi] at h3
  simp only [List.map_cons, List.map_nil] at h3
  rw [if_neg (by simp), if_pos hc, hl'] at h3
  simp [interp] at h3
  norm_num at h3

/-- the hypotheses of `C181_together` for three values and three quantiles -/
example : (∀ q ∈ [(0 : ℚ), 1 / 2, 1], 0 ≤ q ∧ q ≤ 1) ∧ (∃ v, Counts [((3 : ℚ), (1 : ℚ)), (1, 2), (2, 0)] 0 v) ∧
    ∃ r, VecOutcome [((3 : ℚ), (1 : ℚ)), (1, 2), (2, 0)] [0, 1 / 2, 1] 0 r := by
  refine ⟨?_, ⟨3, 1, by simp, by norm_num⟩, vec_total _ _ _⟩
  intro q hq
  simp only [List.mem_cons, List.not_mem_nil, or_false] at hq
  rcases hq with rfl | rfl | rfl <;> norm_num

end Verif.Quant

namespace Verif.Smooth
open Verif.Py Verif.Quant

/-! ### argument checks -/

/-- **C181** the arguments that are refused with `ValueError`: something that is not numbers, a quantile outside [0,1], and
more than one quantile of more than one feature (of more than one sample) -/
theorem C181_refused (M N : ℕ) (a : Amethod) :
    validate M N a = .error .ValueError ↔
      a = .quantiles none ∨ ∃ qs, a = .quantiles (some qs) ∧
        ((∃ q ∈ qs, q < 0 ∨ 1 < q) ∨ (1 < M ∧ 1 < N ∧ 1 < qs.length)) := by
  have hw : wide M N ↔ 1 < M ∧ 1 < N := by
    unfold wide
    constructor
    · intro h
      rw [max_lt_iff] at h
      constructor
      · by_contra hc
        have : M * N ≤ 1 * N := Nat.mul_le_mul_right _ (by omega)
        omega
      · by_contra hc
        have : M * N ≤ M * 1 := Nat.mul_le_mul_left _ (by omega)
        omega
    · rintro ⟨h1, h2⟩
      rw [max_lt_iff]
      constructor <;> nlinarith
  cases a with
  | mean => simp [validate]
  | median => simp [validate]
  | quantiles q =>
    cases q with
    | none => simp [validate]
    | some qs =>
      simp only [validate, reduceCtorEq, Amethod.quantiles.injEq, Option.some.injEq, false_or]
      rw [exists_eq_left']
      by_cases h : ∀ q ∈ qs, 0 ≤ q ∧ q ≤ 1
      · rw [if_neg (by simpa using h)]
        have hn : ¬ ∃ q ∈ qs, q < 0 ∨ 1 < q := by
          rintro ⟨q, hq, h1⟩
          obtain ⟨h2, h3⟩ := h q hq
          rcases h1 with h1 | h1 <;> linarith
        rw [hw]
        by_cases h' : (1 < M ∧ 1 < N) ∧ 1 < qs.length
        · rw [if_pos h']; simp [h'.1.1, h'.1.2, h'.2]
        · rw [if_neg h']
          simp only [reduceCtorEq, false_iff, not_or]
          exact ⟨hn, fun hc => h' ⟨⟨hc.1, hc.2.1⟩, hc.2.2⟩⟩
      · rw [if_pos h]
        simp only [true_iff]
        left
        push Not at h
        obtain ⟨q, hq, h1⟩ := h
        refine ⟨q, hq, ?_⟩
        by_cases h0 : q < 0
        · exact Or.inl h0
        · exact Or.inr (h1 (not_lt.mp h0))

/-! ### one output point -/

/-- the values of the samples with positive weight at `x0` -/
def Heard (pdf : ℝ → ℝ → ℝ → ℝ) (sp x0 : ℝ) (win : Samples) (v : ℝ) : Prop :=
  ∃ p ∈ win, 0 < pdf x0 sp p.1 ∧ p.2.getD 0 0 = v

theorem counts_heard (pdf : ℝ → ℝ → ℝ → ℝ) (sp x0 : ℝ) (win : Samples) (v : ℝ) :
    Counts (pairsAt pdf x0 sp win) 0 v ↔ Heard pdf sp x0 win v := by
  unfold Counts Heard pairsAt
  constructor
  · rintro ⟨w, hm, hw⟩
    obtain ⟨p, hp, he⟩ := List.mem_map.mp hm
    simp only [Prod.mk.injEq] at he
    exact ⟨p, hp, by rw [he.2]; exact hw, he.1⟩
  · rintro ⟨p, hp, hw, he⟩
    exact ⟨_, List.mem_map.mpr ⟨p, hp, by rw [he]⟩, hw⟩

theorem heard_of_sum (pdf : ℝ → ℝ → ℝ → ℝ) (sp x0 : ℝ) (win : Samples)
    (h : 0 < (weights pdf x0 sp win).sum) : ∃ v, Heard pdf sp x0 win v := by
  by_contra hn
  push Not at hn
  have : ∀ w ∈ weights pdf x0 sp win, w ≤ 0 := by
    intro w hw
    obtain ⟨p, hp, rfl⟩ := List.mem_map.mp hw
    by_contra hc
    exact hn _ ⟨p, hp, not_le.mp hc, rfl⟩
  have hle : ∀ l : List ℝ, (∀ w ∈ l, w ≤ 0) → l.sum ≤ 0 := by
    intro l hl
    induction l with
    | nil => simp
    | cons w l ih =>
      rw [List.sum_cons]
      have := hl w (by simp)
      have := ih fun x hx => hl x (by simp [hx])
      linarith
  exact absurd (hle _ this) (not_le.mpr h)

/-- one quantile of one output point: between samples with positive weight, the smallest at 0, the largest at 1 -/
theorem C181_point (pdf : ℝ → ℝ → ℝ → ℝ) (m : Method) (sp x0 : ℝ) (arr : Bool) (win : Samples)
    (hq : ∀ q ∈ m.qs, 0 ≤ q ∧ q ≤ 1) (h : 0 < (weights pdf x0 sp win).sum) (r : Except PyErr (List ℝ))
    (hr : QuantAt pdf m 1 sp arr x0 win r) :
    ∃ ys lo hi, r = .ok ys ∧ ys.length = m.qs.length ∧ Heard pdf sp x0 win lo ∧ Heard pdf sp x0 win hi ∧
      (∀ v, Heard pdf sp x0 win v → lo ≤ v ∧ v ≤ hi) ∧
      (∀ y ∈ ys, lo ≤ y ∧ y ≤ hi) ∧
      (∀ i < m.qs.length, (m.qs.getD i 0 = 0 → ys.getD i 0 = lo) ∧ (m.qs.getD i 0 = 1 → ys.getD i 0 = hi)) ∧
      ∀ i < m.qs.length, ∀ j < m.qs.length, m.qs.getD i 0 ≤ m.qs.getD j 0 →
        (m.qs.getD j 0 = 1 ∨ ¬ close1 (m.qs.getD j 0)) → ys.getD i 0 ≤ ys.getD j 0 := by
  unfold QuantAt at hr
  rw [if_pos h, if_neg (by norm_num)] at hr
  obtain ⟨v, hv⟩ := heard_of_sum pdf sp x0 win h
  have hex : ∃ v, Counts (pairsAt pdf x0 sp win) 0 v := ⟨v, (counts_heard ..).mpr hv⟩
  obtain ⟨s, ys, hs, rfl, hF⟩ := C181_together _ _ 0 le_rfl hq hex r hr
  obtain ⟨x, lo, hi, _, hlo, hhi, hb, _⟩ := C41_range (pairsAt pdf x0 sp win) 0 0 le_rfl le_rfl zero_le_one hex _
    ⟨s, hs, rfl⟩
  have hlen : m.qs.length = ys.length := hF.length_eq
  have hget : ∀ i < m.qs.length, onSorted s (m.qs.getD i 0) 0 = .ok (ys.getD i 0) ∧ 0 ≤ m.qs.getD i 0 ∧ m.qs.getD i 0 ≤ 1 := by
    intro i hi
    rw [List.getD_eq_getElem _ _ hi, List.getD_eq_getElem _ _ (by omega)]
    exact ⟨hF.get hi (by omega), hq _ (List.getElem_mem _)⟩
  have hval : ∀ i < m.qs.length, lo ≤ ys.getD i 0 ∧ ys.getD i 0 ≤ hi ∧ (m.qs.getD i 0 = 0 → ys.getD i 0 = lo) ∧
      (m.qs.getD i 0 = 1 → ys.getD i 0 = hi) := by
    intro i hi'
    obtain ⟨h1, h2, h3⟩ := hget i hi'
    obtain ⟨x, lo', hi'', hx, hlo', hhi', hb', hx1, hx2, hx3, hx4⟩ :=
      C41_range (pairsAt pdf x0 sp win) _ 0 le_rfl h2 h3 hex _ ⟨s, hs, h1⟩
    simp only [Except.ok.injEq] at hx
    have e1 : lo' = lo := le_antisymm (hb' _ hlo).1 (hb _ hlo').1
    have e2 : hi'' = hi := le_antisymm (hb _ hhi').2 (hb' _ hhi).2
    subst e1 e2
    rw [hx]
    exact ⟨hx1, hx2, hx3, hx4⟩
  refine ⟨ys, lo, hi, rfl, hlen.symm, (counts_heard ..).mp hlo, (counts_heard ..).mp hhi,
    fun v hv => hb v ((counts_heard ..).mpr hv), ?_, fun i hi' => ⟨(hval i hi').2.2.1, (hval i hi').2.2.2⟩, ?_⟩
  · intro y hy
    obtain ⟨i, hi', rfl⟩ := List.getElem_of_mem hy
    have := hval i (by omega)
    rw [List.getD_eq_getElem _ _ hi'] at this
    exact ⟨this.1, this.2.1⟩
  · intro i hi' j hj hij hc
    exact C42_monotone_partial _ s 0 _ _ _ _ le_rfl hs (hget i hi').2.1 hij (hget j hj).2.2 hc (hget i hi').1 (hget j hj).1

/-! ### all output points -/

theorem each_ok {β γ : Type} {R : β → Except PyErr γ → Prop} {l : List β} {r : Except PyErr (List γ)} (h : Each R l r) :
    ∀ bs, r = .ok bs → List.Forall₂ (fun a b => R a (.ok b)) l bs := by
  induction h with
  | nil => rintro _ ⟨⟩; exact .nil
  | fail h => rintro _ ⟨⟩
  | ok h _ ih => rintro _ ⟨⟩; exact .cons h (ih _ rfl)
  | later h _ ih => rintro _ ⟨⟩

theorem each_good {β γ : Type} {R : β → Except PyErr γ → Prop} {l : List β} {r : Except PyErr (List γ)} (h : Each R l r)
    (hg : ∀ a ∈ l, ∀ x, R a x → ∃ b, x = .ok b) : ∃ bs, r = .ok bs := by
  induction h with
  | nil => exact ⟨_, rfl⟩
  | fail h => obtain ⟨b, hb⟩ := hg _ (by simp) _ h; cases hb
  | ok h _ ih => exact ⟨_, rfl⟩
  | later h _ ih =>
    obtain ⟨b, hb⟩ := ih fun a ha => hg a (by simp [ha])
    cases hb

theorem each_total {β γ : Type} (R : β → Except PyErr γ → Prop) (h : ∀ a, ∃ r, R a r) (l : List β) : ∃ r, Each R l r := by
  induction l with
  | nil => exact ⟨_, .nil⟩
  | cons a l ih =>
    obtain ⟨x, hx⟩ := h a
    obtain ⟨y, hy⟩ := ih
    cases x with
    | error e => exact ⟨_, .fail hx⟩
    | ok b =>
      cases y with
      | error e => exact ⟨_, .later hx hy⟩
      | ok bs => exact ⟨_, .ok hx hy⟩

theorem quantAt_total (pdf : ℝ → ℝ → ℝ → ℝ) (m : Method) (M : ℕ) (sp x0 : ℝ) (arr : Bool) (win : Samples) :
    ∃ r, QuantAt pdf m M sp arr x0 win r := by
  unfold QuantAt
  split
  · split
    · exact ⟨_, rfl⟩
    · exact vec_total _ _ _
  · exact ⟨_, rfl⟩

/-- there is always an outcome -/
theorem C181_exists (pdf : ℝ → ℝ → ℝ → ℝ) (a : Amethod) (M : ℕ) (sp : ℝ) (bw : Option ℕ) (xr : Option (List ℝ))
    (s : Samples) : ∃ r, SmoothQ pdf a M sp bw xr s r := by
  have hrun : ∀ m s', ∃ r, RunQ pdf m M sp bw xr s' r := by
    intro m s'
    unfold RunQ
    cases xr with
    | none =>
      refine each_total _ (fun i => ?_) _
      unfold SelfQ
      cases bw <;> exact quantAt_total ..
    | some xs =>
      refine each_total _ (fun i => ?_) _
      unfold ResampQ
      cases bw <;> exact quantAt_total ..
  unfold SmoothQ
  cases validate M s.length a with
  | error e => exact ⟨_, rfl⟩
  | ok m =>
    cases m with
    | mean => exact ⟨_, rfl⟩
    | median => exact hrun _ _
    | quants qs => exact hrun _ _

/-- the quantiles a call asks for, if it is a valid call for a median or quantiles -/
def Asks (a : Amethod) (m : Method) : Prop :=
  (a = .median ∧ m = .median) ∨ ∃ qs, a = .quantiles (some qs) ∧ m = .quants qs ∧ ∀ q ∈ qs, 0 ≤ q ∧ q ≤ 1

theorem asks_qs {a : Amethod} {m : Method} (h : Asks a m) : ∀ q ∈ m.qs, 0 ≤ q ∧ q ≤ 1 := by
  rcases h with ⟨_, rfl⟩ | ⟨qs, _, rfl, hq⟩
  · intro q hq
    simp only [Method.qs, List.mem_cons, List.not_mem_nil, or_false] at hq
    subst hq; norm_num
  · exact hq

theorem asks_run {a : Amethod} {m : Method} (h : Asks a m) (pdf : ℝ → ℝ → ℝ → ℝ) (sp : ℝ) (bw : Option ℕ)
    (xr : Option (List ℝ)) (s : Samples) (r : Except PyErr (List (List ℝ))) :
    SmoothQ pdf a 1 sp bw xr s r ↔ RunQ pdf m 1 sp bw xr (sortX s) r := by
  unfold SmoothQ
  rcases h with ⟨rfl, rfl⟩ | ⟨qs, rfl, rfl, hq⟩
  · simp [validate]
  · have hv : validate 1 s.length (.quantiles (some qs)) = .ok (.quants qs) := by
      unfold validate
      simp only
      rw [if_neg (by simpa using hq), if_neg]
      rintro ⟨hw, _⟩
      unfold wide at hw
      rw [max_lt_iff] at hw
      omega
    rw [hv]

theorem quantAt_bounds (pdf : ℝ → ℝ → ℝ → ℝ) (hpdf : ∀ a b c, 0 ≤ pdf a b c) {a : Amethod} {m : Method} (ha : Asks a m)
    (sp x0 : ℝ) (arr : Bool) (win : Samples) (ho : Ordered win) (hM : Features 1 win) (lo hi : ℝ)
    (hb : ∀ p ∈ win, lo ≤ p.2.getD 0 0 ∧ p.2.getD 0 0 ≤ hi) (ys : List ℝ)
    (h : QuantAt pdf m 1 sp arr x0 win (.ok ys)) :
    ys.length = m.qs.length ∧ ∀ y ∈ ys, lo ≤ y ∧ y ≤ hi := by
  by_cases hs : 0 < (weights pdf x0 sp win).sum
  · obtain ⟨ys', l, u, he, hlen, ⟨p, hp, _, hpl⟩, ⟨p', hp', _, hpu⟩, _, hy, _⟩ :=
      C181_point pdf m sp x0 arr win (asks_qs ha) hs _ h
    simp only [Except.ok.injEq] at he
    subst he
    refine ⟨hlen, fun y hy' => ?_⟩
    have h1 := hb p hp
    have h2 := hb p' hp'
    have h3 := hy y hy'
    rw [hpl] at h1; rw [hpu] at h2
    exact ⟨h1.1.trans h3.1, h3.2.trans h2.2⟩
  · unfold QuantAt at h
    rw [if_neg hs] at h
    cases arr with
    | false => simp at h
    | true =>
      rw [if_pos rfl] at h
      cases hf : fallback 1 x0 win with
      | error e => rw [hf] at h; simp [bind, Except.bind] at h
      | ok mu =>
        rw [hf] at h
        have hcall : smoothAt pdf 1 sp true x0 win = .ok mu := by
          unfold smoothAt; rw [if_neg hs, if_pos rfl, hf]
        obtain ⟨hlen, hmu⟩ := smoothAt_bounds pdf hpdf 1 sp x0 true win ho hM (fun _ => lo) (fun _ => hi)
          (fun p hp f hf => by have : f = 0 := by omega
                               subst this; exact hb p hp) mu hcall
        obtain ⟨v, rfl⟩ := List.length_eq_one_iff.mp hlen
        have hv := hmu 0 (by norm_num)
        simp only [List.getD_cons_zero] at hv
        rcases ha with ⟨_, rfl⟩ | ⟨qs, _, rfl, _⟩
        · simp only [bind, Except.bind, respread, Except.ok.injEq] at h
          subst h
          refine ⟨rfl, fun y hy => ?_⟩
          simp only [List.mem_cons, List.not_mem_nil, or_false] at hy
          subst hy; exact hv
        · simp only [bind, Except.bind, respread, spread, List.length_cons, List.length_nil, zero_add, if_true,
            List.headD_cons, Except.ok.injEq] at h
          subst h
          refine ⟨by simp [Method.qs], fun y hy => ?_⟩
          rw [List.eq_of_mem_replicate hy]; exact hv

/-- every output point is one call on part of the sorted data -/
theorem runQ_calls (pdf : ℝ → ℝ → ℝ → ℝ) (m : Method) (sp : ℝ) (bw : Option ℕ) (xr : Option (List ℝ)) (s : Samples)
    (out : List (List ℝ)) (h : RunQ pdf m 1 sp bw xr s (.ok out)) :
    ∀ ys ∈ out, ∃ arr x0 win, win.Sublist s ∧ QuantAt pdf m 1 sp arr x0 win (.ok ys) := by
  unfold RunQ at h
  intro ys hys
  cases xr with
  | none =>
    obtain ⟨i, _, hi⟩ := forall₂_mem (each_ok h _ rfl) hys
    unfold SelfQ at hi
    cases bw with
    | none => exact ⟨_, _, _, List.Sublist.refl _, hi⟩
    | some b => exact ⟨_, _, _, window_sub _ _ _, hi⟩
  | some xs =>
    obtain ⟨i, _, hi⟩ := forall₂_mem (each_ok h _ rfl) hys
    unfold ResampQ at hi
    cases bw with
    | none => exact ⟨_, _, _, List.Sublist.refl _, hi⟩
    | some b => exact ⟨_, _, _, window_sub _ _ _, hi⟩

/-- **C181** (part) with one feature, whenever a call for a median or for quantiles in [0,1] returns, there is one value per
quantile at every output point, within any bounds that hold for all samples (so constants are reproduced) -/
theorem C181_between_partial (pdf : ℝ → ℝ → ℝ → ℝ) (hpdf : ∀ a b c, 0 ≤ pdf a b c) (a : Amethod) (m : Method)
    (ha : Asks a m) (sp : ℝ) (bw : Option ℕ) (xr : Option (List ℝ)) (s : Samples) (hM : Features 1 s) (lo hi : ℝ)
    (hb : ∀ p ∈ s, lo ≤ p.2.getD 0 0 ∧ p.2.getD 0 0 ≤ hi) (out : List (List ℝ))
    (h : SmoothQ pdf a 1 sp bw xr s (.ok out)) :
    ∀ ys ∈ out, ys.length = m.qs.length ∧ ∀ y ∈ ys, lo ≤ y ∧ y ≤ hi := by
  rw [asks_run ha] at h
  intro ys hys
  obtain ⟨arr, x0, win, hsub, hcall⟩ := runQ_calls pdf m sp bw xr _ out h ys hys
  have hmem : ∀ p ∈ win, p ∈ s := fun p hp => (sortX_perm s).mem_iff.mp (hsub.subset hp)
  exact quantAt_bounds pdf hpdf ha sp x0 arr win ((sortX_ordered s).sublist hsub) (fun p hp => hM p (hmem p hp)) lo hi
    (fun p hp => hb p (hmem p hp)) ys hcall

theorem quantAt_good (pdf : ℝ → ℝ → ℝ → ℝ) {a : Amethod} {m : Method} (ha : Asks a m) (sp x0 : ℝ) (win : Samples)
    (hne : win ≠ []) (ho : Ordered win) (hM : Features 1 win) (r : Except PyErr (List ℝ))
    (h : QuantAt pdf m 1 sp true x0 win r) : ∃ ys, r = .ok ys := by
  by_cases hs : 0 < (weights pdf x0 sp win).sum
  · obtain ⟨ys, _, _, he, _⟩ := C181_point pdf m sp x0 true win (asks_qs ha) hs _ h
    exact ⟨ys, he⟩
  · obtain ⟨v, hv, _⟩ := C45_fallback_partial pdf sp x0 win hne ho hM hs
    unfold smoothAt at hv
    rw [if_neg hs, if_pos rfl] at hv
    unfold QuantAt at h
    rw [if_neg hs, if_pos rfl, hv] at h
    rcases ha with ⟨_, rfl⟩ | ⟨qs, _, rfl, _⟩
    · exact ⟨_, h⟩
    · exact ⟨_, h⟩

/-- the samples around a position are never none -/
theorem window_ne {s : Samples} (hne : s ≠ []) (i b : ℕ) (hb : 0 < b) (hi : i ≤ s.length) : window s i b ≠ [] := by
  have hl := List.length_pos_of_ne_nil hne
  intro he
  have := congrArg List.length he
  simp only [window, List.length_drop, List.length_take, List.length_nil] at this
  omega

/-- **C181** (part) with one feature and at least one sample, resampling (any bandwidth of at least one sample, or none), and
smoothing in place with a bandwidth, always returns: one entry per output point. Between samples that are all out of reach it
interpolates. -/
theorem C181_returns_partial (pdf : ℝ → ℝ → ℝ → ℝ) (a : Amethod) (m : Method) (ha : Asks a m) (sp : ℝ) (bw : Option ℕ)
    (xr : Option (List ℝ)) (s : Samples) (hne : s ≠ []) (hM : Features 1 s) (hbw : ∀ b, bw = some b → 0 < b)
    (hx : xr = none → bw ≠ none) (r : Except PyErr (List (List ℝ))) (h : SmoothQ pdf a 1 sp bw xr s r) :
    ∃ out, r = .ok out ∧ out.length = (xr.map List.length).getD s.length := by
  rw [asks_run ha] at h
  have hlen := (sortX_perm s).length_eq
  have hne' : sortX s ≠ [] := by
    intro he; rw [he] at hlen; exact hne (List.length_eq_zero_iff.mp hlen.symm)
  have ho := sortX_ordered s
  have hM' : Features 1 (sortX s) := fun p hp => hM p ((sortX_perm s).mem_iff.mp hp)
  have hgood : ∀ win : Samples, win.Sublist (sortX s) → win ≠ [] → ∀ x0 x, QuantAt pdf m 1 sp true x0 win x →
      ∃ b, x = .ok b := fun win hsub hw x0 x hx =>
    quantAt_good pdf ha sp x0 win hw (ho.sublist hsub) (fun p hp => hM' p (hsub.subset hp)) x hx
  unfold RunQ at h
  cases xr with
  | none =>
    cases bw with
    | none => exact absurd rfl (hx rfl)
    | some b =>
      obtain ⟨out, rfl⟩ := each_good h (by
        intro i hi x hx
        rw [List.mem_range] at hi
        exact hgood _ (window_sub _ _ _) (window_ne hne' i b (hbw b rfl) hi.le) _ x hx)
      refine ⟨out, rfl, ?_⟩
      have := (each_ok h _ rfl).length_eq
      rw [List.length_range] at this
      simp only [Option.map_none, Option.getD_none]
      omega
  | some xs =>
    obtain ⟨out, rfl⟩ := each_good h (by
      intro x0 _ x hx
      unfold ResampQ at hx
      cases bw with
      | none => exact hgood _ (List.Sublist.refl _) hne' _ x hx
      | some b => exact hgood _ (window_sub _ _ _) (window_ne hne' _ b (hbw b rfl) (search_le _ _)) _ x hx)
    exact ⟨out, rfl, by simpa using (each_ok h _ rfl).length_eq.symm⟩

/-- **C181** resampling without a bandwidth: entry `i` of the result is the median (or the quantiles) at the `i`-th position,
of all samples weighted by the kernel there, whatever the order of the samples -/
theorem C181_places_partial (pdf : ℝ → ℝ → ℝ → ℝ) (a : Amethod) (m : Method) (ha : Asks a m) (sp : ℝ) (xs : List ℝ)
    (s : Samples) (out : List (List ℝ)) (h : SmoothQ pdf a 1 sp none (some xs) s (.ok out)) (i : ℕ) (hi : i < xs.length)
    (hw : 0 < (weights pdf (xs.getD i 0) sp s).sum) :
    VecOutcome (pairsAt pdf (xs.getD i 0) sp s) m.qs 0 (.ok (out.getD i [])) := by
  rw [asks_run ha] at h
  have hF := each_ok h _ rfl
  have hl := hF.length_eq
  have hc := hF.get hi (by omega)
  simp only [List.get_eq_getElem] at hc
  rw [List.getD_eq_getElem _ _ hi] at hw ⊢
  rw [List.getD_eq_getElem _ _ (by omega)]
  unfold ResampQ QuantAt at hc
  have hp : (weights pdf xs[i] sp (sortX s)).Perm (weights pdf xs[i] sp s) := (sortX_perm s).map _
  rw [if_pos (by rw [hp.sum_eq]; exact hw), if_neg (by norm_num)] at hc
  obtain ⟨s', hs', he⟩ := hc
  exact ⟨s', ⟨hs'.1.trans ((sortX_perm s).map _), hs'.2⟩, he⟩

/-! ### several features -/

/-- The claim, as the documentation has it: a median (or one quantile) of several features returns. -/
def C181_statement : Prop :=
  ∀ (pdf : ℝ → ℝ → ℝ → ℝ), (∀ x0 sp x, 0 < sp → 0 < pdf x0 sp x) → ∀ (M : ℕ) (sp : ℝ) (bw : Option ℕ) (xr : Option (List ℝ))
    (s : Samples), 0 < M → 0 < sp → s ≠ [] → Features M s → ∀ r, SmoothQ pdf .median M sp bw xr s r → ∃ out, r = .ok out

/-- what happens with several features: `IndexError`, wherever some sample has positive weight -/
theorem C181_features (pdf : ℝ → ℝ → ℝ → ℝ) (m : Method) (M : ℕ) (hM : 1 < M) (sp x0 : ℝ) (arr : Bool) (win : Samples)
    (h : 0 < (weights pdf x0 sp win).sum) (r : Except PyErr (List ℝ)) (hr : QuantAt pdf m M sp arr x0 win r) :
    r = .error .IndexError := by
  unfold QuantAt at hr
  rwa [if_pos h, if_pos hM] at hr

theorem C181_refuted : ¬ C181_statement := by
  intro h
  have ho : Ordered [((0 : ℝ), [(1 : ℝ), 2])] := by simp [Ordered]
  obtain ⟨r, hr⟩ := C181_exists normPdf .median 2 1 none (some [0]) [(0, [1, 2])]
  obtain ⟨out, rfl⟩ := h normPdf normPdf_pos 2 1 none (some [0]) [(0, [1, 2])] (by norm_num) (by norm_num) (by simp)
    (by simp [Features]) r hr
  have hr' : RunQ normPdf .median 2 1 none (some [0]) (sortX [(0, [1, 2])]) (.ok out) := hr
  have hF := each_ok hr' _ rfl
  rw [sortX_of_ordered ho] at hF
  obtain ⟨ys, _, hc, _, _⟩ := List.forall₂_cons_left_iff.mp hF
  have := C181_features normPdf .median 2 (by norm_num) 1 0 true [((0 : ℝ), [(1 : ℝ), 2])]
    (by simpa [weights] using normPdf_pos 0 1 0 one_pos) _ hc
  cases this

/-- the hypotheses of the theorems above for the median and for three quantiles, three samples, with the normal density -/
example : Asks .median .median ∧ Asks (.quantiles (some [0, 1 / 4, 1])) (.quants [0, 1 / 4, 1]) ∧
    Features 1 [((2 : ℝ), [(5 : ℝ)]), (0, [1]), (1, [3])] ∧
    0 < (weights normPdf (1 / 2) 1 [((2 : ℝ), [(5 : ℝ)]), (0, [1]), (1, [3])]).sum ∧
    ∃ r, SmoothQ normPdf .median 1 1 (some 500) none [((2 : ℝ), [(5 : ℝ)]), (0, [1]), (1, [3])] r := by
  refine ⟨Or.inl ⟨rfl, rfl⟩, Or.inr ⟨_, rfl, rfl, ?_⟩, by simp [Features], ?_, C181_exists ..⟩
  · intro q hq
    simp only [List.mem_cons, List.not_mem_nil, or_false] at hq
    rcases hq with rfl | rfl | rfl <;> norm_num
  · have := normPdf_pos
    simp only [weights, List.map_cons, List.map_nil, List.sum_cons, List.sum_nil]
    have h1 := this (1 / 2) 1 2 one_pos
    have h2 := this (1 / 2) 1 0 one_pos
    have h3 := this (1 / 2) 1 1 one_pos
    linarith

end Verif.Smooth
