import Verif.Model.Resample
import Mathlib.Algebra.BigOperators.Intervals
import Mathlib.Algebra.BigOperators.Field
import Mathlib.Algebra.BigOperators.Ring.List
import Mathlib.Algebra.Order.BigOperators.Ring.List
import Mathlib.Tactic.Linarith
import Mathlib.Tactic.Ring
import Mathlib.Tactic.FieldSimp
import Mathlib.Tactic.NormNum
import Mathlib.Tactic.Positivity

/-! Property C40: resample. -/

namespace Verif.Resamp
open Verif.Py Verif.Take

/-! ### specification -/

/-- the sum of `f` over all positions of an array of this shape -/
noncomputable def total : List ℕ → (List ℕ → ℝ) → ℝ
  | [], f => f []
  | n :: ns, f => ∑ i ∈ Finset.range n, total ns (fun idx => f (i :: idx))

/-- mean of all entries -/
noncomputable def mean (a : Arr ℝ) : ℝ := total a.shape a.entry / (a.shape.prod : ℝ)

/-- position `idx` of an array of this shape -/
def At (shape idx : List ℕ) : Prop := List.Forall₂ (· < ·) idx shape

/-- the position with block numbers `idx`, block sizes `r` and offsets `t` -/
def inBlock : List ℕ → List ℕ → List ℕ → List ℕ
  | i :: is, r :: rs, t :: ts => (i * r + t) :: inBlock is rs ts
  | _, _, _ => []

/-- the mean of the block of sizes `r` at block position `idx` -/
noncomputable def blockMean (f : List ℕ → ℝ) (r idx : List ℕ) : ℝ := total r (fun t => f (inBlock idx r t)) / (r.prod : ℝ)

/-! ### sums -/

theorem total_congr (ns : List ℕ) (f g : List ℕ → ℝ) (h : ∀ idx, At ns idx → f idx = g idx) : total ns f = total ns g := by
  induction ns generalizing f g with
  | nil => exact h [] .nil
  | cons n ns ih =>
    unfold total
    refine Finset.sum_congr rfl fun i hi => ih _ _ fun idx hidx => h _ (.cons (Finset.mem_range.mp hi) hidx)

theorem total_sum (ns : List ℕ) (m : ℕ) (f : ℕ → List ℕ → ℝ) :
    total ns (fun idx => ∑ t ∈ Finset.range m, f t idx) = ∑ t ∈ Finset.range m, total ns (f t) := by
  induction ns generalizing f with
  | nil => rfl
  | cons n ns ih =>
    unfold total
    rw [Finset.sum_comm]
    exact Finset.sum_congr rfl fun i _ => ih _

theorem total_div (ns : List ℕ) (f : List ℕ → ℝ) (c : ℝ) : total ns (fun idx => f idx / c) = total ns f / c := by
  induction ns generalizing f with
  | nil => rfl
  | cons n ns ih =>
    unfold total
    rw [Finset.sum_div]
    exact Finset.sum_congr rfl fun i _ => ih _

theorem total_const (ns : List ℕ) (c : ℝ) : total ns (fun _ => c) = (ns.prod : ℝ) * c := by
  induction ns with
  | nil => simp [total]
  | cons n ns ih => simp only [total]; rw [ih]; simp; ring

theorem sum_blocks (n r : ℕ) (g : ℕ → ℝ) :
    ∑ x ∈ Finset.range (n * r), g x = ∑ i ∈ Finset.range n, ∑ t ∈ Finset.range r, g (i * r + t) := by
  induction n with
  | zero => simp
  | succ n ih => rw [Nat.succ_mul, Finset.sum_range_add, ih, Finset.sum_range_succ]

/-- summing block by block is summing everything -/
theorem total_blocks (ns rs : List ℕ) (hl : ns.length = rs.length) (f : List ℕ → ℝ) :
    total (List.zipWith (· * ·) ns rs) f = total ns (fun idx => total rs (fun t => f (inBlock idx rs t))) := by
  induction ns generalizing rs f with
  | nil =>
    cases rs with
    | nil => rfl
    | cons _ _ => simp at hl
  | cons n ns ih =>
    cases rs with
    | nil => simp at hl
    | cons r rs =>
      simp only [List.zipWith_cons_cons, total, inBlock]
      rw [sum_blocks]
      refine Finset.sum_congr rfl fun i _ => ?_
      rw [total_sum]
      exact Finset.sum_congr rfl fun t _ => ih rs (by simpa using hl) _

theorem prod_zipWith (ns rs : List ℕ) (hl : ns.length = rs.length) :
    (List.zipWith (· * ·) ns rs).prod = ns.prod * rs.prod := by
  induction ns generalizing rs with
  | nil => cases rs with
    | nil => rfl
    | cons _ _ => simp at hl
  | cons n ns ih => cases rs with
    | nil => simp at hl
    | cons r rs => simp only [List.zipWith_cons_cons, List.prod_cons]; rw [ih rs (by simpa using hl)]; ring

/-! ### the loops -/

theorem set_append_mid (pre : List ℕ) (x y : ℕ) (post : List ℕ) (i : ℕ) (h : pre.length = i) :
    (pre ++ x :: post).set i y = pre ++ y :: post := by
  subst h; simp

theorem getD_append_mid (pre : List ℕ) (x : ℕ) (post : List ℕ) (i : ℕ) (h : pre.length = i) :
    (pre ++ x :: post).getD i 0 = x := by
  subst h; simp

theorem upLoop_shape (a : Arr ℝ) (i : ℕ) (rs : List ℚ) (pre post : List ℕ) (hs : a.shape = pre ++ post)
    (hi : pre.length = i) (hl : post.length = rs.length) :
    (upLoop a i rs).shape = pre ++ List.zipWith (· * ·) post (rs.map trunc) := by
  induction rs generalizing a i pre post with
  | nil =>
    have : post = [] := by simpa using hl
    subst this; simpa [upLoop] using hs
  | cons r rs ih =>
    cases post with
    | nil => simp at hl
    | cons p post =>
      unfold upLoop
      rw [ih (repeatAx a (trunc r) i) (i + 1) (pre ++ [p * trunc r]) post ?_ (by simp [hi]) (by simpa using hl)]
      · simp
      · simp only [repeatAx]
        rw [hs, set_append_mid _ _ _ _ _ hi, getD_append_mid _ _ _ _ hi]; simp

theorem upLoop_entry (a : Arr ℝ) (i : ℕ) (rs : List ℚ) (pre post : List ℕ)
    (hi : pre.length = i) (hl : post.length = rs.length) :
    (upLoop a i rs).entry (pre ++ post) = a.entry (pre ++ List.zipWith (· / ·) post (rs.map trunc)) := by
  induction rs generalizing a i pre post with
  | nil =>
    have : post = [] := by simpa using hl
    subst this; simp [upLoop]
  | cons r rs ih =>
    cases post with
    | nil => simp at hl
    | cons p post =>
      unfold upLoop
      have := ih (repeatAx a (trunc r) i) (i + 1) (pre ++ [p]) post (by simp [hi]) (by simpa using hl)
      rw [List.append_assoc, List.singleton_append] at this
      rw [this]
      simp only [repeatAx]
      rw [List.append_assoc, List.singleton_append, set_append_mid _ _ _ _ _ hi, getD_append_mid _ _ _ _ hi]
      simp

/-- positions of the filter window: reflected `idx + t` -/
def winPos : List ℕ → List ℕ → List ℕ → List ℕ
  | n :: ns, i :: is, t :: ts => refl n ((i : ℤ) + t) :: winPos ns is ts
  | _, _, _ => []

theorem uniAx_shape (a : Arr ℝ) (s : ℕ) (o : ℤ) (i : ℕ) : (uniAx a s o i).shape = a.shape := by
  unfold uniAx; split <;> rfl

theorem uniLoop_shape (a : Arr ℝ) (i : ℕ) (rs : List ℕ) : (uniLoop a i rs).shape = a.shape := by
  induction rs generalizing a i with
  | nil => rfl
  | cons r rs ih => unfold uniLoop; rw [ih, uniAx_shape]

theorem refl_of_lt {n x : ℕ} (h : x < n) : refl n (x : ℤ) = x := by
  unfold refl
  rw [Int.emod_eq_of_lt (by omega) (by omega), if_pos (by omega)]
  simp

theorem uniAx_entry (a : Arr ℝ) (s i : ℕ) (hs : 1 ≤ s) (pre post : List ℕ) (p n : ℕ) (hi : pre.length = i)
    (hn : a.shape.getD i 0 = n) (hp : p < n) :
    (uniAx a s (-((s / 2 : ℕ) : ℤ)) i).entry (pre ++ p :: post) =
      (∑ t ∈ Finset.range s, a.entry (pre ++ refl n ((p : ℤ) + t) :: post)) / s := by
  unfold uniAx
  split
  · have : s = 1 := by omega
    subst this
    simp [refl_of_lt hp]
  · simp only [hn]
    congr 1
    refine Finset.sum_congr rfl fun t _ => ?_
    rw [set_append_mid _ _ _ _ _ hi, getD_append_mid _ _ _ _ hi]
    congr 4
    push_cast
    ring

theorem uniLoop_entry (a : Arr ℝ) (i : ℕ) (rs : List ℕ) (hr : ∀ r ∈ rs, 1 ≤ r) (pre sh sh0 post : List ℕ)
    (hs : a.shape = sh0 ++ sh) (h0 : sh0.length = i)
    (hi : pre.length = i) (hl : post.length = rs.length) (hat : At sh post) :
    (uniLoop a i rs).entry (pre ++ post) =
      total rs (fun t => a.entry (pre ++ winPos sh post t)) / (rs.prod : ℝ) := by
  induction rs generalizing a i pre sh sh0 post with
  | nil =>
    have : post = [] := by simpa using hl
    subst this
    cases hat
    simp [uniLoop, total, winPos]
  | cons r rs ih =>
    cases hat with
    | nil => simp at hl
    | @cons p n post sh hpn hat =>
      unfold uniLoop
      have hr1 : 1 ≤ r := hr r (by simp)
      have := ih (uniAx a r (-((r / 2 : ℕ) : ℤ)) i) (i + 1) (fun x hx => hr x (by simp [hx])) (pre ++ [p]) sh
        (sh0 ++ [n]) post (by rw [uniAx_shape, hs]; simp) (by simp [h0]) (by simp [hi]) (by simpa using hl) hat
      rw [List.append_assoc, List.singleton_append] at this
      rw [this]
      have hn : a.shape.getD i 0 = n := by rw [hs, getD_append_mid _ _ _ _ h0]
      have hrw : ∀ t, (uniAx a r (-((r / 2 : ℕ) : ℤ)) i).entry (pre ++ [p] ++ winPos sh post t) =
          (∑ u ∈ Finset.range r, a.entry (pre ++ refl n ((p : ℤ) + u) :: winPos sh post t)) / r := by
        intro t
        rw [List.append_assoc, List.singleton_append]
        exact uniAx_entry a r i hr1 pre _ p n hi hn hpn
      simp only [hrw]
      rw [total_div, total_sum]
      simp only [total, winPos, List.prod_cons, Nat.cast_mul]
      rw [div_div]

theorem strideLoop_ok (a : Arr ℝ) (i : ℕ) (rs : List ℕ) (hr : ∀ r ∈ rs, 1 ≤ r) (pre ts : List ℕ)
    (hs : a.shape = pre ++ List.zipWith (· * ·) ts rs) (h0 : pre.length = i) (hl : ts.length = rs.length) :
    ∃ b, strideLoop a i rs = .ok b ∧ b.shape = pre ++ ts ∧
      ∀ p q : List ℕ, p.length = i → q.length = rs.length →
        b.entry (p ++ q) = a.entry (p ++ List.zipWith (· * ·) q rs) := by
  induction rs generalizing a i pre ts with
  | nil =>
    have : ts = [] := by simpa using hl
    subst this
    refine ⟨a, rfl, by simpa using hs, ?_⟩
    intro p q _ hq
    have : q = [] := by simpa using hq
    subst this; simp
  | cons r rs ih =>
    cases ts with
    | nil => simp at hl
    | cons t ts =>
      have hr1 : 1 ≤ r := hr r (by simp)
      unfold strideLoop
      rw [if_neg (by omega)]
      obtain ⟨b, h1, h2, h3⟩ := ih (strideAx a r i) (i + 1) (fun x hx => hr x (by simp [hx])) (pre ++ [t]) ts (by
        simp only [strideAx]
        rw [hs, List.zipWith_cons_cons, set_append_mid _ _ _ _ _ h0, getD_append_mid _ _ _ _ h0]
        have : (t * r + r - 1) / r = t := by
          rw [Nat.add_sub_assoc hr1, Nat.mul_comm, Nat.mul_add_div (by omega), Nat.div_eq_of_lt (by omega)]; rfl
        rw [this]; simp) (by simp [h0]) (by simpa using hl)
      refine ⟨b, h1, by rw [h2]; simp, ?_⟩
      intro p q hp hq
      cases q with
      | nil => simp at hq
      | cons x q =>
        have := h3 (p ++ [x]) q (by simp [hp]) (by simpa using hq)
        rw [List.append_assoc, List.singleton_append] at this
        rw [this]
        simp only [strideAx]
        rw [List.append_assoc, List.singleton_append, set_append_mid _ _ _ _ _ hp, getD_append_mid _ _ _ _ hp]
        simp

/-! ### ratios -/

/-- rounding is harmless for enlarging by `r` -/
def UpOk (fl : ℚ → ℚ) (r : ℕ) : Prop := fl (r : ℚ) = r

/-- rounding is harmless for reducing by `r`: the ratio is a positive number, below one unless `r = 1`, whose
reciprocal is truncated to `r` -/
def DownOk (fl : ℚ → ℚ) (r : ℕ) : Prop :=
  0 < fl (1 / (r : ℚ)) ∧ (if r = 1 then fl (1 / (r : ℚ)) = 1 else fl (1 / (r : ℚ)) < 1) ∧
    trunc (fl (1 / fl (1 / (r : ℚ)))) = r

theorem ratios_up (fl : ℚ → ℚ) (shape rs : List ℕ) (hl : shape.length = rs.length) (hpos : ∀ n ∈ shape, 0 < n)
    (hfl : ∀ r ∈ rs, UpOk fl r) :
    ratios fl (List.zipWith (· * ·) shape rs) shape = rs.map (fun r : ℕ => (r : ℚ)) := by
  induction shape generalizing rs with
  | nil => cases rs with
    | nil => rfl
    | cons _ _ => simp at hl
  | cons n shape ih => cases rs with
    | nil => simp at hl
    | cons r rs =>
      have hn : (n : ℚ) ≠ 0 := by have := hpos n (by simp); positivity
      have := ih rs (by simpa using hl) (fun m hm => hpos m (by simp [hm])) (fun m hm => hfl m (by simp [hm]))
      unfold ratios at this ⊢
      simp only [List.zipWith_cons_cons, List.map_cons]
      rw [this]
      have h2 : ((n * r : ℕ) : ℚ) / n = r := by push_cast; field_simp
      rw [h2, hfl r (by simp)]

theorem ratios_down (fl : ℚ → ℚ) (ts rs : List ℕ) (hl : ts.length = rs.length) (hpos : ∀ n ∈ ts, 0 < n)
    : ratios fl ts (List.zipWith (· * ·) ts rs) = rs.map (fun r : ℕ => fl (1 / (r : ℚ))) := by
  induction ts generalizing rs with
  | nil => cases rs with
    | nil => rfl
    | cons _ _ => simp at hl
  | cons n shape ih => cases rs with
    | nil => simp at hl
    | cons r rs =>
      have hn : (n : ℚ) ≠ 0 := by have := hpos n (by simp); positivity
      have := ih rs (by simpa using hl) (fun m hm => hpos m (by simp [hm]))
      unfold ratios at this ⊢
      simp only [List.zipWith_cons_cons, List.map_cons]
      rw [this]
      have h2 : (n : ℚ) / ((n * r : ℕ) : ℚ) = 1 / r := by push_cast; field_simp
      rw [h2]

theorem prod_up (rs : List ℕ) (h1 : ∀ r ∈ rs, 1 ≤ r) :
    1 ≤ (rs.map (fun r : ℕ => (r : ℚ))).prod ∧ ((rs.map (fun r : ℕ => (r : ℚ))).prod ≤ 1 → ∀ r ∈ rs, r = 1) := by
  induction rs with
  | nil => simp
  | cons r rs ih =>
    obtain ⟨ha, hb⟩ := ih (fun x hx => h1 x (by simp [hx]))
    have hr : (1 : ℚ) ≤ r := by exact_mod_cast h1 r (by simp)
    simp only [List.map_cons, List.prod_cons]
    refine ⟨by nlinarith, fun h => ?_⟩
    have h3 : (r : ℚ) ≤ 1 := by nlinarith
    have h4 : (rs.map (fun r : ℕ => (r : ℚ))).prod ≤ 1 := by nlinarith
    intro x hx
    rcases List.mem_cons.mp hx with rfl | hx
    · have : x ≤ 1 := by exact_mod_cast h3
      have := h1 x (by simp); omega
    · exact hb h4 x hx

theorem prod_down (fl : ℚ → ℚ) (rs : List ℕ) (hfl : ∀ r ∈ rs, DownOk fl r) :
    0 < (rs.map (fun r : ℕ => fl (1 / (r : ℚ)))).prod ∧ (rs.map (fun r : ℕ => fl (1 / (r : ℚ)))).prod ≤ 1 ∧
      (1 ≤ (rs.map (fun r : ℕ => fl (1 / (r : ℚ)))).prod → ∀ r ∈ rs, r = 1) := by
  induction rs with
  | nil => simp
  | cons r rs ih =>
    obtain ⟨ha, hb, hc⟩ := ih (fun x hx => hfl x (by simp [hx]))
    obtain ⟨h1, h2, h3⟩ := hfl r (by simp)
    simp only [List.map_cons, List.prod_cons]
    have h4 : fl (1 / (r : ℚ)) ≤ 1 := by split at h2 <;> linarith
    refine ⟨mul_pos h1 ha, by nlinarith, fun h => ?_⟩
    have h5 : 1 ≤ fl (1 / (r : ℚ)) := by nlinarith
    have h6 : 1 ≤ (rs.map (fun r : ℕ => fl (1 / (r : ℚ)))).prod := by nlinarith
    intro x hx
    rcases List.mem_cons.mp hx with rfl | hx
    · by_contra hx1
      rw [if_neg hx1] at h2
      linarith
    · exact hc h6 x hx

theorem trunc_nat (r : ℕ) : trunc (r : ℚ) = r := by unfold trunc; simp

theorem zipWith_one_div (idx rs : List ℕ) (hl : idx.length = rs.length) (h : ∀ r ∈ rs, r = 1) :
    List.zipWith (· / ·) idx rs = idx := by
  induction idx generalizing rs with
  | nil => rfl
  | cons i idx ih => cases rs with
    | nil => simp at hl
    | cons r rs =>
      rw [List.zipWith_cons_cons, ih rs (by simpa using hl) (fun x hx => h x (by simp [hx])), h r (by simp)]; simp

theorem zipWith_one_mul (idx rs : List ℕ) (hl : idx.length = rs.length) (h : ∀ r ∈ rs, r = 1) :
    List.zipWith (· * ·) idx rs = idx := by
  induction idx generalizing rs with
  | nil => rfl
  | cons i idx ih => cases rs with
    | nil => simp at hl
    | cons r rs =>
      rw [List.zipWith_cons_cons, ih rs (by simpa using hl) (fun x hx => h x (by simp [hx])), h r (by simp)]; simp

/-! ### C40 -/

/-- **C40** enlarging each axis by a whole factor without smoothing returns the requested shape, with every entry
repeated -/
theorem C40_up (fl : ℚ → ℚ) (gf : List ℚ → Arr ℝ → Arr ℝ) (a : Arr ℝ) (rs : List ℕ) (hl : a.shape.length = rs.length)
    (hpos : ∀ n ∈ a.shape, 0 < n) (hr : ∀ r ∈ rs, 1 ≤ r) (hfl : ∀ r ∈ rs, UpOk fl r) :
    ∃ b, resample fl gf a (some (List.zipWith (· * ·) a.shape rs)) false none = .ok b ∧
      b.shape = List.zipWith (· * ·) a.shape rs ∧
      ∀ idx, idx.length = a.shape.length → b.entry idx = a.entry (List.zipWith (· / ·) idx rs) := by
  unfold resample
  rw [Option.getD_some, ratios_up fl a.shape rs hl hpos hfl]
  obtain ⟨h1, h2⟩ := prod_up rs hr
  have hmap : (rs.map (fun r : ℕ => (r : ℚ))).map trunc = rs := by
    rw [List.map_map]
    conv_rhs => rw [← List.map_id rs]
    exact List.map_congr_left fun r _ => trunc_nat r
  by_cases hgt : (rs.map (fun r : ℕ => (r : ℚ))).prod > 1
  · rw [if_pos hgt]
    refine ⟨_, rfl, ?_, ?_⟩
    · have := upLoop_shape a 0 (rs.map (fun r : ℕ => (r : ℚ))) [] a.shape rfl rfl (by simpa using hl)
      rw [hmap] at this
      simpa [smoothUp] using this
    · intro idx hidx
      have := upLoop_entry a 0 (rs.map (fun r : ℕ => (r : ℚ))) [] idx rfl (by rw [hidx, hl]; simp)
      rw [hmap] at this
      simpa [smoothUp] using this
  · have hone := h2 (not_lt.mp hgt)
    rw [if_neg hgt, if_neg (not_lt.mpr h1)]
    refine ⟨a, rfl, ?_, ?_⟩
    · rw [zipWith_one_mul _ _ hl hone]
    · intro idx hidx
      rw [zipWith_one_div _ _ (by rw [hidx, hl]) hone]

theorem winPos_block (ts rs idx t : List ℕ) (hidx : At ts idx) (hl : ts.length = rs.length) (ht : At rs t) :
    winPos (List.zipWith (· * ·) ts rs) (List.zipWith (· * ·) idx rs) t = inBlock idx rs t := by
  induction hidx generalizing rs t with
  | nil => cases ht <;> simp [winPos, inBlock]
  | @cons i n is ts hin hidx ih =>
    cases ht with
    | nil => simp at hl
    | @cons t r tl rs htr ht =>
      simp only [List.zipWith_cons_cons, winPos, inBlock]
      rw [ih rs tl (by simpa using hl) ht]
      have : i * r + t < n * r := by
        calc i * r + t < i * r + r := by omega
          _ = (i + 1) * r := by ring
          _ ≤ n * r := Nat.mul_le_mul_right _ hin
      have h2 := refl_of_lt this
      push_cast at h2 ⊢
      rw [h2]

theorem at_mul (ts rs idx : List ℕ) (hidx : At ts idx) (hl : ts.length = rs.length) (hr : ∀ r ∈ rs, 1 ≤ r) :
    At (List.zipWith (· * ·) ts rs) (List.zipWith (· * ·) idx rs) := by
  induction hidx generalizing rs with
  | nil => cases rs with
    | nil => exact .nil
    | cons _ _ => simp at hl
  | @cons i n is ts hin hidx ih => cases rs with
    | nil => simp at hl
    | cons r rs =>
      have := hr r (by simp)
      exact .cons (Nat.mul_lt_mul_of_pos_right hin (by omega)) (ih rs (by simpa using hl) (fun x hx => hr x (by simp [hx])))

theorem at_length {shape idx : List ℕ} (h : At shape idx) : idx.length = shape.length := List.Forall₂.length_eq h

theorem inBlock_ones (rs idx : List ℕ) (hl : idx.length = rs.length) (h : ∀ r ∈ rs, r = 1) (t : List ℕ) (ht : At rs t) :
    inBlock idx rs t = idx := by
  induction ht generalizing idx with
  | nil =>
    have : idx = [] := by simpa using hl
    subst this; rfl
  | @cons t r tl rs htr ht ih => cases idx with
    | nil => simp at hl
    | cons i idx =>
      have : r = 1 := h r (by simp)
      subst this
      have : t = 0 := by omega
      subst this
      simp only [inBlock]
      rw [ih idx (by simpa using hl) (fun x hx => h x (by simp [hx]))]; simp

theorem prod_ones (rs : List ℕ) (h : ∀ r ∈ rs, r = 1) : rs.prod = 1 := List.prod_eq_one h

/-- **C40** reducing each axis by a whole factor returns the requested shape, every entry being the exact mean of its
block, provided rounding of the ratios is harmless (`DownOk`, always true in exact arithmetic) -/
theorem C40_down_partial (fl : ℚ → ℚ) (gf : List ℚ → Arr ℝ → Arr ℝ) (a : Arr ℝ) (ts rs : List ℕ) (hl : ts.length = rs.length)
    (hshape : a.shape = List.zipWith (· * ·) ts rs)
    (hpos : ∀ n ∈ ts, 0 < n) (hr : ∀ r ∈ rs, 1 ≤ r) (hfl : ∀ r ∈ rs, DownOk fl r) (gauss : Bool) :
    ∃ b, resample fl gf a (some ts) gauss none = .ok b ∧ b.shape = ts ∧
      ∀ idx, At ts idx → b.entry idx = blockMean a.entry rs idx := by
  unfold resample
  rw [Option.getD_some, hshape, ratios_down fl ts rs hl hpos]
  obtain ⟨h0, h1, h2⟩ := prod_down fl rs hfl
  rw [if_neg (not_lt.mpr h1)]
  have hinv : invs fl (rs.map (fun r : ℕ => fl (1 / (r : ℚ)))) = rs := by
    unfold invs
    rw [List.map_map]
    conv_rhs => rw [← List.map_id rs]
    exact List.map_congr_left fun r hr => (hfl r hr).2.2
  by_cases hlt : (rs.map (fun r : ℕ => fl (1 / (r : ℚ)))).prod < 1
  · rw [if_pos hlt, hinv]
    obtain ⟨b, hb1, hb2, hb3⟩ := strideLoop_ok (uniLoop a 0 rs) 0 rs hr [] ts (by rw [uniLoop_shape, hshape]; rfl) rfl hl
    refine ⟨b, hb1, hb2, ?_⟩
    intro idx hidx
    have hlen : idx.length = rs.length := by rw [at_length hidx, hl]
    have := hb3 [] idx rfl hlen
    simp only [List.nil_append] at this
    rw [this]
    have h4 := uniLoop_entry a 0 rs hr [] a.shape [] (List.zipWith (· * ·) idx rs) rfl rfl rfl
      (by simp [hlen]) (by rw [hshape]; exact at_mul ts rs idx hidx hl hr)
    simp only [List.nil_append] at h4
    rw [h4]
    unfold blockMean
    congr 1
    refine total_congr _ _ _ fun t ht => ?_
    rw [hshape, winPos_block ts rs idx t hidx hl ht]
  · rw [if_neg hlt]
    have hone := h2 (not_lt.mp hlt)
    refine ⟨a, rfl, by rw [hshape, zipWith_one_mul _ _ hl hone], ?_⟩
    intro idx hidx
    have hlen : idx.length = rs.length := by rw [at_length hidx, hl]
    unfold blockMean
    rw [total_congr rs _ (fun _ => a.entry idx) (fun t ht => by rw [inBlock_ones rs idx hlen hone t ht]),
      total_const, prod_ones rs hone]
    simp

theorem zipWith_div_inBlock (idx rs t : List ℕ) (hl : idx.length = rs.length) (ht : At rs t) :
    List.zipWith (· / ·) (inBlock idx rs t) rs = idx := by
  induction ht generalizing idx with
  | nil =>
    have : idx = [] := by simpa using hl
    subst this; rfl
  | @cons t r tl rs htr ht ih => cases idx with
    | nil => simp at hl
    | cons i idx =>
      simp only [inBlock, List.zipWith_cons_cons]
      rw [ih idx (by simpa using hl), Nat.mul_comm, Nat.mul_add_div (by omega), Nat.div_eq_of_lt htr]; rfl

theorem inBlock_length (idx rs t : List ℕ) (hl : idx.length = rs.length) (ht : t.length = rs.length) :
    (inBlock idx rs t).length = rs.length := by
  induction rs generalizing idx t with
  | nil => cases idx <;> cases t <;> simp_all [inBlock]
  | cons r rs ih =>
    cases idx with
    | nil => simp at hl
    | cons i idx => cases t with
      | nil => simp at ht
      | cons t tl => simp only [inBlock, List.length_cons]; rw [ih idx tl (by simpa using hl) (by simpa using ht)]

/-- **C40** enlarging keeps the mean -/
theorem C40_up_mean (fl : ℚ → ℚ) (gf : List ℚ → Arr ℝ → Arr ℝ) (a : Arr ℝ) (rs : List ℕ) (hl : a.shape.length = rs.length)
    (hpos : ∀ n ∈ a.shape, 0 < n) (hr : ∀ r ∈ rs, 1 ≤ r) (hfl : ∀ r ∈ rs, UpOk fl r) :
    ∃ b, resample fl gf a (some (List.zipWith (· * ·) a.shape rs)) false none = .ok b ∧ mean b = mean a := by
  obtain ⟨b, h1, h2, h3⟩ := C40_up fl gf a rs hl hpos hr hfl
  refine ⟨b, h1, ?_⟩
  unfold mean
  rw [h2, total_blocks _ _ hl, prod_zipWith _ _ hl]
  have : total a.shape (fun idx => total rs (fun t => b.entry (inBlock idx rs t))) =
      total a.shape (fun idx => a.entry idx / (1 / (rs.prod : ℝ))) := by
    refine total_congr _ _ _ fun idx hidx => ?_
    have hlen : idx.length = rs.length := by rw [at_length hidx, hl]
    rw [total_congr rs _ (fun _ => a.entry idx), total_const]
    · simp; ring
    · intro t ht
      rw [h3 _ (by rw [inBlock_length idx rs t hlen (at_length ht), hl]), zipWith_div_inBlock idx rs t hlen ht]
  rw [this, total_div]
  have hp : (rs.prod : ℝ) ≠ 0 := by
    have : rs.prod ≠ 0 := fun h0 => by have := hr 0 (List.prod_eq_zero_iff.mp h0); omega
    exact_mod_cast this
  rw [Nat.cast_mul]
  field_simp

/-- **C40** reducing keeps the mean -/
theorem C40_down_mean_partial (fl : ℚ → ℚ) (gf : List ℚ → Arr ℝ → Arr ℝ) (a : Arr ℝ) (ts rs : List ℕ)
    (hl : ts.length = rs.length) (hshape : a.shape = List.zipWith (· * ·) ts rs)
    (hpos : ∀ n ∈ ts, 0 < n) (hr : ∀ r ∈ rs, 1 ≤ r) (hfl : ∀ r ∈ rs, DownOk fl r) (gauss : Bool) :
    ∃ b, resample fl gf a (some ts) gauss none = .ok b ∧ mean b = mean a := by
  obtain ⟨b, h1, h2, h3⟩ := C40_down_partial fl gf a ts rs hl hshape hpos hr hfl gauss
  refine ⟨b, h1, ?_⟩
  unfold mean
  rw [h2, hshape, total_blocks _ _ hl, prod_zipWith _ _ hl, total_congr _ _ _ h3]
  unfold blockMean
  rw [total_div, div_div]
  push_cast
  rw [mul_comm]

/-- **C40** reducing after enlarging gives the original array back -/
theorem C40_undo_partial (fl : ℚ → ℚ) (gf : List ℚ → Arr ℝ → Arr ℝ) (a : Arr ℝ) (rs : List ℕ) (hl : a.shape.length = rs.length)
    (hpos : ∀ n ∈ a.shape, 0 < n) (hr : ∀ r ∈ rs, 1 ≤ r) (hfl : ∀ r ∈ rs, UpOk fl r) (hfl' : ∀ r ∈ rs, DownOk fl r)
    (gauss : Bool) :
    ∃ b c, resample fl gf a (some (List.zipWith (· * ·) a.shape rs)) false none = .ok b ∧
      resample fl gf b (some a.shape) gauss none = .ok c ∧ c.shape = a.shape ∧
      ∀ idx, At a.shape idx → c.entry idx = a.entry idx := by
  obtain ⟨b, h1, h2, h3⟩ := C40_up fl gf a rs hl hpos hr hfl
  obtain ⟨c, h4, h5, h6⟩ := C40_down_partial fl gf b a.shape rs hl h2 hpos hr hfl' gauss
  refine ⟨b, c, h1, h4, h5, fun idx hidx => ?_⟩
  have hlen : idx.length = rs.length := by rw [at_length hidx, hl]
  rw [h6 idx hidx]
  unfold blockMean
  rw [total_congr rs _ (fun _ => a.entry idx), total_const]
  · have hp : (rs.prod : ℝ) ≠ 0 := by
      have : rs.prod ≠ 0 := fun h0 => by have := hr 0 (List.prod_eq_zero_iff.mp h0); omega
      exact_mod_cast this
    field_simp
  · intro t ht
    rw [h3 _ (by rw [inBlock_length idx rs t hlen (at_length ht), hl]), zipWith_div_inBlock idx rs t hlen ht]

/-! ### rounding -/

theorem upOk_id (r : ℕ) : UpOk id r := rfl

theorem downOk_id (r : ℕ) (hr : 1 ≤ r) : DownOk id r := by
  have h0 : (0 : ℚ) < r := by exact_mod_cast hr
  refine ⟨by simp only [id]; positivity, ?_, ?_⟩
  · split
    · rename_i h; subst h; simp
    · have h2 : (1 : ℚ) < r := by
        have : 1 < r := by omega
        exact_mod_cast this
      simp only [id]
      rw [div_lt_one h0]; exact h2
  · simp only [id, one_div_one_div]; exact trunc_nat r

/-- doubles represent powers of two exactly -/
theorem fl64_zpow (k : ℤ) : fl64 ((2 : ℚ) ^ k) = 2 ^ k := by
  unfold fl64
  rw [show ((2 : ℚ) ^ k) = ((2 : ℕ) : ℚ) ^ k by norm_num, Int.log_zpow (by norm_num) k]
  push_cast
  rw [← zpow_sub₀ (by norm_num : (2 : ℚ) ≠ 0)]
  rw [show k - (k - 52) = 52 by ring]
  rw [show ((2 : ℚ) ^ (52 : ℤ)) = ((2 ^ 52 : ℤ) : ℚ) by norm_num]
  rw [round_intCast]
  rw [show (((2 ^ 52 : ℤ)) : ℚ) = (2 : ℚ) ^ (52 : ℤ) by norm_num, ← zpow_add₀ (by norm_num : (2 : ℚ) ≠ 0)]
  congr 1; ring

/-- whole factors below `2^53` are exact doubles, so enlarging is exact in double arithmetic -/
theorem upOk_fl64 (r : ℕ) (h0 : 0 < r) (h : r < 2 ^ 53) : UpOk fl64 r := by
  unfold UpOk fl64
  have hlog : Int.log 2 (r : ℚ) ≤ 52 := by
    rw [← Int.lt_add_one_iff]
    exact (Int.lt_zpow_iff_log_lt (by norm_num) (by exact_mod_cast h0)).mp (by
      have : (r : ℚ) < 2 ^ 53 := by exact_mod_cast h
      norm_num at this ⊢; exact this)
  obtain ⟨m, hm⟩ : ∃ m : ℕ, Int.log 2 (r : ℚ) - 52 = -(m : ℤ) := ⟨(52 - Int.log 2 (r : ℚ)).toNat, by omega⟩
  rw [hm, zpow_neg, div_inv_eq_mul, zpow_natCast]
  rw [show (r : ℚ) * 2 ^ m = ((r * 2 ^ m : ℤ) : ℚ) by push_cast; ring, round_intCast]
  push_cast
  field_simp

/-- powers of two also reduce exactly in double arithmetic -/
theorem downOk_fl64_pow (k : ℕ) : DownOk fl64 (2 ^ k) := by
  have h1 : (1 / ((2 ^ k : ℕ) : ℚ)) = 2 ^ (-(k : ℤ)) := by rw [zpow_neg]; push_cast; simp
  have h2 : (1 / (2 : ℚ) ^ (-(k : ℤ))) = 2 ^ (k : ℤ) := by rw [zpow_neg]; simp
  unfold DownOk
  rw [h1, fl64_zpow, h2, fl64_zpow]
  refine ⟨zpow_pos (by norm_num) _, ?_, ?_⟩
  · split
    · rename_i h
      have : k = 0 := by
        by_contra hk
        have := Nat.one_lt_two_pow hk
        omega
      subst this; simp
    · rename_i h
      rw [zpow_neg, zpow_natCast]
      apply inv_lt_one_of_one_lt₀
      apply one_lt_pow₀ (by norm_num)
      rintro rfl; simp at h
  · have : (2 : ℚ) ^ (k : ℤ) = ((2 ^ k : ℕ) : ℚ) := by push_cast; simp
    rw [this, trunc_nat]

/-- The claim for double arithmetic: an array reduced by a whole factor gets the requested shape. -/
def C40_statement : Prop :=
  ∀ (gf : List ℚ → Arr ℝ → Arr ℝ) (a : Arr ℝ) (ts rs : List ℕ), ts.length = rs.length →
    a.shape = List.zipWith (· * ·) ts rs → (∀ n ∈ ts, 0 < n) → (∀ r ∈ rs, 1 ≤ r) →
    ∃ b, resample fl64 gf a (some ts) false none = .ok b ∧ b.shape = ts

theorem C40_fl64_93 : fl64 (1 / fl64 (1 / 93)) = 93 - 1 / 2 ^ 46 := by
  decide +kernel

/-- **C40** fails in double arithmetic: `1/(1/93)` is below 93, so 93 entries reduced to one give two. -/
theorem C40_refuted : ¬ C40_statement := by
  intro h
  obtain ⟨b, h1, h2⟩ := h (fun _ a => a) ⟨[93], fun _ => 0⟩ [1] [93] rfl rfl (by simp) (by simp)
  have hr : ratios fl64 [1] [93] = [fl64 (1 / 93)] := by simp [ratios]
  have hlt : fl64 (1 / 93) < 1 := by decide +kernel
  have ht : trunc (fl64 (1 / fl64 (1 / 93))) = 92 := by decide +kernel
  unfold resample at h1
  simp only [Option.getD_some, hr, List.prod_cons, List.prod_nil, mul_one] at h1
  rw [if_neg (not_lt.mpr hlt.le), if_pos hlt] at h1
  simp only [invs, List.map_cons, List.map_nil, ht, strideLoop] at h1
  rw [if_neg (by norm_num)] at h1
  simp only [Except.ok.injEq] at h1
  subst h1
  simp [strideAx, uniLoop_shape] at h2

/-- a 2 × 3 array enlarged by (2, 4) and reduced again satisfies the hypotheses of `C40_undo_partial`, also in doubles -/
example : (⟨[2, 3], fun i => (i.headD 0 : ℝ)⟩ : Arr ℝ).shape.length = [2, 4].length ∧
    (∀ n ∈ [2, 3], 0 < n) ∧ (∀ r ∈ [2, 4], 1 ≤ r) ∧ (∀ r ∈ [2, 4], UpOk fl64 r) ∧ (∀ r ∈ [2, 4], DownOk fl64 r) := by
  refine ⟨rfl, by simp, by simp, ?_, ?_⟩
  · intro r hr; simp at hr; rcases hr with rfl | rfl <;> exact upOk_fl64 _ (by norm_num) (by norm_num)
  · intro r hr; simp at hr
    rcases hr with rfl | rfl
    · exact downOk_fl64_pow 1
    · exact downOk_fl64_pow 2

end Verif.Resamp
